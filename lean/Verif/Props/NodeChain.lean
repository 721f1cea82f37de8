import Verif.Props.RoundTrip
import Verif.Spec.NodeChain
import Verif.Lemmas.KernelRfl

/-! # The chain builder (C61) -/

namespace Verif.Props
open Verif NodeChain Parse
open Verif.Spec
open Verif.Spec.Builder

variable {numeric : Name → Bool}

theorem gap_space : Gap [' '] := ⟨by simp, by intro c hc; rw [List.mem_singleton.mp hc]; exact .inl rfl⟩

theorem wsign_js {n : Bool} {s : Name} (h : s = (if n then ['-'] else [])) : WSign n s := by
  subst h
  cases n
  · exact .none
  · exact .minus

theorem js_num {x : Fl} {v : Val} (h : JsNum x v) : WNum x v.text := by
  cases h with
  | int hs ht => exact .int (.mk (wsign_js hs) ht)
  | dec hs hi hf => exact .dec (wsign_js hs) hi hf.2

theorem digit_ne_N {c : Char} (h : Digit c) : c ≠ 'N' := by
  rintro rfl
  exact absurd h.2 (by decide)

theorem signed_ne_NaN {n : Bool} {s t u : Name} (hs : s = (if n then ['-'] else [])) (ht : Digits t) : s ++ (t ++ u) ≠ c!"NaN" := by
  obtain ⟨h1, h2⟩ := ht
  cases t with
  | nil => exact absurd rfl h1
  | cons c t =>
    have := digit_ne_N (h2 c (by simp))
    subst hs
    cases n <;> simp [this]

theorem js_notNaN {x : Fl} {v : Val} (h : JsNum x v) : notNaN numeric v = true := by
  cases h with
  | int hs ht => simpa [notNaN] using signed_ne_NaN (u := []) hs ht
  | dec hs hi hf => simpa [notNaN] using signed_ne_NaN hs hi

theorem js_arg {x : NumRef} {v : Val} (h : JsArg x v) : WArg x v.text ∧ (notNaN numeric v || isRef v) = true := by
  cases h with
  | num h => exact ⟨.num (js_num h), by rw [js_notNaN h]; rfl⟩
  | ref h =>
    cases h with
    | mk h => exact ⟨.ref (.ref (.mk (.inl rfl) h)), by simp [isRef, Val.text]⟩

theorem leadingDigits_append {t u : Name} (h : ∀ c ∈ t, Digit c) (hu : u = [] ∨ ∃ f, u = '.' :: f) : leadingDigits (t ++ u) = t := by
  induction t with
  | nil => rcases hu with rfl | ⟨f, rfl⟩ <;> rfl
  | cons c t ih =>
    have hc : '0' ≤ c ∧ c ≤ '9' := h c (by simp)
    rw [List.cons_append, leadingDigits, if_pos hc, ih (fun x hx => h x (by simp [hx]))]

theorem dropZeros_digits : ∀ {t : Name}, Digits t → Digits (dropZeros t) ∧ decimal (dropZeros t) = decimal t := by
  intro t
  fun_induction dropZeros t with
  | case1 c t ih =>
    intro h
    obtain ⟨h1, h2⟩ := ih ⟨by simp, fun x hx => h.2 x (List.mem_cons_of_mem _ hx)⟩
    exact ⟨h1, h2.trans rfl⟩
  | case2 t h => intro h; exact ⟨h, rfl⟩

theorem parseInt_whole {t u : Name} (h : Digits t) (hu : u = [] ∨ ∃ f, u = '.' :: f) :
    parseInt (t ++ u) = dropZeros t := by
  obtain ⟨h1, h2⟩ := h
  have hl := leadingDigits_append h2 hu
  unfold parseInt
  split
  · rename_i t' e
    cases t with
    | nil => exact absurd rfl h1
    | cons c t =>
      cases e
      exact absurd (h2 '-' (by simp)) (by intro h; exact absurd h.1 (by decide))
  · rename_i t' e
    cases t with
    | nil => exact absurd rfl h1
    | cons c t =>
      cases e
      exact absurd (h2 '+' (by simp)) (by intro h; exact absurd h.1 (by decide))
  · rw [hl, if_neg h1]

theorem js_whole {n : Nat} {v : Val} (h : JsWhole n v) : WNat n (parseInt v.text) ∧ notNaN numeric v = true := by
  cases h with
  | @int t ht =>
    obtain ⟨h1, h2⟩ := dropZeros_digits ht
    have := parseInt_whole (u := []) ht (.inl rfl)
    rw [List.append_nil] at this
    refine ⟨?_, by simpa [notNaN] using signed_ne_NaN (n := false) (u := []) rfl ht⟩
    rw [Val.text, this, ← h2]
    exact .plain h1
  | @dec i f hi hf =>
    obtain ⟨h1, h2⟩ := dropZeros_digits hi
    refine ⟨?_, by simpa [notNaN] using signed_ne_NaN (n := false) rfl hi⟩
    rw [Val.text, parseInt_whole hi (.inr ⟨f, rfl⟩), ← h2]
    exact .plain h1

theorem starts_writes (fe : Name → Option Fl) {c : Comp} {h : Head} (hs : Starts c h) (hp : ∀ s v, h ≠ .psynth s v) :
    ∃ t, start numeric h = some t ∧ Writes fe c t := by
  cases hs with
  | sin hx => exact ⟨_, by rw [start, if_pos (js_arg hx).2]; rfl, .arg (kw := c!"sin") (g := [' ']) (f := .sin) (by simp [argKinds]) gap_space (js_arg (numeric := numeric) hx).1⟩
  | saw hx => exact ⟨_, by rw [start, if_pos (js_arg hx).2]; rfl, .arg (kw := c!"saw") (g := [' ']) (f := .saw) (by simp [argKinds]) gap_space (js_arg (numeric := numeric) hx).1⟩
  | tri hx => exact ⟨_, by rw [start, if_pos (js_arg hx).2]; rfl, .arg (kw := c!"tri") (g := [' ']) (f := .tri) (by simp [argKinds]) gap_space (js_arg (numeric := numeric) hx).1⟩
  | squ hx => exact ⟨_, by rw [start, if_pos (js_arg hx).2]; rfl, .arg (kw := c!"squ") (g := [' ']) (f := .squ) (by simp [argKinds]) gap_space (js_arg (numeric := numeric) hx).1⟩
  | imp hx => exact ⟨_, by rw [start, if_pos (js_notNaN hx)]; rfl, .num (kw := c!"imp") (g := [' ']) (f := fun v => .imp (.num v)) (by simp [numKinds]) gap_space (js_num hx)⟩
  | noise ht hl =>
    refine ⟨_, ?_, .noise (kw := c!"noise") (g := [' ']) (by simp) gap_space (.plain ht) hl⟩
    rw [start, if_pos (by simpa [notNaN] using signed_ne_NaN (n := false) (u := []) rfl ht)]
    rfl
  | speed hx => exact ⟨_, by rw [start, if_pos (js_notNaN hx)]; rfl, .num (kw := c!"speed") (g := [' ']) (f := .speed) (by simp [numKinds]) gap_space (js_num hx)⟩
  | seq ht => exact ⟨_, rfl, .seq (g := [' ']) gap_space ht⟩
  | psampler ht => exact ⟨_, rfl, .psampler (g := [' ']) gap_space ht⟩
  | sig hx => exact ⟨_, rfl, .num (kw := c!"constsig") (g := [' ']) (f := .constsig) (by simp [numKinds]) gap_space (js_num hx)⟩
  | mix ht => exact ⟨_, rfl, .mix (g := [' ']) gap_space ht⟩
  | psynth => exact absurd rfl (hp _ _)

theorem adds_writes (fe : Name → Option Fl) {c : Comp} {a : Call} (h : Adds c a) :
    ∃ t, added numeric a = c!" >> " ++ t ∧ Writes fe c t := by
  cases h with
  | mul hx => exact ⟨_, by rw [added, if_pos (js_arg hx).2]; rfl, .arg (kw := c!"mul") (g := [' ']) (f := .mul) (by simp [argKinds]) gap_space (js_arg (numeric := numeric) hx).1⟩
  | add hx => exact ⟨_, by rw [added, if_pos (js_arg hx).2]; rfl, .arg (kw := c!"add") (g := [' ']) (f := .add) (by simp [argKinds]) gap_space (js_arg (numeric := numeric) hx).1⟩
  | delayms hx => exact ⟨_, by rw [added, if_pos (js_arg hx).2]; rfl, .arg (kw := c!"delayms") (g := [' ']) (f := .delayms) (by simp [argKinds]) gap_space (js_arg (numeric := numeric) hx).1⟩
  | delayn hx hl => exact ⟨_, by rw [added, if_pos (js_whole hx).2]; rfl, .delayn (g := [' ']) gap_space (js_whole (numeric := numeric) hx).1 hl⟩
  | lpfNum hx hq => exact ⟨_, rfl, .argNum (kw := c!"lpf") (g := [' ']) (g' := [' '])
      (.tail _ (.tail _ (.tail _ (.tail _ (.head _))))) gap_space
      (.num (js_num hx)) gap_space (js_num hq)⟩
  | lpfRef hx hq => exact ⟨_, rfl, .argNum (kw := c!"lpf") (g := [' ']) (g' := [' '])
      (.tail _ (.tail _ (.tail _ (.tail _ (.head _))))) gap_space
      (js_arg (numeric := numeric) (.ref hx)).1 gap_space (js_num hq)⟩
  | hpf hx hq => exact ⟨_, by rw [added, if_pos (by rw [(js_arg hx).2, js_notNaN hq]; rfl)]; rfl, .argNum (kw := c!"hpf") (g := [' ']) (g' := [' '])
      (f := .rhpf) (by simp [argNumKinds]) gap_space (js_arg (numeric := numeric) hx).1 gap_space (js_num hq)⟩
  | plate hx => exact ⟨_, by rw [added, if_pos (js_notNaN hx)]; rfl, .num (kw := c!"plate") (g := [' ']) (f := .plate) (by simp [numKinds]) gap_space (js_num hx)⟩
  | bd hx => exact ⟨_, by rw [added, if_pos (js_notNaN hx)]; rfl, .num (kw := c!"bd") (g := [' ']) (f := fun v => .bd (.num v)) (by simp [numKinds]) gap_space (js_num hx)⟩
  | sn hx => exact ⟨_, by rw [added, if_pos (js_notNaN hx)]; rfl, .num (kw := c!"sn") (g := [' ']) (f := fun v => .sn (.num v)) (by simp [numKinds]) gap_space (js_num hx)⟩
  | hh hx => exact ⟨_, by rw [added, if_pos (js_notNaN hx)]; rfl, .num (kw := c!"hh") (g := [' ']) (f := fun v => .hh (.num v)) (by simp [numKinds]) gap_space (js_num hx)⟩
  | sawsynth hx hy => exact ⟨_, by rw [added, if_pos (by rw [js_notNaN hx, js_notNaN hy]; rfl)]; rfl, .two (kw := c!"sawsynth") (g := [' ']) (g' := [' ']) (f := .sawsynth) (by simp [twoKinds]) gap_space (js_num hx) gap_space (js_num hy)⟩
  | squsynth hx hy => exact ⟨_, by rw [added, if_pos (by rw [js_notNaN hx, js_notNaN hy]; rfl)]; rfl, .two (kw := c!"squsynth") (g := [' ']) (g' := [' ']) (f := .squsynth) (by simp [twoKinds]) gap_space (js_num hx) gap_space (js_num hy)⟩
  | trisynth hx hy => exact ⟨_, by rw [added, if_pos (by rw [js_notNaN hx, js_notNaN hy]; rfl)]; rfl, .two (kw := c!"trisynth") (g := [' ']) (g' := [' ']) (f := .trisynth) (by simp [twoKinds]) gap_space (js_num hx) gap_space (js_num hy)⟩
  | seq ht => exact ⟨_, rfl, .seq (g := [' ']) gap_space ht⟩
  | adsr ha hd hs hr => exact ⟨_, rfl, .adsr (g₁ := [' ']) (g₂ := [' ']) (g₃ := [' ']) (g₄ := [' ']) gap_space (js_num ha) gap_space (js_num hd)
      gap_space (js_num hs) gap_space (js_num hr)⟩
  | sp ht hc => exact ⟨_, rfl, .sp (kw := c!"sp") (g := [' ']) (by simp) gap_space (.slash ht hc)⟩
  | envperc hx hy => exact ⟨_, rfl, .two (kw := c!"envperc") (g := [' ']) (g' := [' ']) (f := .envperc) (by simp [twoKinds]) gap_space (js_num hx) gap_space (js_num hy)⟩

theorem chain_writes (fe : Name → Option Fl) : ∀ {cs : List Comp} {l : List Call}, List.Forall₂ Adds cs l → ∀ {c : Comp} {t : Name},
    Writes fe c t → WChain fe (c :: cs) (t ++ l.flatMap (added numeric))
  | _, _, .nil, c, t, h => by simpa using WChain.one h
  | _, _, .cons ha hl, c, t, h => by
    obtain ⟨u, h1, h2⟩ := adds_writes (numeric := numeric) fe ha
    have := WChain.cons (j := [' ']) (d := [' ']) h (.blank (a := [' ']) (n := []) (b := []) gap_space.2 (.inl rfl) (by intro c hc; cases hc))
      gap_space.2 (chain_writes fe hl h2)
    rw [List.flatMap_cons, h1]
    simpa using this

theorem play_writes (fe : Name → Option Fl) : ∀ {p : List (Name × List Comp)} {obj : List (Name × Head × List Call)}, Meant p obj →
    NoPsynth obj → ∃ t, play numeric obj = some t ∧ (p = [] ∧ t = [] ∨ WBody fe p t)
  | _, _, .nil, _ => ⟨[], rfl, .inl ⟨rfl, rfl⟩⟩
  | _, _, .cons (k := k) (h := h) (l := l) (obj := obj) hk hs hl hm, hp => by
    obtain ⟨t, h1, h2⟩ := starts_writes (numeric := numeric) fe hs (hp _ List.mem_cons_self)
    obtain ⟨u, h3, h4⟩ := play_writes fe hm (fun x hx => hp x (List.mem_cons_of_mem _ hx))
    have hline := WLine.mk (a := []) (b := [' ']) hk (by intro c hc; cases hc) gap_space.2 (chain_writes (numeric := numeric) fe hl h2)
    have hsep : WSep c!";\n\n" := .semi (a := []) (b := []) (by intro c hc; cases hc) (by intro c hc; cases hc)
      (.cons (a := []) (by intro c hc; cases hc) (.cons (a := []) (by intro c hc; cases hc) .nil))
    refine ⟨_, by simp only [NodeChain.play, code, h1, h3]; rfl, .inr ?_⟩
    rcases h4 with ⟨rfl, rfl⟩ | h4
    · simpa using WBody.lastSep hline hsep
    · simpa using WBody.cons hline hsep h4

/-- **C61** for all functions but `psynth`: an object of chains, built with numbers that JavaScript writes without an
exponent and with references that begin with `~`, is sent as a text that the parser reads as the program meant. -/
theorem c61_play_partial (fe : Name → Option Fl) {p : List (Name × List Comp)} {obj : List (Name × Head × List Call)}
    (h : Meant p obj) (hp : NoPsynth obj) (hd : (p.map Prod.fst).Nodup) :
    ∃ t, play numeric obj = some t ∧ parse fe t = .ok (some p) := by
  obtain ⟨t, h1, h2⟩ := play_writes (numeric := numeric) fe h hp
  refine ⟨t, h1, c32_written_programs_parse_partial fe ?_ hd⟩
  rcases h2 with ⟨rfl, rfl⟩ | h2
  · exact .empty (w := []) (s := []) (by intro c hc; cases hc) .nil
  · exact .body (w := []) (s := []) (by intro c hc; cases hc) .nil h2

/-- A reference, a number with a point, a number cut to its whole part, a pattern and a sample. -/
example : Meant [(c!"~a", [.sin (.num (.fin 2)), .mul (.num (Fl.round f32 false (5 / 10 ^ 1)))]),
      (c!"o", [.seq (seqEvents [[.note 60, .rest], [.note 7]]), .sp c!"\\kick", .mul (.ref c!"~a"), .delayn (.nat 12)])]
    [(c!"~a", .sin (.num c!"2"), [.mul (.num c!"0.5")]),
      (c!"o", .seq (.str c!"60_ 7"), [.sp (.str c!"kick"), .mul (.str c!"~a"), .delayn (.num c!"12.7")])] ∧
    NoPsynth [(c!"~a", .sin (.num c!"2"), [.mul (.num c!"0.5")]),
      (c!"o", .seq (.str c!"60_ 7"), [.sp (.str c!"kick"), .mul (.str c!"~a"), .delayn (.num c!"12.7")])] := by
  have d2 : Digits c!"2" := ⟨by simp, by simp [Digit]⟩
  have d0 : Digits c!"0" := ⟨by simp, by simp [Digit]⟩
  have d5 : Digits c!"5" := ⟨by simp, by simp [Digit]⟩
  have d7 : Digits c!"7" := ⟨by simp, by simp [Digit]⟩
  have d12 : Digits c!"12" := ⟨by simp, by simp [Digit]⟩
  have d60 : Digits c!"60" := ⟨by simp, by simp [Digit]⟩
  have ba : WBare c!"a" := .mk (t := []) (d := []) (by decide) (by decide) (by simp) (.inl rfl)
  have bo : WBare c!"o" := .mk (t := []) (d := []) (by decide) (by decide) (by simp) (.inl rfl)
  have n2 : JsNum (.fin 2) (.num c!"2") := by
    have := JsNum.int (n := false) (s := []) rfl d2
    rwa [show Fl.round f32 false (signed false (decimal c!"2")) = .fin 2 by decide +kernel] at this
  refine ⟨.cons (.ref (.mk (.inl rfl) ba)) (.sin (.num n2)) (.cons (.mul (.num ?_)) .nil)
    (.cons (.bare bo) (.seq ?_) (.cons (.sp (by simp) (by simp [SymChar, Digit])) (.cons (.mul (.ref (.mk ba)))
      (.cons (.delayn (.dec d12 d7) (by decide)) .nil))) .nil), ?_⟩
  · exact JsNum.dec (n := false) (s := []) rfl d0 d5
  · have h1 : WGroup [.note 60, .rest] c!"60_" :=
      .note (t := c!"60") (u := ['_']) (.plain d60) (by decide) .lastRest (by simp [Digit])
    exact .cons h1 gap_space (.one (.last (.plain d7) (by decide)))
  · intro x hx s v h
    rcases hx with _ | ⟨_, _ | ⟨_, hx⟩⟩
    · cases h
    · cases h
    · cases hx

/-- **C61 does not hold in full**: `psynth` leaves out the closing backtick, so the text is refused. -/
theorem c61_psynth_counterexample (fe : Name → Option Fl) :
    Meant [(c!"o", [.patternSynth c!"`60@0.0`" (.fin 2)])] [(c!"o", .psynth (.str c!"60@0.0") (.num c!"2"), [])] ∧
    ∃ t, play numeric [(c!"o", .psynth (.str c!"60@0.0") (.num c!"2"), [])] = some t ∧ parse fe t = .ok none := by
  refine ⟨.cons ?_ (.psynth (t := c!"60@0.0") ?_ ?_) .nil .nil, c!"o: p_synth `60@0.0 2;\n\n", by kernel_rfl, by kernel_rfl⟩
  · exact .bare (.mk (t := []) (d := []) (by decide) (by decide) (by simp) (.inl rfl))
  · repeat' first
      | exact WCode.nil
      | refine WCode.char (by decide) (by decide) ?_
  · have := JsNum.int (n := false) (s := []) (t := c!"2") rfl ⟨by simp, by simp [Digit]⟩
    rwa [show Fl.round f32 false (signed false (decimal c!"2")) = .fin 2 by decide +kernel] at this

/-- **C61 does not hold in full**: JavaScript writes `0.0000001` as `1e-7`, which the parser refuses. -/
theorem c61_exponent_counterexample (fe : Name → Option Fl) :
    ∃ t, play numeric [(c!"o", .sin (.num c!"1e-7"), [])] = some t ∧ parse fe t = .ok none :=
  ⟨c!"o: sin 1e-7;\n\n", by kernel_rfl, by kernel_rfl⟩

/-- **C61 does not hold in full**: a reference that begins with an underscore, which the language allows, is dropped
with its component, for JavaScript reads no number in it. -/
theorem c61_underscore_counterexample (fe : Name → Option Fl) (h : numeric c!"_b" = false) :
    (∃ t, play numeric [(c!"o", .sin (.num c!"440"), [.mul (.str c!"_b")])] = some t ∧
      parse fe t = .ok (some [(c!"o", [.sin (.num (.fin 440))])])) ∧
    parse fe c!"o: sin 440 >> mul _b;\n\n" = .ok (some [(c!"o", [.sin (.num (.fin 440)), .mul (.ref c!"_b")])]) := by
  refine ⟨⟨c!"o: sin 440;\n\n", ?_, by kernel_rfl⟩, by kernel_rfl⟩
  have : added numeric (.mul (.str c!"_b")) = [] := by
    simp only [added, notNaN, h]
    rfl
  simp only [NodeChain.play, code, List.flatMap_cons, this]
  rfl

/-- The assumption on `numeric` holds of JavaScript's conversion, which reads a number in no such text. -/
example : ∃ numeric : Name → Bool, numeric c!"_b" = false ∧ numeric c!"440" = true := ⟨fun t => t.all (·.isDigit), by decide, by decide⟩

end Verif.Props
