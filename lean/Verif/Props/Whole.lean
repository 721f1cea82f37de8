import Verif.Props.RoundTrip
import Verif.Props.Unknown
import Verif.Props.Playing
import Verif.Props.SineOf
import Verif.Lemmas.ScriptFirst

/-!
# From the text to the sound (C92)

The statement in full: a program that makes sense, written as a text in any layout, is accepted; after that every block is rendered, and
what is heard is what the text says.
-/

namespace Verif.Props
open Verif.Spec Verif.Spec.Freq Verif.Parse Verif.Double Verif.Part

variable {P : Plat} {N : Nat}

namespace Whole

/-- Building a node reports no error but a missing sample. -/
theorem make_err {samples : List (Name × Sample)} {sr : Nat} {bpm : Fl} {seed : Nat} {c : Comp} {x : EngineError}
    (h : makeNode P N samples sr bpm seed c = .error (.err x)) : ∃ v, x = .nonExistSample v := by
  cases c with
  | sp sym =>
    simp only [makeNode, makePrim] at h
    cases hs : lookup samples sym with
    | none =>
      simp only [hs] at h
      cases h
      exact ⟨_, rfl⟩
    | some s =>
      simp only [hs, bind, Except.bind] at h
      cases hn : Sampler.new s sr <;> simp [hn, liftP] at h
  | psampler e span =>
    cases span with
    | none => cases h
    | some span =>
      simp only [makeNode, makePrim, bind, Except.bind] at h
      cases hs : selectSamples samples e with
      | error y =>
        simp only [hs] at h
        cases h
        induction e with
        | nil => cases hs
        | cons a e ih =>
          obtain ⟨w, t⟩ := a
          rw [select_cons] at hs
          split at hs
          · cases hs
            exact ⟨_, rfl⟩
          · simp only [bind, Except.bind] at hs
            split at hs
            · rename_i y hy
              cases hs
              exact ih hy
            · cases hs
      | ok l => simp [hs] at h
  | points ps span l =>
    simp only [makeNode, makePrim, bind, Except.bind] at h
    cases hn : Points.new ps span l bpm sr <;> simp [hn, liftP] at h
  | patternSynth t span =>
    simp only [makeNode, makePrim, bind, Except.bind] at h
    cases hn : PatternSynth.new t sr <;> simp [hn, liftP] at h
  | apfmsgain d g =>
    simp only [makeNode, makePrim, bind, Except.bind] at h
    cases hn : Apf.new sr (d.value (.fin 0)) g <;> simp [hn, liftP] at h
  | lpf t q => cases t <;> cases h
  | delayn p => cases p <;> cases h
  | _ =>
    exfalso
    simp only [makeNode, makePrim, makeCompound, bind, Except.bind] at h
    repeat' split at h
    all_goals first
      | (simp at h; done)
      | (cases h; rename_i h'; exact liftP_err _ _ h')

theorem safe_clean {parse : Name → Except Panic (Option (Ast Comp))} {script : Bool → Name → Bool → Prop} {e : Engine (glicol P N parse)}
    (h : ReachBy (glicol P N parse) (SafeCall script) e) : CleanReach (glicol P N parse) e := by
  induction h with
  | new N => exact .new N
  | @step e e1 op _ hA happ ih =>
    refine .step op ih ?_ happ
    cases op with
    | update τ code => exact fun p hp => (hA p hp).clean
    | _ => trivial

/-- Blocks with or without an input render. -/
theorem plays {fe : Name → Option Fl} (hN : 1 ≤ N) (hm : ∀ a b, Within (-1) 1 (P.libm.noise a b)) (hsin : SinBounded P.libm)
    {script : Bool → Name → Bool → Prop} {isMeta : P.ext.State → Bool} {T : Bool → P.ext.State → Prop}
    (hT : ScriptsBehave P N script isMeta T) {U : P.ext.State → Prop} (hx : ExtShape P N U) : ∀ (steps : List (HashOrder × List Buf))
    {e : Engine (glicol P N (Parse.parse fe))}, ReachBy _ (SafeCall script) e → e.N = N →
    (∀ s, s ∈ steps → s.2 = [] ∨ (InputReach _ e ∧ ∃ l r : Buf, s.2 = [l, r] ∧ l.length = N ∧ r.length = N)) →
    ∃ e2 outs, Plays e steps e2 outs
  | [], e, _, _, _ => ⟨e, [], .nil e⟩
  | (ho, ins) :: steps, e, hr, he, hin => by
    have hL := glicol_parserWf P N fe
    have h1 : ∃ e1 out, e.nextBlock ho ins = .ok (e1, out) := by
      rcases hin _ List.mem_cons_self with h | ⟨hi, l, r, h, h0, h1⟩
      · have h : ins = [] := h
        subst h
        obtain ⟨e1, out, h, -⟩ := c37_playing_never_panics_partial hL hN hm hsin hT hr he [ho]
        exact ⟨e1, out, h⟩
      · have h : ins = [l, r] := h
        subst h
        exact c37_playing_with_input_partial hL hN hm hsin hT hx hr hi he ho l r h0 h1
    obtain ⟨e1, out, h1⟩ := h1
    have happ : (Op.nextBlock ho ins : Op (glicol P N (Parse.parse fe))).apply e = .ok e1 := by simp only [Op.apply, h1, bind, Except.bind]
    obtain ⟨e2, outs, h2⟩ := plays hN hm hsin hT hx steps (.step (.nextBlock ho ins) hr trivial happ)
      ((apply_N hL (reachBy_reachable hr) happ).trans he) (fun s hs => (hin s (List.mem_cons_of_mem _ hs)).imp id (fun h => ⟨.step (.nextBlock ho ins) h.1 trivial happ, h.2⟩))
    exact ⟨e2, out :: outs, .cons h1 h2⟩

/-- `sin` at a fixed frequency has one channel of f32 numbers. -/
theorem sin_alone (P : Plat) (hm : Libm32 P.libm) {N : Nat} : ∀ (n : Nat) (s : Osc) (out : List Buf), out.length = 1 → (∀ b, b ∈ out → b.length = N) →
    ∃ r, runBlocks (procG P) (.prim (.sin s)) out (noInput n) = .ok r ∧
      ∀ o, o ∈ r → o.length = 1 ∧ (o.headD []).length = N ∧ ∀ v, v ∈ o.headD [] → v.Ok f32
  | 0, _, _, _, _ => ⟨[], rfl, fun o h => by cases h⟩
  | n + 1, s, out, h1, h2 => by
    obtain ⟨b, rfl⟩ := List.length_eq_one_iff.mp h1
    obtain ⟨fr, ph, pr, sr, order⟩ := s
    have hb := h2 b List.mem_cons_self
    obtain ⟨r, g1, g2⟩ := sin_alone P hm n ⟨fr, (run (sinStep P.libm sr) ph (b.map fun _ => fr)).1, pr, sr, order⟩
      [(run (sinStep P.libm sr) ph (b.map fun _ => fr)).2] rfl (by
        intro x hx
        rw [List.mem_singleton.mp hx, run_length, List.length_map, hb])
    refine ⟨[(run (sinStep P.libm sr) ph (b.map fun _ => fr)).2] :: r, ?_, ?_⟩
    · have e : procG P (.prim (.sin ⟨fr, ph, pr, sr, order⟩)) [] [b] =
          .ok (.prim (.sin ⟨fr, (run (sinStep P.libm sr) ph (b.map fun _ => fr)).1, pr, sr, order⟩),
            [(run (sinStep P.libm sr) ph (b.map fun _ => fr)).2]) := rfl
      have : noInput (n + 1) = [] :: noInput n := rfl
      simp only [this, runBlocks, e, g1]
    · intro o ho
      rcases List.mem_cons.mp ho with rfl | h
      · refine ⟨rfl, by rw [List.headD_cons, run_length, List.length_map, hb], ?_⟩
        exact (run_all (I := fun _ => True) (J := fun _ => True) (sinStep P.libm sr) (fun s x _ _ => ⟨trivial, hm.sin _⟩) ph trivial _ (fun _ _ => trivial)).2
      · exact g2 o h

end Whole

variable {fe : Name → Option Fl} {U : P.ext.State → Prop} {e0 : Engine (glicol P N (Parse.parse fe))}

/-- `update_with_code` does not panic on a program whose components can all be built. -/
theorem Whole.update_total {script : Bool → Name → Bool → Prop} (hr : ReachBy _ (SafeCall script) e0) (τ : TableOrder) {p : Ast Comp} {t : Name}
    (hparse : Parse.parse fe t = .ok (some p)) (hs : SafeProg script e0 p)
    {accepts : Bool → Name → Prop} (hacc : ∀ m code, accepts m code → ∃ s, P.ext.new m code e0.sr = .ok s)
    (hbuild : ∀ k comps c, (k, comps) ∈ p → c ∈ comps → Buildable accepts e0.sr c) :
    ∃ e1 r, e0.updateWithCode τ t = .ok (e1, r) := by
  refine c05_update_does_not_panic_partial (glicol_parserWf P N fe) (glicol_eqLaws P N _) (glicol_wiringTotal) (Whole.safe_clean hr) τ t (some p) hparse
    (by rintro new ⟨⟩; exact hs.clean) ?_
  rintro new k comps c q ⟨⟩ h1 h2
  refine makeNode_panic (hbuild k comps c h1 h2) (fun n s h => ?_) hacc
  obtain ⟨a1, a2, -⟩ := (hs.samples n s h).1
  exact ⟨by omega, a1⟩

/-- What `update_with_code` answers to a program whose components can all be built. -/
theorem Whole.answered {script : Bool → Name → Bool → Prop} (hr : ReachBy _ (SafeCall script) e0) (τ : TableOrder) {p : Ast Comp} {t : Name}
    (hparse : Parse.parse fe t = .ok (some p)) (hs : SafeProg script e0 p)
    {accepts : Bool → Name → Prop} (hacc : ∀ m code, accepts m code → ∃ s, P.ext.new m code e0.sr = .ok s)
    (hbuild : ∀ k comps c, (k, comps) ∈ p → c ∈ comps → Buildable accepts e0.sr c)
    (hsamples : ∀ s, AsksFor p s → s ∈ e0.samples.map Prod.fst) :
    ∃ e1 r, e0.updateWithCode τ t = .ok (e1, r) ∧ (r = none ↔ ∀ x, progRefs (glicol P N (Parse.parse fe)) p x → Resolves (available e0 p) x) ∧
      (∀ x, r = some x → ∃ n, x = .nonExistReference n ∧ progRefs (glicol P N (Parse.parse fe)) p n ∧ ¬ Resolves (available e0 p) n) := by
  have hL := glicol_parserWf P N fe
  have hcr := Whole.safe_clean hr
  have hpan : ∀ k comps c q, (k, comps) ∈ p → c ∈ comps → makeNode P N e0.samples e0.sr e0.bpm e0.seed c ≠ .error (.panic q) := by
    intro k comps c q h1 h2
    refine makeNode_panic (hbuild k comps c h1 h2) (fun n s h => ?_) hacc
    obtain ⟨a1, a2, -⟩ := (hs.samples n s h).1
    exact ⟨by omega, a1⟩
  obtain ⟨e1, r, hu⟩ := c05_update_does_not_panic_partial hL (glicol_eqLaws P N _) (glicol_wiringTotal) hcr τ t (some p) hparse
    (by rintro new ⟨⟩; exact hs.clean) (by rintro new k comps c q ⟨⟩ h1 h2; exact hpan k comps c q h1 h2)
  have hmake : ∀ k comps c, (k, comps) ∈ p → c ∈ comps → ∃ x, makeNode P N e0.samples e0.sr e0.bpm e0.seed c = .ok x := by
    intro k comps c h1 h2
    cases hmk : makeNode P N e0.samples e0.sr e0.bpm e0.seed c with
    | ok x => exact ⟨x, rfl⟩
    | error x =>
      cases x with
      | panic q => exact absurd hmk (hpan k comps c q h1 h2)
      | err x =>
        obtain ⟨v, rfl⟩ := Whole.make_err hmk
        obtain ⟨g1, g2⟩ := failed_sample hmk
        exact absurd (hsamples v ⟨k, comps, c, h1, h2, g1⟩) (lookup_none.mp g2)
  exact ⟨e1, r, hu, c07_rejects_exactly_unresolved hL (glicol_eqLaws P N _) (glicol_refLaws P N _) hcr.reachable τ t p r hparse
    (glicol_refWf hparse) hmake hu⟩

/-- **C92** (partial). Take an engine after any calls allowed by `SafeCall`, and a program `p` that can be played (`SafeProg`), whose
components can be built (`Buildable`), whose references resolve and whose samples are registered. Let `t` be any text of `p` (`WProg`: any
layout, comments, spellings of numbers). Then `t` is accepted; after it any number of blocks renders, without input or with two channels
of input if the engine was never reset; and what is returned is the
signal of the output in a system of signals in which every component of `p` plays as if it were alone on exactly the signals that
`p` sends to it (`Sounds`). Missing: the programs and calls excluded by `SafeProg` and `SafeCall` that nevertheless play, texts of `eval`. -/
theorem c92_written_programs_are_heard_partial (hN : 1 ≤ N) (hm : ∀ a b, Within (-1) 1 (P.libm.noise a b)) (hsin : SinBounded P.libm)
    {script : Bool → Name → Bool → Prop} {isMeta : P.ext.State → Bool} {T : Bool → P.ext.State → Prop}
    (hT : ScriptsBehave P N script isMeta T) (hx : ExtShape P N U) (hr : ReachBy _ (SafeCall script) e0) (he : e0.N = N)
    (τ : TableOrder) {p : Ast Comp} {t : Name} (hw : WProg fe p t) (hd : (p.map Prod.fst).Nodup) (hs : SafeProg script e0 p)
    {accepts : Bool → Name → Prop} (hacc : ∀ m code, accepts m code → ∃ s, P.ext.new m code e0.sr = .ok s)
    (hbuild : ∀ k comps c, (k, comps) ∈ p → c ∈ comps → Buildable accepts e0.sr c)
    (hsamples : ∀ s, AsksFor p s → s ∈ e0.samples.map Prod.fst)
    (hrefs : ∀ k comps c, (k, comps) ∈ p → c ∈ comps → ∀ r, r ∈ c.refs → Resolves (available e0 p) r)
    (steps : List (HashOrder × List Buf))
    (hin : ∀ s, s ∈ steps → s.2 = [] ∨ (InputReach _ e0 ∧ ∃ l r : Buf, s.2 = [l, r] ∧ l.length = N ∧ r.length = N)) :
    ∃ e1 e2 outs, e0.updateWithCode τ t = .ok (e1, none) ∧ Plays e1 steps e2 outs ∧ outs.length = steps.length ∧
      ∀ b : Bool, (b = true ↔ ['~', 'i', 'n', 'p', 'u', 't'] ∈ e1.index.map Prod.fst) →
        ∃ start sig, outs = sig .dest ∧ Sounds e0 e1 p b (steps.map Prod.snd) start sig := by
  have hL := glicol_parserWf P N fe
  have hparse : Parse.parse fe t = .ok (some p) := c32_written_programs_parse_partial fe hw hd
  have hcr := Whole.safe_clean hr
  obtain ⟨e1, r, hu, hans, -⟩ := Whole.answered hr τ hparse hs hacc hbuild hsamples
  have hres : r = none := hans.mpr (by
    rintro x ⟨k, comps, c, h1, h2, h3⟩
    exact hrefs k comps c h1 h2 x h3)
  subst hres
  have happ : (Op.update τ t : Op (glicol P N (Parse.parse fe))).apply e0 = .ok e1 := by simp only [Op.apply, hu]; rfl
  have hr1 : ReachBy _ (SafeCall script) e1 := .step (.update τ t) hr (by
    intro q hq
    rw [hparse] at hq
    cases hq
    exact hs) happ
  have he1 : e1.N = N := (apply_N hL hcr.reachable happ).trans he
  obtain ⟨e2, outs, hp⟩ := Whole.plays hN hm hsin hT hx steps hr1 he1 (fun s hs' => (hin s hs').imp id fun h => ⟨.step (.update τ t) h.1 (by
    intro q hq
    have hq : Parse.parse fe t = .ok (some q) := hq
    rw [hparse] at hq
    cases hq
    exact hs.clean.noInput) happ, h.2⟩)
  have hsound := c49_texts_sound_as_written_partial hx hcr he τ t p hparse hs.clean hu _ outs hp
  refine ⟨e1, e2, outs, hu, hp, ?_, hsound⟩
  obtain ⟨start, sig, h1, h2⟩ := hsound (decide (['~', 'i', 'n', 'p', 'u', 't'] ∈ e1.index.map Prod.fst)) decide_eq_true_iff
  exact (congrArg List.length h1).trans ((h2.length _ (.refl _)).trans (List.length_map _))

namespace Whole

/-- The program with one track, a sine at a fixed frequency. -/
def sineAt (k : Name) (f : Fl) : Ast Comp := [(k, [.sin (.num f)])]

variable {script : Bool → Name → Bool → Prop} {k : Name} {f : Fl}

theorem sineAt_clean (hk : '~' ∉ k) : CleanProg (glicol P N (Parse.parse fe)) (sineAt k f) := by
  refine ⟨fun j c h => ?_, fun h => ?_⟩
  · cases List.mem_singleton.mp h
    exact List.pairwise_singleton _ _
  · obtain rfl := List.mem_singleton.mp h
    exact hk (by simp)

theorem sineAt_safe (hk : '~' ∉ k) : SafeProg script (Engine.new (glicol P N (Parse.parse fe)) N) (sineAt k f) := by
  refine ⟨sineAt_clean hk, ?_, ?_, ?_, ?_, ?_, ?_, ?_⟩
  · intro j comps c h1 h2 r h3
    cases List.mem_singleton.mp h1
    cases List.mem_singleton.mp h2
    cases h3
  · intro j old comps h _
    rcases h with ⟨a, h, -⟩ | ⟨rfl, -⟩
    · cases h
    · exact demo_kept comps
  · exact ⟨show 4096 ≤ 44100 by decide, show 44100 ≤ 2 ^ 24 by decide⟩
  · exact ⟨120, rfl, by norm_num, by norm_num⟩
  · intro n s h; cases h
  · intro j comps c h1 h2
    cases List.mem_singleton.mp h1
    cases List.mem_singleton.mp h2
    trivial
  · intro j comps i c h1 h2
    cases List.mem_singleton.mp h1
    cases List.mem_singleton.mp (List.mem_of_getElem? h2)
    exact ⟨fun _ _ => trivial, .inr fun _ r h => by cases h⟩

end Whole

/-- **C92** for a single sine (partial). Any text of `k: sin f` (in any layout), where `k` has no `~` and `f` is from 0 to 44100, is accepted by
a new engine. After it any number of blocks of any size renders, and both sides play `sin (2π f t / 44100)` at sample `t`, up to the
accuracy `δ` of the sine of the platform and a drift of `2^-20` per sample. -/
theorem c92_sine_partial (hN : 1 ≤ N) (hm : ∀ a b, Within (-1) 1 (P.libm.noise a b)) (hsin : SinBounded P.libm)
    {script : Bool → Name → Bool → Prop} {isMeta : P.ext.State → Bool} {T : Bool → P.ext.State → Prop}
    (hT : ScriptsBehave P N script isMeta T) (hx : ExtShape P N U) (hxf : ExtFirst P) (h32 : Libm32 P.libm) {δ : ℝ} (hδ : SinClose P.libm δ)
    (τ : TableOrder) {k t : Name} {f : Fl} (hw : WProg fe [(k, [.sin (.num f)])] t) (hk : '~' ∉ k) (hf : Within 0 (44100 : Nat) f)
    (hos : List HashOrder) :
    ∃ e1 e2 outs, (Engine.new (glicol P N (Parse.parse fe)) N).updateWithCode τ t = .ok (e1, none) ∧
      Plays e1 (hos.map fun ho => (ho, [])) e2 outs ∧ outs.length = hos.length ∧
      ∀ i ch s, i < hos.length → ch < 2 → s < N → ∃ y : Fl, sampleAt outs i ch s = some y ∧ y.isFinite = true ∧
        |(y.val : ℝ) - Real.sin (2 * Real.pi * ((((i * N + s : Nat) : ℚ) * f.val / 44100 : ℚ) : ℝ))| ≤
          δ + (((i * N + s : Nat) : ℝ) + 1) / 2 ^ 20 := by
  obtain ⟨e1, e2, outs, hu, hp, hol, -⟩ := c92_written_programs_are_heard_partial (fe := fe) (e0 := Engine.new _ N) hN hm hsin hT hx (.new N) rfl τ hw (by simp) (Whole.sineAt_safe hk)
    (accepts := fun _ _ => False) (fun _ _ h => h.elim) (fun j comps c h1 h2 => by
      cases List.mem_singleton.mp h1
      cases List.mem_singleton.mp h2
      trivial) (by
      rintro s ⟨j, comps, c, h1, h2, h3⟩
      cases List.mem_singleton.mp h1
      cases List.mem_singleton.mp h2
      cases h3) (fun j comps c h1 h2 r h3 => by
      cases List.mem_singleton.mp h1
      cases List.mem_singleton.mp h2
      cases h3) (hos.map fun ho => (ho, [])) (fun s h => by
      obtain ⟨ho, -, rfl⟩ := List.mem_map.mp h
      exact .inl rfl)
  have hol : outs.length = hos.length := hol.trans (List.length_map _)
  refine ⟨e1, e2, outs, hu, hp, hol, fun i ch s hi hch hs => ?_⟩
  have hparse : Parse.parse fe t = .ok (some [(k, [.sin (.num f)])]) := c32_written_programs_parse_partial fe hw (by simp)
  have hl : (hos.map fun ho => ((ho, []) : HashOrder × List Buf)).length = hos.length := List.length_map _
  obtain ⟨num, side, inputs, wet, -, -, a3, a4, a5, a6⟩ := c91_source_partial hx hxf h32 hN (.new N) rfl τ t _ hparse (k := k) (c := .sin (.num f))
    ⟨List.mem_singleton.mpr rfl, hk, fun j cs h _ => by cases List.mem_singleton.mp h; rfl, fun j cs d r h1 h2 h3 _ => by
      cases List.mem_singleton.mp h1
      cases List.mem_singleton.mp h2
      cases h3⟩ trivial (fun r h => by cases h) (Whole.sineAt_clean hk)
    (fun j comps _ => ⟨[], .inr ⟨rfl, fun a ha => by cases ha⟩, fun _ _ _ ho => by cases ho⟩) hu
    (decide (['~', 'i', 'n', 'p', 'u', 't'] ∈ e1.index.map Prod.fst)) decide_eq_true_iff (hos.map fun ho => (ho, [])) outs
    (by intro h; rw [List.map_eq_nil_iff] at h; subst h; exact absurd hi (Nat.not_lt_zero _)) hp (fun _ => []) (fun r h => by cases h)
  have hinp : inputs = noInput hos.length := by
    rw [noInput, List.eq_replicate_iff]
    refine ⟨a4.trans hl, fun x hx => ?_⟩
    obtain ⟨j, hj⟩ := List.mem_iff_getElem?.mp hx
    obtain ⟨bufs, c1, c2⟩ := a5 j x hj
    cases c1
    exact List.perm_nil.mp c2
  subst hinp
  obtain ⟨w, w1, w2⟩ := Whole.sin_alone P h32 (N := N) hos.length (Osc.new f 44100) (fresh N 1 (GNode.prim (P := P) (.sin (Osc.new f 44100)))).buffers rfl
    (fun b hb => (shaped_fresh N 1 (GNode.prim (P := P) (.sin (Osc.new f 44100)))).2 b hb)
  have hwet : wet = w := by
    have := play_ok (P := P) (N := N) (env := ⟨[], 44100, (Engine.new (glicol P N (Parse.parse fe)) N).bpm, (Engine.new (glicol P N (Parse.parse fe)) N).seed⟩) (msgs := [])
      (sin_make P N _ (.num f)) rfl w1
    exact Except.ok.inj (Eq.trans (Eq.symm a6) this)
  subst hwet
  obtain ⟨o, ys, y1, y2, y3, y4⟩ := Freq.c75_sin_fixed_partial P δ hδ N ⟨[], 44100, (Engine.new (glicol P N (Parse.parse fe)) N).bpm, (Engine.new (glicol P N (Parse.parse fe)) N).seed⟩
    f hos.length (show 1 ≤ 44100 by decide) (show 44100 ≤ 2 ^ 24 by decide) hf
  obtain rfl : wet = o := Except.ok.inj (Eq.trans (Eq.symm a6) y1)
  rw [SineOf.channel_mono (fun o ho => (w2 o ho).1)] at y2
  cases y2
  have hwl : wet.length = hos.length := a3.1.trans hol
  obtain ⟨v, v1, v2⟩ := a3.2 i ch s (by rw [← a3.1, hwl]; exact hi) hch hs
  obtain ⟨o, o1, o2⟩ := Option.bind_eq_some_iff.mp v1
  obtain ⟨g1, -, g3⟩ := w2 o (List.mem_of_getElem? o1)
  obtain ⟨l, rfl⟩ := List.length_eq_one_iff.mp g1
  have o2 : l[s]? = some v := o2
  have hat : (wet.map (·.headD [])).flatten[i * N + s]? = some v := by
    rw [SineOf.flatten_at (fun x hx => by
      obtain ⟨o, ho, rfl⟩ := List.mem_map.mp hx
      exact (w2 o ho).2.1) hs (by rw [List.length_map]; omega), List.getElem?_map, o1]
    exact o2
  obtain ⟨z1, z2⟩ := y4 _ _ hat
  have hv := SineOf.zero_add_val (g3 v (List.mem_of_getElem? o2))
  have hil : i * N + s ≤ hos.length * N := by
    have := Nat.mul_le_mul_right N (Nat.succ_le_of_lt hi)
    rw [Nat.succ_mul] at this
    omega
  have hturns : turns 44100 (List.replicate (hos.length * N) f) (i * N + s) = ((i * N + s : Nat) : ℚ) * f.val / 44100 := by
    unfold turns
    rw [List.take_replicate, Nat.min_eq_left hil, List.map_replicate, List.sum_replicate, nsmul_eq_mul]
    norm_cast
  refine ⟨_, v2, by rw [hv.2]; exact z1, ?_⟩
  rw [hv.1]
  have hturns : turns (⟨[], 44100, (Engine.new (glicol P N (Parse.parse fe)) N).bpm, (Engine.new (glicol P N (Parse.parse fe)) N).seed⟩ : Env).sr
    (List.replicate (hos.length * N) f) (i * N + s) = _ := hturns
  rw [hturns] at z2
  exact z2

/-! ### Examples -/

/-- A sine in f32 numbers, exact to `2^-20`, that stays between -1 and 1. -/
theorem bounded_sine : ∃ f : Fl → Fl, (∀ x, (f x).Ok f32 ∧ Within (-1) 1 (f x)) ∧
    ∀ x : Fl, |((f x).val : ℝ) - Real.sin (x.val : ℝ)| ≤ 1 / 2 ^ 20 := by
  obtain ⟨f, f1, f2⟩ := good_sine
  have h1 : (Fl.fin 1).Ok f32 := sg_one
  have h2 : (Fl.fin (-1)).Ok f32 := ⟨⟨-1, 0, by decide, by decide, by decide +kernel⟩, by rw [f32_maxFin]; norm_num⟩
  refine ⟨fun x => if 1 < (f x).val then .fin 1 else if (f x).val < -1 then .fin (-1) else f x, fun x => ?_, fun x => ?_⟩
  · show Fl.Ok f32 (if 1 < (f x).val then .fin 1 else if (f x).val < -1 then .fin (-1) else f x) ∧
      Within (-1) 1 (if 1 < (f x).val then .fin 1 else if (f x).val < -1 then .fin (-1) else f x)
    split
    · exact ⟨h1, rfl, by norm_num [Fl.val], by norm_num [Fl.val]⟩
    · split
      · exact ⟨h2, rfl, by norm_num [Fl.val], by norm_num [Fl.val]⟩
      · exact ⟨(f1 x).1, (f1 x).2, not_lt.mp ‹_›, not_lt.mp ‹_›⟩
  · show |(((if 1 < (f x).val then Fl.fin 1 else if (f x).val < -1 then .fin (-1) else f x).val : ℚ) : ℝ) - Real.sin (x.val : ℝ)| ≤ 1 / 2 ^ 20
    have a := abs_le.mp (f2 x)
    have b := Real.sin_le_one (x.val : ℝ)
    have c := Real.neg_one_le_sin (x.val : ℝ)
    split
    · rename_i h
      have h : (1 : ℝ) < ((f x).val : ℝ) := by exact_mod_cast h
      rw [show (((Fl.fin 1).val : ℚ) : ℝ) = 1 by norm_num [Fl.val], abs_le]
      constructor <;> linarith [a.1, a.2]
    · split
      · rename_i h
        have h : ((f x).val : ℝ) < (-1 : ℝ) := by exact_mod_cast h
        rw [show (((Fl.fin (-1)).val : ℚ) : ℝ) = -1 by norm_num [Fl.val], abs_le]
        constructor <;> linarith [a.1, a.2]
      · exact f2 x

theorem writes_sine (fe : Name → Option Fl) : Writes fe (.sin (.num (.fin 440))) c!"sin 440" := by
  have d440 : Fl.fin 440 = Fl.round f32 false (signed false (decimal c!"440")) := by decide +kernel
  exact .arg (kw := c!"sin") (g := [' ']) (t := c!"440") (f := .sin) (by simp [argKinds]) ⟨by simp, by simp [Blanks, Blank]⟩
    (.num (.int (by
      rw [d440]
      exact .mk (s := []) .none ⟨by decide, by decide⟩)))

/-- A text with one sine. -/
theorem tone_text (fe : Name → Option Fl) : WProg fe [(c!"o", [.sin (.num (.fin 440))])] c!"// a tone\no : sin 440;\n" := by
  have ho : WName c!"o" := .bare (.mk (t := []) (d := []) (by decide) (by decide) (by simp) (Or.inl rfl))
  have bl : Blanks [' '] := by simp [Blanks, Blank]
  have bn : Blanks [] := by simp [Blanks]
  exact .body (w := []) (s := c!"// a tone\n") (t := c!"o : sin 440;\n") (by simp [Spaces])
    (.remark (m := c!" a tone") (a := []) (t := []) (by simp [Remark]) bn .nil)
    (.lastSep (t := c!"o : sin 440") (s := c!";\n")
      (.mk (k := c!"o") (a := [' ']) (b := [' ']) (t := c!"sin 440") ho bl bl (.one (writes_sine fe)))
      (.semi (a := []) (b := []) (t := ['\n']) bn bn (.cons (a := []) bn .nil)))

def tremoloProg : Ast Comp := [(c!"o", [.sin (.num (.fin 440)), .mul (.ref c!"~a")]), (c!"~a", [.sin (.num (.fin 440))])]

/-- A text with a reference. -/
theorem tremolo_text (fe : Name → Option Fl) : WProg fe tremoloProg c!"o: sin 440\n  >> mul ~a\n~a: sin 440" := by
  have ha : WRef c!"~a" := .mk (Or.inl rfl) (.mk (t := []) (d := []) (by decide) (by decide) (by simp) (Or.inl rfl))
  have ho : WName c!"o" := .bare (.mk (t := []) (d := []) (by decide) (by decide) (by simp) (Or.inl rfl))
  have bl : Blanks [' '] := by simp [Blanks, Blank]
  have bn : Blanks [] := by simp [Blanks]
  have hmul : Writes fe (.mul (.ref c!"~a")) c!"mul ~a" :=
    .arg (kw := c!"mul") (g := [' ']) (f := .mul) (by simp [argKinds]) ⟨by simp, bl⟩ (.ref (.ref ha))
  exact .body (w := []) (s := []) (t := c!"o: sin 440\n  >> mul ~a\n~a: sin 440") (by simp [Spaces]) .nil
    (.cons (t := c!"o: sin 440\n  >> mul ~a") (s := c!"\n") (u := c!"~a: sin 440")
      (.mk (k := c!"o") (a := []) (b := [' ']) (t := c!"sin 440\n  >> mul ~a") ho bn bl
        (.cons (t := c!"sin 440") (j := c!"\n  ") (d := [' ']) (u := c!"mul ~a") (writes_sine fe)
          (.blank (a := []) (n := ['\n']) (b := c!"  ") bn (Or.inr rfl) (by simp [Blanks, Blank])) bl (.one hmul)))
      (.lines (a := []) (t := ['\n']) bn (by simp) (.cons (a := []) bn .nil))
      (.last (t := c!"~a: sin 440") (b := [])
        (.mk (k := c!"~a") (a := []) (b := [' ']) (t := c!"sin 440") (.ref ha) bn bl (.one (writes_sine fe))) bn))

/-- The hypotheses of `c92_written_programs_are_heard_partial`, for a text with a reference on a new engine. -/
example (fe : Name → Option Fl) : (∀ a b, Within (-1) 1 (playPlat.libm.noise a b)) ∧ SinBounded playPlat.libm ∧
    ScriptsBehave playPlat 8 (SafeScript Demo.fasteval) Script.isMeta Script.Works ∧ ExtShape playPlat 8 (fun _ => True) ∧
    WProg fe tremoloProg c!"o: sin 440\n  >> mul ~a\n~a: sin 440" ∧ (tremoloProg.map Prod.fst).Nodup ∧
    SafeProg (SafeScript Demo.fasteval) (Engine.new (glicol playPlat 8 (parse fe)) 8) tremoloProg ∧
    (∀ k comps c, (k, comps) ∈ tremoloProg → c ∈ comps → Buildable (fun _ _ => False) 44100 c) ∧
    (∀ s, AsksFor tremoloProg s → s ∈ (Engine.new (glicol playPlat 8 (parse fe)) 8).samples.map Prod.fst) ∧
    ∀ k comps c, (k, comps) ∈ tremoloProg → c ∈ comps → ∀ r, r ∈ c.refs →
      Resolves (available (Engine.new (glicol playPlat 8 (parse fe)) 8) tremoloProg) r := by
  have hmem : ∀ k comps, (k, comps) ∈ tremoloProg → (k = c!"o" ∧ comps = [.sin (.num (.fin 440)), .mul (.ref c!"~a")]) ∨
      (k = c!"~a" ∧ comps = [.sin (.num (.fin 440))]) := by
    intro k comps h
    simpa [tremoloProg] using h
  have hcomp : ∀ k comps c, (k, comps) ∈ tremoloProg → c ∈ comps → c = .sin (.num (.fin 440)) ∨ c = .mul (.ref c!"~a") := by
    intro k comps c h1 h2
    rcases hmem k comps h1 with ⟨-, rfl⟩ | ⟨-, rfl⟩
    · simpa using h2
    · exact .inl (List.mem_singleton.mp h2)
  refine ⟨play_noise, demo_sin, Script.scripts_behave, Script.scripts_shape, tremolo_text fe, by decide,
    ⟨⟨?_, ?_⟩, ?_, ?_, ⟨show 4096 ≤ 44100 by decide, show 44100 ≤ 2 ^ 24 by decide⟩, ⟨120, rfl, by norm_num, by norm_num⟩,
      fun n s h => (nomatch h), ?_, ?_⟩, ?_, ?_, ?_⟩
  · have hall : ∀ e ∈ tremoloProg, Distinct Comp.eq e.2 := by unfold Distinct; decide
    exact fun k c hm => hall (k, c) hm
  · exact show _ ∉ tremoloProg.map Prod.fst by decide
  · intro k comps c h1 h2 r h3
    rcases hcomp k comps c h1 h2 with rfl | rfl
    · cases h3
    · obtain rfl := List.mem_singleton.mp h3
      exact .inl (by decide)
  · intro j old comps h _
    rcases h with ⟨a, h, -⟩ | ⟨rfl, -⟩
    · cases h
    · exact demo_kept comps
  · intro k comps c h1 h2
    rcases hcomp k comps c h1 h2 with rfl | rfl <;> trivial
  · intro k comps i c h1 h2
    rcases hmem k comps h1 with ⟨rfl, rfl⟩ | ⟨rfl, rfl⟩
    · rcases hcomp _ _ c h1 (List.mem_of_getElem? h2) with rfl | rfl
      · exact ⟨fun _ _ => trivial, .inr fun _ r h => by cases h⟩
      · refine ⟨fun _ _ => trivial, .inr fun _ r h => ?_⟩
        obtain rfl := List.mem_singleton.mp h
        refine ⟨by decide, fun base hb => ?_⟩
        have : '.' ∈ c!"~a" := by rw [hb]; simp
        exact absurd this (by decide)
    · obtain rfl := List.mem_singleton.mp (List.mem_of_getElem? h2)
      exact ⟨fun _ _ => trivial, .inr fun _ r h => by cases h⟩
  · intro k comps c h1 h2
    rcases hcomp k comps c h1 h2 with rfl | rfl <;> trivial
  · rintro s ⟨k, comps, c, h1, h2, h3⟩
    rcases hcomp k comps c h1 h2 with rfl | rfl <;> cases h3
  · intro k comps c h1 h2 r h3
    rcases hcomp k comps c h1 h2 with rfl | rfl
    · cases h3
    · obtain rfl := List.mem_singleton.mp h3
      exact .named (by decide) (List.mem_append_left _ (show c!"~a" ∈ tremoloProg.map Prod.fst by decide))

/-- The hypotheses of `c92_sine_partial`, on a platform with a good sine and the two scripted nodes. -/
example (fe : Name → Option Fl) : ∃ f : Fl → Fl, ∀ P : Plat, P = ⟨{ Demo.libm with sin := f }, .ident, scripts Demo.fasteval Demo.rhai⟩ →
    (∀ a b, Within (-1) 1 (P.libm.noise a b)) ∧ SinBounded P.libm ∧ Libm32 P.libm ∧ SinClose P.libm (1 / 2 ^ 20) ∧ ExtFirst P ∧
    ExtShape P 2 (fun _ => True) ∧ (∃ script isMeta T, ScriptsBehave P 2 script isMeta T) ∧
    WProg fe [(c!"o", [.sin (.num (.fin 440))])] c!"// a tone\no : sin 440;\n" ∧ '~' ∉ c!"o" ∧ Within 0 (44100 : Nat) (.fin 440) := by
  obtain ⟨f, f1, f2⟩ := bounded_sine
  refine ⟨f, ?_⟩
  rintro P rfl
  exact ⟨play_noise, fun x _ => (f1 x).2, ⟨fun x => (f1 x).1, fun _ _ => sg_zero⟩, fun x _ => ⟨(f1 x).2.1, f2 x⟩, scripts_first demo_rhai32,
    Script.scripts_shape, ⟨_, _, _, Script.scripts_behave⟩, tone_text fe, by decide, rfl, by norm_num [Fl.val], by norm_num [Fl.val]⟩

end Verif.Props
