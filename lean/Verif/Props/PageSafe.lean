import Verif.Props.PagePlay
import Verif.Spec.PageSafe

/-! # What breaks the page, and what does not (C76) -/

namespace Verif.Props.PagePlay
open Verif Verif.PagePlay Spec Verif.Spec.PagePlay

/-! ### Nothing after a panic -/

section
variable {L : Lang} {rate : Nat} {parseMsg : Name → List Nat}

theorem broken_step (s : Sys L) (d : Do L) (h : Broken (step rate parseMsg s d).2) : (step rate parseMsg s d).1.engine = none := by
  obtain ⟨τ', ho', m', h⟩ := h
  obtain ⟨port, engine, playing⟩ := s
  cases d with
  | post m => simp [step] at h
  | take τ =>
    cases port with
    | nil => simp [step, take] at h
    | cons m ms =>
      cases engine with
      | none => rfl
      | some e =>
        simp only [step, take] at h ⊢
        cases hd : deliver rate parseMsg τ e m with
        | error p => rfl
        | ok er => obtain ⟨e', reps⟩ := er; rw [hd] at h; simp at h
  | quantum ho =>
    cases playing with
    | false => simp [step, quantum] at h
    | true =>
      cases engine with
      | none => rfl
      | some e =>
        simp only [step, quantum, if_true] at h ⊢
        cases hp : Wasm.process ho e 256 with
        | error p => rfl
        | ok er => obtain ⟨e', out⟩ := er; rw [hp] at h; simp at h

theorem gone_runs (s : Sys L) (ds : List (Do L)) (h : s.engine = none) : (runs rate parseMsg s ds).1.engine = none := by
  induction ds generalizing s with
  | nil => exact h
  | cons d ds ih =>
    refine ih _ ?_
    obtain ⟨port, engine, playing⟩ := s
    cases h
    cases d with
    | post m => rfl
    | take τ => cases port <;> rfl
    | quantum ho => cases playing <;> rfl

theorem broken_runs (s : Sys L) (ds : List (Do L)) (h : Broken (runs rate parseMsg s ds).2) : (runs rate parseMsg s ds).1.engine = none := by
  induction ds generalizing s with
  | nil => obtain ⟨_, _, _, h⟩ := h; cases h
  | cons d ds ih =>
    obtain ⟨τ, ho, m, h⟩ := h
    rcases List.mem_append.mp h with h | h
    · exact gone_runs _ ds (broken_step s d ⟨τ, ho, m, h⟩)
    · exact ih _ ⟨τ, ho, m, h⟩

/-- **C76**, what a panic does: after it, whatever is posted, no message is acted upon, nothing is reported, and all sound is silence. -/
theorem c76_nothing_after_a_panic (rate : Nat) (parseMsg : Name → List Nat) (d1 : List (Do L)) (h : Broken (runs rate parseMsg (start L) d1).2)
    (d2 : List (Do L)) :
    ∃ after, (runs rate parseMsg (start L) (d1 ++ d2)).2 = (runs rate parseMsg (start L) d1).2 ++ after ∧ Dead after := by
  rw [runs_append]
  exact ⟨_, rfl, dead_runs _ (broken_runs _ d1 h) d2⟩

/-! ### Evaluation of examples -/

/-- The rest of `process` after the block. -/
def processOf (L : Lang) : Except Panic (Engine L × List (List L.Num)) → Except Panic (Engine L × List L.Num)
  | .error p => .error p
  | .ok (e', out) => do
    let l ← Wasm.channelHead out 0 128
    let r ← Wasm.channelHead out 1 128
    if 128 = r.length then .ok (e', l ++ r) else .error .lengthMismatch

theorem processOf_spec (ho : HashOrder) (e : Engine L) : Wasm.process ho e 256 = processOf L (e.nextBlock ho []) := by
  cases h : e.nextBlock ho [] with
  | error p => simp only [Wasm.process, h, bind, Except.bind, processOf]
  | ok er => simp only [Wasm.process, h, bind, Except.bind, processOf]

/-- A step that the kernel can compute. -/
def stepFuel (rate : Nat) (parseMsg : Name → List Nat) (s : Sys L) : Do L → Option (Sys L × List (Ev L))
  | .quantum ho =>
    let silence := List.replicate 128 L.zero
    if s.playing then
      match s.engine with
      | none => some (⟨s.port, none, false⟩, [.sound ho silence silence])
      | some e =>
        match nextBlockFuel 1000 ho e [] with
        | none => none
        | some r =>
          match processOf L r with
          | .error _ => some (⟨s.port, none, false⟩, [.broke .ident ho none, .sound ho silence silence])
          | .ok (e', out) => some (⟨s.port, some e', true⟩, [.sound ho (out.take (out.length / 2)) (out.drop (out.length / 2))])
    else some (s, [.sound ho silence silence])
  | d => some (step rate parseMsg s d)

def runsFuel (rate : Nat) (parseMsg : Name → List Nat) (s : Sys L) : List (Do L) → Option (List (Ev L))
  | [] => some []
  | d :: ds =>
    match stepFuel rate parseMsg s d with
    | none => none
    | some r =>
      match runsFuel rate parseMsg r.1 ds with
      | none => none
      | some q => some (r.2 ++ q)

theorem stepFuel_spec {s : Sys L} {d : Do L} {r : Sys L × List (Ev L)} (h : stepFuel rate parseMsg s d = some r) :
    step rate parseMsg s d = r := by
  cases d with
  | post m => cases h; rfl
  | take τ => cases h; rfl
  | quantum ho =>
    obtain ⟨port, engine, playing⟩ := s
    cases playing with
    | false => cases h; rfl
    | true =>
      cases engine with
      | none => cases h; rfl
      | some e =>
        simp only [stepFuel, if_true] at h
        simp only [step, quantum, if_true, processOf_spec]
        cases hb : nextBlockFuel 1000 ho e [] with
        | none => rw [hb] at h; cases h
        | some q =>
          rw [nextBlockFuel_spec hb]
          rw [hb] at h
          simp only at h
          cases hp : processOf L q with
          | error p => rw [hp] at h; cases h; rfl
          | ok er => obtain ⟨e', out⟩ := er; rw [hp] at h; cases h; rfl

theorem runsFuel_spec {s : Sys L} {ds : List (Do L)} {evs : List (Ev L)} (h : runsFuel rate parseMsg s ds = some evs) :
    (runs rate parseMsg s ds).2 = evs := by
  induction ds generalizing s evs with
  | nil => cases h; rfl
  | cons d ds ih =>
    unfold runsFuel at h
    cases hs : stepFuel rate parseMsg s d with
    | none => rw [hs] at h; cases h
    | some r =>
      rw [hs] at h
      simp only at h
      cases hq : runsFuel rate parseMsg r.1 ds with
      | none => rw [hq] at h; cases h
      | some q =>
        rw [hq] at h
        cases h
        simp only [runs, stepFuel_spec hs, ih hq]

end

/-! ### Texts that break the page -/

section
variable (P : Plat) (fe : Name → Option Fl) (parseMsg : Name → List Nat)

/-- The engine of the page with the real parser. -/
abbrev pageLang : Lang := glicol P 128 (Parse.parse fe)

/-- The page starts, `o: constsig 1` is run and 128 samples of it are played; then the text `code` is run, and 128 samples are
asked for. -/
def playThen (code : Name) : List (Do (pageLang P fe)) :=
  [.post (.load 7), .take .ident, .post (.run c!"o: constsig 1"), .take .ident, .quantum .ident, .post (.run code), .take .ident, .quantum .ident]

/-- What is seen up to the second text. -/
def played : List (Ev (pageLang P fe)) :=
  [.asked (.load 7), .did .ident (.load 7), .asked (.run c!"o: constsig 1"), .did .ident (.run c!"o: constsig 1"),
    .sound .ident (List.replicate 128 (.fin 1)) (List.replicate 128 (.fin 1))]

def silent : Ev (pageLang P fe) := .sound .ident (List.replicate 128 (.fin 0)) (List.replicate 128 (.fin 0))

/-- **C76 does not hold in full**: an empty list of points makes the engine panic while it builds the program. The music stops, nothing is
reported, and whatever is sent from then on, there is silence. -/
theorem c76_page_silenced_counterexample :
    (runs 44100 parseMsg (start (pageLang P fe)) (playThen P fe c!"o: []")).2 =
      played P fe ++ [.asked (.run c!"o: []"), .broke .ident .ident (some (.run c!"o: []")), silent P fe] ∧
    ∀ ds, ∃ after, (runs 44100 parseMsg (start (pageLang P fe)) (playThen P fe c!"o: []" ++ ds)).2 =
      (runs 44100 parseMsg (start (pageLang P fe)) (playThen P fe c!"o: []")).2 ++ after ∧ Dead after := by
  have h : (runs 44100 parseMsg (start (pageLang P fe)) (playThen P fe c!"o: []")).2 =
      played P fe ++ [.asked (.run c!"o: []"), .broke .ident .ident (some (.run c!"o: []")), silent P fe] := runsFuel_spec (by kernel_rfl)
  refine ⟨h, fun ds => c76_nothing_after_a_panic _ _ _ ?_ ds⟩
  rw [h]
  exact ⟨.ident, .ident, some (.run c!"o: []"), by simp [played]⟩

/-- **C76 does not hold in full**: `o: pan 0.5` is accepted without a report, and breaks the page at the next block. -/
theorem c76_accepted_text_silences_counterexample :
    (runs 44100 parseMsg (start (pageLang P fe)) (playThen P fe c!"o: pan 0.5")).2 =
      played P fe ++ [.asked (.run c!"o: pan 0.5"), .did .ident (.run c!"o: pan 0.5"), .broke .ident .ident none, silent P fe] ∧
    ∀ ds, ∃ after, (runs 44100 parseMsg (start (pageLang P fe)) (playThen P fe c!"o: pan 0.5" ++ ds)).2 =
      (runs 44100 parseMsg (start (pageLang P fe)) (playThen P fe c!"o: pan 0.5")).2 ++ after ∧ Dead after := by
  have h : (runs 44100 parseMsg (start (pageLang P fe)) (playThen P fe c!"o: pan 0.5")).2 =
      played P fe ++ [.asked (.run c!"o: pan 0.5"), .did .ident (.run c!"o: pan 0.5"), .broke .ident .ident none, silent P fe] :=
    runsFuel_spec (by kernel_rfl)
  refine ⟨h, fun ds => c76_nothing_after_a_panic _ _ _ ?_ ds⟩
  rw [h]
  exact ⟨.ident, .ident, none, by simp [played]⟩

/-- The good case, for the theorems above: a text with an unknown reference is reported, and the music goes on; the hypotheses about the
language are met by the real one. -/
example (libm : Libm) (ho : HashOrder) (F : FastEval) (R : Rhai) :
    ParserWf (pageLang ⟨libm, ho, scripts F R⟩ fe) ∧ (∃ S, Shape (pageLang ⟨libm, ho, scripts F R⟩ fe) 128 S) ∧
    (runs 44100 parseMsg (start (pageLang ⟨libm, ho, scripts F R⟩ fe)) (playThen _ fe c!"o: sin ~a")).2 =
      played _ fe ++ [.asked (.run c!"o: sin ~a"), .did .ident (.run c!"o: sin ~a"),
        .report (3 :: 0 :: Wasm.utf8 c!"There is no reference named ~a" ++ List.replicate 224 0),
        .sound .ident (List.replicate 128 (.fin 1)) (List.replicate 128 (.fin 1))] :=
  ⟨glicol_parserWf _ _ _, ⟨_, glicol_shape Script.scripts_shape⟩, runsFuel_spec (by kernel_rfl)⟩

end

/-! ### Messages that do not break it -/

section
variable {P : Plat} {fe : Name → Option Fl} {rate : Nat} {parseMsg : Name → List Nat}

theorem setBPM_total {parse : Name → Except Panic (Option (Ast Comp))} {N : Nat} (n : GNode P) (v : Fl) : ∃ n', (glicol P N parse).msg n (.setBPM v) = .ok n' := by
  show ∃ n', msgG P n (.setBPM v) = .ok n'
  cases n with
  | prim n =>
    have : ∃ n', msgPrim P.libm n (.setBPM v) = .ok n' := by cases n <;> exact ⟨_, rfl⟩
    obtain ⟨n', h⟩ := this
    exact ⟨.prim n', by simp only [msgG, h]; rfl⟩
  | compound c =>
    obtain ⟨k, _⟩ := c
    cases k <;> exact ⟨_, rfl⟩
  | script o s => exact ⟨_, rfl⟩

theorem sendAll_total {parse : Name → Except Panic (Option (Ast Comp))} {N : Nat} (v : Fl) (l : List (Option (glicol P N parse).Data)) :
    ∃ r, sendAll (L := glicol P N parse) (.setBPM v) l = .ok r := by
  induction l with
  | nil => exact ⟨[], rfl⟩
  | cons x l ih =>
    obtain ⟨r, hr⟩ := ih
    cases x with
    | none => exact ⟨none :: r, by simp only [sendAll, hr, bind, Except.bind]⟩
    | some d =>
      obtain ⟨n', hn⟩ := setBPM_total (parse := parse) (N := N) d.node v
      exact ⟨some ⟨n', d.buffers⟩ :: r, by simp only [sendAll, hn, hr, bind, Except.bind]⟩

theorem setBpm_total {parse : Name → Except Panic (Option (Ast Comp))} {N : Nat} (e : Engine (glicol P N parse)) (v : Fl) :
    ∃ e', e.setBpm v = .ok e' := by
  obtain ⟨r, hr⟩ := sendAll_total v e.graph.slots
  exact ⟨_, by simp only [Engine.setBpm, hr, bind, Except.bind]; rfl⟩

variable {built : Bool → Name → Prop} {script : Bool → Name → Bool → Prop} {isMeta : P.ext.State → Bool} {T : Bool → P.ext.State → Prop}

/-- A gentle message can be handed over, and leads to an engine reached by safe calls. -/
theorem gentle_deliver (hm : ∀ a b, Within (-1) 1 (P.libm.noise a b)) (hsin : SinBounded P.libm) (hT : ScriptsBehave P 128 script isMeta T)
    (hbuilt : ∀ b code sr, built b code → ∃ s, P.ext.new b code sr = .ok s)
    {e : Engine (pageLang P fe)} (hr : ReachBy _ (SafeCall script) e) (τ : TableOrder) {m : Post (pageLang P fe)}
    (hg : Gentle fe built script e m) :
    ∃ e' reps, deliver rate parseMsg τ e m = .ok (e', reps) ∧ ReachBy _ (SafeCall script) e' := by
  cases m with
  | load seed => exact ⟨_, _, rfl, .step (.setSeed seed) (.step (.setSr rate) hr trivial rfl) trivial rfl⟩
  | sample n s => exact ⟨_, _, rfl, .step (.addSample n s) hr trivial rfl⟩
  | amp v => exact ⟨_, _, rfl, .step (.setTrackAmp v) hr trivial rfl⟩
  | bpm v =>
    obtain ⟨e', he'⟩ := setBpm_total e v
    exact ⟨e', [], by simp only [deliver, he', bind, Except.bind], .step (.setBpm v) hr hg he'⟩
  | run code =>
    obtain ⟨h1, h2, h3⟩ := hg
    have hu : ∃ e' r, e.updateWithCode τ code = .ok (e', r) := by
      obtain ⟨res, hres⟩ := c31_parser_never_panics_partial fe code h1 h2
      cases res with
      | none =>
        refine ⟨e, some .parsing, ?_⟩
        unfold Engine.updateWithCode
        rw [show (pageLang P fe).parse code = .ok none from hres]
        rfl
      | some p =>
        refine c05_texts_do_not_panic_partial built ((safe_laws (by decide) hm hsin hT).clean hr) τ code h1 h2 ?_ ?_ (fun b code => hbuilt b code e.sr)
        · exact fun p hp => ⟨(h3 p hp).1.clean, (h3 p hp).2⟩
        · intro n s hs
          have := (h3 p hres).1.samples n s hs
          exact ⟨Nat.pos_iff_ne_zero.mp this.1.2.1, this.1.1⟩
    obtain ⟨e', r, hu⟩ := hu
    obtain ⟨buf, hb, -⟩ := c29_result_buffer τ parseMsg e code hu
    exact ⟨e', _, by simp only [deliver, hb, bind, Except.bind]; rfl,
      .step (.update τ code) hr (fun p hp => (h3 p hp).1) (by simp only [Op.apply, hu, bind, Except.bind])⟩

theorem gentle_runs (hm : ∀ a b, Within (-1) 1 (P.libm.noise a b)) (hsin : SinBounded P.libm) (hT : ScriptsBehave P 128 script isMeta T)
    (hbuilt : ∀ b code sr, built b code → ∃ s, P.ext.new b code sr = .ok s) {U : P.ext.State → Prop} (hU : ExtShape P 128 U)
    (port : List (Post (pageLang P fe))) {e : Engine (pageLang P fe)} (hr : ReachBy _ (SafeCall script) e) (hN : e.N = 128) (ds : List (Do (pageLang P fe)))
    (hg : AllGentle fe built script rate parseMsg ⟨port, some e, true⟩ ds) :
    ¬ Broken (runs rate parseMsg ⟨port, some e, true⟩ ds).2 := by
  have hL := glicol_parserWf P 128 fe
  have hs : Shape (pageLang P fe) 128 _ := glicol_shape hU
  induction ds generalizing port e with
  | nil => rintro ⟨_, _, _, h⟩; cases h
  | cons d ds ih =>
    rintro ⟨τ', ho', m', h⟩
    cases d with
    | post m =>
      simp only [runs, step, List.singleton_append, List.mem_cons, reduceCtorEq, false_or] at h
      exact ih _ hr hN hg ⟨_, _, _, h⟩
    | take τ =>
      obtain ⟨hg1, hg2⟩ := hg
      cases port with
      | nil => exact ih [] hr hN hg2 ⟨_, _, _, h⟩
      | cons m ms =>
        obtain ⟨e', reps, hdel, hr'⟩ := gentle_deliver (rate := rate) (parseMsg := parseMsg) hm hsin hT hbuilt hr τ (hg1 m ms e true rfl)
        simp only [step, take, hdel] at hg2
        simp only [runs, step, take, hdel, List.cons_append, List.mem_cons, List.mem_append, List.mem_map, reduceCtorEq, false_or, and_false,
          exists_false] at h
        have hre := leads_reach hL (reachBy_reachable hr) (deliver_leads hdel)
        exact ih ms hr' (hre.2.trans hN) hg2 ⟨_, _, _, h⟩
    | quantum ho =>
      obtain ⟨e', out, hb⟩ := block_total hL (glicol_eqLaws P 128 _) (glicol_refLaws P 128 _) (safe_laws (by decide) hm hsin hT) hr hN ho [] rfl
      obtain ⟨l, r, rfl, hl, hr', hw⟩ := process_ok hL hs (reachBy_reachable hr) hN hb
      have hst : Op.apply e (.nextBlock ho []) = .ok e' := by simp only [Op.apply, hb, bind, Except.bind]
      simp only [AllGentle, step, quantum, if_true, hw] at hg
      simp only [runs, step, quantum, if_true, hw, List.singleton_append, List.mem_cons, reduceCtorEq, false_or] at h
      exact ih port (.step (.nextBlock ho []) hr trivial hst) ((apply_N hL (reachBy_reachable hr) hst).trans hN) hg ⟨_, _, _, h⟩

/-- **C76** (partial). If every text handed to the engine meets the conditions of C31, C05 and C37 for the engine that takes it, and every tempo
is usual, then the page never breaks: with `c76_page_follows_engine` and `c76_messages_in_order`, every message is carried out and every 128 samples are
the engine's. Missing: all other messages, of which some break it (`c76_page_silenced_counterexample`). -/
theorem c76_page_plays_on_partial (hm : ∀ a b, Within (-1) 1 (P.libm.noise a b)) (hsin : SinBounded P.libm)
    (hT : ScriptsBehave P 128 script isMeta T) (hbuilt : ∀ b code sr, built b code → ∃ s, P.ext.new b code sr = .ok s)
    {U : P.ext.State → Prop} (hU : ExtShape P 128 U) (rate : Nat) (parseMsg : Name → List Nat) (ds : List (Do (pageLang P fe)))
    (hg : AllGentle fe built script rate parseMsg (start _) ds) : ¬ Broken (runs rate parseMsg (start _) ds).2 :=
  gentle_runs hm hsin hT hbuilt hU [] (.new 128) rfl ds hg

theorem step_post_port {L : Lang} (s : Sys L) (m : Post L) : (step rate parseMsg s (.post m)).1.port = s.port ++ [m] := rfl

theorem step_take_port {L : Lang} (s : Sys L) (τ : TableOrder) : (step rate parseMsg s (.take τ)).1.port = s.port.tail := by
  obtain ⟨port, engine, playing⟩ := s
  cases port with
  | nil => rfl
  | cons m ms =>
    cases engine with
    | none => rfl
    | some e => simp only [step, take]; cases deliver rate parseMsg τ e m <;> rfl

theorem step_quantum_port {L : Lang} (s : Sys L) (ho : HashOrder) : (step rate parseMsg s (.quantum ho)).1.port = s.port := by
  obtain ⟨port, engine, playing⟩ := s
  cases playing with
  | false => rfl
  | true =>
    cases engine with
    | none => rfl
    | some e => simp only [step, quantum, if_true]; cases Wasm.process ho e 256 <;> rfl

/-- The schedule of the example: the page starts, a program is run, played, and the tempo is changed. -/
def gentleDemo (fe : Name → Option Fl) : List (Do (pageLang playPlat fe)) :=
  [.post (.load 7), .post (.run demoText), .take .ident, .take .rev, .quantum .ident, .post (.bpm (.fin 90)), .take .ident, .quantum .rev]

theorem demoText_safe (fe : Name → Option Fl) (e : Engine (pageLang playPlat fe)) (h1 : e.ast = none) (h2 : e.samples = []) (h3 : e.sr = 44100)
    (h4 : e.bpm = .fin 120) : SafeProg (SafeScript Demo.fasteval) e demoTextProg := by
  have hmem : ∀ {k : Name} {comps : List Comp}, (k, comps) ∈ demoTextProg →
      (k = c!"~a" ∧ comps = [.constsig (.fin 2)]) ∨ (k = c!"o" ∧ comps = [.constsig (.fin 3), .mul (.ref c!"~a")]) := by
    intro k comps h
    simpa only [demoTextProg, List.mem_cons, Prod.mk.injEq, List.not_mem_nil, or_false] using h
  refine ⟨demoText_clean .., ?_, ?_, by rw [h3]; exact ⟨by decide, by decide⟩, by rw [h4]; exact ⟨120, rfl, by norm_num, by norm_num⟩, ?_, ?_, ?_⟩
  · intro k comps c hk hc r hr
    left
    rcases hmem hk with ⟨rfl, rfl⟩ | ⟨rfl, rfl⟩ <;> simp only [List.mem_cons, List.not_mem_nil, or_false] at hc
    · subst hc; cases hr
    · rcases hc with rfl | rfl
      · cases hr
      · simp only [Comp.refs, NumRef.refs, List.mem_singleton] at hr
        subst hr
        decide
  · intro k old comps ho _
    rcases ho with ⟨a, ha, _⟩ | ⟨rfl, _⟩
    · rw [h1] at ha; cases ha
    · exact demo_kept comps
  · intro n s h
    rw [h2] at h
    cases h
  · intro k comps c hk hc
    rcases hmem hk with ⟨rfl, rfl⟩ | ⟨rfl, rfl⟩ <;> simp only [List.mem_cons, List.not_mem_nil, or_false] at hc
    · subst hc; trivial
    · rcases hc with rfl | rfl <;> trivial
  · intro k comps i c hk hi
    rcases hmem hk with ⟨rfl, rfl⟩ | ⟨rfl, rfl⟩
    · match i, hi with
      | 0, hi => cases hi; exact ⟨fun m _ => trivial, .inr (fun _ r hr => by cases hr)⟩
    · match i, hi with
      | 0, hi => cases hi; exact ⟨fun m _ => trivial, .inr (fun h => by cases h)⟩
      | 1, hi =>
        cases hi
        refine ⟨fun m _ => trivial, .inr (fun _ r hr => ?_)⟩
        simp only [Comp.refs, NumRef.refs, List.mem_singleton] at hr
        subst hr
        exact ⟨by decide, fun base hb => by
          have := congrArg (fun l : List Char => l.contains '.') hb
          simp at this⟩

/-- The hypotheses are met. -/
example (fe : Name → Option Fl) (parseMsg : Name → List Nat) :
    ¬ Broken (runs 44100 parseMsg (start (pageLang playPlat fe)) (gentleDemo fe)).2 := by
  refine c76_page_plays_on_partial (built := fun _ _ => False) play_noise demo_sin Script.scripts_behave (fun _ _ _ h => h.elim)
    Script.scripts_shape 44100 parseMsg (gentleDemo fe) ⟨?_, ?_, ?_, trivial⟩
  · rintro m ms e b h
    cases h
    trivial
  · rintro m ms e b h
    cases h
    refine ⟨evalFilled_spec (by decide +kernel), ?_, ?_⟩
    · rintro t ht ⟨op, w, d, u, rfl, h, _⟩
      have hm : op ∈ demoText := ht.subset List.mem_cons_self
      rcases h with rfl | rfl <;> exact absurd hm (by decide)
    · intro p hp
      rw [demoText_parses] at hp
      cases hp
      refine ⟨demoText_safe fe _ rfl rfl rfl rfl, ?_⟩
      intro k comps hk c hc
      simp only [demoTextProg, List.mem_cons, List.not_mem_nil, or_false, Prod.mk.injEq] at hk
      rcases hk with ⟨rfl, rfl⟩ | ⟨rfl, rfl⟩ <;>
        (simp only [List.mem_cons, List.not_mem_nil, or_false] at hc; rcases hc with rfl | rfl <;> trivial)
  · rintro m ms e b h
    have := congrArg Sys.port h
    simp only [step_take_port, step_quantum_port, step_post_port] at this
    cases this
    exact ⟨90, rfl, by norm_num, by norm_num⟩

end

end Verif.Props.PagePlay
