import Verif.Lemmas.Build
import Verif.Lemmas.Concrete
import Verif.Props.Flow
import Verif.Props.Parser
import Verif.Spec.Text

/-!
# The engine with the real parser

The hypotheses of the generic theorems about the parser hold for the parser of Glicol, so that the theorems can be
stated for texts.
-/

namespace Verif.Props
open Verif Spec Parse

variable {P : Plat} {N : Nat} {fe : Name → Option Fl}

/-- The parser delivers well-formed programs. -/
theorem glicol_parserWf (P : Plat) (N : Nat) (fe : Name → Option Fl) : ParserWf (glicol P N (parse fe)) := by
  intro code p h
  obtain ⟨h1, h2⟩ := c33_accepted_programs_are_well_formed fe code p h
  exact ⟨h1, fun k c hm => (h2 k c hm).2.1⟩

theorem refWf_of_written {r : Name} (h : WrittenName r) : RefWf r := by
  obtain ⟨base, _, hb, h⟩ := h
  have hd : '.' ∉ base := by
    intro hm
    have := hb _ hm
    revert this
    unfold NameChar
    decide
  rcases h with rfl | rfl
  · exact .inl hd
  · exact .inr ⟨base, hd, rfl⟩

theorem glicol_refWf {code : Name} {p : Ast Comp} (h : parse fe code = .ok (some p)) :
    ∀ r, progRefs (glicol P N (parse fe)) p r → RefWf r := by
  rintro r ⟨k, comps, c, hk, hc, hr⟩
  exact refWf_of_written (((c33_accepted_programs_are_well_formed fe code p h).2 k comps hk).2.2 c hc r hr)

/-- The program in force comes from a text that was accepted. -/
theorem ast_from {L : Lang} (hL : ParserWf L) {e : Engine L} (h : Reachable L e) :
    ∀ a, e.ast = some a → ∃ code, L.parse code = .ok (some a) := by
  induction h with
  | new N => intro a ha; cases ha
  | @step e e1 op hr happ ih =>
    have hI := inv_reachable hL hr
    cases op with
    | update τ code =>
      simp only [Op.apply, except_bind_ok] at happ
      obtain ⟨⟨e2, r⟩, h1, happ⟩ := happ
      cases happ
      unfold Engine.updateWithCode at h1
      rw [except_bind_ok] at h1
      obtain ⟨p, hpp, h1⟩ := h1
      split at h1
      · cases h1; exact ih
      · rename_i new
        have hw := hL code new hpp
        cases r with
        | none =>
          obtain ⟨diff, t1, gone1, t2, gone2, g3, cr, g5, ha⟩ := accepted hI hw h1
          intro a h2
          have : e2.ast = some new := by rw [ha.eq]
          rw [show (e2, (none : Option EngineError)).1.ast = e2.ast from rfl, this] at h2
          cases h2
          exact ⟨code, hpp⟩
        | some x =>
          intro a h2
          exact ih a ((sameEngine_of_rejected hI hw h1).1.ast ▸ h2)
    | sendMsg m =>
      have := onlyNodes_sendMsg happ
      rw [this.eq]; exact ih
    | setBpm v =>
      have : e1.ast = e.ast := by
        unfold Op.apply Engine.setBpm at happ
        simp only [except_bind_ok] at happ
        obtain ⟨_, _, happ⟩ := happ
        cases happ; rfl
      rw [this]; exact ih
    | setSr v => cases happ; exact ih
    | setSeed v => cases happ; exact ih
    | setTrackAmp v => cases happ; exact ih
    | addSample n s => cases happ; exact ih
    | nextBlock ho buf =>
      simp only [Op.apply, except_bind_ok] at happ
      obtain ⟨⟨e2, out⟩, h1, happ⟩ := happ
      cases happ
      obtain ⟨e3, g, d, h2, h3, _, _, rfl⟩ := nextBlock_ok h1
      have h4 := onlyNodes_copyInputs h2
      show ∀ a, e3.ast = some a → _
      rw [h4.eq]; exact ih
    | reset =>
      cases happ
      intro a ha
      cases ha

/-- **C05** (partial), for texts: no text makes `update_with_code` panic that satisfies the conditions of C31, repeats
no component within a chain, leaves `~input` alone and has only components whose node can be built. Missing: the
texts outside these conditions, of which `c05_repeated_component_panics`, `c31_parser_panics_counterexample` and
`c05_text_panics_counterexample` show some that panic. -/
theorem c05_texts_do_not_panic_partial (script : Bool → Name → Prop)
    {e : Engine (glicol P N (parse fe))} (hr : CleanReach _ e) (τ : TableOrder) (code : Name)
    (h1 : EvalFilled code) (h2 : FactorsEvaluate fe code)
    (h3 : ∀ p, parse fe code = .ok (some p) → CleanProg (glicol P N (parse fe)) p ∧
      ∀ k comps, (k, comps) ∈ p → ∀ c ∈ comps, Buildable script e.sr c)
    (h4 : ∀ n s, (n, s) ∈ e.samples → SampleFilled s)
    (h5 : ∀ isMeta code, script isMeta code → ∃ s, P.ext.new isMeta code e.sr = .ok s) :
    ∃ e' r, e.updateWithCode τ code = .ok (e', r) := by
  obtain ⟨res, hres⟩ := c31_parser_never_panics_partial fe code h1 h2
  refine c05_update_does_not_panic_partial (glicol_parserWf P N fe) (glicol_eqLaws P N _) glicol_wiringTotal
    hr τ code res hres ?_ ?_
  · rintro new rfl
    exact (h3 new hres).1
  · rintro new k comps c p rfl hk hc
    exact makeNode_panic ((h3 new hres).2 k comps hk c hc) h4 h5

/-- **C48** (partial), for texts: the hypotheses about the parser are met. -/
theorem c48_texts_block_computes_the_program_partial {e e' : Engine (glicol P N (parse fe))} (hr : CleanReach _ e)
    (a : Ast Comp) (hast : e.ast = some a) (ho : HashOrder) (ins out : List (List Fl))
    (h : e.nextBlock ho ins = .ok (e', out)) (b : Bool)
    (hb : b = true ↔ ['~', 'i', 'n', 'p', 'u', 't'] ∈ e.index.map Prod.fst) :
    ∃ sig prev : Place → List (List Fl), out = sig .dest ∧
      ∀ p, Leads Comp.refs a b p .dest → ∃ (n : Nat) (node node' : GNode P) (bufs : List (List Fl))
        (inputs : List (Nat × List (List Fl))) (srcs : List Place),
        Sits e p n ∧ e.graph.node? n = some ⟨node, bufs⟩ ∧ (p ≠ .at ['~', 'i', 'n', 'p', 'u', 't'] 0 → prev p = bufs) ∧
        (p = .at ['~', 'i', 'n', 'p', 'u', 't'] 0 → prev p = fill ins bufs) ∧
        Sits e' p n ∧ e'.graph.node? n = some ⟨node', sig p⟩ ∧ procG P node inputs (prev p) = .ok (node', sig p) ∧
        srcs.Nodup ∧ (∀ q, q ∈ srcs ↔ Flow Comp.refs a b q p ∧ q ≠ p) ∧
        List.Forall₂ (fun inp q => Sits e q inp.1 ∧
          (inp.2 = sig q ∨ (Leads Comp.refs a b p q ∧ inp.2 = prev q))) inputs srcs := by
  obtain ⟨code, hcode⟩ := ast_from (glicol_parserWf P N fe) hr.reachable a hast
  exact c48_block_computes_the_program_partial (glicol_parserWf P N fe) (glicol_eqLaws P N _) (glicol_refLaws P N _) hr a
    hast (glicol_refWf hcode) ho ins out h b hb

/-- The text of the examples and its program. -/
def demoText : Name := c!"~a: constsig 2\no: constsig 3 >> mul ~a"

def demoTextProg : Ast Comp :=
  [(c!"~a", [.constsig (.fin 2)]), (c!"o", [.constsig (.fin 3), .mul (.ref c!"~a")])]

theorem demoText_parses (fe : Name → Option Fl) : parse fe demoText = .ok (some demoTextProg) := by kernel_rfl

theorem demoText_clean (P : Plat) (N : Nat) (fe : Name → Option Fl) :
    CleanProg (glicol P N (parse fe)) demoTextProg := by
  refine ⟨?_, show _ ∉ demoTextProg.map Prod.fst by decide⟩
  have hall : ∀ e ∈ demoTextProg, Distinct Comp.eq e.2 := by unfold Distinct; decide
  exact fun k c hm => hall (k, c) hm

/-- The text can be sent to a new engine. -/
example (fe : Name → Option Fl) : CleanReach _ (Engine.new (glicol Demo.plat 2 (parse fe)) 2) ∧
    EvalFilled demoText ∧ FactorsEvaluate fe demoText ∧
    (∀ p, parse fe demoText = .ok (some p) → CleanProg (glicol Demo.plat 2 (parse fe)) p ∧
      ∀ k comps, (k, comps) ∈ p → ∀ c ∈ comps, Buildable (fun _ _ => True) 44100 c) := by
  refine ⟨.new 2, ?_, ?_, ?_⟩
  · exact evalFilled_spec (by decide +kernel)
  · rintro t ht ⟨op, w, d, u, rfl, h, _⟩
    have hm : op ∈ demoText := ht.subset List.mem_cons_self
    rcases h with rfl | rfl <;> exact absurd hm (by decide)
  · intro p hp
    rw [demoText_parses] at hp
    cases hp
    refine ⟨demoText_clean .., ?_⟩
    intro k comps hk c hc
    simp only [demoTextProg, List.mem_cons, List.not_mem_nil, or_false, Prod.mk.injEq] at hk
    rcases hk with ⟨rfl, rfl⟩ | ⟨rfl, rfl⟩ <;>
      (simp only [List.mem_cons, List.not_mem_nil, or_false] at hc; rcases hc with rfl | rfl <;> trivial)

/-- So can a text with a pattern of notes. -/
example (fe : Name → Option Fl) : ∃ p, parse fe c!"o: psynth `0 60, 0.5 62` 1" = .ok (some p) ∧
    CleanProg (glicol Demo.plat 2 (parse fe)) p ∧
    ∀ k comps, (k, comps) ∈ p → ∀ c ∈ comps, Buildable (fun _ _ => True) 44100 c := by
  have hp : parse fe c!"o: psynth `0 60, 0.5 62` 1" = .ok (some [(c!"o", [.patternSynth c!"`0 60, 0.5 62`" (.fin 1)])]) := by
    kernel_rfl
  refine ⟨_, hp, ⟨?_, show _ ∉ [c!"o"] by decide⟩, ?_⟩
  · have hall : ∀ e ∈ [(c!"o", [Comp.patternSynth c!"`0 60, 0.5 62`" (.fin 1)])], Distinct Comp.eq e.2 := by
      unfold Distinct; decide
    exact fun k c hm => hall (k, c) hm
  · intro k comps hk c hc
    simp only [List.mem_cons, List.not_mem_nil, or_false, Prod.mk.injEq] at hk
    obtain ⟨rfl, rfl⟩ := hk
    simp only [List.mem_cons, List.not_mem_nil, or_false] at hc
    subst hc
    exact ⟨[(.fin 0, .fin 60), (.fin (1 / 2), .fin 62)], .more (t := c!"0 60") ⟨0, 0, 0, c!"0", c!"60", rfl, by decide, by decide,
      by decide, by decide, by decide, by decide, by decide +kernel, by decide +kernel⟩ (.one ⟨1, 0, 0, c!"0.5", c!"62", rfl,
        by decide, by decide, by decide, by decide, by decide, by decide, by decide +kernel, by decide +kernel⟩)⟩

/-- A block after it: the signal of `~a` is heard by the second component of `o`, whose signal is the output. -/
example (P : Plat) (fe : Name → Option Fl) : ∃ e e' : Engine (glicol P 2 (parse fe)), CleanReach _ e ∧
    e.ast = some demoTextProg ∧ ['~', 'i', 'n', 'p', 'u', 't'] ∈ e.index.map Prod.fst ∧
    e.nextBlock .ident [] = .ok (e', [[.fin 6, .fin 6], [.fin 6, .fin 6]]) ∧
    Flow Comp.refs demoTextProg true (.at c!"~a" 0) (.at c!"o" 1) ∧
    Leads Comp.refs demoTextProg true (.at c!"o" 1) .dest := by
  obtain ⟨e, ⟨e1, h1, h2⟩, e', h3⟩ : Demo.Plays P 2 (parse fe) [demoText] [] [[.fin 6, .fin 6], [.fin 6, .fin 6]] :=
    Demo.heardText_spec (by kernel_rfl)
  cases h2
  have hstep : CleanReach _ e := by
    refine .step (.update .ident demoText) (.new 2) ?_ (by simp only [Op.apply]; rw [h1]; rfl)
    intro p hp
    replace hp : parse fe demoText = .ok (some p) := hp
    rw [demoText_parses] at hp
    cases hp
    exact demoText_clean ..
  obtain ⟨e2, ⟨e3, h4, h5⟩, hi⟩ := Demo.observeText (P := P) (N := 2) (parse := parse fe) (codes := [demoText])
    (fun e => decide (['~', 'i', 'n', 'p', 'u', 't'] ∈ e.index.map Prod.fst)) (by kernel_rfl)
  cases h5
  rw [h1] at h4
  cases h4
  refine ⟨e, e', hstep, ?_, of_decide_eq_true hi, h3, ?_, ?_⟩
  · unfold Engine.updateWithCode at h1
    rw [show (glicol P 2 (parse fe)).parse demoText = .ok (some demoTextProg) from demoText_parses fe] at h1
    have hw := glicol_parserWf P 2 fe demoText demoTextProg (demoText_parses fe)
    replace h1 : Engine.updateAst .ident (Engine.new (glicol P 2 (parse fe)) 2) demoTextProg = .ok (e, none) := h1
    obtain ⟨diff, t1, gone1, t2, gone2, g3, cr, g5, ha⟩ := accepted (inv_reachable (glicol_parserWf P 2 fe) (.new 2)) hw h1
    have := ha.eq
    exact congrArg Engine.ast this
  · exact .ref (comps := [.constsig (.fin 3), .mul (.ref c!"~a")]) (r := c!"~a") (by simp [demoTextProg]) rfl
      (by simp [Comp.refs, NumRef.refs]) (.named (by decide)) (.prog (comps := [.constsig (.fin 2)]) (by simp [demoTextProg]))
  · exact .step (.out (.prog (comps := [.constsig (.fin 3), .mul (.ref c!"~a")]) (by simp [demoTextProg])) (by decide)) (.refl _)

/-! ### Texts that go wrong -/

/-- C05 fails for these texts, accepted by the parser: building the node panics. -/
theorem c05_text_panics_counterexample (P : Plat) (N : Nat) (fe : Name → Option Fl) :
    ∀ code ∈ [c!"o: reverb 0.5 0.5 0.5 0.5 0.5", c!"o: []", c!"o: sin 440 >> apfmsgain 0.001 0.5"],
      Demo.UpdatePanics P N (parse fe) (Engine.new _ N) [code] := by
  intro code hc
  simp only [List.mem_cons, List.not_mem_nil, or_false] at hc
  rcases hc with rfl | rfl | rfl <;> exact Demo.updatePanicsText_spec (by kernel_rfl)

/-- C37 fails for these texts: they are accepted, and the next block panics. -/
theorem c37_text_panics_counterexample (P : Plat) (fe : Name → Option Fl) :
    ∀ code ∈ [c!"o: pan 0.5", c!"o: delayms 100", c!"o: imp 50000", c!"~a: imp 1\no: seq ~a",
        c!"~a: pan ~a\no: get ~a", c!"o: imp -0.0"],
      Demo.PanicsAfter P 8 (parse fe) (Engine.new _ 8) [code] := by
  intro code hc
  simp only [List.mem_cons, List.not_mem_nil, or_false] at hc
  rcases hc with rfl | rfl | rfl | rfl | rfl | rfl <;> exact Demo.panicsText_spec (by kernel_rfl)

/-- C02 fails, in texts: `o: constsig 3 >> add 1 >> mul 2` plays 8, but after `o: constsig 3 >> mul 2 >> add 1` it plays 7. -/
theorem c02_text_counterexample (P : Plat) (fe : Name → Option Fl) :
    Demo.Plays P 2 (parse fe) [c!"o: constsig 3 >> add 1 >> mul 2"] [] [[.fin 8, .fin 8], [.fin 8, .fin 8]] ∧
    Demo.Plays P 2 (parse fe) [c!"o: constsig 3 >> mul 2 >> add 1", c!"o: constsig 3 >> add 1 >> mul 2"] []
      [[.fin 7, .fin 7], [.fin 7, .fin 7]] :=
  ⟨Demo.heardText_spec (by kernel_rfl), Demo.heardText_spec (by kernel_rfl)⟩

end Verif.Props
