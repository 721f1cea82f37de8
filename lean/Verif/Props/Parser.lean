import Verif.Lemmas.Written
import Verif.Spec.Engine
import Verif.Lemmas.KernelRfl
import Verif.Spec.Demo

/-!
# The parser

`fe` stands for the library `fasteval` that computes the factor after a list of points; it is arbitrary.
-/

namespace Verif.Props
open Parse Spec

/-- C31, partial: the parser does not panic on a text in which every `eval` has at least two characters between
its backticks and every factor after a list of points can be evaluated. Missing: the other texts, where it does
panic. -/
theorem c31_parser_never_panics_partial (fe : Name → Option Fl) (code : Name) (he : EvalFilled code)
    (hf : FactorsEvaluate fe code) : ∃ r : Option (Ast Comp), parse fe code = .ok r := by
  have h := never_getAst hf he
  unfold parse
  cases hg : getAst fe code with
  | ok a => exact ⟨_, rfl⟩
  | error e =>
    cases e with
    | err => exact ⟨_, rfl⟩
    | panic q => exact absurd hg (h q)

/-- C31 fails: ``o: eval `` `` (nothing to evaluate), ``o: eval `x` `` and a factor with a comma in it, which
`fasteval` does not accept. -/
theorem c31_parser_panics_counterexample :
    (∀ fe, parse fe c!"o: eval ``" = .error .underflow) ∧ (∀ fe, parse fe c!"o: eval `x`" = .error .badSlice) ∧
      (∀ fe, fe c!"1*,2" = none → parse fe c!"o: [0=>1]*,2" = .error .missing) := by
  refine ⟨fun fe => by kernel_rfl, fun fe => by kernel_rfl, ?_⟩
  intro fe h
  have hfe : fe = fun t => if t = c!"1*,2" then none else fe t := by
    funext t
    split
    · rename_i e; rw [e, h]
    · rfl
  rw [hfe]
  kernel_rfl

/-- Decides `EvalFilled`. -/
def evalFilled : Name → Bool
  | [] => true
  | c :: cs =>
    evalFilled cs &&
    match Peg.lit c!"eval" (c :: cs) with
    | none => true
    | some (_, _, t) =>
      match t.dropWhile (fun c => c == ' ' || c == ',' || c == '|' || c == '\t' || c == '\n') with
      | '`' :: a :: b :: _ => a != '`' && b != '`'
      | '`' :: _ => false
      | _ => true

theorem evalFilled_spec : ∀ {code : Name}, evalFilled code = true → EvalFilled code := by
  intro code
  induction code with
  | nil =>
    intro _ pre w post h _ _
    have := congrArg List.length h
    simp at this
  | cons c cs ih =>
    intro hc pre w post h hw hs
    simp only [evalFilled, Bool.and_eq_true] at hc
    cases pre with
    | cons d pre =>
      simp only [List.cons_append, List.cons.injEq] at h
      exact ih hc.1 pre w post (by simpa using h.2) hw hs
    | nil =>
      have h' : c :: cs = c!"eval" ++ (w ++ '`' :: post) := by simpa using h
      have h2 := hc.2
      rw [h', Peg.lit_append] at h2
      have h3 : (w ++ '`' :: post).dropWhile
          (fun c => c == ' ' || c == ',' || c == '|' || c == '\t' || c == '\n') = '`' :: post := by
        rw [List.dropWhile_append_of_pos]
        · rfl
        · intro x hx
          rcases hs x hx with rfl | rfl | rfl | rfl | rfl <;> decide
      simp only [h3] at h2
      match post, h2 with
      | a :: b :: rest, h2 =>
        simp only [Bool.and_eq_true, bne_iff_ne, ne_eq] at h2
        exact ⟨a, b, rest, rfl, h2.1, h2.2⟩
      | [_], h2 => simp at h2
      | [], h2 => simp at h2

/-- A text with an `eval` and a factor that meets the hypotheses of `c31_parser_never_panics_partial`. -/
example : ∃ fe : Name → Option Fl, EvalFilled c!"o: eval `(x)` >> mul 2;~a: [0=>1]*2" ∧
    FactorsEvaluate fe c!"o: eval `(x)` >> mul 2;~a: [0=>1]*2" ∧ fe c!"1*,2" = none := by
  refine ⟨fun t => if ',' ∈ t then none else some (.fin 1), evalFilled_spec (by decide +kernel), ?_, by decide⟩
  intro t ht _
  have : ',' ∉ '1' :: t := by
    intro hm
    rcases List.mem_cons.mp hm with hm | hm
    · exact absurd hm (by decide)
    · exact absurd (ht.subset hm) (by decide +kernel)
  simp [this]

/-- C33: an accepted program consists of chains with distinct written names and at least one component each. -/
theorem c33_accepted_programs_are_well_formed (fe : Name → Option Fl) (code : Name) (p : Ast Comp)
    (h : parse fe code = .ok (some p)) :
    (p.map Prod.fst).Nodup ∧ ∀ k comps, (k, comps) ∈ p → WrittenName k ∧ comps ≠ [] ∧
      ∀ c ∈ comps, ∀ r ∈ c.refs, WrittenName r := by
  have hg : getAst fe code = .ok p := by
    unfold parse at h
    split at h
    · cases h; assumption
    · cases h
    · cases h
  obtain ⟨ls, lines, h1, h2, rfl⟩ := getAst_ok hg
  refine ⟨putAll_nodup (by simp), ?_⟩
  intro k comps hm
  rcases mem_putAll hm with hm | hm
  · obtain ⟨l, hl, h3⟩ := mem_forall₂_right h2 hm
    obtain ⟨r, ch, rest, h4, h5, h6, rfl, h7⟩ := lineOf_ok h3
    have ha := (h1 l hl).1
    have hr := ha.inside r (by rw [h4]; simp)
    have hc := ha.inside ch (by rw [h4]; simp)
    refine ⟨written_ref hr h5, ?_, ?_⟩
    · rintro rfl
      obtain ⟨r', t', l'⟩ := ch
      cases h6
      exact hc.here (List.forall₂_nil_right_iff.mp h7)
    · intro c hcm n hn
      obtain ⟨pn, hpn, h8⟩ := mem_forall₂_right h7 hcm
      exact nodeOf_refs (hc.inside pn hpn) h8 n hn
  · cases hm

/-- C33, the rest: the program an accepted text gives holds, for every name, the last definition of that name in
the text. -/
theorem c33_last_definition_in_force (fe : Name → Option Fl) (code : Name) (p : Ast Comp)
    (h : parse fe code = .ok (some p)) : Verif.InForce (parse fe) code p := by
  refine getAst_inForce ?_
  unfold parse at h
  split at h
  · cases h; assumption
  · cases h
  · cases h

/-- Two definitions of `o`. -/
example : ∀ fe, parse fe c!"o: sin 440; ~a: mul 2\no: saw 220" =
    .ok (some [(c!"o", [.saw (.num (.fin 220))]), (c!"~a", [.mul (.num (.fin 2))])]) := fun fe => by kernel_rfl

end Verif.Props
