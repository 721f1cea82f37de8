import Verif.Spec.Text
import Verif.Spec.Compose

/-!
# Evaluating several blocks of a text

Not a model of anything in /repo: as `Verif/Spec/Text.lean`, for more than one block.
-/

namespace Verif.Demo
open Spec

variable {P : Plat} {N : Nat} {parse : Name → Except Panic (Option (Ast Comp))}

/-- The blocks requested one after the other, if none panics. -/
def playFuel : List (HashOrder × List Buf) → Engine (glicol P N parse) → Option (Engine (glicol P N parse) × List (List Buf))
  | [], e => some (e, [])
  | (ho, ins) :: steps, e =>
    match nextBlockFuel 1000 ho e ins with
    | some (.ok (e1, out)) =>
      match playFuel steps e1 with
      | some (e2, outs) => some (e2, out :: outs)
      | none => none
    | _ => none

theorem playFuel_spec {steps : List (HashOrder × List Buf)} {e e' : Engine (glicol P N parse)} {outs : List (List Buf)}
    (h : playFuel steps e = some (e', outs)) : Spec.Plays e steps e' outs := by
  induction steps generalizing e outs with
  | nil => cases h; exact .nil _
  | cons s steps ih =>
    obtain ⟨ho, ins⟩ := s
    unfold playFuel at h
    split at h
    · rename_i e1 out hb
      split at h
      · rename_i e2 outs' hr
        cases h
        exact .cons (nextBlockFuel_spec hb) (ih hr)
      · cases h
    · cases h

/-- Whether the text is accepted by a new engine, which then plays `outs` and has an input. -/
def playsText (P : Plat) (N : Nat) (parse : Name → Except Panic (Option (Ast Comp))) (code : Name)
    (steps : List (HashOrder × List Buf)) (outs : List (List Buf)) : Bool :=
  match (Engine.new (glicol P N parse) N).updateWithCode .ident code with
  | .ok (e, none) =>
    decide (['~', 'i', 'n', 'p', 'u', 't'] ∈ e.index.map Prod.fst) &&
    match playFuel steps e with
    | some (_, o) => decide (o = outs)
    | none => false
  | _ => false

theorem playsText_spec {code : Name} {steps : List (HashOrder × List Buf)} {outs : List (List Buf)}
    (h : playsText P N parse code steps outs = true) :
    ∃ e1 e2, (Engine.new (glicol P N parse) N).updateWithCode .ident code = .ok (e1, none) ∧ Spec.Plays e1 steps e2 outs ∧
      ['~', 'i', 'n', 'p', 'u', 't'] ∈ e1.index.map Prod.fst := by
  unfold playsText at h
  split at h
  · rename_i e he
    rw [Bool.and_eq_true, decide_eq_true_eq] at h
    obtain ⟨hi, h⟩ := h
    split at h
    · rename_i e2 o ho
      rw [decide_eq_true_eq] at h
      subst h
      exact ⟨e, e2, he, playFuel_spec ho, hi⟩
    · cases h
  · cases h

end Verif.Demo
