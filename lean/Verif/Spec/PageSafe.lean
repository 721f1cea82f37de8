import Verif.Spec.PagePlay
import Verif.Spec.Safe
import Verif.Spec.Build
import Verif.Spec.Parser

/-! # Messages that do not break the page (C76) -/

namespace Verif.Spec.PagePlay
open Verif Verif.PagePlay Spec

variable {P : Plat} {parse : Name → Except Panic (Option (Ast Comp))}

/-- The message can be handed to the engine `e`: a text meets the conditions under which the parser does not panic (C31), and if it is a
program, this is safe for the engine (C37) and its nodes can be built (C05); a tempo is usual. Any sample, seed and amplitude is allowed. -/
def Gentle (fe : Name → Option Fl) (built : Bool → Name → Prop) (script : Bool → Name → Bool → Prop) (e : Engine (glicol P 128 parse)) :
    Post (glicol P 128 parse) → Prop
  | .run code => EvalFilled code ∧ FactorsEvaluate fe code ∧
      ∀ p, parse code = .ok (some p) → SafeProg script e p ∧ ∀ k comps, (k, comps) ∈ p → ∀ c ∈ comps, Buildable built e.sr c
  | .bpm v => TempoOk v
  | _ => True

/-- Every message that is taken in the schedule can be handed to the engine that takes it. -/
def AllGentle (fe : Name → Option Fl) (built : Bool → Name → Prop) (script : Bool → Name → Bool → Prop) (rate : Nat)
    (parseMsg : Name → List Nat) : Sys (glicol P 128 parse) → List (Do (glicol P 128 parse)) → Prop
  | _, [] => True
  | s, .take τ :: ds => (∀ m ms e b, s = ⟨m :: ms, some e, b⟩ → Gentle fe built script e m) ∧
      AllGentle fe built script rate parseMsg (step rate parseMsg s (.take τ)).1 ds
  | s, d :: ds => AllGentle fe built script rate parseMsg (step rate parseMsg s d).1 ds

end Verif.Spec.PagePlay
