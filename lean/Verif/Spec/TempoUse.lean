import Verif.Make
import Verif.Spec.TrackAmp

/-! # What the tempo is for (C82) -/

namespace Verif.Spec.TempoUse
open Verif Spec

/-- The components that count in bars: sequences, arrangements, patterns of samples, of breakpoints and of cutoff frequencies. -/
def Timed : Comp → Prop
  | .seq _ | .arrange _ | .psampler .. | .points .. | .lpf (.pattern ..) _ => True
  | _ => False

/-- The calls without those that set the tempo. -/
def withoutTempo {L : Lang} (ops : List (Op L)) : List (Op L) :=
  ops.filter (fun op => match op with | .setBpm _ => false | _ => true)

/-- No program among the calls has a component that counts in bars. -/
def Untimed {P : Plat} {N : Nat} {parse : Name → Except Panic (Option (Ast Comp))} (ops : List (Op (glicol P N parse))) : Prop :=
  ∀ τ code p, Op.update τ code ∈ ops → parse code = .ok (some p) → ∀ k comps, (k, comps) ∈ p → ∀ c ∈ comps, ¬ Timed c

end Verif.Spec.TempoUse
