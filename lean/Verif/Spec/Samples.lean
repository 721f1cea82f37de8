import Verif.Ast

/-! # The samples a program names -/

namespace Verif.Spec

/-- The name of the sample that an event of a pattern asks for; a number asks for the empty name, which the
parser never produces. -/
def eventSample : EventValue → Name
  | .sym s => s
  | .num _ => []

/-- The samples that a component asks for. -/
def Comp.samples : Comp → List Name
  | .sp s => [s]
  | .psampler e _ => e.map (fun x => eventSample x.1)
  | _ => []

/-- The program asks for the sample. -/
def AsksFor (p : Ast Comp) (s : Name) : Prop :=
  ∃ k comps c, (k, comps) ∈ p ∧ c ∈ comps ∧ s ∈ Comp.samples c

end Verif.Spec
