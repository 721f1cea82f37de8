import Verif.Spec.AnyTime

/-! # Histories that keep the input (C81) -/

namespace Verif.Spec

variable {L : Lang}

/-- A call that does not re-order the surviving components of the chains `ks`, sends no program with repeated components or with a chain
`~input`, and is no `reset` (which loses `~input`, C12). -/
def Undisturbed (ks : List Name) (e : Engine L) (op : Op L) : Prop := SteadyOn ks e op ∧ op ≠ .reset

end Verif.Spec
