import Verif.Spec.Untouched

/-!
# What a place plays and hears in one block

The vocabulary of the theorems about a block rendered at any time.
-/

namespace Verif.Spec

variable {L : Lang}

/-- The place `p` holds the block `x`. -/
def Holds (e : Engine L) (p : Place) (x : List (List L.Num)) : Prop :=
  ∃ n node, Sits e p n ∧ e.graph.node? n = some ⟨node, x⟩

/-- What the place `p` hears of the place `q` in the block that turns the engine `e` into `e'`: the block that `q` plays at
the same time. If `q` itself depends on `p` (feedback), it may be the block that `q` played before. -/
def HeardOf (a : Ast L.Comp) (b : Bool) (e e' : Engine L) (p q : Place) (x : List (List L.Num)) : Prop :=
  Holds e' q x ∨ (Leads L.refs a b p q ∧ Holds e q x)

end Verif.Spec
