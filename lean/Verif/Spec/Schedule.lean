import Verif.Graph

/-! Specification vocabulary for block scheduling (C09-C11), independent of the traversal. -/

namespace Verif.Spec

/-- There is a path (possibly empty) along the edges from `a` to `b`: the signal of `a`
reaches `b`. -/
inductive Feeds (E : List (Nat × Nat)) : Nat → Nat → Prop
  | refl (a : Nat) : Feeds E a a
  | step {a b c : Nat} : (a, b) ∈ E → Feeds E b c → Feeds E a c

/-- Every edge connects live nodes. -/
def EdgesLive {α : Type} (g : Graph α) : Prop :=
  ∀ e, e ∈ g.edges → (∃ x, g.node? e.1 = some x) ∧ (∃ y, g.node? e.2 = some y)

/-- `inputs` holds exactly one entry for each distinct source of `n` other than `n`. -/
def InputsOf {β : Type} (E : List (Nat × Nat)) (n : Nat) (inputs : List (Nat × List β)) : Prop :=
  (inputs.map Prod.fst).Nodup ∧
  ∀ k, k ∈ inputs.map Prod.fst ↔ ((k, n) ∈ E ∧ k ≠ n)

/-- `x` occurs before `y` in `l`. -/
def Before (l : List Nat) (x y : Nat) : Prop := ∃ l1 l2 l3, l = l1 ++ x :: l2 ++ y :: l3

end Verif.Spec
