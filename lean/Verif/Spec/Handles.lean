import Verif.Handles

/-! # Vocabulary for C79: a number stands for its object as long as the program holds it -/

namespace Verif.Handles

variable {α : Type}

/-- The history of a program which only gives up or copies what it holds. `Story k acts t held peak`: the
calls `acts` have been made from the table `k` on, the table is now `t`, the program holds the numbers
`held`, each standing for the object beside it, and it never held more than `peak` at once. A number which
the program gets is whatever the table returned. -/
inductive Story (k : Tab α) : List (Act α) → Tab α → List (Nat × α) → Nat → Prop
  | start : Story k [] k [] 0
  | add {acts t held peak o i t'} : Story k acts t held peak → act t (.add o) = some (some i, t') →
      Story k (acts ++ [.add o]) t' ((i, o) :: held) (max peak (held.length + 1))
  | clone {acts t held peak i o j t'} : Story k acts t held peak → (i, o) ∈ held →
      act t (.clone i) = some (some j, t') →
      Story k (acts ++ [.clone i]) t' ((j, o) :: held) (max peak (held.length + 1))
  | drop {acts t l₁ l₂ peak i o t'} : Story k acts t (l₁ ++ (i, o) :: l₂) peak →
      act t (.drop i) = some (none, t') → Story k (acts ++ [.drop i]) t' (l₁ ++ l₂) peak

end Verif.Handles
