import Verif.Lemmas.Rel

/-! Loops that count. -/

namespace Verif
open Spec

/-- One sample of a loop that counts. -/
def countStep (g : Nat → Except Panic Fl) (k : Nat) (_ : Unit) : Except Panic (Nat × Fl) :=
  (g k).map (fun v => (k + 1, v))

/-- A loop that counts. -/
theorem runM_count (g : Nat → Except Panic Fl) (h : Nat → Fl) (k n : Nat)
    (hg : ∀ j, k ≤ j → j < k + n → g j = .ok (h j)) :
    runM (countStep g) k (List.replicate n ()) = .ok (k + n, (List.range n).map (fun j => h (k + j))) := by
  induction n generalizing k with
  | zero => rfl
  | succ n ih =>
    have := ih (k + 1) (fun j h1 h2 => hg j (by omega) (by omega))
    rw [List.replicate_succ]
    simp only [runM, countStep, hg k (le_refl _) (by omega), Except.map, this]
    simp only [Except.ok.injEq, Prod.mk.injEq]
    refine ⟨by omega, ?_⟩
    rw [List.range_succ_eq_map]
    simp [List.map_map, Function.comp_def, Nat.add_assoc, Nat.add_comm 1]

end Verif
