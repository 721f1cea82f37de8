import Verif.Spec.Nodes

/-!
# Panning (C72)

A signal is placed between the two sides so that its power stays the same.
-/

namespace Verif.Spec

/-- What is used of the square root of f32 numbers from 0 to 1: it is again between 0 and 1, up to the rounding of its result its square is the number, and the
root of 1 is 1. (A square root that is rounded to the nearest f32 number satisfies this.) -/
def SqrtClose (m : Libm) : Prop := ∀ x, Within 0 1 x → x.Ok f32 →
  Within 0 1 (m.sqrt x) ∧ |(m.sqrt x).val ^ 2 - x.val| ≤ x.val / 2 ^ 22 ∧ (x.val = 1 → (m.sqrt x).val = 1)

/-- The two sides `l` and `r` of the signal `x` at position `p`, from -1 (left) to 1 (right): the factors are the square roots of `(1 - p) / 2` and `(1 + p) / 2`,
so that the power is that of the signal. -/
structure Panned (p : ℚ) (x l r : Fl) : Prop where
  finite : l.isFinite = true ∧ r.isFinite = true
  factors : ∃ g h : ℚ, 0 ≤ g ∧ 0 ≤ h ∧ |g ^ 2 - (1 - p) / 2| ≤ 1 / 2 ^ 20 ∧ |h ^ 2 - (1 + p) / 2| ≤ 1 / 2 ^ 20 ∧
    |l.val - g * x.val| ≤ |x.val| / 2 ^ 24 + 1 / 2 ^ 150 ∧ |r.val - h * x.val| ≤ |x.val| / 2 ^ 24 + 1 / 2 ^ 150
  power : |l.val ^ 2 + r.val ^ 2 - x.val ^ 2| ≤ x.val ^ 2 / 2 ^ 18 + (|x.val| + 1) / 2 ^ 140
  left : p = -1 → l.val = x.val ∧ r.val = 0
  right : p = 1 → l.val = 0 ∧ r.val = x.val
  middle : p = 0 → l = r

/-- The nearest value from -1 to 1. -/
def limited : Fl → Fl
  | .fin q => .fin (max (-1) (min q 1))
  | .inf neg => .fin (if neg then -1 else 1)
  | v => v

end Verif.Spec
