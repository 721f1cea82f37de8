import Verif.Spec.Live

/-!
# The all-pass filter, changed and modulated
-/

namespace Verif.Spec

/-- `y[t] = -g[t] x[t] + x[t-d] + g[t] y[t-d]` with a gain `g` that changes. -/
def AllPassByEq (g : Nat → Fl) (d : Nat) (xs ys : List Fl) : Prop :=
  ys.length = xs.length ∧ ∀ t, t < xs.length → ys[t]? = some
    (Fl.neg (g t) *. before xs t 0 +. before xs t d +. g t *. before ys t d)

/-- A value between the samples `d` and `d - 1` before, `w` of the former. -/
def mixedAt (xs : List Fl) (t d : Nat) (w : Fl) : Fl := before xs t d *. w +. before xs t (d - 1) *. (.fin 1 -. w)

/-- The all-pass filter with a delay of `ms[t]` milliseconds at `sr` samples in a second: at every time
`y[t] = -g x[t] + x[t-D] + g y[t-D]`, where the samples `D` before are taken from the two samples `d` and `d - 1` before, with
`d - w`, up to rounding, the delay in samples. The sample `d` before has the weight `w`, as in the code: a line drawn between the two
samples would give it `1 - w`. -/
def AllPassModEq (sr : Nat) (g : Fl) (ms xs ys : List Fl) : Prop :=
  ys.length = xs.length ∧ ∀ t, t < xs.length → ∃ (d : Nat) (w : Fl),
    |(d : ℚ) - w.val - (before ms t 0).val * sr / 1000| ≤ sr / 2 ^ 20 ∧ w.isFinite = true ∧ 0 ≤ w.val ∧ w.val ≤ 1 ∧
    ys[t]? = some (Fl.neg g *. before xs t 0 +. mixedAt xs t d w +. g *. mixedAt ys t d w)

end Verif.Spec
