import Verif.Spec.Nodes
import Mathlib.Analysis.SpecialFunctions.Trigonometric.Bounds

/-!
# The frequency of an oscillator (C75)

An oscillator that is given the frequency `f` goes through `f` periods in a second, that is through `f / sr` of a period from one
sample to the next.
-/

namespace Verif.Spec.Freq
open Verif

/-- The periods gone through before sample `t`, when `fs` are the frequencies at the samples. -/
def turns (sr : Nat) (fs : List Fl) (t : Nat) : ℚ := ((fs.take t).map Fl.val).sum / sr

/-- The three waves over one period. -/
inductive Shape where
  | saw
  | squ
  | tri

/-- The value of the wave after the part `p` of a period: a rising line, a high and a low half, a falling and a rising line. -/
def Shape.exact : Shape → ℚ → ℚ
  | .saw, p => 2 * p - 1
  | .squ, p => if p ≤ 1 / 2 then 1 else -1
  | .tri, p => if p ≤ 1 / 2 then 1 - 4 * p else 4 * p - 3

/-- The stream `ys` is the wave `w` at the frequencies `fs`: sample `t` is the wave after `k` periods and the part `p` of a period,
where the rounding of the numbers may have moved it by `2^-23` of a period per sample (at 44100 samples per second, 1/190 of a period
per second). -/
def RunsAt (w : Shape) (sr : Nat) (fs ys : List Fl) : Prop :=
  ys.length = fs.length ∧ ∀ t y, ys[t]? = some y → ∃ (k : Nat) (p : ℚ), 0 ≤ p ∧ p ≤ 1 ∧
    |k + p - turns sr fs t| ≤ t / 2 ^ 23 ∧ y.isFinite = true ∧ |y.val - w.exact p| ≤ 1 / 2 ^ 21

/-- The stream `ys` is a sine at the frequencies `fs`, up to `δ` and the same drift. -/
def Sine (δ : ℝ) (sr : Nat) (fs ys : List Fl) : Prop :=
  ys.length = fs.length ∧ ∀ t y, ys[t]? = some y → y.isFinite = true ∧
    |(y.val : ℝ) - Real.sin (2 * Real.pi * (turns sr fs t : ℚ))| ≤ δ + (t + 1) / 2 ^ 20

/-- What is used of the sine of the platform: from 0 to 7 it is within `δ` of the sine. -/
def SinClose (m : Libm) (δ : ℝ) : Prop := ∀ x, Within 0 7 x →
  (m.sin x).isFinite = true ∧ |((m.sin x).val : ℝ) - Real.sin (x.val : ℝ)| ≤ δ

/-- The frequencies that remain when zeros do not count: a zero repeats the last frequency other than zero, `f` before the first. -/
def held (f : Fl) : List Fl → List Fl
  | [] => []
  | x :: xs => if x.isZero then f :: held f xs else x :: held x xs

end Verif.Spec.Freq
