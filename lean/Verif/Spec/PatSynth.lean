import Verif.Spec.PatText
import Verif.Spec.Voices

/-! # Patterns of notes -/

namespace Verif.Spec

/-- `m` asks for another pattern. -/
def PatternMsg (m : Msg Fl) (es : List (Fl × Fl)) : Prop := ∃ text, m = .setToSymbol 0 text ∧ PatternText text es

/-- The pattern in force at time `u`, if first `es` is in force and `changes[k]` are asked for before block `k`. -/
def patternAt (N : Nat) (es : List (Fl × Fl)) (changes : List (List (List (Fl × Fl)))) (u : Nat) : List (Fl × Fl) :=
  ((changes.take (u / N + 1)).flatten.getLast?).getD es

/-- The notes that start at time `u`: those of the pattern in force whose place is `u` in a cycle of two seconds. -/
def patternStarts (m : Libm) (sr : Nat) (place : Fl → Nat) (pattern : Nat → List (Fl × Fl)) (u : Nat) : List Fl :=
  ((pattern u).filter (fun e => decide (u % (2 * sr) = place e.1))).map (fun e => noteFreq m e.2)

/-- The envelope of a note: it rises from 0 in proportion to the time since its start for `a` samples, the time `att`, and
then falls in proportion to the time left, to 0 after `dur` samples; `dec` is the time of the fall. -/
def RisesAndFalls (sr : Nat) (att dec : ℚ) (a dur : Nat) (amp : Nat → Fl) : Prop :=
  (∀ i, i ≤ a → (amp i).isFinite = true ∧ |(amp i).val - i / (att * sr)| ≤ i / (att * sr) / 2 ^ 20) ∧
  ∀ i, a < i → i ≤ dur → (amp i).isFinite = true ∧ |(amp i).val - (dur - i) / (dec * sr)| ≤ (dur - i) / (dec * sr) / 2 ^ 20

end Verif.Spec
