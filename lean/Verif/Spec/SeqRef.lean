import Verif.ParseSeq
import Verif.Spec.Inputs

/-! # Sequencers that read other chains -/

namespace Verif.Spec

/-- The reference an element is, if any. -/
def elemRef : SeqElem → List Name
  | .ref r => [r]
  | _ => []

/-- A list without repetitions, each entry where it occurs first. -/
def firsts : List Name → List Name
  | [] => []
  | a :: l => a :: (firsts l).filter (fun b => decide (b ≠ a))

/-- The references of a pattern, in the order of their first occurrences. -/
def patternRefs (groups : List (List SeqElem)) : List Name := firsts (groups.flatten.flatMap elemRef)

/-- The rate at which the value `x` of a sequencer plays: silence for 0, otherwise `x` is a MIDI note number (60 plays at
the original rate). -/
def voiceOut (m : Libm) (x : Fl) : Fl :=
  if x = .fin 0 ∨ x = .nz then .fin 0 else m.powf (.fin 2) ((x -. .fin 60) /. .fin 12)

/-- What an element plays at time `t` when the referenced chains carry the streams `strm`. -/
def elemVoice (m : Libm) (strm : Name → List Fl) (t : Nat) : SeqElem → Fl
  | .ref r =>
    match (strm r)[t]? with
    | some x => voiceOut m x
    | none => .fin 0
  | e => noteOut m e

/-- A stream that carries the speed `v`: in each block of `N` samples first `v`, then 0. -/
def SpeedStream (N blocks : Nat) (v : Fl) (xs : List Fl) : Prop :=
  ∀ k, k < blocks → xs[k * N]? = some v ∧ xs[k * N + 1]? = some (.fin 0)

/-- A stream no block of which starts like one that carries a speed. -/
def NotSpeed (N blocks : Nat) (xs : List Fl) : Prop :=
  ∀ k x y, k < blocks → xs[k * N]? = some x → xs[k * N + 1]? = some y →
    ¬ (Fl.lt (.fin 0) x = true ∧ Fl.beq y (.fin 0) = true)

end Verif.Spec
