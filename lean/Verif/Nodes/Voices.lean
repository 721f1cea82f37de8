import Verif.Nodes.Synth

/-! # The two lists of voices

`Nodes/Synth` keeps a voice as one record. This is the loop as written, over the list of starts and frequencies and the
list of phases; `Props/Voices` proves that both agree. -/

namespace Verif

/-- The loop over the zipped lists (rs/synth/src/node/synth/msgsynth.rs:96-136, pattern_synth.rs:79-119): the new phases,
the indices to remove, the output. -/
def rawVoices (amp : Nat → Fl) (dur sr step : Nat) : Nat → List (Nat × Fl) → List Fl → Fl → List Fl × List Nat × Fl
  | i, s :: ss, p :: ps, out =>
    if step - s.1 ≤ dur then
      let q := p +. s.2 /. Fl.ofNat f32 sr
      let r := rawVoices amp dur sr step (i + 1) ss ps
        (out +. amp (step - s.1) *. (p *. .fin 2 -. .fin 1) *. Fl.lit f32 (1 / 10))
      ((if Fl.lt (.fin 1) q then q -. .fin 1 else q) :: r.1, r.2.1, r.2.2)
    else
      let r := rawVoices amp dur sr step (i + 1) ss ps out
      (p :: r.1, i :: r.2.1, r.2.2)
  | _, _, ps, out => (ps, [], out)

/-- `Vec::remove`. -/
def vecRemove {α : Type} (l : List α) (i : Nat) : Except Panic (List α) :=
  if i < l.length then .ok (l.eraseIdx i) else .error .indexOutOfBounds

/-- `for c in to_remove.iter().rev()` (rs/synth/src/node/synth/msgsynth.rs:137-140, pattern_synth.rs:120-123): the last
index first. -/
def removeVoices : List Nat → List (Nat × Fl) × List Fl → Except Panic (List (Nat × Fl) × List Fl)
  | [], l => .ok l
  | i :: is, l => do
    let r ← removeVoices is l
    let a ← vecRemove r.1 i
    let b ← vecRemove r.2 i
    .ok (a, b)

/-- Both loops (rs/synth/src/node/synth/msgsynth.rs:96-140, pattern_synth.rs:79-123). -/
def rawStep (amp : Nat → Fl) (dur sr step : Nat) (l : List (Nat × Fl) × List Fl) :
    Except Panic ((List (Nat × Fl) × List Fl) × Fl) := do
  let r := rawVoices amp dur sr step 0 l.1 l.2 (.fin 0)
  let l' ← removeVoices r.2.1 (l.1, r.1)
  .ok (l', r.2.2)

end Verif
