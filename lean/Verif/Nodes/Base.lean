import Verif.Fl
import Verif.Engine

/-!
# Shared parts of the node models

Signal buffers are lists of `Fl`. `Buffer<N>` (rs/synth/src/buffer.rs:28-30) has `N` samples by its
type; the models take `N` from the lists they are given (the engine only ever hands out buffers of
`N` samples). Loops over the samples of a block are written as `run` or
`runM`: one step per sample, the state carried along.
-/

namespace Verif

/-- One channel of one block: `Buffer<N>` (rs/synth/src/buffer.rs:28-30). -/
abbrev Buf := List Fl

/-- `HashMap<usize, Input<N>>` in iteration order (rs/synth/src/node/mod.rs:50). -/
abbrev Ins := List (Nat × List Buf)

/-- What the modelled code takes from the Rust standard library and from `dasp_signal` without a
model: `f32::sin`, `cos`, `exp`, `powf`, `sqrt`, and the `k`-th value (an f64) of
`dasp_signal::noise(seed)` (rs/synth/src/node/signal/noise.rs:14). `checked` tells whether integer overflow
panics (debug builds) or wraps around (release builds); only the breakpoint node, which always
underflows, distinguishes the two, the other models always panic. -/
structure Libm where
  sin : Fl → Fl
  cos : Fl → Fl
  exp : Fl → Fl
  powf : Fl → Fl → Fl
  sqrt : Fl → Fl
  noise : Nat → Nat → Fl
  checked : Bool

/-- A loop over samples: the state after the last one and the outputs. -/
def run {σ ι ο : Type} (f : σ → ι → σ × ο) : σ → List ι → σ × List ο
  | s, [] => (s, [])
  | s, x :: xs =>
    let r := f s x
    let q := run f r.1 xs
    (q.1, r.2 :: q.2)

/-- A loop over samples whose body may panic. -/
def runM {σ ι ο : Type} (f : σ → ι → Except Panic (σ × ο)) : σ → List ι →
    Except Panic (σ × List ο)
  | s, [] => .ok (s, [])
  | s, x :: xs =>
    match f s x with
    | .error e => .error e
    | .ok r =>
      match runM f r.1 xs with
      | .error e => .error e
      | .ok q => .ok (q.1, r.2 :: q.2)

/-- `bufs[k]` (slice indexing). -/
def chan (bs : List Buf) (k : Nat) : Except Panic Buf :=
  match bs[k]? with
  | some b => .ok b
  | none => .error .indexOutOfBounds

/-- `&inputs[&input_order[k]]`, e.g. rs/synth/src/node/operator/mod.rs:33. -/
def inputAt (ins : Ins) (order : List Nat) (k : Nat) : Except Panic (List Buf) :=
  match order[k]? with
  | none => .error .indexOutOfBounds
  | some i =>
    match ins.find? (fun e => e.1 == i) with
    | some e => .ok e.2
    | none => .error .missing

/-- The handling of `Index`, `IndexOrder` and (if `resets`) `ResetOrder` that the nodes share, e.g.
rs/synth/src/node/operator/mul.rs:35-39: `push`, `insert` (panics beyond the end), `clear`. -/
def orderMsg (resets : Bool) (order : List Nat) : Msg Fl → Except Panic (List Nat)
  | .index i => .ok (order ++ [i])
  | .indexOrder pos i =>
    if pos ≤ order.length then .ok (order.insertIdx pos i) else .error .insertOutOfBounds
  | .resetOrder => .ok (if resets then [] else order)
  | _ => .ok order

/-- `usize` addition: panics past the largest value (release builds wrap around). -/
def usizeAdd (a b : Nat) : Except Panic Nat :=
  if a + b < 2 ^ 64 then .ok (a + b) else .error .overflow

/-- `std::f32::consts::PI`. -/
def flPi : Fl := .fin (13176795 / 4194304)

/-- `silence()` (rs/synth/src/buffer.rs:38-40). -/
def silent (b : Buf) : Buf := b.map (fun _ => .fin 0)

/-- `dasp_ring_buffer::Fixed<Vec<f32>>`. -/
structure Ring where
  data : List Fl
  first : Nat
  deriving Repr, DecidableEq

namespace Ring

/-- `Fixed::from(vec)`: panics if the vector is empty. -/
def from' (data : List Fl) : Except Panic Ring :=
  if data = [] then .error .emptyRing else .ok ⟨data, 0⟩

/-- `Fixed::len`. -/
def len (r : Ring) : Nat := r.data.length

/-- `Fixed::push`: puts `x` in the place of the oldest sample, which is returned. (The real code
does not check the bound; it is never violated, see `Ring.Wf`.) -/
def push (r : Ring) (x : Fl) : Except Panic (Ring × Fl) :=
  match r.data[r.first]? with
  | none => .error .indexOutOfBounds
  | some old =>
    .ok (⟨r.data.set r.first x, if r.first + 1 = r.data.length then 0 else r.first + 1⟩, old)

/-- `Fixed::get`: the `k`-th oldest sample, wrapping around. -/
def get (r : Ring) (k : Nat) : Except Panic Fl :=
  if r.data.length = 0 then .error .divByZero
  else
    match r.data[(r.first + k) % r.data.length]? with
    | none => .error .indexOutOfBounds
    | some x => .ok x

/-- `Fixed::set_first`. -/
def setFirst (r : Ring) (k : Nat) : Except Panic Ring :=
  if r.data.length = 0 then .error .divByZero else .ok { r with first := k % r.data.length }

end Ring

end Verif
