import Verif.Graph

/-! # The shared-memory ring buffer between page and audio worklet (js/npm/ringbuf.js)

One producer thread (the page, `push`) and one consumer thread (the audio worklet, `pop`) work on one
`SharedArrayBuffer`. The model is a small-step machine: one step is one `Atomics` access or the copy of
one element, and the two threads interleave arbitrarily.

Simplifications: memory is sequentially consistent (in the program every plain access is ordered by the
`Atomics` accesses around it); pointers and sizes are mathematical integers (the capacity is far below
2^32). Reading or writing outside of an array, which JavaScript answers with `undefined` resp. ignores,
is the error `Panic.indexOutOfBounds`, and is proved not to happen. `TextParameterReader.dequeue`
(lines 39-44) is `pop` after a check that changes nothing, and `TextParameterWriter.enqueue` (18-20)
is `push`. -/

namespace Verif.RingBuf

variable {α : Type}

/-- `_available_read` (js/npm/ringbuf.js:164-170). -/
def availableRead (C rd wr : Int) : Int := if wr > rd then wr - rd else wr + C - rd

/-- `_available_write` (js/npm/ringbuf.js:172-178). -/
def availableWrite (C rd wr : Int) : Int :=
  let rv := rd - wr - 1
  if wr ≥ rd then rv + C else rv

/-- `full()` (js/npm/ringbuf.js:134-139), given the pointers it loads. -/
def fullFn (C rd wr : Int) : Bool := (wr + 1) % C != rd

/-- `empty()` (js/npm/ringbuf.js:127-131), given the pointers it loads. -/
def emptyFn (rd wr : Int) : Bool := wr == rd

/-- Where the producer is inside `push` (js/npm/ringbuf.js:92-112). `wr` is the write pointer it has
loaded, `w` is `to_write`, `i` the loop variable of `_copy` (183-187). -/
inductive Prod (α : Type) where
  | idle
  /-- before `var rd = Atomics.load(this.read_ptr, 0)` (93) -/
  | start (els : List α)
  /-- before `var wr = Atomics.load(this.write_ptr, 0)` (94) -/
  | gotRd (els : List α) (rd : Int)
  /-- in the first `_copy` (102) -/
  | copy1 (els : List α) (wr w : Int) (i : Nat)
  /-- in the second `_copy` (103) -/
  | copy2 (els : List α) (wr w : Int) (i : Nat)

/-- Where the consumer is inside `pop` (js/npm/ringbuf.js:113-124). `dst` is the array `elements`
being filled, `r` is `to_read`. -/
inductive Cons (α : Type) where
  | idle
  /-- before `var rd = Atomics.load(this.read_ptr, 0)` (114) -/
  | start (dst : List α)
  /-- before `var wr = Atomics.load(this.write_ptr, 0)` (115) -/
  | gotRd (dst : List α) (rd : Int)
  /-- in the first `_copy` (120) -/
  | copy1 (dst : List α) (rd r : Int) (i : Nat)
  /-- in the second `_copy` (121) -/
  | copy2 (dst : List α) (rd r : Int) (i : Nat)

/-- The shared buffer (js/npm/ringbuf.js:81-85) and the two threads. -/
structure State (α : Type) where
  mem : List α
  wr : Int
  rd : Int
  prod : Prod α
  cons : Cons α

/-- `_storage_capacity()` (js/npm/ringbuf.js:180-182): the length of the storage. -/
def State.cap (s : State α) : Int := s.mem.length

/-- What an outside observer sees: calls and returns. -/
inductive Label (α : Type) where
  | pushCall (els : List α)
  /-- `push` returned `n` for the array `els` -/
  | pushRet (els : List α) (n : Nat)
  | popCall (dst : List α)
  /-- `pop` returned `n`, having filled the array to `out` -/
  | popRet (out : List α) (n : Nat)

/-- A fresh buffer over zeroed (here: arbitrary) memory, both pointers 0. -/
def init (mem : List α) : State α := ⟨mem, 0, 0, .idle, .idle⟩

/-- The scheduler's choices: a thread starts a call, or a thread inside a call makes a step. -/
inductive Act (α : Type) where
  | callPush (els : List α)
  | callPop (dst : List α)
  | stepProd
  | stepCons

/-- One element of `_copy` (js/npm/ringbuf.js:183-187): `output[oo + i] = input[oi + i]`. -/
def copy1 (input : List α) (oi : Int) (output : List α) (oo : Int) (i : Nat) :
    Except Panic (List α) :=
  if oi + i < 0 ∨ oo + i < 0 then .error .indexOutOfBounds
  else match input[(oi + i).toNat]? with
    | none => .error .indexOutOfBounds
    | some v =>
      if (oo + i).toNat < output.length then .ok (output.set (oo + i).toNat v)
      else .error .indexOutOfBounds

/-- One step of `push` (js/npm/ringbuf.js:92-112). The step that publishes the write pointer is also
the return. -/
def stepProd (s : State α) : Except Panic (State α × List (Label α)) :=
  match s.prod with
  | .idle => .ok (s, [])
  | .start els => .ok ({ s with prod := .gotRd els s.rd }, [])
  | .gotRd els rd =>
    let wr := s.wr
    if (wr + 1) % s.cap = rd then .ok ({ s with prod := .idle }, [.pushRet els 0])
    else .ok ({ s with prod := .copy1 els wr (min (availableWrite s.cap rd wr) els.length) 0 }, [])
  | .copy1 els wr w i =>
    let first := min (s.cap - wr) w
    if (i : Int) < first then do
      let m ← copy1 els 0 s.mem wr i
      .ok ({ s with mem := m, prod := .copy1 els wr w (i + 1) }, [])
    else .ok ({ s with prod := .copy2 els wr w 0 }, [])
  | .copy2 els wr w i =>
    let first := min (s.cap - wr) w
    let second := w - first
    if (i : Int) < second then do
      let m ← copy1 els first s.mem 0 i
      .ok ({ s with mem := m, prod := .copy2 els wr w (i + 1) }, [])
    else .ok ({ s with wr := (wr + w) % s.cap, prod := .idle }, [.pushRet els w.toNat])

/-- One step of `pop` (js/npm/ringbuf.js:113-124). -/
def stepCons (s : State α) : Except Panic (State α × List (Label α)) :=
  match s.cons with
  | .idle => .ok (s, [])
  | .start dst => .ok ({ s with cons := .gotRd dst s.rd }, [])
  | .gotRd dst rd =>
    let wr := s.wr
    if wr = rd then .ok ({ s with cons := .idle }, [.popRet dst 0])
    else .ok ({ s with cons := .copy1 dst rd (min (availableRead s.cap rd wr) dst.length) 0 }, [])
  | .copy1 dst rd r i =>
    let first := min (s.cap - rd) dst.length
    if (i : Int) < first then do
      let d ← copy1 s.mem rd dst 0 i
      .ok ({ s with cons := .copy1 d rd r (i + 1) }, [])
    else .ok ({ s with cons := .copy2 dst rd r 0 }, [])
  | .copy2 dst rd r i =>
    let first := min (s.cap - rd) dst.length
    let second := r - first
    if (i : Int) < second then do
      let d ← copy1 s.mem 0 dst first i
      .ok ({ s with cons := .copy2 d rd r (i + 1) }, [])
    else .ok ({ s with rd := (rd + r) % s.cap, cons := .idle }, [.popRet dst r.toNat])

/-- One step of the system: each thread works on one call at a time. -/
def step (s : State α) : Act α → Except Panic (State α × List (Label α))
  | .callPush els => match s.prod with
    | .idle => .ok ({ s with prod := .start els }, [.pushCall els])
    | _ => .ok (s, [])
  | .callPop dst => match s.cons with
    | .idle => .ok ({ s with cons := .start dst }, [.popCall dst])
    | _ => .ok (s, [])
  | .stepProd => stepProd s
  | .stepCons => stepCons s

/-- Run a schedule; the trace is in order of time. -/
def run (s : State α) : List (Act α) → Except Panic (State α × List (Label α))
  | [] => .ok (s, [])
  | a :: as => do
    let (s1, l1) ← step s a
    let (s2, l2) ← run s1 as
    .ok (s2, l1 ++ l2)

end Verif.RingBuf
