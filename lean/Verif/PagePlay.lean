import Verif.Wasm

/-! # The page plays (js/src/glicol-engine.js, js/src/utils.js, js/src/glicol.js, rs/wasm/src/lib.rs)

The page posts messages to the audio worklet, which takes them one after the other between two calls of `process`; in `process`, once
for every 128 samples, the worklet asks the wasm module for a block and copies it to the two channels of its output.

The wasm module keeps one engine in a `Mutex` (rs/wasm/src/lib.rs:9-15). It is compiled with `panic = 'abort'` (rs/Cargo.toml:38): a
panic is a trap, nothing is unwound, and the lock that the call held stays taken. A later call finds the lock taken, which is another
panic in the standard library's `Mutex` for a platform without threads. So after a panic the engine is gone (`engine = none`). In
JavaScript a trap is an exception: in the handler of messages it is lost (the handler is an asynchronous function), in `process` it ends
the processor, after which the browser plays silence for it.

Simplifications: the handler of a message is one step (it has no `await`); the text arrives decoded (C58 is about the text); checks of
arguments on the page (`typeof`, `amp <= 1.0`) are left out, since a call that fails them posts nothing; `set_sr` and `set_seed` get
natural numbers. -/

namespace Verif.PagePlay
open Verif

variable {L : Lang}

/-- Messages on the port: `load` (js/src/glicol.js:42-44), `loadsample` (js/src/utils.js:129-136), `run` (js/src/glicol.js:142-145), `bpm`
(js/src/utils.js:62-63), `amp` (js/src/utils.js:73-74). The seed of `load` is `Math.random() * 4096` in the worklet. -/
inductive Post (L : Lang) where
  | load (seed : Nat)
  | sample (name : Name) (s : L.Smp)
  | run (code : Name)
  | bpm (v : L.Num)
  | amp (v : L.Num)

/-- The port, the engine behind the lock (`none` after a panic), and whether the browser still calls `process`. -/
structure Sys (L : Lang) where
  port : List (Post L)
  engine : Option (Engine L)
  playing : Bool

/-- The page posts a message; the worklet takes a message; the browser asks for 128 samples. `τ` and `ho` are the iteration orders of the
hash tables in the engine. -/
inductive Do (L : Lang) where
  | post (m : Post L)
  | take (τ : TableOrder)
  | quantum (ho : HashOrder)

/-- What can be seen: a message is posted; the worklet has handed a message to the engine; it posts the 256 bytes of an error to the page;
the engine has panicked at a message or (`none`) at a block; 128 samples are played on the left and on the right. -/
inductive Ev (L : Lang) where
  | asked (m : Post L)
  | did (τ : TableOrder) (m : Post L)
  | report (bytes : List Nat)
  | broke (τ : TableOrder) (ho : HashOrder) (m : Option (Post L))
  | sound (ho : HashOrder) (l r : List L.Num)

/-- A message is handed to the wasm module (js/src/glicol-engine.js:11-42; rs/wasm/src/lib.rs:31-38, :42-51, :65-87); `rate` is the global
`sampleRate` of the worklet. The result of `update` is posted back if its first byte is not 0. -/
def deliver (rate : Nat) (parseMsg : Name → List Nat) (τ : TableOrder) (e : Engine L) : Post L → Except Panic (Engine L × List (List Nat))
  | .load seed => .ok ((e.setSr rate).setSeed seed, [])
  | .sample name s => .ok (e.addSample name s, [])
  | .run code => do
    let (e', bytes) ← Wasm.update τ parseMsg e code
    .ok (e', if bytes.head? = some 0 then [] else [bytes])
  | .bpm v => do
    let e' ← e.setBpm v
    .ok (e', [])
  | .amp v => .ok (e.setTrackAmp v, [])

/-- The handler of messages (js/src/glicol-engine.js:11-36) takes the next message. -/
def take (rate : Nat) (parseMsg : Name → List Nat) (τ : TableOrder) (s : Sys L) : Sys L × List (Ev L) :=
  match s.port with
  | [] => (s, [])
  | m :: ms =>
    match s.engine with
    | none => ({ s with port := ms }, [])
    | some e =>
      match deliver rate parseMsg τ e m with
      | .error _ => (⟨ms, none, s.playing⟩, [.broke τ .ident (some m)])
      | .ok (e', reports) => (⟨ms, some e', s.playing⟩, .did τ m :: reports.map .report)

/-- `process` (js/src/glicol-engine.js:43-54): the first half of the 256 numbers is the left channel, the second half the right one. -/
def quantum (ho : HashOrder) (s : Sys L) : Sys L × List (Ev L) :=
  let silence := List.replicate 128 L.zero
  if s.playing then
    match s.engine with
    | none => (⟨s.port, none, false⟩, [.sound ho silence silence])
    | some e =>
      match Wasm.process ho e 256 with
      | .error _ => (⟨s.port, none, false⟩, [.broke .ident ho none, .sound ho silence silence])
      | .ok (e', out) => (⟨s.port, some e', true⟩, [.sound ho (out.take (out.length / 2)) (out.drop (out.length / 2))])
  else (s, [.sound ho silence silence])

/-- One step. -/
def step (rate : Nat) (parseMsg : Name → List Nat) (s : Sys L) : Do L → Sys L × List (Ev L)
  | .post m => ({ s with port := s.port ++ [m] }, [.asked m])
  | .take τ => take rate parseMsg τ s
  | .quantum ho => quantum ho s

/-- A schedule. -/
def runs (rate : Nat) (parseMsg : Name → List Nat) (s : Sys L) : List (Do L) → Sys L × List (Ev L)
  | [] => (s, [])
  | d :: ds =>
    let r := step rate parseMsg s d
    let q := runs rate parseMsg r.1 ds
    (q.1, r.2 ++ q.2)

/-- The start: an engine for blocks of 128 samples (rs/wasm/src/lib.rs:10), nothing on the port. -/
def start (L : Lang) : Sys L := ⟨[], some (Engine.new L 128), true⟩

end Verif.PagePlay
