import Verif.Ast
import Verif.RingBuf

/-! # Page and audio worklet (js/npm/index.js, js/npm/glicol-engine.js)

The path of a text from `run`, `play`, `stop` or `sendMsg` of the page to `update` or `send_msg` of the
wasm module, where `SharedArrayBuffer` is available: the page pushes the text into a ring buffer of
capacity 2048, and each call of `process` by the browser pops once from it into an array of 2048 elements.
There is one such path for programs and one for messages; both are this machine.

Simplifications: one element is one character (the program sends the UTF-8 bytes; they agree for ASCII);
the query `available_write()` (two loads) is one step; the steps of the wasm module itself are not
interleaved here, the machine only tells which texts it is given and in which order. -/

namespace Verif.Worklet
open Verif RingBuf

/-- The queue and the array `_codeArray` resp. `_paramArray` (js/npm/glicol-engine.js:11-12). -/
structure Sys where
  q : State Char
  arr : List Char

/-- What can be seen: a text is handed to the page, a text is handed to the wasm module. -/
inductive Ev where
  | asked (text : Name)
  | given (text : Name)

/-- The scheduler's choices: the page calls `run` resp. `sendMsg`, the page makes a step inside `push`,
the browser calls `process`, the worklet makes a step inside `pop`. -/
inductive Do where
  | send (text : Name)
  | page
  | process
  | audio

/-- A fresh queue (js/npm/index.js:48-54) and array. -/
def init (mem arr : List Char) : Sys := ⟨RingBuf.init mem, arr⟩

/-- `if (writer.available_write()) writer.enqueue(text)` (js/npm/index.js:168-170, 184-186). JavaScript
runs one call at a time, so there is no such call while a push is going on. -/
def send (s : Sys) (text : Name) : Except Panic (Sys × List Ev) :=
  match s.q.prod with
  | .idle =>
    if availableWrite s.q.cap s.q.rd s.q.wr ≠ 0 then do
      let (q, _) ← RingBuf.step s.q (.callPush text)
      .ok (⟨q, s.arr⟩, [.asked text])
    else .ok (s, [.asked text])
  | _ => .ok (s, [])

/-- What the worklet does with a result of `dequeue` (js/npm/glicol-engine.js:126-132, 133-139): `size`
elements of the array, if any, go to the wasm module. -/
def deliver (arr : List Char) : List (Label Char) → List Char × List Ev
  | [.popRet out size] => (out, if size ≠ 0 then [.given (out.take size)] else [])
  | _ => (arr, [])

/-- One step of page or worklet. -/
def step (s : Sys) : Do → Except Panic (Sys × List Ev)
  | .send text => send s text
  | .page => do
    let (q, _) ← RingBuf.step s.q .stepProd
    .ok (⟨q, s.arr⟩, [])
  | .process => do
    let (q, _) ← RingBuf.step s.q (.callPop s.arr)
    .ok (⟨q, s.arr⟩, [])
  | .audio => do
    let (q, ls) ← RingBuf.step s.q .stepCons
    let (arr, evs) := deliver s.arr ls
    .ok (⟨q, arr⟩, evs)

/-- Run a schedule; the events are in order of time. -/
def run (s : Sys) : List Do → Except Panic (Sys × List Ev)
  | [] => .ok (s, [])
  | a :: as => do
    let (s1, l1) ← step s a
    let (s2, l2) ← run s1 as
    .ok (s2, l1 ++ l2)

/-- What `sendMsg(msg)` sends (js/npm/index.js:181). -/
def msgText (msg : Name) : Name := if msg.getLast? = some ';' then msg else msg ++ [';']

/-- What `stop()` sends (js/npm/index.js:226-228). -/
def stopText : Name := []

end Verif.Worklet
