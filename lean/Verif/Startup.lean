import Verif.Ast

/-! # Start of the npm package (js/npm/index.js, js/npm/glicol-engine.js)

A page makes `new Engine(..)`, which at first only has an audio context. Then, one after the other and each at a time of the
browser's choosing: `addModule` is done and the audio node exists, the wasm file has arrived and is posted to the worklet,
the worklet has compiled it and reports `ready`, the page takes note of it and calls `onLoaded`. Meanwhile the page may call
`run`, `sendMsg`, `setBPM` and the methods that add samples, and the browser calls `process` of the worklet.

There are two ways to the worklet: messages on a port, which are taken in the order in which they were posted, each as a task
of its own, and, for programs and messages where `SharedArrayBuffer` is available, two queues of characters, which `process`
empties.

Simplifications: `push` and `pop` of the queues are single steps (C35 shows that they behave so); one element is one
character; that the file cannot be fetched, or cannot be compiled, is left out; files are mono or stereo; the page has no global variable `encoder`; the program text, the tempo and the samples
are only passed on. -/

namespace Verif.Startup
open Verif

/-- What a page asks of the engine; `S` is the type of samples. `sample` is `addSampleFromDataArray` (js/npm/index.js:312-321),
`file` is the moment at which `addSampleFiles` (js/npm/index.js:235-310) or `loadSamples` (:323-360) has decoded a file. -/
inductive Call (S : Type) where
  | run (code : Name)
  | msg (text : Name)
  | bpm (v : Fl)
  | sample (name : Name) (s : S)
  | file (name : Name) (s : S)

/-- A message on the port: the wasm file, or a call with its number. -/
inductive PortMsg (S : Type) where
  | load
  | call (k : Nat) (c : Call S)

/-- Page and worklet. `sab`: `isSharedArrayBufferSupported` (js/npm/index.js:9-18); `files`: what `loadSamples` will find, empty
without the option `loadSamples`; `wired`: the audio node exists; `fetching`: the wasm file is on its way; `count`: calls made
so far; `code`, `param`: contents of the queues; `compiling`, `on`: `WebAssembly.instantiate` has begun, `_wasm` is set;
`ready`: the message `ready` is on its way; `known`: keys of `sampleBuffers`; `fetches`: files on their way. -/
structure Sys (S : Type) where
  sab : Bool
  files : List (Name × S)
  wired : Bool
  fetching : Bool
  count : Nat
  port : List (PortMsg S)
  code : Name
  param : Name
  compiling : Bool
  on : Bool
  ready : Bool
  known : List Name
  fetches : List (Name × S)

variable {S : Type}

/-- What can be seen: the page calls a method, which returns or throws; the worklet calls the wasm module for a message of the
port, or with the contents of a queue (`gave false`: `update`, `gave true`: `send_msg`); `onLoaded` is called, or the handler
of `ready` throws. -/
inductive Ev (S : Type) where
  | asked (k : Nat) (c : Call S)
  | threw (k : Nat) (c : Call S)
  | did (k : Nat) (c : Call S)
  | gave (msg : Bool) (text : Name)
  | loaded
  | failed

/-- The choices of page and browser. -/
inductive Do (S : Type) where
  | call (c : Call S)
  | addModule
  | fetched
  | handle
  | instantiated
  | notice
  | decoded (i : Nat)
  | process

/-- The constructor up to its first `await` (js/npm/index.js:22-42). -/
def init (sab : Bool) (files : List (Name × S)) : Sys S :=
  ⟨sab, files, false, false, 0, [], [], [], false, false, false, [], []⟩

/-- `push` into a queue of 2048 characters (js/npm/ringbuf.js:92-115), of which the page ignores the result. -/
def enqueue (q text : Name) : Name := q ++ text.take (2048 - q.length)

/-- `sendMsg` ends every message with a semicolon (js/npm/index.js:181). -/
def closed (msg : Name) : Name := if msg.getLast? = some ';' then msg else msg ++ [';']

/-- A call by the page: `run` (js/npm/index.js:163-177), `sendMsg` (:179-194), `setBPM` (:195-199), `addSampleFromDataArray`,
and the end of `addSampleFiles` and `loadSamples`. Before the audio node exists `this.codeWriter`, `this.paramWriter`,
`this.node` and `this.sampleBuffers` are undefined, and the call throws. -/
def call (s : Sys S) (c : Call S) : Sys S × List (Ev S) :=
  let n := { s with count := s.count + 1 }
  if s.wired = false then (n, [.threw s.count c])
  else
    let e := [.asked s.count c]
    let posted := { n with port := s.port ++ [.call s.count c] }
    match c with
    | .run t => (if s.sab then { n with code := enqueue s.code t } else posted, e)
    | .msg t => (if s.sab then { n with param := enqueue s.param (closed t) } else posted, e)
    | .bpm _ => (posted, e)
    | .sample .. => (posted, e)
    | .file name _ => ({ posted with known := name :: s.known }, e)

/-- `process` (js/npm/glicol-engine.js:117-138) as far as the queues are concerned; the first queue is that of programs. -/
def tick (s : Sys S) : Sys S × List (Ev S) :=
  if s.on && s.sab then
    ({ s with code := [], param := [] },
      (if s.code.isEmpty then [] else [.gave false s.code]) ++ (if s.param.isEmpty then [] else [.gave true s.param]))
  else (s, [])

/-- One step. `addModule`: js/npm/index.js:43-74 (queues, audio node, `sampleBuffers`) and the start of `fetch` (:150);
`fetched`: the file is posted (:150-155); `handle`: `port.onmessage` of the worklet takes one message
(js/npm/glicol-engine.js:24-113); before the module is there everything but `load` throws, which loses the message;
`instantiated`: js/npm/glicol-engine.js:30-57; `notice`: the page's handler of `ready` (js/npm/index.js:75-107), which names an
undefined variable `encoder` when there are samples already (:97), and otherwise starts `loadSamples`, which does not wait for
any of its `fetch`es (:323-360), and calls `onLoaded`; `decoded i`: one of these files is there. -/
def step (s : Sys S) : Do S → Sys S × List (Ev S)
  | .call c => call s c
  | .addModule => (if s.wired then s else { s with wired := true, fetching := true }, [])
  | .fetched => (if s.fetching then { s with fetching := false, port := s.port ++ [.load] } else s, [])
  | .handle =>
    match s.port with
    | [] => (s, [])
    | .load :: rest => ({ s with port := rest, compiling := true }, [])
    | .call k c :: rest => ({ s with port := rest }, if s.on then [.did k c] else [])
  | .instantiated => (if s.compiling then { s with compiling := false, on := true, ready := true } else s, [])
  | .notice =>
    if s.ready then
      if s.known.isEmpty then ({ s with ready := false, fetches := s.files }, [.loaded])
      else ({ s with ready := false }, [.failed])
    else (s, [])
  | .decoded i =>
    match s.fetches[i]? with
    | none => (s, [])
    | some (n, x) => call { s with fetches := s.fetches.eraseIdx i } (.file n x)
  | .process => tick s

/-- A schedule; the events in order of time. -/
def runs (s : Sys S) : List (Do S) → Sys S × List (Ev S)
  | [] => (s, [])
  | d :: ds =>
    let r := step s d
    let r' := runs r.1 ds
    (r'.1, r.2 ++ r'.2)

end Verif.Startup
