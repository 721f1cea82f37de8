import Verif.Make
import Verif.Parser.Chars

/-! # Samples on the page (js/src/utils.js, js/src/glicol.js)

The page decodes audio files, lists them in `window.sampleBuffers` and sends them to the engine.

Simplifications: what the page posts to the worklet on its port arrives in order and is acted upon at once, so the
page holds the engine itself. Each decoding callback is one step, and the steps of different files may come in
any order. A file that cannot be decoded has no step. Strings are lists of characters. `toLowerCase` works character by character:
ASCII letters as usual, all others by an arbitrary function `low`. The sample rate is a natural number. -/

namespace Verif.Page
open Verif

/-- An `AudioBuffer`: what `getChannelData` gives for each channel, and `sampleRate`. -/
structure AudioBuffer where
  channels : List (List Fl)
  sr : Nat

/-- The data sent to the engine: one channel as it is, two channels one after the other. `none`: the exception
"Only support mono or stereo samples." (js/src/utils.js:118-127, 159-168, 202-211, 239-248,
js/src/glicol.js:64-73). -/
def AudioBuffer.data (b : AudioBuffer) : Option (List Fl) :=
  match b.channels with
  | [l] => some l
  | [l, r] => some (l ++ r)
  | _ => none

/-- What the worklet registers: `add_sample(name, sample, channels, sr)` (js/src/glicol-engine.js:16-22,
rs/wasm/src/lib.rs:32-37). -/
def AudioBuffer.sample (b : AudioBuffer) : Option Sample := b.data.map (fun d => ⟨d, b.channels.length, b.sr⟩)

/-- `s.replace(pat, "")`: the first occurrence is dropped. -/
def dropFirst (pat : Name) : Name → Name
  | [] => []
  | c :: s => if pat.isPrefixOf (c :: s) then (c :: s).drop pat.length else c :: dropFirst pat s

/-- `s.replace("-", "_")`: the first dash only. -/
def dashOnce : Name → Name
  | [] => []
  | c :: s => if c = '-' then '_' :: s else c :: dashOnce s

/-- `toLowerCase` of a character. -/
def lowerChar (low : Char → Name) (c : Char) : Name :=
  if 'A' ≤ c ∧ c ≤ 'Z' then [Char.ofNat (c.toNat + 32)] else if c.toNat < 128 then [c] else low c

/-- `s.toLowerCase()`. -/
def lowerCase (low : Char → Name) (s : Name) : Name := s.flatMap (lowerChar low)

/-- `.replaceAll("-","_").replaceAll(" ","_").replaceAll("#","_sharp_")`: the texts put in contain none of the
characters replaced later, so that it is the same to replace character by character. -/
def plainChar (c : Char) : Name :=
  if c = '-' then ['_'] else if c = ' ' then ['_'] else if c = '#' then c!"_sharp_" else [c]

/-- `.replace(".wav", "").replace(".mp3", "")` and the replacements above (js/src/utils.js:108, 199). -/
def plain (s : Name) : Name := (dropFirst c!".mp3" (dropFirst c!".wav" s)).flatMap plainChar

/-- The name of a file picked by the user (js/src/utils.js:199). -/
def fileKey (low : Char → Name) (file : Name) : Name := plain (lowerCase low file)

/-- The name of the `n`-th file of a folder (js/src/utils.js:108-115); `folder` is the last folder of the path, and
`String(n)` is the number in decimal. -/
def folderKey (low : Char → Name) (folder : Name) (n : Nat) : Name :=
  lowerCase low (plain folder) ++ '_' :: Nat.toDigits 10 n

variable {P : Plat} {N : Nat} {parse : Name → Except Panic (Option (Ast Comp))}

/-- `window.sampleBuffers`, the object `samplePath` of each call of `addSampleFolder` (numbered), and the engine. -/
structure State (P : Plat) (N : Nat) (parse : Name → Except Panic (Option (Ast Comp))) where
  buffers : List (Name × AudioBuffer)
  counts : List (Nat × Name × Nat)
  engine : Engine (glicol P N parse)

/-- `window.sampleBuffers[key] = buffer`, then `postMessage({type: "loadsample", name: told, ...})` unless the
exception is thrown (js/src/utils.js:117-136, 158-176, 201-220, 238-256). -/
def State.load (p : State P N parse) (key told : Name) (b : AudioBuffer) : State P N parse :=
  { p with
    buffers := insert p.buffers key b
    engine := match b.sample with
      | none => p.engine
      | some s => p.engine.addSample told s }

/-- `samplePath[folder]` of the call. -/
def count (call : Nat) (folder : Name) : List (Nat × Name × Nat) → Option Nat
  | [] => none
  | (c, f, n) :: l => if c = call ∧ f = folder then some n else count call folder l

/-- The number of the next file: one more than the last, or 0 (js/src/utils.js:110-114). -/
def nextCount (call : Nat) (folder : Name) (l : List (Nat × Name × Nat)) : Nat :=
  match count call folder l with
  | some n => n + 1
  | none => 0

/-- The loop over all listed samples when a new engine is ready (js/src/glicol.js:61-81): it ends at the first
sample with more than two channels. -/
def reload (e : Engine (glicol P N parse)) : List (Name × AudioBuffer) → Engine (glicol P N parse)
  | [] => e
  | (key, b) :: l =>
    match b.sample with
    | none => e
    | some s => reload (e.addSample ('\\' :: dashOnce key) s) l

/-- What happens on the page. `run`, `bpm` and `amp` are messages to the worklet, `block` is the call of `process`. -/
inductive Step where
  /-- A file picked with `addSampleFiles()` has been decoded (js/src/utils.js:187-228). -/
  | file (name : Name) (b : AudioBuffer)
  /-- A file of the folder picked with the given call of `addSampleFolder()` has been decoded (js/src/utils.js:85-145). -/
  | folder (call : Nat) (folder : Name) (b : AudioBuffer)
  /-- The file for `addSampleFiles(name, url)` has been decoded (js/src/utils.js:230-259). -/
  | url (name : Name) (b : AudioBuffer)
  /-- A sample of the list of built-in samples has been decoded (js/src/utils.js:147-184). -/
  | builtin (name : Name) (b : AudioBuffer)
  | run (τ : TableOrder) (code : Name)
  | bpm (v : Fl)
  | amp (v : Fl)
  | block (ho : HashOrder)
  /-- `stop()`: a new worklet with a new engine, to which all listed samples are sent in the order `order`
  (js/src/utils.js:518-522, js/src/glicol.js:23-83, js/src/glicol-engine.js:12-15). -/
  | stop (sr seed : Nat) (order : List (Name × AudioBuffer))

/-- One step. The order of `stop` is meant to list the same samples; the theorems demand it. -/
def State.step (low : Char → Name) (p : State P N parse) : Step → Except Panic (State P N parse)
  | .file name b => .ok (p.load (fileKey low name) ('\\' :: fileKey low name) b)
  | .folder call folder b =>
    let n := nextCount call (plain folder) p.counts
    let key := folderKey low folder n
    .ok { p.load key ('\\' :: key) b with counts := (call, plain folder, n) :: p.counts }
  | .url name b => .ok (p.load name ('\\' :: name) b)
  | .builtin name b => .ok (p.load name ('\\' :: dashOnce name) b)
  | .run τ code => do
    let (e, _) ← p.engine.updateWithCode τ code
    .ok { p with engine := e }
  | .bpm v => do
    let e ← p.engine.setBpm v
    .ok { p with engine := e }
  | .amp v => .ok { p with engine := p.engine.setTrackAmp v }
  | .block ho => do
    let (e, _) ← p.engine.nextBlock ho []
    .ok { p with engine := e }
  | .stop sr seed order => .ok { p with engine := reload (((Engine.new (glicol P N parse) N).setSr sr).setSeed seed) order }

/-- The page after the script has run, before any sample is there. -/
def State.init (P : Plat) (N : Nat) (parse : Name → Except Panic (Option (Ast Comp))) (sr seed : Nat) : State P N parse :=
  ⟨[], [], ((Engine.new (glicol P N parse) N).setSr sr).setSeed seed⟩

end Verif.Page
