import Verif.Engine

/-! # The browser interface (rs/wasm/src/lib.rs)

Simplifications: the global `Mutex<Engine<128>>` is the engine passed around (the block length stays a
parameter); the code bytes arrive already decoded; the message of a syntax error, which prints pest's
error, is a parameter `parseMsg` giving its bytes for the program text. Bytes are natural numbers. -/

namespace Verif.Wasm
open Verif

variable {L : Lang}

/-- `str::as_bytes`: the UTF-8 encoding of a character. -/
def utf8Char (c : Char) : List Nat :=
  let n := c.toNat
  if n < 0x80 then [n]
  else if n < 0x800 then [0xC0 + n / 64, 0x80 + n % 64]
  else if n < 0x10000 then [0xE0 + n / 4096, 0x80 + n / 64 % 64, 0x80 + n % 64]
  else [0xF0 + n / 262144, 0x80 + n / 4096 % 64, 0x80 + n / 64 % 64, 0x80 + n % 64]

/-- `error.as_bytes()` (rs/wasm/src/lib.rs:126). -/
def utf8 (s : Name) : List Nat := s.flatMap utf8Char

/-- `RES_BUFFER_SIZE` (rs/wasm/src/lib.rs:90). -/
def resBufferSize : Nat := 256

/-- `buf[from..][..src.len()].copy_from_slice(src)`; slicing past the end panics. -/
def copyAt (buf : List Nat) (start : Nat) (src : List Nat) : Except Panic (List Nat) :=
  if start + src.length ≤ buf.length then
    .ok (buf.take start ++ src ++ buf.drop (start + src.length))
  else .error .indexOutOfBounds

/-- `"There is no sample named "` (rs/wasm/src/lib.rs:122). -/
def sampleText : Name := "There is no sample named ".toList

/-- `"There is no reference named "` (rs/wasm/src/lib.rs:123). -/
def referenceText : Name := "There is no reference named ".toList

/-- The first byte of the result (rs/wasm/src/lib.rs:93-97). -/
def errClass : EngineError → Nat
  | .parsing => 1
  | .nonExistSample _ => 2
  | .nonExistReference _ => 3

/-- The bytes of the error message (rs/wasm/src/lib.rs:99-126). -/
def errBytes (parseMsg : List Nat) : EngineError → List Nat
  | .parsing => parseMsg
  | .nonExistSample v => utf8 (sampleText ++ v)
  | .nonExistReference v => utf8 (referenceText ++ v)

/-- `write_err_to_buf` (rs/wasm/src/lib.rs:92-129). -/
def writeErrToBuf (parseMsg : List Nat) (err : EngineError) (result : List Nat) :
    Except Panic (List Nat) := do
  let r1 ← copyAt result 0 [errClass err]
  let s := errBytes parseMsg err
  let maxBytesLen := min s.length (resBufferSize - 2)
  copyAt r1 2 (s.take maxBytesLen)

/-- `update` (rs/wasm/src/lib.rs:42-51). -/
def update (τ : TableOrder) (parseMsg : Name → List Nat) (e : Engine L) (code : Name) :
    Except Panic (Engine L × List Nat) := do
  let res := List.replicate resBufferSize 0
  let (e', r) ← e.updateWithCode τ code
  match r with
  | none => .ok (e', res)
  | some err => do
    let res ← writeErrToBuf (parseMsg code) err res
    .ok (e', res)

/-- `engine_out[ch][..n]`. -/
def channelHead {β : Type} (out : List (List β)) (ch n : Nat) : Except Panic (List β) :=
  match out[ch]? with
  | none => .error .indexOutOfBounds
  | some b => if n ≤ b.length then .ok (b.take n) else .error .indexOutOfBounds

/-- `process` (rs/wasm/src/lib.rs:18-29): the engine afterwards and the returned vector. -/
def process (ho : HashOrder) (e : Engine L) (size : Nat) :
    Except Panic (Engine L × List L.Num) := do
  let (e', out) ← e.nextBlock ho []
  let half := size / 2
  let l ← channelHead out 0 half
  let r ← channelHead out 1 half
  -- `out_buf[half..].copy_from_slice(r)`: the lengths `size - half` and `half` must agree
  if size - half = r.length then .ok (e', l ++ r) else .error .lengthMismatch

end Verif.Wasm
