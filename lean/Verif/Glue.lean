import Verif.Graph

/-! # The calls from JavaScript into the compiled program (js/src/glicol_wasm.js, same in js/npm)

Text and samples are handed to the compiled program by copying them into its linear memory, at an address
which the program's allocator gives; results are copied back. Memory may be enlarged by any allocation.
Then `wasm.memory.buffer` is a new `ArrayBuffer` and every view on the old one is detached: it has length
0 and writes through it are lost. The glue keeps views in caches, and must not use a detached one.

The allocator is a parameter (`Alloc`); the laws it obeys are stated in Spec/Glue.lean. Simplification:
the values of a `Float32Array` are their 32 bits. -/

namespace Verif.Glue

/-- `wasm.memory` as JavaScript sees it: which `ArrayBuffer` it is at present (`buf`, a new number with
each enlargement), how long it is, and the bytes. -/
structure Mem where
  buf : Nat
  size : Nat
  byte : Nat → Nat

/-- A `Uint8Array` on a part of an `ArrayBuffer`: `len` bytes from `off` on. The typed arrays with
larger elements (lines 171-187) are views too, and their elements are read and written with `word` and
`setWord`. -/
structure View where
  buf : Nat
  off : Nat
  len : Nat

/-- The length of a typed array, 0 if its buffer is detached (ECMAScript, TypedArrayByteLength). -/
def View.byteLength (m : Mem) (v : View) : Nat := if v.buf = m.buf then v.len else 0

/-- `view[i] = x`: no effect outside of the array and on a detached buffer; `x` modulo 256. -/
def store (m : Mem) (v : View) (i x : Nat) : Mem :=
  if i < v.byteLength m then
    { m with byte := fun a => if a = v.off + i then x % 256 else m.byte a }
  else m

/-- `view[i]`, `none` for `undefined`. -/
def load (m : Mem) (v : View) (i : Nat) : Option Nat :=
  if i < v.byteLength m then some (m.byte (v.off + i)) else none

/-- `view.subarray(b, e)`. -/
def subarray (v : View) (b e : Nat) : View :=
  { v with off := v.off + min b v.len, len := min e v.len - min b v.len }

/-- `view.set(xs, i)`: a `RangeError` (`none`) if the values do not fit. -/
def set (m : Mem) (v : View) (xs : List Nat) (i : Nat) : Option Mem :=
  if i + xs.length ≤ v.byteLength m then
    some { m with byte := fun a =>
      if v.off + i ≤ a then (xs[a - (v.off + i)]?.map (· % 256)).getD (m.byte a) else m.byte a }
  else none

/-- The elements of the array, which `.slice()` copies. -/
def elements (m : Mem) (v : View) : List Nat :=
  (List.range (v.byteLength m)).map fun i => m.byte (v.off + i)

/-- A number of 32 bits in the four bytes at the address `a` (little endian, as WebAssembly has it). -/
def word (m : Mem) (a : Nat) : Nat :=
  m.byte a + 256 * m.byte (a + 1) + 65536 * m.byte (a + 2) + 16777216 * m.byte (a + 3)

/-- The four bytes of a number of 32 bits. -/
def wordBytes (x : Nat) : List Nat := [x % 256, x / 256 % 256, x / 65536 % 256, x / 16777216 % 256]

/-- `x >>> 0`: a signed number of 32 bits, as WebAssembly returns it, as an unsigned one. -/
def unsigned (x : Int) : Nat := (x % 4294967296).toNat

/-- The allocator of the compiled program, `__wbindgen_export_0` (malloc), `__wbindgen_export_1`
(realloc) and `__wbindgen_export_2` (free). `σ` is its state, `live` the blocks (address, size) handed
out and not yet given back. Addresses are returned as signed numbers of 32 bits; `none` is the trap when
there is no memory left. -/
structure Alloc where
  σ : Type
  live : σ → List (Nat × Nat)
  malloc : (size align : Nat) → σ → Mem → Option (Int × σ × Mem)
  realloc : (ptr old new align : Nat) → σ → Mem → Option (Int × σ × Mem)
  free : (ptr size align : Nat) → σ → Mem → σ × Mem

/-- The state of the glue: the allocator, the memory, `cachedUint8Memory0` (line 36),
`cachedFloat32Memory0` (180), `cachedInt32Memory0` (171), `WASM_VECTOR_LEN` (115) and the stack pointer
of the compiled program. -/
structure St (A : Alloc) where
  al : A.σ
  mem : Mem
  u8 : Option View
  f32 : Option View
  i32 : Option View
  vecLen : Nat
  sp : Int

/-- A view of the whole memory, `new Uint8Array(wasm.memory.buffer)`. -/
def whole (m : Mem) : View := ⟨m.buf, 0, m.size⟩

/-- `cached === null || cached.byteLength === 0` and what follows, in the three functions
`getUint8Memory0` (38-43), `getInt32Memory0` (173-178), `getFloat32Memory0` (182-187). -/
def fresh (m : Mem) (c : Option View) : View :=
  match c with
  | none => whole m
  | some v => if v.byteLength m = 0 then whole m else v

variable {A : Alloc}

/-- `getUint8Memory0` (js/src/glicol_wasm.js:38-43). -/
def getUint8Memory0 (s : St A) : View × St A :=
  let v := fresh s.mem s.u8
  (v, { s with u8 := some v })

/-- `getInt32Memory0` (js/src/glicol_wasm.js:173-178). -/
def getInt32Memory0 (s : St A) : View × St A :=
  let v := fresh s.mem s.i32
  (v, { s with i32 := some v })

/-- `getFloat32Memory0` (js/src/glicol_wasm.js:182-187). -/
def getFloat32Memory0 (s : St A) : View × St A :=
  let v := fresh s.mem s.f32
  (v, { s with f32 := some v })

/-- One step of reading a JavaScript string, a list of UTF-16 units, as code points: the code point and
the rest. A surrogate without its partner becomes U+FFFD (WHATWG Encoding, `TextEncoder`: the string is
taken as a scalar value string). -/
def nextPoint (u : Nat) (rest : List Nat) : Nat × List Nat :=
  if 0xD800 ≤ u ∧ u < 0xDC00 then
    match rest with
    | l :: more =>
      if 0xDC00 ≤ l ∧ l < 0xE000 then (0x10000 + (u - 0xD800) * 0x400 + (l - 0xDC00), more)
      else (0xFFFD, rest)
    | [] => (0xFFFD, rest)
  else if 0xDC00 ≤ u ∧ u < 0xE000 then (0xFFFD, rest)
  else (u, rest)

theorem nextPoint_length (u : Nat) (rest : List Nat) : (nextPoint u rest).2.length ≤ rest.length := by
  unfold nextPoint
  repeat' split
  all_goals simp_all

/-- The UTF-8 bytes of a code point (WHATWG Encoding, UTF-8 encoder). -/
def pointBytes (c : Nat) : List Nat :=
  if c < 0x80 then [c]
  else if c < 0x800 then [0xC0 + c / 0x40, 0x80 + c % 0x40]
  else if c < 0x10000 then [0xE0 + c / 0x1000, 0x80 + c / 0x40 % 0x40, 0x80 + c % 0x40]
  else [0xF0 + c / 0x40000, 0x80 + c / 0x1000 % 0x40, 0x80 + c / 0x40 % 0x40, 0x80 + c % 0x40]

/-- `TextEncoder.encode(arg)`. -/
def encode : List Nat → List Nat
  | [] => []
  | u :: rest => pointBytes (nextPoint u rest).1 ++ encode (nextPoint u rest).2
termination_by l => l.length
decreasing_by have := nextPoint_length u rest; simp; omega

/-- The bytes which `TextEncoder.encodeInto` writes when there is room for `room` bytes: it stops before
the first code point which does not fit. -/
def encodeFit : List Nat → Nat → List Nat
  | [], _ => []
  | u :: rest, room =>
    let b := pointBytes (nextPoint u rest).1
    if b.length ≤ room then b ++ encodeFit (nextPoint u rest).2 (room - b.length) else []
termination_by l => l.length
decreasing_by have := nextPoint_length u rest; simp; omega

/-- What the place where the program runs (an `AudioWorkletGlobalScope`) offers: no `TextEncoder` at all,
one without `encodeInto`, or one with it (the cases which lines 117-130 distinguish). -/
inductive Encoder where
  | missing
  | plain
  | into

/-- `encodeString` (lines 117-130). The result is `written` and the memory; `none` is an exception, of
`view.set` or, without `TextEncoder`, `Error('TextEncoder not available')`. -/
def encodeString (E : Encoder) (m : Mem) (arg : List Nat) (v : View) : Option (Nat × Mem) :=
  match E with
  | .missing => none
  | .plain => (set m v (encode arg) 0).map fun m' => ((encode arg).length, m')
  | .into =>
    let buf := encodeFit arg (v.byteLength m)
    (set m v buf 0).map fun m' => (buf.length, m')

/-- The loop of lines 149-153, from `offset` on; `arg` is the rest of the string. The result is the
offset at which it ends, the rest of the string and the memory. -/
def asciiLoop (mem : View) (ptr : Nat) : List Nat → Nat → Mem → Nat × List Nat × Mem
  | [], offset, m => (offset, [], m)
  | code :: arg, offset, m =>
    if code > 0x7F then (offset, code :: arg, m)
    else asciiLoop mem ptr arg (offset + 1) (store m mem (ptr + offset) code)

/-- `passStringToWasm0` (lines 132-169). All callers give `realloc`, so that lines 134-140 are not
reached. `none` is an exception. `arg.slice(offset)` is the rest of the string which the loop leaves. -/
def passStringToWasm0 (E : Encoder) (arg : List Nat) (s : St A) : Option (Nat × St A) :=
  let len := arg.length
  match A.malloc len 1 s.al s.mem with
  | none => none
  | some (p, al, mem) =>
    let ptr := unsigned p
    let s := { s with al := al, mem := mem }
    let (view, s) := getUint8Memory0 s
    let (offset, arg, mem) := asciiLoop view ptr arg 0 s.mem
    let s := { s with mem := mem }
    if offset ≠ len then
      let len' := offset + arg.length * 3
      match A.realloc ptr len len' 1 s.al s.mem with
      | none => none
      | some (p, al, mem) =>
        let ptr := unsigned p
        let s := { s with al := al, mem := mem }
        let (view, s) := getUint8Memory0 s
        match encodeString E s.mem arg (subarray view (ptr + offset) (ptr + len')) with
        | none => none
        | some (written, mem) =>
          let s := { s with mem := mem }
          let offset := offset + written
          match A.realloc ptr len' offset 1 s.al s.mem with
          | none => none
          | some (p, al, mem) =>
            some (unsigned p, { s with al := al, mem := mem, vecLen := offset })
    else some (ptr, { s with vecLen := offset })

/-- `passArray8ToWasm0` (lines 231-236). -/
def passArray8ToWasm0 (arg : List Nat) (s : St A) : Option (Nat × St A) :=
  match A.malloc (arg.length * 1) 1 s.al s.mem with
  | none => none
  | some (p, al, mem) =>
    let ptr := unsigned p
    let s := { s with al := al, mem := mem }
    let (view, s) := getUint8Memory0 s
    match set s.mem view arg ptr with
    | none => none
    | some m => some (ptr, { s with mem := m, vecLen := arg.length })

/-- `passArrayF32ToWasm0` (lines 211-216). `getFloat32Memory0().set(arg, ptr / 4)` writes four bytes per
value from the address `ptr / 4 * 4` on (`ptr` is a multiple of 4; otherwise `set` rounds `ptr / 4`
down). -/
def passArrayF32ToWasm0 (arg : List Nat) (s : St A) : Option (Nat × St A) :=
  match A.malloc (arg.length * 4) 4 s.al s.mem with
  | none => none
  | some (p, al, mem) =>
    let ptr := unsigned p
    let s := { s with al := al, mem := mem }
    let (view, s) := getFloat32Memory0 s
    match set s.mem view (arg.flatMap wordBytes) (ptr / 4 * 4) with
    | none => none
    | some m => some (ptr, { s with mem := m, vecLen := arg.length })

/-- What `add_sample` (lines 223-229) hands to the compiled program: address and length of the name,
address and length of the samples, and the state in which `wasm.add_sample` is called. -/
def addSample (E : Encoder) (name sample : List Nat) (s : St A) :
    Option (Nat × Nat × Nat × Nat × St A) :=
  match passStringToWasm0 E name s with
  | none => none
  | some (ptr0, s) =>
    let len0 := s.vecLen
    match passArrayF32ToWasm0 sample s with
    | none => none
    | some (ptr1, s) =>
      let len1 := s.vecLen
      some (ptr0, len0, ptr1, len1, s)

/-- What `send_msg` (lines 267-271) hands to the compiled program. -/
def sendMsg (E : Encoder) (msg : List Nat) (s : St A) : Option (Nat × Nat × St A) :=
  match passStringToWasm0 E msg s with
  | none => none
  | some (ptr0, s) => some (ptr0, s.vecLen, s)

/-- A call of an exported function of the compiled program: it may allocate, free and write, and it
either returns or traps (`Except.error`). -/
abbrev Call (A : Alloc) := A.σ → Mem → Except Unit A.σ × Mem

/-- Reading the result of a call which has left address and length of a vector at `retptr`:
`getInt32Memory0()[retptr / 4 + 0]` and `+ 1`, the copy of the elements, and giving the vector back
(lines 201-204 and 189-192 with elements of 4 bytes, 254-257 and 238-241 with elements of 1 byte). `width` is the number of bytes of an element. -/
def takeVec (width : Nat) (retptr : Nat) (s : St A) : List Nat × St A :=
  let (vi, s) := getInt32Memory0 s
  let r0 := if retptr / 4 * 4 + 4 ≤ vi.byteLength s.mem then word s.mem (retptr / 4 * 4) else 0
  let r1 := if retptr / 4 * 4 + 8 ≤ vi.byteLength s.mem then word s.mem (retptr / 4 * 4 + 4) else 0
  let (v, s) := if width = 1 then getUint8Memory0 s else getFloat32Memory0 s
  let part := elements s.mem (subarray v (r0 / width * width) (r0 / width * width + r1 * width))
  let (al, mem) := A.free r0 (r1 * width) width s.al s.mem
  (part, { s with al := al, mem := mem })

/-- `process(size)` (lines 197-209), `call retptr` being `wasm.process(retptr, size)`. The result is the
bytes of the `Float32Array`, or `none` if the call trapped and the exception went on; `finally` puts the
stack pointer back in either case. -/
def process (call : Nat → Call A) (s : St A) : Option (List Nat) × St A :=
  let s := { s with sp := s.sp - 16 }
  let retptr := s.sp.toNat
  match call retptr s.al s.mem with
  | (.error _, m) => (none, { s with mem := m, sp := s.sp + 16 })
  | (.ok al, m) =>
    let (v, s) := takeVec 4 retptr { s with al := al, mem := m }
    (some v, { s with sp := s.sp + 16 })

/-- `update(code_buf)` (lines 248-262). -/
def update (call : (retptr ptr len : Nat) → Call A) (code : List Nat) (s : St A) :
    Option (List Nat) × St A :=
  let s := { s with sp := s.sp - 16 }
  let retptr := s.sp.toNat
  match passArray8ToWasm0 code s with
  | none => (none, { s with sp := s.sp + 16 })
  | some (ptr0, s) =>
    match call retptr ptr0 s.vecLen s.al s.mem with
    | (.error _, m) => (none, { s with mem := m, sp := s.sp + 16 })
    | (.ok al, m) =>
      let (v, s) := takeVec 1 retptr { s with al := al, mem := m }
      (some v, { s with sp := s.sp + 16 })

end Verif.Glue
