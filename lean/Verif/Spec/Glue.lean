import Verif.Glue

/-! # Vocabulary for C78: texts and arrays cross the border of the compiled program unharmed -/

namespace Verif.Glue

/-- An address lies in a block. -/
def In (r : Nat × Nat) (a : Nat) : Prop := r.1 ≤ a ∧ a < r.1 + r.2

/-- Two blocks have no address in common. -/
def Apart (r s : Nat × Nat) : Prop := ∀ a, ¬ (In r a ∧ In s a)

/-- The bytes of a block. -/
def contents (m : Mem) (r : Nat × Nat) : List Nat := (List.range r.2).map fun i => m.byte (r.1 + i)

/-- The blocks hold the same bytes in both memories. -/
def Keeps (l : List (Nat × Nat)) (m m' : Mem) : Prop := ∀ r ∈ l, contents m' r = contents m r

/-- The memory is the same `ArrayBuffer` as before, or it has been enlarged and is a new one. -/
def Later (m m' : Mem) : Prop :=
  (m'.buf = m.buf ∧ m'.size = m.size) ∨ (m.buf < m'.buf ∧ m.size < m'.size)

/-- What an allocator promises. Every block which it hands out lies in the memory and apart from the
blocks which are in use; what the blocks in use hold is not changed; a block which is resized keeps what
it holds as far as there is room. It may enlarge the memory at any time, and it may
refuse. -/
structure Sound (A : Alloc) : Prop where
  malloc : ∀ n al c m, (∀ r ∈ A.live c, r.1 + r.2 ≤ m.size) → 0 < al →
    ∀ p c' m', A.malloc n al c m = some (p, c', m') →
      A.live c' = (unsigned p, n) :: A.live c ∧ unsigned p + n ≤ m'.size ∧ unsigned p % al = 0 ∧
      (∀ r ∈ A.live c, Apart (unsigned p, n) r) ∧ Keeps (A.live c) m m' ∧ Later m m'
  realloc : ∀ q old new al c m l, A.live c = (q, old) :: l → (∀ r ∈ A.live c, r.1 + r.2 ≤ m.size) →
    (∀ r ∈ l, Apart (q, old) r) → ∀ p c' m', A.realloc q old new al c m = some (p, c', m') →
      A.live c' = (unsigned p, new) :: l ∧ unsigned p + new ≤ m'.size ∧
      (∀ r ∈ l, Apart (unsigned p, new) r) ∧ Keeps l m m' ∧ Later m m' ∧
      contents m' (unsigned p, min old new) = contents m (q, min old new)
  free : ∀ q n al c m l, A.live c = (q, n) :: l → ∀ c' m', A.free q n al c m = (c', m') →
      A.live c' = l ∧ Keeps l m m' ∧ Later m m'

/-- The allocator has refused a request for at most `n` bytes. -/
def Refused (A : Alloc) (n : Nat) : Prop :=
  (∃ k al c m, k ≤ n ∧ A.malloc k al c m = none) ∨ ∃ q old k al c m, k ≤ n ∧ A.realloc q old k al c m = none

/-- A cached view is of the present memory, or detached. -/
def Cached (m : Mem) (c : Option View) : Prop :=
  ∀ v ∈ c, v.buf < m.buf ∨ v = whole m

/-- The state between two calls: the blocks in use lie in the memory and the caches hold nothing wrong. -/
structure Ok {A : Alloc} (s : St A) : Prop where
  inside : ∀ r ∈ A.live s.al, r.1 + r.2 ≤ s.mem.size
  u8 : Cached s.mem s.u8
  f32 : Cached s.mem s.f32
  i32 : Cached s.mem s.i32

/-- A JavaScript string, given by its UTF-16 units, is the text `cs`: a unit which is no surrogate is a
character, a high surrogate and a low one together are a character, and any other surrogate counts as the
replacement character. -/
inductive Reads : List Nat → List Char → Prop
  | nil : Reads [] []
  | one {c : Char} {us cs} : c.toNat < 0x10000 → Reads us cs → Reads (c.toNat :: us) (c :: cs)
  | two {c : Char} {hi lo us cs} : hi < 0x400 → lo < 0x400 → c.toNat = 0x10000 + hi * 0x400 + lo →
      Reads us cs → Reads ((0xD800 + hi) :: (0xDC00 + lo) :: us) (c :: cs)
  | high {hi us cs} : hi < 0x400 → (∀ l ∈ us.head?, l < 0xDC00 ∨ 0xE000 ≤ l) → Reads us cs →
      Reads ((0xD800 + hi) :: us) ('�' :: cs)
  | low {lo us cs} : lo < 0x400 → Reads us cs → Reads ((0xDC00 + lo) :: us) ('�' :: cs)

/-- The bytes `xs` have been handed over at the address `p`: a new block of exactly their number holds
them, and the other blocks in use are the ones of before and hold what they held. -/
structure Handed {A : Alloc} (s s' : St A) (p : Nat) (xs : List Nat) : Prop where
  live : A.live s'.al = (p, xs.length) :: A.live s.al
  holds : contents s'.mem (p, xs.length) = xs
  apart : ∀ r ∈ A.live s.al, Apart (p, xs.length) r
  keeps : Keeps (A.live s.al) s.mem s'.mem
  ok : Ok s'
  stack : s'.sp = s.sp
  later : Later s.mem s'.mem

/-- The UTF-8 bytes of a text. -/
def utf8 (cs : List Char) : List Nat := (cs.flatMap String.utf8EncodeChar).map UInt8.toNat

/-- The bytes of a list of numbers of 32 bits, the least significant byte first. -/
def bytesOf (xs : List Nat) : List Nat :=
  xs.flatMap fun x => [x % 256, x / 256 % 256, x / 65536 % 256, x / 16777216 % 256]

/-- `al'`, `m'` is the state after a call which returned the vector whose bytes are `xs`: the vector is a
new block, its address and its number of elements (of `width` bytes) stand at `retptr`, and of the blocks
in use before the call those in `l` still are. -/
def Gives (A : Alloc) (width retptr : Nat) (l : List (Nat × Nat)) (m : Mem) (al' : A.σ) (m' : Mem)
    (xs : List Nat) : Prop :=
  ∃ r, A.live al' = (r, xs.length) :: l ∧ contents m' (r, xs.length) = xs ∧
    (∀ q ∈ A.live al', q.1 + q.2 ≤ m'.size) ∧ retptr + 8 ≤ m'.size ∧
    r % width = 0 ∧ xs.length % width = 0 ∧
    word m' retptr = r ∧ word m' (retptr + 4) = xs.length / width ∧ Keeps l m m' ∧ Later m m'

end Verif.Glue
