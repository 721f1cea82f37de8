import Verif.Wasm

/-! Specification of the browser interface (C29, C30). -/

namespace Verif.Spec.Browser
open Verif

/-- The result buffer for an error of class `cls` with message bytes `msg`: 256 bytes, the class, a
zero, then as much of the message as fits, then zeros. -/
def ErrorBuffer (cls : Nat) (msg buf : List Nat) : Prop :=
  buf.length = 256 ∧ buf[0]? = some cls ∧ buf[1]? = some 0 ∧
  (∀ i, i < 254 → i < msg.length → buf[2 + i]? = msg[i]?) ∧
  (∀ i, i < 254 → msg.length ≤ i → buf[2 + i]? = some 0)

/-- `bs` is the UTF-8 encoding of the character (Unicode, table 3-6): the value is recovered from the
payload bits, lead and continuation bytes are in their ranges, and the form is the shortest one. -/
inductive Utf8Char : Char → List Nat → Prop
  | one {c : Char} : c.toNat < 0x80 → Utf8Char c [c.toNat]
  | two {c : Char} {a b : Nat} : a < 0x20 → b < 0x40 → c.toNat = a * 64 + b → 0x80 ≤ c.toNat →
      Utf8Char c [0xC0 + a, 0x80 + b]
  | three {c : Char} {a b d : Nat} : a < 0x10 → b < 0x40 → d < 0x40 →
      c.toNat = a * 4096 + b * 64 + d → 0x800 ≤ c.toNat → Utf8Char c [0xE0 + a, 0x80 + b, 0x80 + d]
  | four {c : Char} {a b d f : Nat} : a < 0x08 → b < 0x40 → d < 0x40 → f < 0x40 →
      c.toNat = a * 262144 + b * 4096 + d * 64 + f → 0x10000 ≤ c.toNat →
      Utf8Char c [0xF0 + a, 0x80 + b, 0x80 + d, 0x80 + f]

/-- `bs` is the UTF-8 encoding of the text. -/
inductive Utf8 : List Char → List Nat → Prop
  | nil : Utf8 [] []
  | cons {c cs b bs} : Utf8Char c b → Utf8 cs bs → Utf8 (c :: cs) (b ++ bs)

end Verif.Spec.Browser
