import Verif.Fl
import Verif.Ast

/-! # Events of a `seq` pattern -/

namespace Verif

/-- An element of a group (`note` in rs/parser/src/glicol.pest:103): a whole number, a rest `_` or a
one-letter reference. -/
inductive SeqElem where
  | note (n : Nat)
  | rest
  | ref (r : Name)
  deriving Repr, DecidableEq

/-- `j as f32 / elements_n as f32 + i as f32` (rs/parser/src/nodes.rs:530,537). -/
def seqTime (i j n : Nat) : Fl := Fl.ofNat f32 j /. Fl.ofNat f32 n +. Fl.ofNat f32 i

/-- The events of the elements from number `j` on of group `i` with `n` elements
(rs/parser/src/nodes.rs:524-553): rests are left out. -/
def groupEvents (i n : Nat) : Nat → List SeqElem → List (Fl × NatRef)
  | _, [] => []
  | j, .note k :: es => (seqTime i j n, .nat k) :: groupEvents i n (j + 1) es
  | j, .rest :: es => groupEvents i n (j + 1) es
  | j, .ref r :: es => (seqTime i j n, .ref r) :: groupEvents i n (j + 1) es

/-- The events of the groups from number `i` on (rs/parser/src/nodes.rs:521-558). -/
def patternEvents : Nat → List (List SeqElem) → List (Fl × NatRef)
  | _, [] => []
  | i, g :: gs => groupEvents i g.length 0 g ++ patternEvents (i + 1) gs

/-- `Seq::parse_from_iter` (rs/parser/src/nodes.rs:506-561) on the groups of a pattern. -/
def seqEvents (groups : List (List SeqElem)) : List (Fl × NatRef) := patternEvents 0 groups

end Verif
