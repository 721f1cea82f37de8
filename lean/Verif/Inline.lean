import Verif.Engine
import Verif.Parser.Chars

/-! # JavaScript inside a program (js/src/glicol.js:119-145)

`window.run` replaces each `##...#` in the text by the value of what stands between, before the text is sent.

Simplifications: `js` stands for the JavaScript engine: given whether the text is a list of statements or an expression,
it gives the value as a text, or nothing when the value is `undefined` or an exception is thrown; values do not depend on what
was evaluated before. Strings are lists of characters. -/

namespace Verif.Inline
open Verif

/-- The text before the first `#` and the text after it. -/
def closing : Name → Option (Name × Name)
  | [] => none
  | c :: s => if c = '#' then some ([], s) else (closing s).map fun x => (c :: x.1, x.2)

/-- `codeRaw.split(/(##.*?#)/s)` (js/src/glicol.js:121-122): at the leftmost `##` that is closed by another `#`, up to the
nearest. The second argument is what has been read since the last match; the first bounds the number of steps. -/
def split : Nat → Name → Name → List Name
  | 0, acc, s => [acc ++ s]
  | _ + 1, acc, [] => [acc]
  | n + 1, acc, c :: s =>
    match if c = '#' ∧ s.head? = some '#' then closing (s.drop 1) else none with
    | some (x, rest) => acc :: ('#' :: '#' :: x ++ ['#']) :: split n [] rest
    | none => split n (acc ++ [c]) s

/-- `s.includes(pat)`. -/
def includes (pat : Name) : Name → Bool
  | [] => pat.isEmpty
  | c :: s => pat.isPrefixOf (c :: s) || includes pat s

/-- Whether the text is taken for statements: it contains a backslash followed by `n`, or a semicolon
(js/src/glicol.js:126). -/
def statements (s : Name) : Bool := includes c!"\\n" s || includes c!";" s

/-- One piece (js/src/glicol.js:123-137). -/
def piece (js : Bool → Name → Option Name) (s : Name) : Name :=
  if includes c!"#" s then (js (statements s) (s.filter (· ≠ '#'))).getD [] else s

/-- What is sent for the text (js/src/glicol.js:121-145). -/
def sent (js : Bool → Name → Option Name) (code : Name) : Name :=
  ((split code.length [] code).filter (· ≠ [])).flatMap (piece js)

end Verif.Inline
