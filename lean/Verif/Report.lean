import Verif.Wasm
import Verif.Parser.Chars

/-! # The report of an error on the page (rs/wasm/src/lib.rs, js/src/glicol.js)

Simplifications: JavaScript strings are lists of UTF-16 code units (natural numbers). `decode` stands for
`TextDecoder.decode` and is a parameter. What pest notes about a failure (the place and the names of the rules tried) is
a parameter, since pest is not part of the repository; its computation of line and column (`Position::line_col`
of pest 2) is modelled. Each call of `log` is one entry of the list; the further arguments of `log` (styles) are left out. -/

namespace Verif.Report
open Verif

/-- A failure to parse: the text before the place of the failure and the rules that were expected there or not. -/
structure Failure where
  before : Name
  positives : List Name
  negatives : List Name

/-- pest's `line_col` of the place after the text, both counted from 1. -/
def lineColFrom : Nat × Nat → Name → Nat × Nat
  | lc, [] => lc
  | (l, _), '\r' :: '\n' :: s => lineColFrom (l + 1, 1) s
  | (l, c), d :: s => if d = '\n' then lineColFrom (l + 1, 1) s else lineColFrom (l, c + 1) s

/-- pest's `line_col`. -/
def lineCol (s : Name) : Nat × Nat := lineColFrom (1, 1) s

/-- A number in decimal (`{:?}` of `usize`). -/
def decText (n : Nat) : Name := Nat.toDigits 10 n

/-- The names of a list (`{:?}` of `Vec<Rule>`, without the brackets). -/
def commas : List Name → Name
  | [] => []
  | [x] => x
  | x :: l => x ++ ',' :: ' ' :: commas l

/-- The message of a syntax error (rs/wasm/src/lib.rs:100-121). The place is a number of bytes. -/
def message (f : Failure) : Name :=
  c!"pos[" ++ decText (Wasm.utf8 f.before).length ++ c!"], line[" ++ decText (lineCol f.before).1 ++ c!"], col[" ++
    decText (lineCol f.before).2 ++ c!"], positives[" ++ commas f.positives ++ c!"], negatives[" ++ commas f.negatives ++ c!"]"

/-- The UTF-16 code units of a character. -/
def utf16Char (c : Char) : List Nat :=
  if c.toNat < 0x10000 then [c.toNat] else [0xD800 + (c.toNat - 0x10000) / 1024, 0xDC00 + (c.toNat - 0x10000) % 1024]

/-- A text as a JavaScript string. -/
def utf16 (s : Name) : List Nat := s.flatMap utf16Char

/-- What follows the first occurrence of `sep`, if there is one. -/
def after (sep : List Nat) : List Nat → Option (List Nat)
  | [] => if sep = [] then some [] else none
  | c :: s => if sep.isPrefixOf (c :: s) then some ((c :: s).drop sep.length) else after sep s

/-- What comes before the first occurrence of `sep`, or everything. -/
def upTo (sep : List Nat) : List Nat → List Nat
  | [] => []
  | c :: s => if sep.isPrefixOf (c :: s) then [] else c :: upTo sep s

/-- `s.split(sep)[1]`; `none` for `undefined`. -/
def second (sep s : List Nat) : Option (List Nat) := (after sep s).map (upTo sep)

/-- `s.split("]")[0]`. -/
def untilBracket (s : List Nat) : List Nat := upTo (utf16 c!"]") s

/-- `parseInt(s)` for texts without leading blanks or sign; `none` for `NaN`. -/
def parseInt (s : List Nat) : Option Nat :=
  match s.takeWhile (fun c => 48 ≤ c && c ≤ 57) with
  | [] => none
  | ds => some (ds.foldl (fun n d => 10 * n + (d - 48)) 0)

/-- `s.split("\n")[i]`. -/
def lineNo : Nat → List Nat → Option (List Nat)
  | 0, s => some (upTo [10] s)
  | i + 1, s => (after [10] s).bind (lineNo i)

/-- `s.replace(pat, by)`: the first occurrence. -/
def replaceFirst (pat new : List Nat) : List Nat → List Nat
  | [] => []
  | c :: s => if pat.isPrefixOf (c :: s) then new ++ (c :: s).drop pat.length else c :: replaceFirst pat new s

/-- `s.split(",").join(sep)`. -/
def joinCommas (sep : List Nat) (s : List Nat) : List Nat := s.flatMap fun c => if c = 44 then sep else [c]

/-- What `log` was called with, and whether an exception ended it. -/
structure Console where
  logs : List (List Nat)
  threw : Bool
  deriving DecidableEq

/-- The handling of an error on the page (js/src/glicol.js:85-110). `code` is `window.code` (`none` for
`undefined`, see `npmReport`). A line that is `NaN` gives an
undefined `errline`, a column that is `NaN` is treated as 1, since `slice` and the comparison treat it like 0; a column 0 does not occur. -/
def reportOf (decode : List Nat → List Nat) (code : Option (List Nat)) (result : List Nat) : Console :=
  let info := decode ((result.drop 2).filter (· ≠ 0))
  if result[0]? = some 1 then
    match second (utf16 c!"line[") info, second (utf16 c!"col[") info, second (utf16 c!"positives[") info,
        second (utf16 c!"negatives[") info with
    | some l, some c, some p, some n =>
      let line := parseInt (untilBracket l)
      let col := parseInt (untilBracket c)
      let positives := joinCommas (utf16 c!" ||") (replaceFirst (utf16 c!"EOI") (utf16 c!"END OF INPUT") (untilBracket p))
      let negatives := joinCommas (utf16 c!" or") (untilBracket n)
      let shown := match line with
        | some k => utf16 (decText k)
        | none => utf16 c!"NaN"
      let head := utf16 c!"%cError at line " ++ shown
      let k := col.getD 1 - 1
      match line.bind fun i => if i = 0 then none else code.bind (lineNo (i - 1)) with
      | none => ⟨[info, head], true⟩
      | some errline =>
        let expecting := if positives.length > 0 then utf16 c!"expecting " ++ positives else []
        let unexpected := if negatives.length > 0 then utf16 c!"unexpected " ++ negatives else []
        ⟨[info, head, errline.take k ++ utf16 c!"%c %c" ++ errline.drop k,
          List.replicate k 95 ++ utf16 c!"%c^^^ " ++ expecting ++ unexpected], false⟩
    | _, _, _, _ => ⟨[info], true⟩
  else ⟨[utf16 c!"%c" ++ info], false⟩

/-- The report of the page, where the code last sent is kept (js/src/glicol.js: `window.code` is set whenever a program is
sent). -/
def report (decode : List Nat → List Nat) (code : List Nat) (result : List Nat) : Console := reportOf decode (some code) result

/-- The two ways of sending a program to the engine of the package (js/npm/index.js:163-176 `run`, 215-224 `play`; the text
that `play` makes of its chains is taken as given here, see `Verif.NodeChain`). -/
inductive Call
  | run (code : Name)
  | play (code : Name)

/-- `this.code` after some calls: only `play` sets it (js/npm/index.js:222), `run` does not (163-176), and the constructor
does not either (`undefined`). -/
def npmCode (calls : List Call) : Option Name :=
  calls.foldl (fun c x => match x with | .run _ => c | .play t => some t) none

/-- The report of the package (js/npm/index.js:107-134). It is that of the page with `this.code` for `window.code`; when that
is `undefined`, `this.code.split` throws (line 120). `pos` (114) is read but not used; a message that has `line[` has `pos[`
before it. -/
def npmReport (decode : List Nat → List Nat) (calls : List Call) (result : List Nat) : Console :=
  reportOf decode ((npmCode calls).map utf16) result

end Verif.Report
