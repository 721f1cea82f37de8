import Verif.Engine
import Verif.Parser.Chars

/-!
# Parsing expression grammars

The part of the `pest` library that rs/parser/src/glicol.pest uses (rs/parser/src/lib.rs:12-14 derives the
parser from that file). `pest` itself is not in the repository; its documented semantics is modelled:
ordered choice, greedy repetition without backtracking, lookahead, and rules that leave a token with the
text they matched and the tokens of the rules inside. All rules of the grammar are compound-atomic (`$`),
atomic (`@`), silent (`_`) or used only inside atomic ones, so no blanks are skipped implicitly.
-/

namespace Verif

/-- The rules of rs/parser/src/glicol.pest that leave tokens (`Rule` of rs/parser/src/lib.rs:12).
`EOI` is left out: the tokens of rule `block` are filtered by `Rule::line` (lib.rs:28). -/
inductive Rule where
  | block | line | chain | node
  | points | pointsInner | mathExpression | isLooping | point | time | bar | sign | ms | second
  | psampler | msgsynth | patternSynth | adc | expr | eval | evalContent | ret | evalSentence | assignTo
  | assignValue | «meta» | code | inner | arrange | reverb | balance | get | sendpass | plate | envperc
  | delayn | delayms | seq | adsr | choose | mix | apfmsgain | lpf | rhpf | mul | imp | bd | sn | hh
  | sawsynth | squsynth | trisynth | add | sin | saw | squ | tri | pan | constsig | onepole | speed | noise
  | sp | event | pattern | patternEventBody | valueTime | number | float | symbol | compoundNotes | compound
  | note | noteRef | reference | looseMatch | rest | integer
  deriving DecidableEq, Repr

/-- A token: the rule, the text it matched (`as_str`) and the tokens inside (`into_inner`). -/
inductive Pair where
  | mk (rule : Rule) (text : Name) (inner : List Pair)

/-- `Pair::as_rule`. -/
def Pair.rule : Pair → Rule
  | .mk r _ _ => r

/-- `Pair::as_str`. -/
def Pair.text : Pair → Name
  | .mk _ t _ => t

/-- `Pair::into_inner`. -/
def Pair.inner : Pair → List Pair
  | .mk _ _ l => l

/-- A parser: from the text ahead to the text matched, the tokens left and the text after it. -/
abbrev Peg := Name → Option (Name × List Pair × Name)

namespace Peg

/-- A literal. -/
def lit : Name → Peg
  | [], s => some ([], [], s)
  | _ :: _, [] => none
  | c :: cs, d :: s =>
    if c = d then (lit cs s).map (fun r => (c :: r.1, r.2.1, r.2.2)) else none

/-- A character of a class. -/
def chr (p : Char → Bool) : Peg
  | [] => none
  | c :: s => if p c then some ([c], [], s) else none

/-- `p ~ q`. -/
def seq (p q : Peg) : Peg := fun s =>
  match p s with
  | none => none
  | some (c, ps, r) => (q r).map (fun x => (c ++ x.1, ps ++ x.2.1, x.2.2))

/-- `a ~ b ~ …`. -/
def seqs : List Peg → Peg
  | [] => fun s => some ([], [], s)
  | p :: ps => seq p (seqs ps)

/-- `p | q`: the second only where the first does not match. -/
def alt (p q : Peg) : Peg := fun s =>
  match p s with
  | some x => some x
  | none => q s

/-- `a | b | …`. -/
def alts : List Peg → Peg
  | [] => fun _ => none
  | p :: ps => alt p (alts ps)

/-- At most `n` repetitions, as many as match. -/
def starN (p : Peg) : Nat → Name → Name × List Pair × Name
  | 0, s => ([], [], s)
  | n + 1, s =>
    match p s with
    | none => ([], [], s)
    | some (c, ps, r) =>
      let x := starN p n r
      (c ++ x.1, ps ++ x.2.1, x.2.2)

/-- `p*`. Every repeated expression of the grammar consumes at least one character
(`Verif.Lemmas.Peg`), so the bound is never met. -/
def star (p : Peg) : Peg := fun s => some (starN p s.length s)

/-- `p+`. -/
def plus (p : Peg) : Peg := seq p (star p)

/-- `p?`. -/
def opt (p : Peg) : Peg := fun s =>
  match p s with
  | some x => some x
  | none => some ([], [], s)

/-- `!p`: matches nothing where `p` does not match. -/
def not (p : Peg) : Peg := fun s =>
  match p s with
  | some _ => none
  | none => some ([], [], s)

/-- A rule: leaves a token around those of the expression. -/
def tok (r : Rule) (p : Peg) : Peg := fun s =>
  (p s).map (fun x => (x.1, [.mk r x.1 x.2.1], x.2.2))

/-- The tokens inside are not left (rules without `$` used inside an atomic rule `@`). -/
def quiet (p : Peg) : Peg := fun s => (p s).map (fun x => (x.1, [], x.2.2))

/-- `EOI`. -/
def eoi : Peg
  | [] => some ([], [], [])
  | _ :: _ => none

end Peg

end Verif
