import Verif.Fl
import Verif.Engine

/-!
# Reading numbers

`str::parse::<f32>` of the Rust standard library, used in rs/main/src/lib.rs:91,
rs/parser/src/nodes.rs:335, rs/synth/src/node/synth/msgsynth.rs:164 and others.
-/

namespace Verif

/-- The value of an ASCII digit. -/
def digitVal (c : Char) : Option Nat :=
  if '0' ≤ c ∧ c ≤ '9' then some (c.toNat - 48) else none

/-- The leading digits and the rest. -/
def takeDigits : Name → List Nat × Name
  | [] => ([], [])
  | c :: cs =>
    match digitVal c with
    | none => ([], c :: cs)
    | some d => let r := takeDigits cs; (d :: r.1, r.2)

/-- The number written by digits, most significant first. -/
def decVal (ds : List Nat) : Nat := ds.foldl (fun n d => 10 * n + d) 0

/-- An optional sign; `true` for minus. -/
def takeSign : Name → Bool × Name
  | '-' :: cs => (true, cs)
  | '+' :: cs => (false, cs)
  | cs => (false, cs)

/-- `10 ^ e`. -/
def pow10 : Int → ℚ
  | .ofNat n => ((10 ^ n : Nat) : ℚ)
  | .negSucc n => mkRat 1 (10 ^ (n + 1))

/-- The optional exponent and the end of the text: `Exp ::= 'e' Sign? Digit+` in either case. -/
def takeExp : Name → Option Int
  | [] => some 0
  | c :: cs =>
    if c = 'e' ∨ c = 'E' then
      let s := takeSign cs
      let d := takeDigits s.2
      if d.1 = [] ∨ d.2 ≠ [] then none
      else some (if s.1 then -(decVal d.1 : Int) else decVal d.1)
    else none

/-- `Number ::= ( Digit+ | Digit+ '.' Digit* | Digit* '.' Digit+ ) Exp?`: the exact value. -/
def takeNumber (s : Name) : Option ℚ :=
  let i := takeDigits s
  match i.2 with
  | '.' :: rest =>
    let f := takeDigits rest
    if i.1 = [] ∧ f.1 = [] then none
    else (takeExp f.2).map (fun e => (decVal (i.1 ++ f.1) : ℚ) * pow10 (e - f.1.length))
  | rest =>
    if i.1 = [] then none
    else (takeExp rest).map (fun e => (decVal i.1 : ℚ) * pow10 e)

/-- ASCII lower case. -/
def lower (c : Char) : Char := if 'A' ≤ c ∧ c ≤ 'Z' then Char.ofNat (c.toNat + 32) else c

/-- `str::parse::<f32>().ok()`: `Sign? ( 'inf' | 'infinity' | 'nan' | Number )`, the nearest f32 of
the written value. -/
def parseF32 (s : Name) : Option Fl :=
  let r := takeSign s
  let w := r.2.map lower
  if w = ['i', 'n', 'f'] ∨ w = ['i', 'n', 'f', 'i', 'n', 'i', 't', 'y'] then some (.inf r.1)
  else if w = ['n', 'a', 'n'] then some .nan
  else (takeNumber r.2).map (fun x => Fl.round f32 r.1 (if r.1 then -x else x))

/-- `char::is_whitespace` (Unicode `White_Space`). -/
def isWhite (c : Char) : Bool :=
  let n := c.toNat
  decide ((9 ≤ n ∧ n ≤ 13) ∨ n = 32 ∨ n = 0x85 ∨ n = 0xA0 ∨ n = 0x1680 ∨ (0x2000 ≤ n ∧ n ≤ 0x200A) ∨
    n = 0x2028 ∨ n = 0x2029 ∨ n = 0x202F ∨ n = 0x205F ∨ n = 0x3000)

/-- `str::split(char)`: always at least one piece. -/
def splitChar (sep : Char) : Name → List Name
  | [] => [[]]
  | c :: cs =>
    if c = sep then [] :: splitChar sep cs
    else
      match splitChar sep cs with
      | [] => [[c]]
      | p :: ps => (c :: p) :: ps

/-- `str::split("=>")`. -/
def splitArrow : Name → List Name
  | [] => [[]]
  | '=' :: '>' :: cs => [] :: splitArrow cs
  | c :: cs =>
    match splitArrow cs with
    | [] => [[c]]
    | p :: ps => (c :: p) :: ps

example : parseF32 ['-', '0'] = some .nz := by decide +kernel
example : parseF32 ['1', '.', '5', 'e', '1'] = some (.fin 15) := by decide +kernel
example : parseF32 ['.', '5'] = some (.fin (1 / 2)) := by decide +kernel
example : parseF32 ['.'] = none := by decide +kernel
example : parseF32 ['+', 'I', 'n', 'F'] = some (.inf false) := by decide +kernel
example : parseF32 ['1', 'e', '3', '9'] = some (.inf false) := by decide +kernel
example : parseF32 ['1', '_', '0'] = none := by decide +kernel
example : splitArrow ['1', '=', '>', '6', '0'] = [['1'], ['6', '0']] := by decide +kernel

end Verif
