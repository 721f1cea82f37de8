import Verif.Script
import Verif.Spec.Nodes
import Verif.Spec.Message

/-! # What scripted nodes should play (C69, C70) -/

namespace Verif.Spec

/-- The variables after `x` was given the value `v`. -/
def Sets (m : Name → Option Fl) (x : Name) (v : Fl) (m' : Name → Option Fl) : Prop := m' x = some v ∧ ∀ y, y ≠ x → m' y = m y

/-- Assignments done one after the other. -/
inductive Assigns (F : FastEval) : List (Name × F.Prog) → (Name → Option Fl) → (Name → Option Fl) → Prop
  | nil (m) : Assigns F [] m m
  | cons {x p v m m' m'' r} : F.eval p m = some v → Sets m x v m' → Assigns F r m' m'' → Assigns F ((x, p) :: r) m m''

/-- The variables a formula starts with. -/
def Starts (sr : Nat) (m : Name → Option Fl) : Prop :=
  m c!"x" = some (.fin 0) ∧ m c!"y" = some (.fin 0) ∧ m c!"z" = some (.fin 0) ∧ m c!"sr" = some (Fl.ofNat f64 sr) ∧
  ∀ y, y ∉ [c!"x", c!"y", c!"z", c!"sr"] → m y = none

/-- The variables of sample `t` before its first assignment: `in` is the input, if there is one, and `phase` is the number of the
sample. -/
def Given (m : Name → Option Fl) (x : Option Fl) (t : Nat) (m' : Name → Option Fl) : Prop :=
  m' c!"phase" = some (Fl.ofNat f64 t) ∧ (∀ v, x = some v → m' c!"in" = some v) ∧
  ∀ y, y ≠ c!"phase" → (y = c!"in" → x = none) → m' y = m y

/-- Every sample of `ys` is the value of the expression `last` after the assignments of its sample; variables are remembered from
sample to sample. -/
def Computes (F : FastEval) (sr : Nat) (asgs : List (Name × F.Prog)) (last : F.Prog) (xs : List (Option Fl)) (ys : List Fl) : Prop :=
  ys.length = xs.length ∧
  ∃ mem : Nat → Name → Option Fl, Starts sr (mem 0) ∧ ∀ t x, xs[t]? = some x → ∃ m v,
    Given (mem t) x t m ∧ Assigns F asgs m (mem (t + 1)) ∧ F.eval last (mem (t + 1)) = some v ∧ ys[t]? = some (Fl.conv f32 v)

/-- A text of blanks. -/
def BlankText (s : Name) : Prop := ∀ c ∈ s, c = ' ' ∨ c = '\t' ∨ c = '\n'

/-- The name of a variable as it is written to the left of `:=`. -/
def VarName (s : Name) : Prop := ∀ c ∈ s, c ≠ ' ' ∧ c ≠ '\t' ∧ c ≠ '\n' ∧ c ≠ ':' ∧ c ≠ ';'

/-- An expression that fasteval reads as `p`. -/
def Expr (F : FastEval) (s : Name) (p : F.Prog) : Prop := ';' ∉ s ∧ ¬ c!":=" <:+: s ∧ F.parse s = some p

/-- The text of a formula: assignments, each with a semicolon, and an expression, which may be given a name (the name is for
show: see `Computes`). -/
inductive FormulaText (F : FastEval) : Name → List (Name × F.Prog) → F.Prog → Prop
  | last {s p} : Expr F s p → FormulaText F s [] p
  | named {a x b s p} : BlankText a → VarName x → BlankText b → Expr F s p → FormulaText F (a ++ x ++ b ++ c!":=" ++ s) [] p
  | assign {a x b s p rest asgs last} : BlankText a → VarName x → BlankText b → Expr F s p → FormulaText F rest asgs last →
      FormulaText F (a ++ x ++ b ++ c!":=" ++ s ++ ';' :: rest) ((x, p) :: asgs) last

/-- The expression has a value as soon as the variables `names` have one. -/
def NeedsOnly (F : FastEval) (names : List Name) (p : F.Prog) : Prop := ∀ m : Name → Option Fl, (∀ y ∈ names, m y ≠ none) → F.eval p m ≠ none

/-- Every statement of a formula needs only the variables `names` and those that are assigned before it. -/
def SetBefore (F : FastEval) : List Name → List (Name × F.Prog) → F.Prog → Prop
  | names, [], last => NeedsOnly F names last
  | names, (x, p) :: r, last => NeedsOnly F names p ∧ SetBefore F (x :: names) r last

/-- A formula that always has a value; `input` tells whether it may use `in`. -/
def SafeFormula (F : FastEval) (code : Name) (input : Bool) : Prop :=
  ∃ asgs last, FormulaText F code asgs last ∧
    SetBefore F ((if input then [c!"in"] else []) ++ [c!"phase", c!"x", c!"y", c!"z", c!"sr"]) asgs last

/-- The codes with which a scripted node cannot fail; `true` stands for `meta`. -/
def SafeScript (F : FastEval) : Bool → Name → Bool → Prop
  | false, code, input => SafeFormula F code input
  | true, _, _ => True

/-- A statement that is no expression and no assignment. -/
def Unreadable (F : FastEval) (s : Name) : Prop :=
  ';' ∉ s ∧ ((¬ c!":=" <:+: s ∧ F.parse s = none) ∨
    ∃ l r, s = l ++ c!":=" ++ r ∧ ':' ∉ l ∧ ¬ c!":=" <:+: r ∧ F.parse r = none)

/-- The statements of a code. -/
def HasStatements (code : Name) (ss : List Name) : Prop := code = join ';' ss ∧ ss ≠ [] ∧ ∀ s ∈ ss, ';' ∉ s

/-- An array that a script returned, laid over the block before it: where there is no float the old sample stays. -/
def Laid (old : Buf) (r : List (Option Fl)) (new : Buf) : Prop :=
  new.length = old.length ∧ ∀ t : Nat, t < old.length →
    (∀ v, r[t]? = some (some v) → new[t]? = some v) ∧ ((∀ v, r[t]? ≠ some (some v)) → new[t]? = old[t]?)

/-- The variables when the script is evaluated: the array `input` is set if there is an input. -/
def inputSet (R : Rhai) (s : R.Scope) : Option Buf → R.Scope
  | some x => R.setInput s x
  | none => s

/-- What a script plays on the given blocks: `none` stands for a block without input. In every block the script is evaluated once, with
the variables it left behind; what it returns is laid over the block before it, and nothing changes if it fails. -/
def MetaPlays (R : Rhai) (N sr : Nat) (ast : R.Ast) (ins : List (Option Buf)) (outs : List Buf) : Prop :=
  outs.length = ins.length ∧
  ∃ (scope : Nat → R.Scope) (out : Nat → Buf), scope 0 = R.start sr ∧ out 0 = List.replicate N (.fin 0) ∧
    ∀ (k : Nat) i, ins[k]? = some i → outs[k]? = some (out (k + 1)) ∧ ∃ res,
      R.eval ast (inputSet R (scope k) i) = (scope (k + 1), res) ∧
      (∀ r, res = some r → Laid (out k) r (out (k + 1))) ∧ (res = none → out (k + 1) = out k)

/-- The floats of scripts are f32 numbers: `G` says so of the variables (the crate rhai is used with the feature `f32_float`,
rs/Cargo.toml:23-28). -/
def Rhai32 (R : Rhai) : Prop :=
  ∃ G : R.Scope → Prop, (∀ sr, G (R.start sr)) ∧ (∀ s x, G s → (∀ v, v ∈ x → v.Ok f32) → G (R.setInput s x)) ∧
    ∀ a s s' r, G s → R.eval a s = (s', r) → G s' ∧ ∀ l, r = some l → ∀ v, some v ∈ l → v.Ok f32

/-! ### Small languages for examples -/

/-- A language of formulas with a few expressions. -/
def Demo.fasteval : FastEval where
  Prog := Name
  parse := fun s => if s ∈ [c!"x", c!"y", c!"in", c!"x+1", c!"x+in", c!"phase"] then some s else none
  eval := fun p m =>
    if p = c!"x+1" then (m c!"x").map fun v => Fl.add f64 v (.fin 1)
    else if p = c!"x+in" then
      match m c!"x", m c!"in" with
      | some v, some w => some (Fl.add f64 v w)
      | _, _ => none
    else m p

/-- A language of scripts with a counter and the array `input` as its variables: `echo` returns the input, `count` an array of two times the
number of evaluations before, `once` ones in the first block and an error later, `short` ones in the first block and an array of one element later. -/
def Demo.rhai : Rhai where
  Ast := Name
  Scope := Nat × Buf
  empty := []
  compile := fun s => if s ∈ [c!"echo", c!"count", c!"once", c!"short"] then some s else none
  start := fun _ => (0, [])
  setInput := fun s x => (s.1, x)
  eval := fun a s => ((s.1 + 1, s.2),
    if a = c!"echo" then some (s.2.map some)
    else if a = c!"count" then some [some (.round f32 false s.1), some (.round f32 false s.1)]
    else if a = c!"once" then if s.1 = 0 then some [some (.fin 1), some (.fin 1)] else none
    else if a = c!"short" then if s.1 = 0 then some [some (.fin 1), some (.fin 1)] else some [some (.fin 2)]
    else none)

end Verif.Spec
