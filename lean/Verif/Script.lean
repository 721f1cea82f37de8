import Verif.Make
import Verif.Parser.Chars

/-!
# The scripted nodes `eval` and `meta`

rs/synth/src/node/dynamic/eval.rs and meta.rs. The crates they use, fasteval and rhai, are parameters. `scripts` fills the
place that `Plat.ext` leaves open; all theorems about an arbitrary `Ext` apply to it.
-/

namespace Verif

/-- What is taken from the crate fasteval: `Parser::parse` followed by `compile` (`none` for `Err`), and `eval` of the result with
a map of variables (`none` for `Err`). The value depends on the expression and on the variables only (fasteval also has a function
`print`, whose effect is not represented). All values are f64. -/
structure FastEval where
  Prog : Type
  parse : Name → Option Prog
  eval : Prog → (Name → Option Fl) → Option Fl

/-- `BTreeMap::insert`. -/
def setVar (m : Name → Option Fl) (x : Name) (v : Fl) : Name → Option Fl := fun y => if y = x then some v else m y

/-- `Eval` (rs/synth/src/node/dynamic/eval.rs:9-21) without its list of inputs. `progs` stands for `compiled` and `slab`, which grow together; `bpm` is not
used, `sr` only as a variable. -/
structure EvalNode (F : FastEval) where
  phase : Nat
  vars : List Name
  map : Name → Option Fl
  progs : List F.Prog

/-- `line.split(":=")` as far as it is used: what stands before the first `:=`, and what stands between it and the next one;
`none` if there is no `:=` (rs/synth/src/node/dynamic/eval.rs:74-82). -/
def cutAssign : Name → Option (Name × Name)
  | [] => none
  | [_] => none
  | a :: b :: s =>
    if a = ':' ∧ b = '=' then
      some ([], match cutAssign s with | some p => p.1 | none => s)
    else (cutAssign (b :: s)).map fun p => (a :: p.1, p.2)

/-- `.replace([' ', '\t', '\n'], "")` (rs/synth/src/node/dynamic/eval.rs:77). -/
def noBlanks (s : Name) : Name := s.filter fun c => !(c == ' ' || c == '\t' || c == '\n')

/-- The loop of `apply_code` (rs/synth/src/node/dynamic/eval.rs:71-87): names and programs in the order in which they are pushed.
An expression that fasteval rejects panics (`unwrap`, 82). -/
def compileLines (F : FastEval) : List Name → Except Panic (List Name × List F.Prog)
  | [] => .ok ([], [])
  | line :: ls =>
    let cut := cutAssign line
    match F.parse (match cut with | some p => p.2 | none => line) with
    | none => .error .missing
    | some p =>
      match compileLines F ls with
      | .error e => .error e
      | .ok r => .ok ((match cut with | some q => [noBlanks q.1] | none => []) ++ r.1, p :: r.2)

/-- `apply_code` on a node without code (rs/synth/src/node/dynamic/eval.rs:70-88). -/
def EvalNode.applyCode {F : FastEval} (n : EvalNode F) (code : Name) : Except Panic (EvalNode F) :=
  match compileLines F (splitOn ';' code) with
  | .error e => .error e
  | .ok r => .ok { n with vars := r.1, progs := r.2 }

/-- `Eval::new().sr(sr).code(code)` (rs/synth/src/node/dynamic/eval.rs:30-68, rs/main/src/util.rs:151). -/
def EvalNode.new (F : FastEval) (sr : Nat) (code : Name) : Except Panic (EvalNode F) :=
  EvalNode.applyCode
    ⟨0, [], setVar (setVar (setVar (setVar (fun _ => none) c!"x" (.fin 0)) c!"y" (.fin 0)) c!"z" (.fin 0)) c!"sr" (Fl.ofNat f64 sr),
      []⟩ code

/-- The loop over the statements for one sample (rs/synth/src/node/dynamic/eval.rs:104-113). The last statement gives the sample,
the others set the variable whose name was pushed at the same place. -/
def statements (F : FastEval) (vars : List Name) : Nat → List F.Prog → (Name → Option Fl) → Except Panic ((Name → Option Fl) × Option Fl)
  | _, [], m => .ok (m, none)
  | j, p :: ps, m =>
    match F.eval p m with
    | none => .error .missing
    | some v =>
      match ps with
      | [] => .ok (m, some (Fl.conv f32 v))
      | q :: ps =>
        match vars[j]? with
        | none => .error .indexOutOfBounds
        | some x => statements F vars (j + 1) (q :: ps) (setVar m x v)

/-- One sample (rs/synth/src/node/dynamic/eval.rs:94-114). The item is the sample of the input if there is one. -/
def evalStep {F : FastEval} (n : EvalNode F) (x : Option Fl) : Except Panic (EvalNode F × Option Fl) :=
  let m := match x with
    | some v => setVar n.map c!"in" v
    | none => n.map
  match statements F n.vars 0 n.progs (setVar m c!"phase" (Fl.ofNat f64 n.phase)) with
  | .error e => .error e
  | .ok (m', y) => .ok ({ n with map := m', phase := n.phase + 1 }, y)

/-- The samples of the input that the loop reads (rs/synth/src/node/dynamic/eval.rs:94-99). -/
def evalItems (order : List Nat) (ins : Ins) (o : Buf) : Except Panic (List (Option Fl)) :=
  if ins.isEmpty then .ok (o.map fun _ => none)
  else
    match inputAt ins order 0 with
    | .error e => .error e
    | .ok b =>
      match chan b 0 with
      | .error e => .error e
      | .ok x => .ok (x.map some)

/-- `process` (rs/synth/src/node/dynamic/eval.rs:92-116). Without a statement the output would be left as it was, which does not
happen: `split` gives at least one piece. -/
def procEval {F : FastEval} (n : EvalNode F) (order : List Nat) (ins : Ins) (out : List Buf) : Except Panic (EvalNode F × List Buf) :=
  match chan out 0 with
  | .error e => .error e
  | .ok o =>
    match evalItems order ins o with
    | .error e => .error e
    | .ok xs =>
      match runM evalStep n xs with
      | .error e => .error e
      | .ok r => .ok (r.1, out.set 0 (List.zipWith (fun (y : Option Fl) old => y.getD old) r.2 o))

/-- The first message of `send_msg` (rs/synth/src/node/dynamic/eval.rs:120-130). -/
def EvalNode.set {F : FastEval} (n : EvalNode F) : Nat → Name → Except Panic (EvalNode F)
  | 0, code => n.applyCode code
  | _, _ => .ok n

/-- What is taken from the crate rhai: `compile` (`none` for `Err`), the empty script, the variables a `meta` node starts with (it
pushes some forty zeros, the array `output` and the sample rate, rs/synth/src/node/dynamic/meta.rs:23-69, 145), setting the array
`input`, and the evaluation: the variables afterwards and the array, whose elements may be something else than floats; `none` for `Err`,
which includes a result that is not an array. -/
structure Rhai where
  Ast : Type
  Scope : Type
  empty : Ast
  compile : Name → Option Ast
  start : Nat → Scope
  setInput : Scope → Buf → Scope
  eval : Ast → Scope → Scope × Option (List (Option Fl))

/-- `Meta` (rs/synth/src/node/dynamic/meta.rs:5-13) without its list of inputs. -/
structure MetaNode (R : Rhai) where
  ast : R.Ast
  scope : R.Scope

/-- `Meta::new().sr(sr).code(code)` and `to_boxed_nodedata` (rs/synth/src/node/dynamic/meta.rs:22-95, 144-147): code that does not
compile leaves the empty script. -/
def MetaNode.new (R : Rhai) (sr : Nat) (code : Name) : MetaNode R := ⟨(R.compile code).getD R.empty, R.start sr⟩

/-- The samples of a block after a script returned an array (rs/synth/src/node/dynamic/meta.rs:114-120): places without a float stay. -/
def overwrite : Buf → List (Option Fl) → Buf
  | [], _ => []
  | o, [] => o
  | _ :: o, some v :: r => v :: overwrite o r
  | x :: o, none :: r => x :: overwrite o r

/-- The variables with the array `input` set if there is an input (rs/synth/src/node/dynamic/meta.rs:100-108). -/
def metaScope {R : Rhai} (n : MetaNode R) (order : List Nat) (ins : Ins) : Except Panic R.Scope :=
  if ins.isEmpty then .ok n.scope
  else
    match inputAt ins order 0 with
    | .error e => .error e
    | .ok b =>
      match chan b 0 with
      | .error e => .error e
      | .ok x => .ok (R.setInput n.scope x)

/-- `process` (rs/synth/src/node/dynamic/meta.rs:99-127). -/
def procMeta {R : Rhai} (n : MetaNode R) (order : List Nat) (ins : Ins) (out : List Buf) : Except Panic (MetaNode R × List Buf) :=
  match metaScope n order ins with
  | .error e => .error e
  | .ok s =>
    match R.eval n.ast s with
    | (s', none) => .ok ({ n with scope := s' }, out)
    | (s', some r) =>
      match chan out 0 with
      | .error e => .error e
      | .ok o => .ok ({ n with scope := s' }, out.set 0 (overwrite o r))

/-- The first message of `send_msg` (rs/synth/src/node/dynamic/meta.rs:130-134). -/
def MetaNode.set {R : Rhai} (n : MetaNode R) : Nat → Name → MetaNode R
  | 0, code => { n with ast := (R.compile code).getD n.ast }
  | _, _ => n

/-- The two scripted nodes. -/
def scripts (F : FastEval) (R : Rhai) : Ext where
  State := EvalNode F ⊕ MetaNode R
  new := fun isMeta code sr => if isMeta then .ok (.inr (.new R sr code)) else .inl <$> EvalNode.new F sr code
  proc := fun n order ins out =>
    match n with
    | .inl n => reState .inl (procEval n order ins out)
    | .inr n => reState .inr (procMeta n order ins out)
  set := fun n p t =>
    match n with
    | .inl n => .inl <$> n.set p t
    | .inr n => .ok (.inr (n.set p t))

end Verif
