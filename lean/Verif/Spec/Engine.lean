import Verif.Engine
import Verif.Spec.Schedule
import Mathlib.Data.List.Forall2

/-! Specification vocabulary for the engine (C01-C08, C12-C17). -/

namespace Verif.Spec
open Verif

variable {L : Lang}

/-- The messages that only describe how inputs are wired. -/
def IsWiring {Num : Type} : Msg Num → Prop
  | .index _ => True
  | .indexOrder _ _ => True
  | .resetOrder => True
  | _ => False

/-- `n'` is `n` after some sequence of wiring messages. -/
inductive Rewire (L : Lang) : L.Node → L.Node → Prop
  | refl (n : L.Node) : Rewire L n n
  | step {n n1 n2 : L.Node} {m : Msg L.Num} :
      IsWiring m → L.msg n m = .ok n1 → Rewire L n1 n2 → Rewire L n n2

/-- `a` and `b` are neighbours in the list, in this order. -/
def Adjacent (c : List Nat) (a b : Nat) : Prop := ∃ pre post, c = pre ++ a :: b :: post

/-- A reference is either plain (no dot) or a pattern `base..`. -/
def RefWf (r : Name) : Prop := '.' ∉ r ∨ ∃ base, '.' ∉ base ∧ r = base ++ ['.', '.']

/-- Node `a` is a source denoted by the reference `r` in the chain table `t`: the last node of
the chain called `r`, or, for `base..`, the last node of a chain whose name starts with `base`. -/
inductive Denotes (t : Table) : Name → Nat → Prop
  | named {r c a} : '.' ∉ r → (r, c) ∈ t → c.getLast? = some a → Denotes t r a
  | pattern {base k c a} : '.' ∉ base → (k, c) ∈ t → base <+: k → c.getLast? = some a →
      Denotes t (base ++ ['.', '.']) a

/-- The reference `r` resolves among the chain names `names`. -/
inductive Resolves (names : List Name) : Name → Prop
  | named {r} : '.' ∉ r → r ∈ names → Resolves names r
  | pattern {base k} : '.' ∉ base → k ∈ names → base <+: k →
      Resolves names (base ++ ['.', '.'])

/-- The connections a program calls for, given the table that maps its chains to nodes. -/
inductive Wanted (L : Lang) (dest : Nat) (t : Table) (prog : Ast L.Comp) : Nat → Nat → Prop
  | chain {k c a b} : (k, c) ∈ t → Adjacent c a b → Wanted L dest t prog a b
  | out {k c a} : (k, c) ∈ t → '~' ∉ k → c.getLast? = some a → Wanted L dest t prog a dest
  | ref {k : Name} {comps : List L.Comp} {i : Nat} {comp : L.Comp} {r : Name} {c : List Nat}
      {a b : Nat} : (k, comps) ∈ prog → comps[i]? = some comp → r ∈ L.refs comp →
      (k, c) ∈ t → c[i]? = some b → Denotes t r a → Wanted L dest t prog a b

/-- A program as the parser delivers it: distinct chain names, no empty chain. -/
structure ProgWf {κ : Type} (p : Ast κ) : Prop where
  names : (p.map Prod.fst).Nodup
  nonempty : ∀ k c, (k, c) ∈ p → c ≠ []

/-- No two components of a chain are equal. -/
def Distinct (eq : κ → κ → Bool) (c : List κ) : Prop := c.Pairwise (fun a b => eq a b = false)

/-- The components that occur in both versions of a chain occur in the same relative order. -/
def OrderKept (eq : κ → κ → Bool) (old new : List κ) : Prop :=
  List.Forall₂ (fun o c => eq o c = true)
    (old.filter (fun o => new.any (fun c => eq o c)))
    (new.filter (fun c => old.any (fun o => eq o c)))

/-- A program without repeated components in a chain that leaves the built-in name `~input`
alone. -/
structure CleanProg (L : Lang) (p : Ast L.Comp) : Prop where
  distinct : ∀ k c, (k, c) ∈ p → Distinct L.compEq c
  noInput : ['~', 'i', 'n', 'p', 'u', 't'] ∉ p.map Prod.fst

/-- Component equality is symmetric and transitive (not necessarily reflexive: NaN). -/
structure EqLaws (L : Lang) : Prop where
  symm : ∀ a b, L.compEq a b = true → L.compEq b a = true
  trans : ∀ a b c, L.compEq a b = true → L.compEq b c = true → L.compEq a c = true

/-- `x` has an equal in the list. -/
def HasEqual (eq : κ → κ → Bool) (l : List κ) (x : κ) : Bool := l.any (fun y => eq y x)

/-- Nothing a user can observe differs between the two engines: all settings, the program, the
chain table, the connections, and every node with its state and buffers. -/
structure SameEngine (e e' : Engine L) : Prop where
  N : e'.N = e.N
  dest : e'.dest = e.dest
  input : e'.input = e.input
  ast : e'.ast = e.ast
  index : e'.index = e.index
  samples : e'.samples = e.samples
  bpm : e'.bpm = e.bpm
  sr : e'.sr = e.sr
  trackAmp : e'.trackAmp = e.trackAmp
  seed : e'.seed = e.seed
  clock : e'.clock = e.clock
  livecoding : e'.livecoding = e.livecoding
  edges : e'.graph.edges = e.graph.edges
  nodes : ∀ i, e'.graph.node? i = e.graph.node? i

/-- A call of the public interface. `τ`/`ho` resolve the hash iteration orders. -/
inductive Op (L : Lang) where
  | update (τ : TableOrder) (code : Name)
  | sendMsg (msg : Name)
  | setBpm (v : L.Num)
  | setSr (v : Nat)
  | setSeed (v : Nat)
  | setTrackAmp (v : L.Num)
  | addSample (name : Name) (s : L.Smp)
  | nextBlock (ho : HashOrder) (buf : List (List L.Num))
  | reset

/-- The engine after a call that does not panic. -/
def Op.apply (e : Engine L) : Op L → Except Panic (Engine L)
  | .update τ code => do
    let (e', _) ← e.updateWithCode τ code
    .ok e'
  | .sendMsg msg => e.sendMsg msg
  | .setBpm v => e.setBpm v
  | .setSr v => .ok (e.setSr v)
  | .setSeed v => .ok (e.setSeed v)
  | .setTrackAmp v => .ok (e.setTrackAmp v)
  | .addSample n s => .ok (e.addSample n s)
  | .nextBlock ho buf => do
    let (e', _) ← e.nextBlock ho buf
    .ok e'
  | .reset => .ok e.reset

/-- The engines reachable from a new one by calls that do not panic. -/
inductive Reachable (L : Lang) : Engine L → Prop
  | new (N : Nat) : Reachable L (Engine.new L N)
  | step {e e' : Engine L} (op : Op L) : Reachable L e → op.apply e = .ok e' → Reachable L e'

/-- `old` is the version of chain `k` in the program in force, empty if it has no such chain. -/
def IsOld (e : Engine L) (k : Name) (old : List L.Comp) : Prop :=
  (∃ a, e.ast = some a ∧ (k, old) ∈ a) ∨ (old = [] ∧ ∀ a, e.ast = some a → k ∉ a.map Prod.fst)

/-- Node `n` of graph `g` is what `makenode` built from `c`, up to wiring messages. -/
def BuiltFrom (e : Engine L) (g : Graph L.Data) (c : L.Comp) (n : Nat) : Prop :=
  ∃ nd refs n', L.make e.samples e.sr e.bpm e.seed c = .ok (nd, refs) ∧
    g.node? n = some ⟨n', nd.buffers⟩ ∧ Rewire L nd.node n'

/-- Node `n` exists in both graphs with the same output buffers and the same state up to wiring
messages. -/
def Survives (g g' : Graph L.Data) (n : Nat) : Prop :=
  ∃ d n', g.node? n = some d ∧ g'.node? n = some ⟨n', d.buffers⟩ ∧ Rewire L d.node n'

/-- A call that does not send a program outside `CleanProg`. -/
def CleanOp : Op L → Prop
  | .update _ code => ∀ p, L.parse code = .ok (some p) → CleanProg L p
  | _ => True

/-- The engines reachable from a new one by calls that do not panic, all programs sent being
clean. -/
inductive CleanReach (L : Lang) : Engine L → Prop
  | new (N : Nat) : CleanReach L (Engine.new L N)
  | step {e e' : Engine L} (op : Op L) : CleanReach L e → CleanOp op → op.apply e = .ok e' →
      CleanReach L e'

/-- The engines reachable from a new one by calls that are allowed by `A` in the state they are made
in, none of which panics. -/
inductive ReachBy (L : Lang) (A : Engine L → Op L → Prop) : Engine L → Prop
  | new (N : Nat) : ReachBy L A (Engine.new L N)
  | step {e e' : Engine L} (op : Op L) : ReachBy L A e → A e op → op.apply e = .ok e' →
      ReachBy L A e'

/-- A call that neither resets the engine nor sends a program defining the chain `~input`. -/
def KeepsInput : Op L → Prop
  | .update _ code => ∀ p, L.parse code = .ok (some p) →
      ['~', 'i', 'n', 'p', 'u', 't'] ∉ p.map Prod.fst
  | .reset => False
  | _ => True

/-- The engines reachable from a new one by such calls, none of which panics. -/
inductive InputReach (L : Lang) : Engine L → Prop
  | new (N : Nat) : InputReach L (Engine.new L N)
  | step {e e' : Engine L} (op : Op L) : InputReach L e → KeepsInput op → op.apply e = .ok e' →
      InputReach L e'

/-- All buffers hold one block. -/
def BlockLen {Num : Type} (N : Nat) (bs : List (List Num)) : Prop := ∀ b, b ∈ bs → b.length = N

/-- The nodes in `S` respect the type of their buffers: in Rust these are arrays `[f32; N]` and no
node changes their number. Built nodes are in `S`, messages and processing do not lead out of it,
and processing buffers of length `N` leaves their number and length alone. -/
structure Shape (L : Lang) (N : Nat) (S : L.Node → Prop) : Prop where
  sum2 : S L.sum2
  pass : S L.pass
  make : ∀ samples sr bpm seed c nd rs, L.make samples sr bpm seed c = .ok (nd, rs) →
    S nd.node ∧ BlockLen N nd.buffers
  msg : ∀ n m n', S n → L.msg n m = .ok n' → S n'
  proc : ∀ n ins b n' b', S n → (∀ e, e ∈ ins → BlockLen N e.2) → BlockLen N b →
    L.proc n ins b = .ok (n', b') → S n' ∧ b'.length = b.length ∧ BlockLen N b'

/-- The wiring messages an update sends: append an input, insert one in front, forget all. -/
def UpdateWiring {Num : Type} : Msg Num → Prop
  | .index _ => True
  | .indexOrder p _ => p = 0
  | .resetOrder => True
  | _ => False

/-- The wiring messages of an update never panic. -/
def WiringTotal (L : Lang) : Prop := ∀ n m, UpdateWiring m → ∃ n', L.msg n m = .ok n'

/-- `srcs` lists the nodes denoted by the references `rs`, reference after reference; the nodes of a
pattern `base..` may come in any order. -/
inductive SourceList (t : Table) : List Name → List Nat → Prop
  | nil : SourceList t [] []
  | named {r rs c a srcs} : '.' ∉ r → (r, c) ∈ t → c.getLast? = some a → SourceList t rs srcs →
      SourceList t (r :: rs) (a :: srcs)
  | pattern {base rs l srcs} : '.' ∉ base →
      l.Perm ((t.filter (fun e => base.isPrefixOf e.1)).filterMap (fun e => e.2.getLast?)) →
      SourceList t rs srcs → SourceList t ((base ++ ['.', '.']) :: rs) (l ++ srcs)

/-- For the nodes in `K`, `ord` is the list of inputs kept by the node: the wiring messages append
to it, insert in front, and, for the nodes in `R`, empty it. -/
structure OrderLaws (L : Lang) (K R : L.Node → Prop) (ord : L.Node → List Nat) : Prop where
  keep : ∀ n n' m, IsWiring m → L.msg n m = .ok n' → (K n' ↔ K n) ∧ (R n' ↔ R n)
  index : ∀ n n' a, K n → L.msg n (.index a) = .ok n' → ord n' = ord n ++ [a]
  front : ∀ n n' a, K n → L.msg n (.indexOrder 0 a) = .ok n' → ord n' = a :: ord n
  reset : ∀ n n', K n → R n → L.msg n .resetOrder = .ok n' → ord n' = []

/-- The parser only delivers well-formed programs. -/
def ParserWf (L : Lang) : Prop := ∀ code p, L.parse code = .ok (some p) → ProgWf p

end Verif.Spec
