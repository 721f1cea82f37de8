import Verif.Graph

/-!
# The live-coding engine

Models `rs/main/src/lib.rs` (`Engine`) together with the parts of
`rs/synth/src/context.rs` (`AudioContext`) it uses. The engine is generic in a structure
`Lang` that supplies the parser, the component equality and the node implementations, so
that everything proved about it holds for every node implementation.

Chain names and texts are lists of characters.
-/

namespace Verif

/-- A chain name, a reference, or a text. Rust `&str`/`String`; modelled as the list of its
characters. -/
abbrev Name := List Char

/-- rs/main/src/error.rs:6-11 `EngineError`. Simplification: the pest error inside
`ParsingError` is dropped. -/
inductive EngineError where
  | parsing
  | nonExistReference (name : Name)
  | nonExistSample (name : Name)
  deriving DecidableEq, Repr

/-- Why building a node stops: a returned error (`?` in rs/main/src/lib.rs:200) or a panic. -/
inductive Stop where
  | err (e : EngineError)
  | panic (p : Panic)
  deriving Repr

/-- The variants of `glicol_synth::Message` (rs/synth/src/lib.rs:63-85) that the engine sends.
Simplification: the variants only sent by the never reached `handle_node_update`
(rs/main/src/lib.rs:326-447; `node_update_list` is never filled) are left out. -/
inductive Msg (Num : Type) where
  | setToNumber (pos : Nat) (v : Num)
  | setToSymbol (pos : Nat) (s : Name)
  | setBPM (v : Num)
  | index (i : Nat)
  | indexOrder (pos i : Nat)
  | resetOrder
  deriving Repr

/-- A parsed program: rs/parser/src/nodes.rs:18-20 `Ast { nodes: HashMap<&str, Vec<Component>> }`.
The order of the list is the (arbitrary) iteration order of the map. -/
abbrev Ast (κ : Type) := List (Name × List κ)

/-- `HashMap<String, Vec<NodeIndex>>` (rs/main/src/lib.rs:37). -/
abbrev Table := List (Name × List Nat)

/-- Everything the engine takes from the other crates.
* `Num`: f32; `zero` its zero, `parseNum` is `str::parse::<f32>` (rs/main/src/lib.rs:91)
* `Comp`, `compEq`: `Component` and its derived `PartialEq` (rs/parser/src/nodes.rs:53-54)
* `refs`: `Component::all_references` (rs/parser/src/nodes.rs:100)
* `Smp`: `(&'static [f32], usize, usize)` (rs/main/src/lib.rs:40)
* `make`: `makenode` (rs/main/src/util.rs:35): samples, sr, bpm, seed, component
* `msg`: `Node::send_msg`; `proc`: `Node::process` (rs/synth/src/node/mod.rs:49-51)
* `sum2`, `pass`: the nodes `Sum2` and `Pass` (rs/synth/src/context.rs:107,111)
* `parse`: `get_ast` (rs/parser/src/lib.rs:16), `none` for a syntax error
* `bpm120`, `one`: the constants `120.` and `1.0` (rs/main/src/lib.rs:68,70). -/
structure Lang where
  Num : Type
  Comp : Type
  Node : Type
  Smp : Type
  zero : Num
  one : Num
  bpm120 : Num
  parseNum : Name → Option Num
  compEq : Comp → Comp → Bool
  refs : Comp → List Name
  make : List (Name × Smp) → Nat → Num → Nat → Comp →
    Except Stop (NodeData Node (List Num) × List Name)
  msg : Node → Msg Num → Except Panic Node
  proc : ProcFn Node (List Num)
  sum2 : Node
  pass : Node
  parse : Name → Except Panic (Option (Ast Comp))

variable (L : Lang)

/-- `NodeData<BoxedNodeSend<N>, N>`; a buffer is the list of its samples. -/
abbrev Lang.Data := NodeData L.Node (List L.Num)

/-- rs/main/src/lib.rs:34-48 `Engine<N>` with the fields of its `AudioContext`
(rs/synth/src/context.rs:93-100) that matter. `N` is the block length. Simplification: the
processor's scratch storage, `tags` and the configuration are not represented. -/
structure Engine where
  N : Nat
  graph : Graph L.Data
  dest : Nat
  input : Nat
  ast : Option (Ast L.Comp)
  index : Table
  backup : Table
  temp : List Nat
  samples : List (Name × L.Smp)
  bpm : L.Num
  sr : Nat
  trackAmp : L.Num
  seed : Nat
  clock : Nat
  livecoding : Bool
  needUpdate : Bool

/-- Iteration order of `index_info` during one update (rs/main/src/lib.rs:522,534): some
permutation of its entries. -/
structure TableOrder where
  ord : Table → Table
  perm : ∀ t, (ord t).Perm t

/-- The stored order as a possible iteration order. -/
def TableOrder.ident : TableOrder := ⟨fun t => t, fun t => List.Perm.refl t⟩

/-- The reversed stored order as a possible iteration order. -/
def TableOrder.rev : TableOrder := ⟨fun t => t.reverse, fun t => List.reverse_perm t⟩

/-! ### Hash map primitives (hashbrown) -/

/-- `HashMap::get`. -/
def lookup {β : Type} (t : List (Name × β)) (k : Name) : Option β :=
  match t with
  | [] => none
  | (k', v) :: t => if k' = k then some v else lookup t k

/-- `*map.get_mut(k).unwrap() = v` for a present key. -/
def assign {β : Type} (t : List (Name × β)) (k : Name) (v : β) : List (Name × β) :=
  match t with
  | [] => []
  | (k', v') :: t => if k' = k then (k', v) :: t else (k', v') :: assign t k v

/-- `HashMap::insert`: overwrite or add. -/
def insert {β : Type} (t : List (Name × β)) (k : Name) (v : β) : List (Name × β) :=
  match lookup t k with
  | some _ => assign t k v
  | none => t ++ [(k, v)]

/-- `HashMap::remove_entry` (the remaining map). -/
def erase {β : Type} (t : List (Name × β)) (k : Name) : List (Name × β) :=
  t.filter (fun e => !decide (e.1 = k))

/-! ### Name predicates -/

/-- `name.contains('~')` (rs/main/src/lib.rs:542). -/
def hasTilde (n : Name) : Bool := n.contains '~'

/-- `name.contains("..")` (rs/main/src/lib.rs:473,520). -/
def hasDots : Name → Bool
  | '.' :: '.' :: _ => true
  | _ :: l => hasDots l
  | [] => false

/-- `name.replace("..", "")` (rs/main/src/lib.rs:477,523): removes leftmost non-overlapping
occurrences. -/
def stripDots : Name → Name
  | '.' :: '.' :: l => stripDots l
  | c :: l => c :: stripDots l
  | [] => []

/-- `"~input"` (rs/main/src/lib.rs:60,571). -/
def inputName : Name := ['~', 'i', 'n', 'p', 'u', 't']

/-! ### Construction and reset -/

variable {L}

/-- `NodeData::multi_chan_node(chan, node)` with silent buffers (rs/synth/src/graph.rs:101). -/
def freshData (N : Nat) (chan : Nat) (node : L.Node) : L.Data :=
  ⟨node, List.replicate chan (List.replicate N L.zero)⟩

/-- `AudioContext::new` (rs/synth/src/context.rs:103-121) and `reset` (:123-134): the graph with
only the destination (`Sum2`) and input (`Pass`) nodes, two channels each
(`AudioContextConfig::default`, :68-77). -/
def contextGraph (L : Lang) (N : Nat) : Graph L.Data × Nat × Nat :=
  let (g1, d) := Graph.empty.addNode (freshData N 2 L.sum2)
  let (g2, i) := g1.addNode (freshData N 2 L.pass)
  (g2, d, i)

/-- `Engine::new` (rs/main/src/lib.rs:57-76). -/
def Engine.new (L : Lang) (N : Nat) : Engine L :=
  let (g, d, i) := contextGraph L N
  let (g', k) := g.addNode (freshData N 2 L.pass)
  { N := N, graph := g', dest := d, input := i, ast := none
    index := [(inputName, [k])], backup := [(inputName, [k])], temp := [], samples := []
    bpm := L.bpm120, sr := 44100, trackAmp := L.one, seed := 42, clock := 0
    livecoding := true, needUpdate := false }

/-- `Engine::reset` (rs/main/src/lib.rs:148-161). `sr` is kept. -/
def Engine.reset (e : Engine L) : Engine L :=
  let (g, d, i) := contextGraph L e.N
  { e with
    graph := g, dest := d, input := i, ast := none, index := [], backup := [], temp := []
    samples := [], bpm := L.bpm120, trackAmp := L.one, seed := 42, clock := 0
    livecoding := true, needUpdate := false }

/-! ### Diffing (rs/main/src/lib.rs:185-312) -/

/-- Entry of `refpairlist` (rs/main/src/lib.rs:29): references, chain, position. -/
abbrev RefPair := List Name × Name × Nat

/-- `GraphDiff` (rs/main/src/lib.rs:26-32) without the never filled `node_update_list`. -/
structure Diff (L : Lang) where
  removes : List (Name × Nat)
  refpairs : List RefPair
  adds : List (Name × Nat × L.Data)

/-- Concatenation of diffs: the lists are filled in order. -/
def Diff.append (a b : Diff L) : Diff L :=
  ⟨a.removes ++ b.removes, a.refpairs ++ b.refpairs, a.adds ++ b.adds⟩

/-- `iter().enumerate()`. -/
def enumFrom {β : Type} (n : Nat) : List β → List (Nat × β)
  | [] => []
  | b :: l => (n, b) :: enumFrom (n + 1) l

/-- `add_nodes` (rs/main/src/lib.rs:190-211): builds the node of each listed component; the first
error or panic ends the whole update. -/
def addNodes (mk : L.Comp → Except Stop (L.Data × List Name)) (name : Name) :
    List (Nat × L.Comp) → Except Stop (Diff L)
  | [] => .ok ⟨[], [], []⟩
  | (i, c) :: rest => do
    let (nd, refs) ← mk c
    let d ← addNodes mk name rest
    .ok ⟨d.removes, (if refs.isEmpty then [] else [(refs, name, i)]) ++ d.refpairs,
      (name, i, nd) :: d.adds⟩

/-- `new_chain.iter().enumerate().find(|(_, comp)| old_comp == *comp)` (rs/main/src/lib.rs:233-236). -/
def findEq (eq : L.Comp → L.Comp → Bool) (old : L.Comp) (new : List L.Comp) :
    Option (Nat × L.Comp) :=
  (enumFrom 0 new).find? (fun p => eq old p.2)

/-- The loop over the old components (rs/main/src/lib.rs:232-259). -/
def diffOld (L : Lang) (name : Name) (new : List L.Comp) :
    List (Nat × L.Comp) → List RefPair × List (Name × Nat)
  | [] => ([], [])
  | (oldIdx, c) :: rest =>
    let (rp, rm) := diffOld L name new rest
    match findEq L.compEq c new with
    | some (idx, c') =>
      ((if (L.refs c').isEmpty then [] else [(L.refs c', name, idx)]) ++ rp, rm)
    | none => (rp, (name, oldIdx) :: rm)

/-- One new chain against the old program (rs/main/src/lib.rs:214-275). -/
def diffChain (mk : L.Comp → Except Stop (L.Data × List Name)) (old : Option (Ast L.Comp))
    (name : Name) (new : List L.Comp) : Except Stop (Diff L) :=
  match old.bind (fun o => lookup o name) with
  | none => addNodes mk name (enumFrom 0 new)
  | some oldChain => do
    let (rp, rm) := diffOld L name new (enumFrom 0 oldChain)
    let d ← addNodes mk name
      ((enumFrom 0 new).filter (fun p => !oldChain.any (fun c => L.compEq c p.2)))
    .ok ⟨rm ++ d.removes, rp ++ d.refpairs, d.adds⟩

/-- The loop over the chains of the new program (rs/main/src/lib.rs:214-275, 301-311). -/
def diffAll (mk : L.Comp → Except Stop (L.Data × List Name)) (old : Option (Ast L.Comp)) :
    Ast L.Comp → Except Stop (Diff L)
  | [] => .ok ⟨[], [], []⟩
  | (name, new) :: rest => do
    let d ← diffChain mk old name new
    let d' ← diffAll mk old rest
    .ok (d.append d')

/-! ### Removal and insertion in the chain table -/

/-- Chains that disappear (rs/main/src/lib.rs:279-287): each is taken out of the table, which must
contain it (`expect`); returns the nodes they listed. -/
def dropChains (new : Ast L.Comp) :
    (oldKeys : List Name) → Table → Except Panic (Table × List Nat)
  | [], t => .ok (t, [])
  | k :: ks, t =>
    if (lookup new k).isSome then dropChains new ks t
    else
      match lookup t k with
      | none => .error .missing
      | some idxs => do
        let (t', more) ← dropChains new ks (erase t k)
        .ok (t', idxs ++ more)

/-- Components that disappear (rs/main/src/lib.rs:290-298); the argument is the removal list in
`pop` order, i.e. reversed. -/
def dropNodes : List (Name × Nat) → Table → Except Panic (Table × List Nat)
  | [], t => .ok (t, [])
  | (k, pos) :: rest, t =>
    match lookup t k with
    | none => dropNodes rest t
    | some chain =>
      match chain[pos]? with
      | none => .error .indexOutOfBounds
      | some i => do
        let (t', more) ← dropNodes rest (assign t k (chain.eraseIdx pos))
        .ok (t', i :: more)

/-- Insertion of the new nodes (rs/main/src/lib.rs:315-324): graph, table and list of the created
node indices. `Vec::insert` panics beyond the end. -/
def insertNodes : List (Name × Nat × L.Data) → Graph L.Data → Table →
    Except Panic (Graph L.Data × Table × List Nat)
  | [], g, t => .ok (g, t, [])
  | (k, pos, nd) :: rest, g, t =>
    let (g1, i) := g.addNode nd
    match lookup t k with
    | some chain =>
      if pos ≤ chain.length then do
        let (g', t', more) ← insertNodes rest g1 (assign t k (chain.insertIdx pos i))
        .ok (g', t', i :: more)
      else .error .insertOutOfBounds
    | none => do
      let (g', t', more) ← insertNodes rest g1 (insert t k [i])
      .ok (g', t', i :: more)

/-! ### Reference check (rs/main/src/lib.rs:460-489) -/

/-- The first reference of the list that does not resolve. -/
def refCheck (t : Table) (new : Ast L.Comp) : List Name → Option Name
  | [] => none
  | r :: rs =>
    let ok :=
      if hasDots r then t.any (fun e => (stripDots r).isPrefixOf e.1)
      else (lookup new r).isSome || (lookup t r).isSome
    if ok then refCheck t new rs else some r

/-! ### Connections (rs/main/src/lib.rs:501-548) -/

/-- `AudioContext::connect` (rs/synth/src/context.rs:180-184). -/
def connect (g : Graph L.Data) (a b : Nat) : Except Panic (Graph L.Data) := do
  let g1 ← g.addEdge a b
  g1.modify b (fun d => do
    let n ← L.msg d.node (.index a)
    .ok ⟨n, d.buffers⟩)

/-- `AudioContext::connect_with_order` (rs/synth/src/context.rs:186-192). -/
def connectWithOrder (g : Graph L.Data) (a b pos : Nat) : Except Panic (Graph L.Data) := do
  let g1 ← g.addEdge a b
  g1.modify b (fun d => do
    let n ← L.msg d.node (.indexOrder pos a)
    .ok ⟨n, d.buffers⟩)

/-- `Vec::last().unwrap()`. -/
def lastOf (chain : List Nat) : Except Panic Nat :=
  match chain.getLast? with
  | some i => .ok i
  | none => .error .missing

/-- Connect every source in the list to `b`, in order. -/
def connectAll (g : Graph L.Data) (b : Nat) : List Nat → Except Panic (Graph L.Data)
  | [] => .ok g
  | a :: as => do
    let g1 ← connect g a b
    connectAll g1 b as

/-- The sources a reference stands for (rs/main/src/lib.rs:520-530): with `..` the last node of
every chain whose name has the prefix, in table iteration order; otherwise the last node of the
named chain, which must exist. -/
def refSources (t : Table) (r : Name) : Except Panic (List Nat) :=
  if hasDots r then
    (t.filter (fun e => (stripDots r).isPrefixOf e.1)).mapM (fun e => lastOf e.2)
  else
    match lookup t r with
    | none => .error .missing
    | some chain => do
      let i ← lastOf chain
      .ok [i]

/-- Inner loop over the references of one node (rs/main/src/lib.rs:519-531). -/
def connectRefs (t : Table) (g : Graph L.Data) (b : Nat) : List Name → Except Panic (Graph L.Data)
  | [] => .ok g
  | r :: rs => do
    let srcs ← refSources t r
    let g1 ← connectAll g b srcs
    connectRefs t g1 b rs

/-- `ResetOrder` the first time a node is met (rs/main/src/lib.rs:514-517). -/
def resetOnce (done : List Nat) (b : Nat) (g : Graph L.Data) : Except Panic (Graph L.Data) :=
  if b ∈ done then .ok g
  else g.modify b (fun d => do
    let n ← L.msg d.node .resetOrder
    .ok ⟨n, d.buffers⟩)

/-- Loop over `refpairlist` (rs/main/src/lib.rs:506-532); `done` is `already_reset`. A missing
chain name returns an error without clean-up (:508-510). -/
def connectPairs (t : Table) :
    List RefPair → (done : List Nat) → Graph L.Data →
    Except Panic (Graph L.Data × Option EngineError)
  | [], _, g => .ok (g, none)
  | (refs, name, pos) :: rest, done, g =>
    match lookup t name with
    | none => .ok (g, some (.nonExistReference name))
    | some chain =>
      match chain[pos]? with
      | none => .error .indexOutOfBounds
      | some b => do
        let g1 ← resetOnce done b g
        let g2 ← connectRefs t g1 b refs
        connectPairs t rest (if b ∈ done then done else b :: done) g2

/-- `for window in chain.windows(2)` (rs/main/src/lib.rs:535-541). -/
def connectChain (g : Graph L.Data) : List Nat → Except Panic (Graph L.Data)
  | a :: b :: rest => do
    let g1 ← connectWithOrder g a b 0
    connectChain g1 (b :: rest)
  | _ => .ok g

/-- The last node of a chain without `~` goes to the destination (rs/main/src/lib.rs:542-547). -/
def connectOut (dest : Nat) (k : Name) (chain : List Nat) (g : Graph L.Data) :
    Except Panic (Graph L.Data) :=
  if hasTilde k then .ok g
  else
    match chain.getLast? with
    | none => .ok g
    | some e => connectWithOrder g e dest 0

/-- Loop over the table (rs/main/src/lib.rs:534-548): connect neighbours, and the last node of a
chain without `~` to the destination. -/
def connectTable (dest : Nat) : Table → Graph L.Data → Except Panic (Graph L.Data)
  | [], g => .ok g
  | (k, chain) :: rest, g => do
    let g1 ← connectChain g chain
    let g2 ← connectOut dest k chain g1
    connectTable dest rest g2

/-! ### update_with_code -/

/-- `for id in ... { graph.remove_node(id) }` (rs/main/src/lib.rs:494-496, 560-563). -/
def removeAll (g : Graph L.Data) (ids : List Nat) : Graph L.Data :=
  ids.foldl Graph.removeNode g

/-- `Engine::clean_up` (rs/main/src/lib.rs:557-566) on an engine whose graph, table and temporary
list are given. -/
def Engine.cleanUp (e : Engine L) : Engine L :=
  { e with graph := removeAll e.graph e.temp, index := e.backup }

/-- The chain names of the old program (rs/main/src/lib.rs:279-280). -/
def oldKeys (e : Engine L) : List Name := match e.ast with | none => [] | some o => o.map Prod.fst

/-- The part of `update_with_code` after parsing (rs/main/src/lib.rs:183-555). The result is the
engine afterwards and the returned `Result`; `Except.error` is a panic (the partially updated
engine left behind by a panic is not represented). -/
def Engine.updateAst (τ : TableOrder) (e : Engine L) (new : Ast L.Comp) :
    Except Panic (Engine L × Option EngineError) :=
  let e := { e with temp := [] }
  match diffAll (L.make e.samples e.sr e.bpm e.seed) e.ast new with
  | .error (.panic p) => .error p
  | .error (.err x) => .ok (e, some x)
  | .ok diff => do
    let (t1, gone1) ← dropChains new (oldKeys e) e.index
    let (t2, gone2) ← dropNodes diff.removes.reverse t1
    let (g3, t3, created) ← insertNodes diff.adds e.graph t2
    let e3 : Engine L := { e with graph := g3, index := t3, temp := created }
    match refCheck t3 new (diff.refpairs.flatMap (·.1)) with
    | some r => .ok (e3.cleanUp, some (.nonExistReference r))
    | none =>
      let g4 := (removeAll g3 (gone1 ++ gone2)).clearEdges
      let order := τ.ord t3
      let (g5, bad) ← connectPairs order diff.refpairs [] g4
      match bad with
      | some x => .ok ({ e3 with graph := g5 }, some x)
      | none =>
        let g6 ← connectTable e.dest order g5
        .ok ({ e3 with graph := g6, ast := some new, backup := t3 }, none)

/-- `Engine::update_with_code` (rs/main/src/lib.rs:172-555). -/
def Engine.updateWithCode (τ : TableOrder) (e : Engine L) (code : Name) :
    Except Panic (Engine L × Option EngineError) := do
  match ← L.parse code with
  | none => .ok (e, some .parsing)
  | some new => e.updateAst τ new

/-! ### Messages -/

/-- Unicode `White_Space`, used by `char::is_whitespace` (rs/main/src/lib.rs:79). -/
def isWhitespace (c : Char) : Bool :=
  let n := c.toNat
  (9 ≤ n && n ≤ 13) || n == 32 || n == 0x85 || n == 0xA0 || n == 0x1680 ||
  (0x2000 ≤ n && n ≤ 0x200A) || n == 0x2028 || n == 0x2029 || n == 0x202F || n == 0x205F ||
  n == 0x3000

/-- `str::split(sep)` (rs/main/src/lib.rs:80-81): always at least one piece. -/
def splitOn (sep : Char) : Name → List Name
  | [] => [[]]
  | c :: l =>
    if c = sep then [] :: splitOn sep l
    else
      match splitOn sep l with
      | [] => [[c]]
      | p :: ps => (c :: p) :: ps

/-- Value of a list of decimal digits, `none` if some character is not a digit. -/
def digitsVal : Name → Nat → Option Nat
  | [], acc => some acc
  | c :: l, acc => if c.isDigit then digitsVal l (acc * 10 + (c.toNat - 48)) else none

/-- The text without one leading `+` (part of `str::parse::<uN>()`, rs/main/src/lib.rs:88-89). -/
def stripPlus : Name → Name
  | '+' :: l => l
  | l => l

/-- `str::parse::<uN>()` (rs/main/src/lib.rs:88-89): optional `+`, at least one digit, value at
most `max`. -/
def parseUInt (max : Nat) (s : Name) : Option Nat :=
  match stripPlus s with
  | [] => none
  | _ =>
    match digitsVal (stripPlus s) 0 with
    | some v => if v ≤ max then some v else none
    | none => none

/-- `graph[i].node.send_msg(m)` (rs/synth/src/context.rs:252-254). -/
def sendTo (g : Graph L.Data) (i : Nat) (m : Msg L.Num) : Except Panic (Graph L.Data) :=
  g.modify i (fun d => do
    let n ← L.msg d.node m
    .ok ⟨n, d.buffers⟩)

/-- The message a value text stands for (rs/main/src/lib.rs:91-100). -/
def valueMsg (L : Lang) (paramPos : Nat) (value : Name) : Msg L.Num :=
  match L.parseNum value with
  | some v => .setToNumber paramPos v
  | none => .setToSymbol paramPos value

/-- The addressed part of a command (rs/main/src/lib.rs:81-89): chain name, chain position and
message; `none` with fewer than four fields. Unreadable positions count as 0. -/
def parseCommand (L : Lang) (cmd : Name) : Option (Name × Nat × Msg L.Num) :=
  match splitOn ',' cmd with
  | chain :: cpos :: ppos :: value :: _ =>
    some (chain, (parseUInt (2 ^ 64 - 1) cpos).getD 0,
      valueMsg L ((parseUInt 255 ppos).getD 0) value)
  | _ => none

/-- Delivery of a command (rs/main/src/lib.rs:90-101). -/
def Engine.deliver (e : Engine L) (chain : Name) (pos : Nat) (m : Msg L.Num) :
    Except Panic (Engine L) :=
  match lookup e.index chain with
  | none => .ok e
  | some nodes =>
    match nodes[pos]? with
    | none => .error .indexOutOfBounds
    | some i => do
      let g ← sendTo e.graph i m
      .ok { e with graph := g }

/-- One command of `send_msg` (rs/main/src/lib.rs:80-103). -/
def Engine.command (e : Engine L) (cmd : Name) : Except Panic (Engine L) :=
  match parseCommand L cmd with
  | none => .ok e
  | some (chain, pos, m) => e.deliver chain pos m

/-- `Engine::send_msg` (rs/main/src/lib.rs:78-104). -/
def Engine.sendMsg (e : Engine L) (msg : Name) : Except Panic (Engine L) :=
  let commands := msg.filter (fun c => !isWhitespace c)
  ((splitOn ';' commands).filter (fun c => !c.isEmpty)).foldlM Engine.command e

/-- `send_msg_to_all` (rs/synth/src/context.rs:256-260), slot by slot. -/
def sendAll (m : Msg L.Num) : List (Option L.Data) → Except Panic (List (Option L.Data))
  | [] => .ok []
  | none :: rest => do
    let r ← sendAll m rest
    .ok (none :: r)
  | some d :: rest => do
    let n ← L.msg d.node m
    let r ← sendAll m rest
    .ok (some ⟨n, d.buffers⟩ :: r)

/-- `Engine::set_bpm` (rs/main/src/lib.rs:588-591). -/
def Engine.setBpm (e : Engine L) (v : L.Num) : Except Panic (Engine L) := do
  let s ← sendAll (.setBPM v) e.graph.slots
  .ok { e with bpm := v, graph := { e.graph with slots := s } }

/-- `Engine::set_sr` (rs/main/src/lib.rs:592-594). -/
def Engine.setSr (e : Engine L) (v : Nat) : Engine L := { e with sr := v }

/-- `Engine::set_seed` (rs/main/src/lib.rs:595-597). -/
def Engine.setSeed (e : Engine L) (v : Nat) : Engine L := { e with seed := v }

/-- `Engine::set_track_amp` (rs/main/src/lib.rs:598-600). -/
def Engine.setTrackAmp (e : Engine L) (v : L.Num) : Engine L := { e with trackAmp := v }

/-- `Engine::add_sample` (rs/main/src/lib.rs:143-146). -/
def Engine.addSample (e : Engine L) (name : Name) (s : L.Smp) : Engine L :=
  { e with samples := insert e.samples name s }

/-! ### next_block (rs/main/src/lib.rs:568-586) -/

/-- `graph[index_info["~input"][0]].buffers[ch].copy_from_slice(data)`. -/
def Engine.copyInput (e : Engine L) (ch : Nat) (data : List L.Num) : Except Panic (Engine L) :=
  match lookup e.index inputName with
  | none => .error .missing
  | some nodes =>
    match nodes[0]? with
    | none => .error .indexOutOfBounds
    | some i => do
      let g ← e.graph.modify i (fun d =>
        match d.buffers[ch]? with
        | none => .error .indexOutOfBounds
        | some b =>
          if b.length = data.length then .ok ⟨d.node, d.buffers.set ch data⟩
          else .error .lengthMismatch)
      .ok { e with graph := g }

/-- The copying of the external input (rs/main/src/lib.rs:570-578). -/
def Engine.copyInputs (e : Engine L) (buf : List (List L.Num)) : Except Panic (Engine L) :=
  match buf with
  | [] => .ok e
  | [b0] => e.copyInput 0 b0
  | b0 :: b1 :: _ => do
    let e1 ← e.copyInput 0 b0
    e1.copyInput 1 b1

/-- `Engine::next_block` (rs/main/src/lib.rs:568-586): the engine afterwards and the returned
buffers of the destination. -/
def Engine.nextBlock (ho : HashOrder) (e : Engine L) (buf : List (List L.Num)) :
    Except Panic (Engine L × List (List L.Num)) := do
  let e1 ← e.copyInputs buf
  let g ← process L.proc ho e1.graph e1.dest
  match g.node? e1.dest with
  | none => .error .noSuchNode
  | some d => .ok ({ e1 with graph := g, clock := e1.clock + e1.N }, d.buffers)

end Verif
