import Verif.Engine

/-!
# The audio context

Models the interface of `AudioContext` in rs/synth/src/context.rs, with which users of the crate `glicol_synth` put
graphs together by hand. The nodes are those of a `Lang`; of the language only the nodes are used here.
-/

namespace Verif
variable {L : Lang}

/-- `AudioContext<N>` (rs/synth/src/context.rs:92-100): `channels` is the field of its configuration that matters.
Simplification: the processor's scratch storage, the reserved capacities and `config.sr`, which no method reads, are
not represented. -/
structure Context (L : Lang) where
  N : Nat
  channels : Nat
  graph : Graph L.Data
  dest : Nat
  input : Nat
  tags : List (Name × Nat)

namespace Context

/-- `AudioContext::new` (rs/synth/src/context.rs:103-122); the default of `channels` is 2 (:24, :71). -/
def new (L : Lang) (N channels : Nat) : Context L :=
  let (g1, d) := Graph.empty.addNode (freshData N channels L.sum2)
  let (g2, i) := g1.addNode (freshData N channels L.pass)
  ⟨N, channels, g2, d, i, []⟩

/-- `AudioContext::reset` (rs/synth/src/context.rs:124-135). -/
def reset (c : Context L) : Context L :=
  let (g1, d) := Graph.empty.addNode (freshData c.N c.channels L.sum2)
  let (g2, i) := g1.addNode (freshData c.N c.channels L.pass)
  { c with graph := g2, dest := d, input := i }

/-- `graph.add_node` as in `add_mono_node`, `add_stereo_node` and `add_multi_chan_node`
(rs/synth/src/context.rs:150-178), with silent buffers for 1, 2 or `chan` channels (rs/synth/src/graph.rs:91-103). -/
def addNode (c : Context L) (chan : Nat) (n : L.Node) : Context L × Nat :=
  let (g, i) := c.graph.addNode (freshData c.N chan n)
  ({ c with graph := g }, i)

/-- `chain.into_iter().map(|node| self.graph.add_node(node))` (rs/synth/src/context.rs:211-214). -/
def addAll (g : Graph L.Data) : List L.Data → Graph L.Data × List Nat
  | [] => (g, [])
  | d :: ds =>
    let (g1, i) := g.addNode d
    let (g2, is) := addAll g1 ds
    (g2, i :: is)

/-- The loop of `chain` over `windows(2)` (rs/synth/src/context.rs:195-204, the same at :216-225). -/
def chain (g : Graph L.Data) : List Nat → Except Panic (Graph L.Data)
  | a :: b :: rest => do
    let g1 ← connect g a b
    chain g1 (b :: rest)
  | _ => .ok g

/-- The loop of `add_node_chain` over `windows(2)` (rs/synth/src/context.rs:239-242): edges only. -/
def edgesOnly (g : Graph L.Data) : List Nat → Except Panic (Graph L.Data)
  | a :: b :: rest => do
    let g1 ← g.addEdge a b
    edgesOnly g1 (b :: rest)
  | _ => .ok g

/-- A call of the interface (rs/synth/src/context.rs:124-260); `tag` is `tags.insert(name, node)` on the public field.
Simplification: calls are made through these methods only, not on the public field `graph`. -/
inductive Call (L : Lang) where
  /-- `add_mono_node` -/
  | mono (n : L.Node)
  /-- `add_stereo_node` -/
  | stereo (n : L.Node)
  /-- `add_multi_chan_node` -/
  | multi (chan : Nat) (n : L.Node)
  | connect (a b : Nat)
  /-- `connect_with_order` -/
  | connectAt (a b pos : Nat)
  | chain (l : List Nat)
  | chainBoxed (l : List L.Data)
  | addNodeChain (l : List L.Data)
  | sendMsg (i : Nat) (m : Msg L.Num)
  | sendAll (m : Msg L.Num)
  /-- `next_block`, with the iteration order of the inputs of the nodes in this block -/
  | nextBlock (ho : HashOrder)
  | reset
  | tag (name : Name) (i : Nat)

/-- What a call returns. Simplification: the indices of new edges are left out. -/
inductive Reply (L : Lang) where
  | nothing
  | nodes (l : List Nat)
  | sound (b : List (List L.Num))

/-- One call (rs/synth/src/context.rs:124-260). -/
def call (c : Context L) : Call L → Except Panic (Context L × Reply L)
  | .mono n => let (c', i) := c.addNode 1 n; .ok (c', .nodes [i])
  | .stereo n => let (c', i) := c.addNode 2 n; .ok (c', .nodes [i])
  | .multi chan n => let (c', i) := c.addNode chan n; .ok (c', .nodes [i])
  | .connect a b => do
    let g ← Verif.connect c.graph a b
    .ok ({ c with graph := g }, .nothing)
  | .connectAt a b pos => do
    let g ← connectWithOrder c.graph a b pos
    .ok ({ c with graph := g }, .nothing)
  | .chain l => do
    let g ← chain c.graph l
    .ok ({ c with graph := g }, .nothing)
  | .chainBoxed l => do
    let (g, is) := addAll c.graph l
    let g' ← chain g is
    .ok ({ c with graph := g' }, .nodes is)
  | .addNodeChain l => do
    let (g, is) := addAll c.graph l
    let g' ← edgesOnly g is
    .ok ({ c with graph := g' }, .nodes is)
  | .sendMsg i m => do
    let g ← sendTo c.graph i m
    .ok ({ c with graph := g }, .nothing)
  | .sendAll m => do
    let s ← Verif.sendAll m c.graph.slots
    .ok ({ c with graph := { c.graph with slots := s } }, .nothing)
  | .nextBlock ho => do
    let g ← process L.proc ho c.graph c.dest
    match g.node? c.dest with
    | none => .error .noSuchNode
    | some d => .ok ({ c with graph := g }, .sound d.buffers)
  | .reset => .ok (c.reset, .nothing)
  | .tag name i => .ok ({ c with tags := insert c.tags name i }, .nothing)

/-- Calls in a row, with what they return. -/
def run (c : Context L) : List (Call L) → Except Panic (Context L × List (Reply L))
  | [] => .ok (c, [])
  | x :: xs => do
    let (c1, r) ← c.call x
    let (c2, rs) ← run c1 xs
    .ok (c2, r :: rs)

end Context
end Verif
