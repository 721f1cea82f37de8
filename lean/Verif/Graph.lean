/-!
# The audio graph and the processing of one block

Models `rs/synth/src/graph.rs` and the parts of petgraph's `StableGraph`
and `DfsPostOrder` it uses.
-/

namespace Verif

/-- The ways in which the modelled Rust code can abort. A panic is an explicit
value so that no totalised function hides it.
Rust: `panic!`, `expect`, slice indexing, integer division, `usize` underflow. -/
inductive Panic where
  /-- slice or vector index out of range, e.g. rs/main/src/lib.rs:293 `chain[position_in_chain]` -/
  | indexOutOfBounds
  /-- `Vec::insert` past the end, rs/main/src/lib.rs:321 -/
  | insertOutOfBounds
  /-- `Option::unwrap`/`expect` on `None`, or `HashMap` indexing with a missing key -/
  | missing
  /-- `graph[idx]`, `add_edge` or `node_weight(..).expect` on a vacant node slot -/
  | noSuchNode
  /-- `% 0` or `/ 0` on integers -/
  | divByZero
  /-- `usize` subtraction below zero (debug builds; release builds wrap) -/
  | underflow
  /-- `copy_from_slice` with different lengths -/
  | lengthMismatch
  /-- `Fixed::from(vec![])` of dasp_ring_buffer -/
  | emptyRing
  /-- an explicit `panic!`/`unimplemented!` in the source -/
  | unsupported
  /-- string slicing out of range, rs/parser/src/nodes.rs:1116 -/
  | badSlice
  /-- integer addition past the largest value (debug builds; release builds wrap) -/
  | overflow
  /-- a loop that never ends, rs/synth/src/node/delay/delayms.rs:81-83 -/
  | hang
  deriving DecidableEq, Repr

/-- Iteration order of a hashbrown `HashMap<usize, _>`: given the node being
processed and the keys in insertion order, the order in which `values()`
yields them. Only that it is a permutation is known. Models the unspecified
iteration order of `processor.inputs` in rs/synth/src/graph.rs:43,146-157. -/
structure HashOrder where
  ord : Nat → List Nat → List Nat
  perm : ∀ n l, (ord n l).Perm l

/-- The insertion order is one possible hash order. -/
def HashOrder.ident : HashOrder where
  ord := fun _ l => l
  perm := fun _ l => List.Perm.refl l

/-- The reversed insertion order is another possible hash order. -/
def HashOrder.rev : HashOrder where
  ord := fun _ l => l.reverse
  perm := fun _ l => List.reverse_perm l

/-- petgraph `StableGraph<α, ()>` (rs/synth/src/context.rs:89): node slots, the
LIFO list of vacant slots, and the edges, most recently added first.
Simplification: edge indices and the free list of edge slots are not
represented; they influence neither neighbour order nor behaviour here. -/
structure Graph (α : Type) where
  slots : List (Option α)
  free : List Nat
  edges : List (Nat × Nat)
  deriving Repr

namespace Graph
variable {α : Type}

/-- `StableGraph::with_capacity` (rs/synth/src/context.rs:104) / `clear` (:125). -/
def empty : Graph α := ⟨[], [], []⟩

/-- `StableGraph::node_weight`. -/
def node? (g : Graph α) (i : Nat) : Option α := (g.slots[i]?).join

/-- `StableGraph::add_node` (used in rs/main/src/lib.rs:317, rs/synth/src/context.rs:105):
reuses the most recently vacated slot, otherwise appends a new slot. -/
def addNode (g : Graph α) (a : α) : Graph α × Nat :=
  match g.free with
  | [] => ({ g with slots := g.slots ++ [some a] }, g.slots.length)
  | i :: rest => ({ g with slots := g.slots.set i (some a), free := rest }, i)

/-- `StableGraph::remove_node` (rs/main/src/lib.rs:495,562): vacates the slot and
removes all incident edges; no effect if there is no such node. -/
def removeNode (g : Graph α) (i : Nat) : Graph α :=
  match g.node? i with
  | none => g
  | some _ =>
    { slots := g.slots.set i none
      free := i :: g.free
      edges := g.edges.filter (fun e => e.1 != i && e.2 != i) }

/-- `StableGraph::add_edge` (rs/synth/src/context.rs:181,187): panics if an
endpoint is vacant; parallel edges and self loops are allowed. -/
def addEdge (g : Graph α) (a b : Nat) : Except Panic (Graph α) :=
  match g.node? a, g.node? b with
  | some _, some _ => .ok { g with edges := (a, b) :: g.edges }
  | _, _ => .error .noSuchNode

/-- `StableGraph::clear_edges` (rs/main/src/lib.rs:501). -/
def clearEdges (g : Graph α) : Graph α := { g with edges := [] }

/-- `graph[i] = f(graph[i])` (`IndexMut`, e.g. rs/synth/src/context.rs:182):
panics on a vacant slot or when `f` panics. -/
def modify (g : Graph α) (i : Nat) (f : α → Except Panic α) : Except Panic (Graph α) :=
  match g.node? i with
  | none => .error .noSuchNode
  | some a =>
    match f a with
    | .error e => .error e
    | .ok a' => .ok { g with slots := g.slots.set i (some a') }

/-- `neighbors_directed(n, Incoming)` (rs/synth/src/graph.rs:147): sources of the
edges into `n`, most recently added first, with repetitions for parallel edges. -/
def incoming (g : Graph α) (n : Nat) : List Nat :=
  (g.edges.filter (fun e => e.2 == n)).map (·.1)

/-- Indices of the live nodes (`node_indices`). -/
def live (g : Graph α) : List Nat :=
  (List.range g.slots.length).filter (fun i => (g.node? i).isSome)

end Graph

/-- The loop around petgraph's `DfsPostOrder::next` on `Reversed(graph)`
(rs/synth/src/graph.rs:143-145), started with `stack = [start]`. `nbrs` is
`Reversed(graph).neighbors`, i.e. `incoming`; `bound` is the capacity of the visit
maps. The head of `stack` is the top. Result: the nodes in the order in which
`next` returns them. Marking an index outside the visit map panics.
Simplification: the real loop processes each node as soon as it is returned;
since processing a node cannot change edges, the order can be computed first. -/
def dfsPostOrder (nbrs : Nat → List Nat) (bound : Nat) :
    (stack disc fin : List Nat) → Except Panic (List Nat)
  | [], _, _ => .ok []
  | nx :: st, disc, fin =>
    if nx ∈ disc then
      if nx ∈ fin then
        dfsPostOrder nbrs bound st disc fin
      else
        match dfsPostOrder nbrs bound st disc (nx :: fin) with
        | .ok r => .ok (nx :: r)
        | .error e => .error e
    else if _h : nx < bound then
      dfsPostOrder nbrs bound
        (((nbrs nx).filter (fun s => s ∉ nx :: disc)).reverse ++ nx :: st) (nx :: disc) fin
    else .error .indexOutOfBounds
  termination_by stack disc _ =>
    (((List.range bound).filter (fun i => i ∉ disc)).length, stack.length)
  decreasing_by
    · apply Prod.Lex.right; simp
    · apply Prod.Lex.right; simp
    · apply Prod.Lex.left
      rename_i hnx
      have hmem : nx ∈ (List.range bound).filter (fun i => i ∉ disc) := by
        simp [List.mem_filter, hnx, _h]
      have hsub : (List.range bound).filter (fun i => i ∉ nx :: disc)
          = ((List.range bound).filter (fun i => i ∉ disc)).filter (fun i => i ≠ nx) := by
        rw [List.filter_filter]
        apply List.filter_congr
        intro x _
        simp [List.mem_cons, not_or]
      rw [hsub]
      exact List.length_filter_lt_length_iff_exists.mpr ⟨nx, hmem, by simp⟩

/-- `NodeData<BoxedNodeSend<N>, N>` (rs/synth/src/graph.rs:51-54): a node with its
output buffers. `β` is the type of one channel buffer. -/
structure NodeData (ν β : Type) where
  node : ν
  buffers : List β
  deriving Repr

/-- `Node::process` (rs/synth/src/node/mod.rs:50) as a function: node state, inputs
(source node index and its buffers, in hash iteration order), own buffers. -/
abbrev ProcFn (ν β : Type) := ν → List (Nat × List β) → List β → Except Panic (ν × List β)

/-- Removes later duplicates: inserting into `processor.inputs` with a key that is
already present (rs/synth/src/graph.rs:156) keeps one entry. -/
def dedupKeys : List Nat → List Nat
  | [] => []
  | a :: l => if a ∈ l then dedupKeys l else a :: dedupKeys l

variable {ν β : Type}

/-- Collect the inputs of node `n` (rs/synth/src/graph.rs:146-157): every incoming
neighbour except `n` itself, keyed by index; a vacant source panics. -/
def gatherInputs (ho : HashOrder) (g : Graph (NodeData ν β)) (n : Nat) :
    Except Panic (List (Nat × List β)) :=
  let keys := ho.ord n (dedupKeys ((g.incoming n).filter (fun k => k != n)))
  keys.mapM (fun k =>
    match g.node? k with
    | some d => Except.ok (k, d.buffers)
    | none => Except.error Panic.noSuchNode)

/-- Process one node (rs/synth/src/graph.rs:146-164). -/
def processNode (proc : ProcFn ν β) (ho : HashOrder) (g : Graph (NodeData ν β)) (n : Nat) :
    Except Panic (Graph (NodeData ν β)) :=
  match gatherInputs ho g n with
  | .error e => .error e
  | .ok inputs =>
    g.modify n (fun d =>
      match proc d.node inputs d.buffers with
      | .error e => .error e
      | .ok (node', bufs') => .ok ⟨node', bufs'⟩)

/-- `process` (rs/synth/src/graph.rs:133-166): traverse from `dest` and process every
returned node in order. -/
def process (proc : ProcFn ν β) (ho : HashOrder) (g : Graph (NodeData ν β)) (dest : Nat) :
    Except Panic (Graph (NodeData ν β)) :=
  match dfsPostOrder g.incoming g.slots.length [dest] [] [] with
  | .error e => .error e
  | .ok order => order.foldlM (processNode proc ho) g

end Verif
