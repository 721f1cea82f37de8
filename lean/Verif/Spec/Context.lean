import Verif.Context

/-!
# What a user of the audio context puts together

A sheet of paper on which the user notes the nodes they have added, the wires they have laid and the messages they
have sent, and what the sheet says about the context.
-/

namespace Verif.Spec
open Context
variable {L : Lang}

/-- The nodes in the order in which they were added (as handed over), the wires and the messages (with the node each
was sent to), in the order in which they were made. A node is named by its place in the list. -/
structure Sheet (L : Lang) where
  nodes : List L.Data
  wires : List (Nat × Nat)
  mail : List (Nat × Msg L.Num)

/-- The messages to one node, oldest first. -/
def Sheet.letters (s : Sheet L) (i : Nat) : List (Msg L.Num) := (s.mail.filter (fun p => p.1 == i)).map Prod.snd

/-- The node after these messages. -/
inductive Reads : L.Node → List (Msg L.Num) → L.Node → Prop
  | nil (n : L.Node) : Reads n [] n
  | cons {n n' n'' : L.Node} {m : Msg L.Num} {ms : List (Msg L.Num)} : L.msg n m = .ok n' → Reads n' ms n'' →
      Reads n (m :: ms) n''

/-- The wires of a chain of nodes: from each to the next. -/
def links (l : List Nat) : List (Nat × Nat) := l.zip l.tail

/-- Laying a wire tells its target where it comes from. -/
def told (w : Nat × Nat) : Nat × Msg L.Num := (w.2, .index w.1)

/-- The sheet after one more call. Rendering a block and `reset` are not noted on the sheet. -/
def Sheet.note (N : Nat) (s : Sheet L) : Call L → Sheet L
  | .mono n => { s with nodes := s.nodes ++ [freshData N 1 n] }
  | .stereo n => { s with nodes := s.nodes ++ [freshData N 2 n] }
  | .multi chan n => { s with nodes := s.nodes ++ [freshData N chan n] }
  | .connect a b => { s with wires := s.wires ++ [(a, b)], mail := s.mail ++ [(b, .index a)] }
  | .connectAt a b pos => { s with wires := s.wires ++ [(a, b)], mail := s.mail ++ [(b, .indexOrder pos a)] }
  | .chain l => { s with wires := s.wires ++ links l, mail := s.mail ++ (links l).map told }
  | .chainBoxed ds | .addNodeChain ds =>
    { nodes := s.nodes ++ ds
      wires := s.wires ++ links (List.range' s.nodes.length ds.length)
      mail := s.mail ++ (links (List.range' s.nodes.length ds.length)).map told }
  | .sendMsg i m => { s with mail := s.mail ++ [(i, m)] }
  | .sendAll m => { s with mail := s.mail ++ (List.range s.nodes.length).map (fun i => (i, m)) }
  | .nextBlock _ | .reset | .tag _ _ => s

/-- The sheet after several calls. -/
def Sheet.notes (N : Nat) (s : Sheet L) (xs : List (Call L)) : Sheet L := xs.foldl (Sheet.note N) s

/-- The nodes a call hands out. -/
def Sheet.gives (s : Sheet L) : Call L → List Nat
  | .mono _ | .stereo _ | .multi _ _ => [s.nodes.length]
  | .chainBoxed ds | .addNodeChain ds => List.range' s.nodes.length ds.length
  | _ => []

/-- The nodes a reply contains. -/
def handles : Reply L → List Nat
  | .nodes l => l
  | _ => []

/-- The nodes a call mentions. For a chain these are the ends of its wires. -/
def mentions : Call L → List Nat
  | .connect a b | .connectAt a b _ => [a, b]
  | .chain l => (links l).map Prod.fst ++ (links l).map Prod.snd
  | .sendMsg i _ => [i]
  | _ => []

/-- A call that builds: neither renders a block nor resets, and is not `add_node_chain`. -/
def Builds : Call L → Prop
  | .nextBlock _ | .reset | .addNodeChain _ => False
  | _ => True

/-- Each call mentions only nodes that are there when it is made. -/
def Known (N : Nat) : Sheet L → List (Call L) → Prop
  | _, [] => True
  | s, x :: xs => (∀ i ∈ mentions x, i < s.nodes.length) ∧ Known N (s.note N x) xs

/-- The context is as noted: its nodes are those of the sheet after the messages to them, with their buffers, and its
edges are the wires, the latest first. -/
structure Shows (c : Context L) (s : Sheet L) : Prop where
  node : ∀ i d, s.nodes[i]? = some d →
    ∃ n, Reads d.node (s.letters i) n ∧ c.graph.node? i = some ⟨n, d.buffers⟩
  only : ∀ i, s.nodes.length ≤ i → c.graph.node? i = none
  wires : c.graph.edges = s.wires.reverse
  mail : ∀ p ∈ s.mail, p.1 < s.nodes.length
  ends : ∀ w ∈ s.wires, w.1 < s.nodes.length ∧ w.2 < s.nodes.length

/-- A call that only concerns the nodes from `k` on: it lays no wire to an older node and sends it no message. (Wires
from older nodes are allowed.) -/
def Aside (k : Nat) : Call L → Prop
  | .connect _ b | .connectAt _ b _ => k ≤ b
  | .chain l => ∀ w ∈ links l, k ≤ w.2
  | .sendMsg i _ => k ≤ i
  | .sendAll _ | .nextBlock _ | .reset | .addNodeChain _ => False
  | _ => True

/-- Rendering a block. -/
def Renders : Call L → Prop
  | .nextBlock _ => True
  | _ => False

/-- The blocks among the replies. -/
def sounds (rs : List (Reply L)) : List (List (List L.Num)) :=
  rs.filterMap (fun | .sound b => some b | _ => none)

/-- The context can be reached from a new one by calls. -/
def Made (c : Context L) : Prop :=
  ∃ N channels xs rs, (Context.new L N channels).run xs = .ok (c, rs)

end Verif.Spec
