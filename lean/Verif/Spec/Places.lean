import Verif.Spec.Engine

/-!
# Places of nodes

The numbers of freshly created nodes depend on the order in which they are created. What a user can tell
apart is where a node sits: a position of a chain, the output or the external input.
-/

namespace Verif.Spec

/-- Where a node sits. -/
inductive Place where
  | dest
  | input
  | at (chain : Name) (pos : Nat)

/-- Node `n` of the engine sits at the place. -/
inductive Sits {L : Lang} (e : Engine L) : Place → Nat → Prop
  | dest : Sits e .dest e.dest
  | input : Sits e .input e.input
  | at {k : Name} {c : List Nat} {i n : Nat} : (k, c) ∈ e.index → c[i]? = some n → Sits e (.at k i) n

/-- Two engines that differ at most in the numbers of their nodes, in the orders of their tables, and in
the inputs their nodes remember: the same settings, the same chains and components, and at each place a
node with the same buffers and (up to wiring messages) the same state, connected to the same places. -/
structure Corresponds {L : Lang} (e1 e2 : Engine L) : Prop where
  N : e1.N = e2.N
  samples : e1.samples = e2.samples
  bpm : e1.bpm = e2.bpm
  sr : e1.sr = e2.sr
  seed : e1.seed = e2.seed
  trackAmp : e1.trackAmp = e2.trackAmp
  ast : (e1.ast = none ∧ e2.ast = none) ∨ ∃ a b, e1.ast = some a ∧ e2.ast = some b ∧ a.Perm b
  places : ∀ p, (∃ n, Sits e1 p n) ↔ ∃ n, Sits e2 p n
  states : ∀ p n1 n2, Sits e1 p n1 → Sits e2 p n2 →
    ∃ (d1 d2 : L.Data) (n0 : L.Node), e1.graph.node? n1 = some d1 ∧ e2.graph.node? n2 = some d2 ∧
      d1.buffers = d2.buffers ∧ Rewire L n0 d1.node ∧ Rewire L n0 d2.node
  edges : ∀ p q a1 b1 a2 b2, Sits e1 p a1 → Sits e1 q b1 → Sits e2 p a2 → Sits e2 q b2 →
    ((a1, b1) ∈ e1.graph.edges ↔ (a2, b2) ∈ e2.graph.edges)

end Verif.Spec
