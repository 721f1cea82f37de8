import Verif.Spec.Flow
import Verif.Spec.Nodes

/-!
# A program as the composition of its components

What the components of a program produce, block by block, when each of them runs on its own and hears the others.
-/

namespace Verif.Spec

/-- Blocks requested one after the other, each with its own order of hashing and external input; the blocks
returned. -/
inductive Plays {L : Lang} :
    Engine L → List (HashOrder × List (List L.Num)) → Engine L → List (List (List L.Num)) → Prop
  | nil (e : Engine L) : Plays e [] e []
  | cons {e e1 e2 : Engine L} {ho : HashOrder} {ins out : List (List L.Num)}
      {steps : List (HashOrder × List (List L.Num))} {outs : List (List (List L.Num))} :
      e.nextBlock ho ins = .ok (e1, out) → Plays e1 steps e2 outs → Plays e ((ho, ins) :: steps) e2 (out :: outs)

/-- `inputs` are the inputs of the place `p`, one list per block: an entry for each other place `q` from which a
signal flows to `p`, with a number of `q` and the block that `q` produces at the same time. If `q` itself depends
on `p` it may be the block before; the one before the first is `start q`. -/
def Hears {β : Type} (flow leads : Place → Place → Prop) (num : Place → Nat → Prop) (start : Place → β)
    (sig : Place → List β) (p : Place) (inputs : List (List (Nat × β))) : Prop :=
  ∀ (t : Nat) inp, inputs[t]? = some inp → ∃ srcs : List Place, srcs.Nodup ∧ (∀ q, q ∈ srcs ↔ flow q p ∧ q ≠ p) ∧
    List.Forall₂ (fun x q => num q x.1 ∧
      ((sig q)[t]? = some x.2 ∨ (leads p q ∧ (start q :: sig q)[t]? = some x.2))) inp srcs

/-- The node of the built-in chain `~input` processes one block after the other; before each block its buffers are
filled with the external input. -/
def feedBlocks {ν β : Type} (proc : ProcFn ν β) : ν → List β → List (List β) → Except Panic (List (List β))
  | _, _, [] => .ok []
  | n, out, x :: xs =>
    match proc n [] (fill x out) with
    | .error e => .error e
    | .ok (n', out') =>
      match feedBlocks proc n' out' xs with
      | .error e => .error e
      | .ok r => .ok (out' :: r)

/-- The messages by which a node learns its sources: the list is emptied, the nodes `srcs` of its references
are appended in order, and the left neighbour in the chain is put in front. -/
def wiring {Num : Type} (refs : List Name) (srcs : List Nat) (left : Option Nat) : List (Msg Num) :=
  (if refs = [] then [] else .resetOrder :: srcs.map .index) ++ left.toList.map (.indexOrder 0)

/-- `sig` are the signals of the program `new`, which has turned the engine `e0` into `e1`, over as many blocks as
there are external inputs in `exts`, and `start` the blocks held before: the output, and every component from which a signal leads to it, behaves as if it
were alone. It starts as built from the component (if the old version of the chain has no equal one) or as the
node of the equal old component (if the kept components are in the old order), is told its sources, and turns
exactly the signals that flow into it into its signal. The built-in chain `~input` passes on the external input. -/
structure Composes {L : Lang} (e0 e1 : Engine L) (new : Ast L.Comp) (withInput : Bool)
    (exts : List (List (List L.Num))) (start : Place → List (List L.Num)) (sig : Place → List (List (List L.Num))) : Prop where
  length : ∀ p, Leads L.refs new withInput p .dest → (sig p).length = exts.length
  output : ∃ d inputs, e1.graph.node? e1.dest = some d ∧ inputs.length = exts.length ∧
    runBlocks L.proc d.node d.buffers inputs = .ok (sig .dest) ∧
    Hears (Flow L.refs new withInput) (Leads L.refs new withInput) (Sits e1) start sig .dest inputs
  input : Leads L.refs new withInput (.at ['~', 'i', 'n', 'p', 'u', 't'] 0) .dest →
    ∃ n d, Sits e1 (.at ['~', 'i', 'n', 'p', 'u', 't'] 0) n ∧ e1.graph.node? n = some d ∧
      feedBlocks L.proc d.node d.buffers exts = .ok (sig (.at ['~', 'i', 'n', 'p', 'u', 't'] 0))
  component : ∀ k comps i c old, (k, comps) ∈ new → comps[i]? = some c →
    Leads L.refs new withInput (.at k i) .dest → IsOld e0 k old →
    ∃ (d : L.Data) (node : L.Node) (refs : List Name) (srcs : List Nat) (left : Option Nat)
      (inputs : List (List (Nat × List (List L.Num)))),
      ((∀ o, o ∈ old → L.compEq o c = false) → L.make e0.samples e0.sr e0.bpm e0.seed c = .ok (d, refs)) ∧
      ((∃ o, o ∈ old ∧ L.compEq o c = true) → refs = L.refs c ∧
        (OrderKept L.compEq old comps → ∃ j o n, old[j]? = some o ∧ L.compEq o c = true ∧
          Sits e0 (.at k j) n ∧ e0.graph.node? n = some d)) ∧
      SourceList e1.index refs srcs ∧
      (∀ n, left = some n ↔ ∃ j, i = j + 1 ∧ Sits e1 (.at k j) n) ∧
      (wiring refs srcs left).foldlM L.msg d.node = .ok node ∧
      start (.at k i) = d.buffers ∧ inputs.length = exts.length ∧
      runBlocks L.proc node d.buffers inputs = .ok (sig (.at k i)) ∧
      Hears (Flow L.refs new withInput) (Leads L.refs new withInput) (Sits e1) start sig (.at k i) inputs

end Verif.Spec
