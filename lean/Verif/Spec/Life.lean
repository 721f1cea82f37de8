import Verif.Spec.Nodes

/-!
# The life of a node

A node of the graph processes blocks and receives messages in any order. What can be heard of it are its
output buffers after each block.
-/

namespace Verif.Spec

/-- What happens to a node. -/
inductive Ev where
  | block (ins : Ins)
  | msg (g : Msg Fl)

/-- The event is a change of tempo. -/
def Ev.isTempo : Ev → Bool
  | .msg (.setBPM _) => true
  | _ => false

/-- The node with its output buffers after the events, and the contents of the buffers after each block. -/
def live {P : Plat} : GNode P → List Buf → List Ev →
    Except Panic ((GNode P × List Buf) × List (List Buf))
  | n, out, [] => .ok ((n, out), [])
  | n, out, .msg g :: evs =>
    match msgG P n g with
    | .error e => .error e
    | .ok n' => live n' out evs
  | n, out, .block i :: evs =>
    match procG P n i out with
    | .error e => .error e
    | .ok (n', out') =>
      match live n' out' evs with
      | .error e => .error e
      | .ok (s, r) => .ok (s, out' :: r)

/-- What is heard of the node from now on. -/
def sound {P : Plat} (n : GNode P) (out : List Buf) (evs : List Ev) : Except Panic (List (List Buf)) :=
  (live n out evs).map Prod.snd

/-- Component `c`, built in `env`, has become node `n` with output buffers `out` through the events. -/
def Becomes (P : Plat) (N : Nat) (env : Env) (c : Comp) (evs : List Ev) (n : GNode P) (out : List Buf) :
    Prop :=
  ∃ d r outs, makeNode P N env.samples env.sr env.bpm env.seed c = .ok (d, r) ∧
    live d.node d.buffers evs = .ok ((n, out), outs)

/-- The same surroundings with another tempo. -/
def Env.atTempo (env : Env) (b : Fl) : Env := { env with bpm := b }

end Verif.Spec
