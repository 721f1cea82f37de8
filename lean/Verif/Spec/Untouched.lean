import Verif.Spec.Flow
import Verif.Make

/-!
# Chains that an edit does not touch

The vocabulary of C73.
-/

namespace Verif.Spec

variable {L : Lang}

/-- What the place `p` plays while the engine renders blocks: its buffers after each block. The list gives for each
block the iteration order of the maps and the external input. -/
inductive PlaceSignal (p : Place) : Engine L → List (HashOrder × List (List L.Num)) → List (List (List L.Num)) → Prop
  | nil {e : Engine L} : PlaceSignal p e [] []
  | cons {e e1 : Engine L} {ho : HashOrder} {ins out : List (List L.Num)} {n : Nat} {d : L.Data}
      {steps : List (HashOrder × List (List L.Num))} {xs : List (List (List L.Num))} :
      e.nextBlock ho ins = .ok (e1, out) → Sits e1 p n → e1.graph.node? n = some d → PlaceSignal p e1 steps xs →
      PlaceSignal p e ((ho, ins) :: steps) (d.buffers :: xs)

/-- Chains with the same text in both programs, listed so that each refers, by name, only to chains further down the
list; `NaN` occurs nowhere in them (every component equals itself). -/
inductive Untouched {C : Type} (eq : C → C → Bool) (refs : C → List Name) (old new : Ast C) : List Name → Prop
  | nil : Untouched eq refs old new []
  | cons {k : Name} {ks : List Name} {comps : List C} : Untouched eq refs old new ks → k ∉ ks → (k, comps) ∈ old →
      (k, comps) ∈ new → (∀ c, c ∈ comps → eq c c = true ∧ ∀ r, r ∈ refs c → r ∈ ks ∧ '.' ∉ r) →
      Untouched eq refs old new (k :: ks)

/-- A call that does not re-order the surviving components of the chains `ks` (for which C02 fails) and sends no program
with repeated components. -/
def SteadyOn (ks : List Name) (e : Engine L) : Op L → Prop
  | .update _ code => ∀ p, L.parse code = .ok (some p) → CleanProg L p ∧
      ∀ k comps old, k ∈ ks → (k, comps) ∈ p → IsOld e k old → OrderKept L.compEq old comps
  | _ => True

/-- The components at position `i` of a chain to which the theorem applies. Generators that keep a list of inputs but
never use or empty it have to stand at the head of their chain, drums and `delayms` must not be modulated (their nodes do
not forget old inputs, or depend on the order in which the inputs come: C16, C22),
`mix` is left out (the order of its sum is not determined), and a sequencer names each chain at most once (C16). -/
def PlaysOn (i : Nat) (c : Comp) : Prop :=
  match c with
  | .constsig _ | .noise _ | .points .. | .get _ => i = 0
  | .imp _ => i = 0 ∧ c.refs = []
  | .mix _ => False
  | .delayms _ | .bd _ | .sn _ | .hh _ => c.refs = []
  | .arrange _ => i = 0 ∨ c.refs ≠ []
  | .seq _ => c.refs.Nodup
  | _ => True

end Verif.Spec
