import Verif.Spec.Compose
import Verif.Make
import Verif.Spec.SeqRef

/-!
# What a program sounds like

The signals of a Glicol program in terms of its components playing alone (`play`).
-/

namespace Verif.Spec

/-- The places that a list of references means, in order: the end of the named chain; for `base..` the ends of all
chains whose names begin with `base`, in some order. -/
inductive RefPlaces {C : Type} (prog : Ast C) (withInput : Bool) : List Name → List Place → Prop
  | nil : RefPlaces prog withInput [] []
  | named {r : Name} {n : Nat} {rs : List Name} {qs : List Place} : '.' ∉ r → Chain prog withInput r (n + 1) →
      RefPlaces prog withInput rs qs → RefPlaces prog withInput (r :: rs) (.at r n :: qs)
  | pattern {base : Name} {l : List Place} {rs : List Name} {qs : List Place} : '.' ∉ base → l.Nodup →
      (∀ q, q ∈ l ↔ ∃ k n, base <+: k ∧ Chain prog withInput k (n + 1) ∧ q = .at k n) →
      RefPlaces prog withInput rs qs → RefPlaces prog withInput ((base ++ ['.', '.']) :: rs) (l ++ qs)

/-- The components whose nodes note which of their inputs is which. (`mix` and `get` do not need it; the others produce
their own signal.) -/
def NotesInputs : Comp → Prop
  | .mix _ | .get _ | .imp _ | .noise _ | .constsig _ | .points .. => False
  | _ => True

/-- The references that a component is told about, in order: as they are written, but a sequencer is told each only once. -/
def toldRefs : Comp → List Name
  | .seq e => firsts (Comp.seq e).refs
  | c => c.refs

/-- `sig` are the signals of the program `new`, sent to the engine `e0` with the result `e1`, over the blocks for
which the external inputs `exts` were given; `start` are the blocks held before:

* every place has its own number;
* every signal has one or two channels of `N` samples;
* each side of the output is the f32 sum of what it hears of the ends of the chains without `~`;
* `~input` is the external input, if it is given in stereo;
* a new component (one that the old version of its chain does not contain) plays as if it were alone, as built with
  the settings of `e0`: it is told its left neighbour and the sources of its references, in the order in which they
  are written (`toldRefs`), and hears exactly the signals that flow into it. -/
structure Sounds {P : Plat} {N : Nat} {parse : Name → Except Panic (Option (Ast Comp))}
    (e0 e1 : Engine (glicol P N parse)) (new : Ast Comp) (withInput : Bool) (exts : List (List Buf))
    (start : Place → List Buf) (sig : Place → List (List Buf)) : Prop where
  numbers : ∀ p n q m, Sits e1 p n → Sits e1 q m → (p = q ↔ n = m)
  length : ∀ p, Leads Comp.refs new withInput p .dest → (sig p).length = exts.length
  shape : ∀ p, Leads Comp.refs new withInput p .dest → ∀ x, x ∈ sig p →
    (x.length = 1 ∨ x.length = 2) ∧ ∀ b, b ∈ x → b.length = N
  output : ∀ t, t < exts.length → ∃ srcs : List Place, srcs.Nodup ∧
    (∀ q, q ∈ srcs ↔ Flow Comp.refs new withInput q .dest) ∧
    ∃ o, (sig .dest)[t]? = some o ∧ o.length = 2 ∧ ∀ c s, c < 2 → s < N → ∃ vs y,
      List.Forall₂ (fun q v => ∃ x, (sig q)[t]? = some x ∧ sideAt c s x = some v) srcs vs ∧
      o[c]? = some y ∧ y[s]? = some (flSum vs)
  input : Leads Comp.refs new withInput (.at ['~', 'i', 'n', 'p', 'u', 't'] 0) .dest →
    ∀ (t : Nat) (ext : List Buf), exts[t]? = some ext → 2 ≤ ext.length →
      (sig (.at ['~', 'i', 'n', 'p', 'u', 't'] 0))[t]? = some (ext.take 2)
  component : ∀ k comps i c old, (k, comps) ∈ new → comps[i]? = some c →
    Leads Comp.refs new withInput (.at k i) .dest → IsOld e0 k old → (∀ o, o ∈ old → Comp.eq o c = false) →
    ∃ (refs : List Name) (qs : List Place) (srcs : List Nat) (left : Option Nat) (inputs : List Ins),
      (∀ r, r ∈ refs ↔ r ∈ c.refs) ∧ refs = toldRefs c ∧
      RefPlaces new withInput refs qs ∧ List.Forall₂ (Sits e1) qs srcs ∧
      (∀ n, left = some n ↔ ∃ j, i = j + 1 ∧ Sits e1 (.at k j) n) ∧
      inputs.length = exts.length ∧
      Hears (Flow Comp.refs new withInput) (Leads Comp.refs new withInput) (Sits e1) start sig (.at k i) inputs ∧
      play P N ⟨e0.samples, e0.sr, e0.bpm, e0.seed⟩ c (wiring refs srcs left) inputs = .ok (sig (.at k i)) ∧
      (NotesInputs c →
        play P N ⟨e0.samples, e0.sr, e0.bpm, e0.seed⟩ c ((left.toList ++ srcs).map .index) inputs =
          .ok (sig (.at k i)))

end Verif.Spec
