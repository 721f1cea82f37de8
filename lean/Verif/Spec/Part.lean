import Verif.Spec.Stream

/-!
# Giving a part of a chain a name of its own
-/

namespace Verif.Spec

/-- `parted` is the program `whole` with the beginning `xs` of its chain `k: xs >> ys` moved into a chain of its own, `r: xs`, and
replaced by a reference: `k: r >> ys`. (Nothing may be left over, then the chain is `k: r`.) The name `r` is new, contains
a `~`, so that the part is not heard by itself, and is not a pattern. -/
structure PartNamed (whole parted : Ast Comp) (k r : Name) (xs ys : List Comp) : Prop where
  chain : (k, xs ++ ys) ∈ whole
  part : (r, xs) ∈ parted
  rest : (k, .get r :: ys) ∈ parted
  others : ∀ j comps, j ≠ k → j ≠ r → ((j, comps) ∈ parted ↔ (j, comps) ∈ whole)
  nonempty : xs ≠ []
  fresh : r ∉ whole.map Prod.fst
  silent : '~' ∈ r
  plain : '.' ∉ r

/-- The components whose signal has a single channel. -/
def OneChannel : Comp → Prop
  | .points .. | .msgsynth .. | .patternSynth .. | .lpf .. | .rhpf .. | .tri _ | .squ _ | .saw _ | .sin _ | .imp _ | .noise _
  | .speed _ | .onepole _ | .constsig _ | .eval _ | .metaScript _ => True
  | _ => False

/-- The components that hear a signal with one channel differently from the same signal on two channels: of the latter they lose the
right side (C18). -/
def Delays : Comp → Prop
  | .delayn _ | .delayms _ => True
  | _ => False

/-- The program uses the external input. -/
def RefersToInput (prog : Ast Comp) : Prop :=
  ∃ j comps c, (j, comps) ∈ prog ∧ c ∈ comps ∧ ['~', 'i', 'n', 'p', 'u', 't'] ∈ c.refs

end Verif.Spec
