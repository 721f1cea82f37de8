import Verif.Spec.Stream

/-!
# A track alone
-/

namespace Verif.Spec

/-- `solo` is what is left of the program `all` when, of the chains without `~`, only `track` is kept, and of the other chains at least
those that are referred to. -/
structure Solo (solo all : Ast Comp) (track : Name) : Prop where
  kept : ∀ k comps, (k, comps) ∈ solo → (k, comps) ∈ all
  there : track ∈ solo.map Prod.fst
  only : ∀ k comps, (k, comps) ∈ solo → '~' ∉ k → k = track
  unused : ∀ k comps, (k, comps) ∈ all → (k, comps) ∉ solo →
    ∀ j cs c r, (j, cs) ∈ solo → c ∈ cs → r ∈ c.refs → ¬ Means r k

/-- Sample `s` on side `c` of the block `t`. -/
def sampleAt (outs : List (List Buf)) (t c s : Nat) : Option Fl :=
  ((outs[t]?).bind (·[c]?)).bind (·[s]?)

end Verif.Spec
