import Verif.Spec.Effect

/-!
# A chain heard as it is
-/

namespace Verif.Spec

/-- `solo` is a program in which the chain `r` of `all` is heard as it is: its only chain without `~` is `g: ~r`, to which nobody refers,
and its other chains are those of `all`, at least the ones that are referred to. -/
structure HeardAs (solo all : Ast Comp) (g r : Name) : Prop where
  now : (g, [.get r]) ∈ solo
  there : r ∈ solo.map Prod.fst
  track : '~' ∉ g
  only : ∀ j cs, (j, cs) ∈ solo → '~' ∉ j → j = g
  kept : ∀ j cs, (j, cs) ∈ solo → j ≠ g → (j, cs) ∈ all
  own : ∀ j cs c s, (j, cs) ∈ solo → c ∈ cs → s ∈ c.refs → ¬ Means s g
  unused : ∀ k comps, (k, comps) ∈ all → (k, comps) ∉ solo → ∀ j cs c s, (j, cs) ∈ solo → c ∈ cs → s ∈ c.refs → ¬ Means s k

/-- The only chain of the program `all` without `~` is `k`, with the single component `c`; nobody refers to it. -/
structure OneTrack (all : Ast Comp) (k : Name) (c : Comp) : Prop where
  now : (k, [c]) ∈ all
  track : '~' ∉ k
  only : ∀ j cs, (j, cs) ∈ all → '~' ∉ j → j = k
  unused : ∀ j cs d s, (j, cs) ∈ all → d ∈ cs → s ∈ d.refs → ¬ Means s k

end Verif.Spec
