import Verif.Spec.Stream

/-!
# Chains nobody hears
-/

namespace Verif.Spec

/-- `big` is the program `small` with further chains that nobody hears: their names contain a `~`, so that they do not go to the output,
and no component of `small` refers to them. (They may refer to each other and to the chains of `small`.) -/
structure Unheard (small big : Ast Comp) : Prop where
  kept : ∀ k comps, (k, comps) ∈ small → (k, comps) ∈ big
  silent : ∀ k comps, (k, comps) ∈ big → (k, comps) ∉ small → '~' ∈ k
  unused : ∀ k comps, (k, comps) ∈ big → (k, comps) ∉ small →
    ∀ j cs c r, (j, cs) ∈ small → c ∈ cs → r ∈ c.refs → ¬ Means r k

end Verif.Spec
