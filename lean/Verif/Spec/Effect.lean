import Verif.Spec.Tracks

/-!
# An effect at the end of a track
-/

namespace Verif.Spec

/-- `wet` is the program `dry` with `c` put at the end of the chain `k: comps`, which is the only one without `~` and to which nobody
refers. -/
structure AtTheEnd (dry wet : Ast Comp) (k : Name) (comps : List Comp) (c : Comp) : Prop where
  was : (k, comps) ∈ dry
  now : (k, comps ++ [c]) ∈ wet
  others : ∀ j cs, j ≠ k → ((j, cs) ∈ wet ↔ (j, cs) ∈ dry)
  track : '~' ∉ k
  only : ∀ j cs, (j, cs) ∈ dry → '~' ∉ j → j = k
  unused : ∀ j cs d r, (j, cs) ∈ dry → d ∈ cs → r ∈ d.refs → ¬ Means r k

/-- `outs` is the output of one signal: each side is what it hears of the signal, added to nothing (so that -0 is heard as 0). -/
def OutputOf (N : Nat) (sig outs : List (List Buf)) : Prop :=
  sig.length = outs.length ∧ ∀ t ch s, t < outs.length → ch < 2 → s < N →
    ∃ x, (sig[t]?).bind (sideAt ch s) = some x ∧ sampleAt outs t ch s = some (.fin 0 +. x)

end Verif.Spec
