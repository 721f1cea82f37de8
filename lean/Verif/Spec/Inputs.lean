import Verif.Spec.Signal

/-! # Nodes with several inputs -/

namespace Verif.Spec

/-- Over the blocks `ins` the node `n` sends the stream `xs` on its first channel, `N` samples in each block; it
occurs once in each block, in any place. -/
def Sends (N : Nat) (ins : List Ins) (n : Nat) (xs : List Fl) : Prop :=
  xs.length = ins.length * N ∧ ∀ (k : Nat) (i : Ins), ins[k]? = some i → ∃ bufs b, (n, bufs) ∈ i ∧
    (∀ x, (n, x) ∈ i → x = bufs) ∧ bufs[0]? = some b ∧ b.length = N ∧ ∀ s, s < N → b[s]? = xs[k * N + s]?

end Verif.Spec
