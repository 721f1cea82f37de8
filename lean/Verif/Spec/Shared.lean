import Verif.Spec.Stream
import Verif.Spec.Rename

/-!
# Writing a chain once instead of twice
-/

namespace Verif.Spec

/-- `s` is replaced by `r`. -/
def instead (s r : Name) (x : Name) : Name := if x = s then r else x

/-- The program `copied` has the same chain twice, `r: xs` and `s: xs`, of which the second is not heard by itself. The program `shared`
has it once, under the name `r`, and refers to `r` where `copied` refers to `s`. No component refers to both. -/
structure SharedChain (copied shared : Ast Comp) (r s : Name) (xs : List Comp) : Prop where
  first : (r, xs) ∈ copied
  second : (s, xs) ∈ copied
  different : r ≠ s
  silent : '~' ∈ s
  plain : '.' ∉ r
  chains : ∀ j comps, (j, comps) ∈ shared ↔ j ≠ s ∧ ∃ comps', (j, comps') ∈ copied ∧ comps = comps'.map (Rename.comp (instead s r))
  notBoth : ∀ j comps c, (j, comps) ∈ copied → c ∈ comps → r ∈ c.refs → s ∉ c.refs

end Verif.Spec
