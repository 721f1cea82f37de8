import Verif.Spec.Inputs

/-! # Arrangements -/

namespace Verif.Spec

/-- `arrange ~a 2 ~b 1 ...`: the written parameters of a list of parts and their durations in bars. -/
def arrangement (parts : List (Name × Fl)) : List NumRef := parts.flatMap (fun p => [.ref p.1, .num p.2])

/-- The bars before part `j`. -/
def barsBefore (parts : List (Name × Fl)) (j : Nat) : ℚ := ((parts.take j).map (fun p => p.2.val)).sum

end Verif.Spec
