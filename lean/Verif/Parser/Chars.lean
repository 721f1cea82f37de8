import Lean.Elab.Macro

/-! # Notation for texts as lists of characters -/

namespace Verif

/-- The characters of a string literal. -/
macro:max "c!" s:str : term => do
  let cs := s.getString.toList.toArray.map (fun c => Lean.Syntax.mkCharLit c)
  `([$cs,*])

end Verif
