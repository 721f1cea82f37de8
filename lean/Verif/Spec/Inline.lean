import Verif.Inline
import Mathlib.Data.List.Infix

/-! # What JavaScript inside a program should mean (C67) -/

namespace Verif.Spec.Inline
open Verif

/-- A text with JavaScript in it: a beginning, then each time `##`, some JavaScript, `#` and more text. -/
def marked (start : Name) (l : List (Name × Name)) : Name :=
  start ++ l.flatMap fun x => c!"##" ++ x.1 ++ c!"#" ++ x.2

/-- The value of a piece of JavaScript, with nothing for failures. It is taken for statements when it contains a
semicolon or a backslash followed by `n`. -/
def value (js : Bool → Name → Option Name) (s : Name) : Name :=
  (js (decide (';' ∈ s ∨ c!"\\n" <:+: s)) s).getD []

/-- The text with the values in place of the JavaScript. -/
def filled (js : Bool → Name → Option Name) (start : Name) (l : List (Name × Name)) : Name :=
  start ++ l.flatMap fun x => value js x.1 ++ x.2

end Verif.Spec.Inline
