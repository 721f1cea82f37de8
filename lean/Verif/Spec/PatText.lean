import Verif.ParseNum

/-! # Texts of note patterns -/

namespace Verif.Spec

/-- `text` is one event of a note pattern: two numbers with blanks between and around them. -/
def EventText (text : Name) (e : Fl × Fl) : Prop :=
  ∃ (i j k : Nat) (a b : Name), text = List.replicate i ' ' ++ a ++ List.replicate (j + 1) ' ' ++ b ++ List.replicate k ' ' ∧
    a ≠ [] ∧ b ≠ [] ∧ ' ' ∉ a ∧ ' ' ∉ b ∧ ',' ∉ a ∧ ',' ∉ b ∧ parseF32 a = some e.1 ∧ parseF32 b = some e.2

/-- `text` is a list of events between commas. -/
inductive EventsText : Name → List (Fl × Fl) → Prop where
  | one {t : Name} {e : Fl × Fl} : EventText t e → EventsText t [e]
  | more {t r : Name} {e : Fl × Fl} {es : List (Fl × Fl)} : EventText t e → EventsText r es → EventsText (t ++ ',' :: r) (e :: es)

/-- `text` is a note pattern: events, each the part of the cycle at which it starts and a MIDI note; backticks do not
count. -/
def PatternText (text : Name) (es : List (Fl × Fl)) : Prop := EventsText (text.filter (fun c => c != '`')) es

end Verif.Spec
