import Verif.Engine

/-! # Specification: what a text is made of -/

namespace Verif

/-- Characters allowed in names, before a possible `..`. -/
def NameChar (c : Char) : Prop :=
  c = '~' ∨ c = '_' ∨ ('a' ≤ c ∧ c ≤ 'z') ∨ ('0' ≤ c ∧ c ≤ '9')

/-- A written name: at least one character, perhaps followed by `..`. -/
def WrittenName (t : Name) : Prop :=
  ∃ base : Name, base ≠ [] ∧ (∀ c ∈ base, NameChar c) ∧ (t = base ∨ t = base ++ ['.', '.'])

/-- Blanks and line ends. -/
def Space (c : Char) : Prop := c = ' ' ∨ c = ',' ∨ c = '|' ∨ c = '\t' ∨ c = '\n'

/-- The factor after a list of points: `*` or `/`, spaces, then something that begins with a digit, a sign or
a parenthesis. -/
def Factor (t : Name) : Prop :=
  ∃ op w d u, t = op :: (w ++ d :: u) ∧ (op = '*' ∨ op = '/') ∧ (∀ c ∈ w, Space c) ∧
    (d = '+' ∨ d = '-' ∨ d = '(' ∨ ('0' ≤ d ∧ d ≤ '9'))

/-- Wherever `eval`, spaces and a backtick are written, at least two more characters follow before the next
backtick. -/
def EvalFilled (code : Name) : Prop :=
  ∀ pre w post, code = pre ++ ['e', 'v', 'a', 'l'] ++ w ++ '`' :: post → w ≠ [] → (∀ c ∈ w, Space c) →
    ∃ a b rest, post = a :: b :: rest ∧ a ≠ '`' ∧ b ≠ '`'

/-- Every factor in the text can be evaluated (with `1` before it) by the library for arithmetic. -/
def FactorsEvaluate (fe : Name → Option α) (code : Name) : Prop :=
  ∀ t, t <:+: code → Factor t → fe ('1' :: t) ≠ none

/-- The last element of `l` with the key `k` carries the value `v`. -/
def LastOf (l : List (α × β)) (k : α) (v : β) : Prop :=
  ∃ l₁ l₂, l = l₁ ++ (k, v) :: l₂ ∧ ∀ e ∈ l₂, e.1 ≠ k

/-- A text in which a colon can only be part of code or of a comment. -/
def Plain (t : Name) : Prop := ':' ∈ t → '`' ∈ t ∨ ['/', '/'] <:+: t

/-- How the definitions of a text determine a program. The text is cut at its first definition: plain text, the
name, blanks, the colon, plain text, and the remaining text `more`, which is accepted by itself and gives `p'`.
The components `comps` of the first definition are in force if `more` does not define its name. -/
inductive InForce {C : Type} (parse : Name → Except Panic (Option (Ast C))) : Name → Ast C → Prop where
  | none {code : Name} : Plain code → InForce parse code []
  | cons {pre k b rest more : Name} {comps : List C} {p p' : Ast C} : Plain pre → WrittenName k →
      (∀ c ∈ b, Space c ∧ c ≠ '\n') → Plain rest → parse more = .ok (some p') → InForce parse more p' →
      (∀ k' v, (k', v) ∈ p ↔ (k', v) ∈ p' ∨ (k' = k ∧ v = comps ∧ ∀ e ∈ p', e.1 ≠ k)) →
      InForce parse (pre ++ (k ++ (b ++ ':' :: (rest ++ more)))) p

end Verif
