import Verif.Report
import Verif.Spec.Wasm

/-! # What the report of a syntax error should show (C66) -/

namespace Verif.Spec.Report
open Verif Report

/-- ASCII is decoded as it is; the rest does not matter. -/
def AsciiDecoder (decode : List Nat → List Nat) : Prop := ∀ l : List Nat, (∀ b ∈ l, b < 128) → decode l = l

/-- The name of a rule of the grammar (rs/parser/src/grammar.pest): small letters, digits and underscores. -/
def RuleName (x : Name) : Prop := x ≠ [] ∧ ∀ c ∈ x, c = '_' ∨ ('a' ≤ c ∧ c ≤ 'z') ∨ ('0' ≤ c ∧ c ≤ '9')

/-- A failure names rules of the grammar, and the end of the input at most once. -/
def Sound (f : Failure) : Prop :=
  (∀ x ∈ f.positives, RuleName x ∨ x = c!"EOI") ∧ f.positives.count c!"EOI" ≤ 1 ∧ (∀ x ∈ f.negatives, RuleName x)

/-- Lines, each with its end. -/
def joined (ls : List Name) : Name := ls.flatMap (· ++ ['\n'])

/-- How the name of a rule is shown. -/
def shownAs (x : Name) : Name := if x = c!"EOI" then c!"END OF INPUT" else x

/-- The hint under the line. -/
def hint (f : Failure) : Name :=
  (if f.positives = [] then [] else c!"expecting " ++ List.intercalate c!" || " (f.positives.map shownAs)) ++
  (if f.negatives = [] then [] else c!"unexpected " ++ List.intercalate c!" or " f.negatives)

end Verif.Spec.Report
