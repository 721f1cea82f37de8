import Verif.Worklet

/-! # Specification: texts on their way from the page to the engine (C58, C59, C60) -/

namespace Verif.Spec.Page
open Verif Worklet

/-- The texts handed to the page, in order. -/
def asked : List Ev → List Name
  | [] => []
  | .asked x :: es => x :: asked es
  | .given _ :: es => asked es

/-- The texts handed to the engine, in order. -/
def given : List Ev → List Name
  | [] => []
  | .asked _ :: es => given es
  | .given x :: es => x :: given es

/-- Nothing is sent before everything sent earlier has been given to the engine, and each text has
between 1 and `m` characters. -/
def Patient (m : Nat) (es : List Ev) : Prop :=
  ∀ es1 x es2, es = es1 ++ .asked x :: es2 → x ≠ [] ∧ x.length ≤ m ∧ given es1 = asked es1

/-- No text is empty, and the texts sent but not yet given to the engine never have more than `m`
characters together. -/
def Fits (m : Nat) (es : List Ev) : Prop :=
  ∀ es1 x es2, es = es1 ++ .asked x :: es2 →
    x ≠ [] ∧ (asked es1).flatten.length + x.length ≤ (given es1).flatten.length + m

/-- No call of the page and of the browser is going on. -/
def Quiet (s : Sys) : Prop := s.q.prod = .idle ∧ s.q.cons = .idle

/-- The schedule gives these events, without panic. -/
def Runs (m : Nat) (sched : List Do) (s : Sys) (es : List Ev) : Prop :=
  ∃ mem arr, mem.length = m + 1 ∧ arr.length = m ∧ run (init mem arr) sched = .ok (s, es)

end Verif.Spec.Page
