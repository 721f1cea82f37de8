import Verif.Spec.Places

/-!
# The flow of signals in a program

Which place of a program hears which, read off the program alone.
-/

namespace Verif.Spec

/-- The chains with their numbers of components: those of the program, and the built-in chain `~input`, unless
it has been lost. -/
inductive Chain {C : Type} (prog : Ast C) (withInput : Bool) : Name → Nat → Prop
  | prog {k : Name} {comps : List C} : (k, comps) ∈ prog → Chain prog withInput k comps.length
  | input : withInput = true → Chain prog withInput ['~', 'i', 'n', 'p', 'u', 't'] 1

/-- What a reference means: the chain of this name, or, for `base..`, every chain whose name begins with `base`. -/
inductive Means : Name → Name → Prop
  | named {r : Name} : '.' ∉ r → Means r r
  | pattern {base k : Name} : '.' ∉ base → base <+: k → Means (base ++ ['.', '.']) k

/-- A signal flows from the first place to the second: along a chain, from the end of a chain without `~` to the
output, and from the end of a chain to a component that refers to it. -/
inductive Flow {C : Type} (refs : C → List Name) (prog : Ast C) (withInput : Bool) : Place → Place → Prop
  | next {k : Name} {n i : Nat} : Chain prog withInput k n → i + 1 < n →
      Flow refs prog withInput (.at k i) (.at k (i + 1))
  | out {k : Name} {n : Nat} : Chain prog withInput k (n + 1) → '~' ∉ k → Flow refs prog withInput (.at k n) .dest
  | ref {k k' r : Name} {comps : List C} {c : C} {i n : Nat} : (k, comps) ∈ prog → comps[i]? = some c → r ∈ refs c →
      Means r k' → Chain prog withInput k' (n + 1) → Flow refs prog withInput (.at k' n) (.at k i)

/-- The signal of the first place reaches the second. -/
inductive Leads {C : Type} (refs : C → List Name) (prog : Ast C) (withInput : Bool) : Place → Place → Prop
  | refl (p : Place) : Leads refs prog withInput p p
  | step {p q r : Place} : Flow refs prog withInput p q → Leads refs prog withInput q r → Leads refs prog withInput p r

/-- The buffers of the built-in chain `~input` when the external input `ext` has been put into them: the first two
channels given replace the first buffers, the others keep their contents. -/
def fill {β : Type} (ext bufs : List β) : List β := ext.take 2 ++ bufs.drop (ext.take 2).length

end Verif.Spec
