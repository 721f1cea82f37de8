import Verif.Spec.Demo

/-!
# Evaluating texts

Not a model of anything in /repo: the functions of `Verif/Spec/Demo.lean` for any parser, to evaluate concrete texts.
-/

namespace Verif.Demo
open Spec

variable {P : Plat} {N : Nat} {parse : Name → Except Panic (Option (Ast Comp))}

/-- The engine after the given texts, if all were accepted. -/
def sentText (P : Plat) (N : Nat) (parse : Name → Except Panic (Option (Ast Comp))) :
    List Name → Engine (glicol P N parse) → Option (Engine (glicol P N parse))
  | [], e => some e
  | c :: cs, e =>
    match e.updateWithCode TableOrder.ident c with
    | .ok (e', none) => sentText P N parse cs e'
    | _ => none

theorem sentText_accepts {codes : List Name} {e e' : Engine (glicol P N parse)}
    (h : sentText P N parse codes e = some e') : Accepts P N parse e codes e' := by
  induction codes generalizing e with
  | nil => cases h; exact rfl
  | cons c cs ih =>
    unfold sentText at h
    split at h
    · rename_i e1 he1
      exact ⟨e1, he1, ih h⟩
    · cases h

/-- What is computed to hold after the texts, holds after the texts. -/
theorem observeText {codes : List Name} (f : Engine (glicol P N parse) → Bool)
    (h : ((sentText P N parse codes (Engine.new _ N)).map f) = some true) :
    ∃ e, Accepts P N parse (Engine.new _ N) codes e ∧ f e = true := by
  obtain ⟨e, he, hf⟩ := Option.map_eq_some_iff.mp h
  exact ⟨e, sentText_accepts he, hf⟩

/-- The first block after the texts, if they are accepted and it does not panic. -/
def heardText (P : Plat) (N : Nat) (parse : Name → Except Panic (Option (Ast Comp))) (codes : List Name)
    (input : List Buf) : Option (List Buf) :=
  match sentText P N parse codes (Engine.new _ N) with
  | none => none
  | some e =>
    match nextBlockFuel 1000 .ident e input with
    | some (.ok (_, out)) => some out
    | _ => none

theorem heardText_spec {codes : List Name} {input out : List Buf} (h : heardText P N parse codes input = some out) :
    Plays P N parse codes input out := by
  unfold heardText at h
  split at h
  · cases h
  · rename_i e he
    refine ⟨e, sentText_accepts he, ?_⟩
    split at h
    · rename_i e' o hp
      cases h
      exact ⟨e', nextBlockFuel_spec hp⟩
    · cases h

/-- Whether the first block after the texts panics (`false` also when one is not accepted). -/
def panicsText (P : Plat) (N : Nat) (parse : Name → Except Panic (Option (Ast Comp))) (codes : List Name) : Bool :=
  match sentText P N parse codes (Engine.new _ N) with
  | none => false
  | some e =>
    match nextBlockFuel 1000 .ident e [] with
    | some (.error _) => true
    | _ => false

theorem panicsAfter_of {codes : List Name} {e e' : Engine (glicol P N parse)} (h : Accepts P N parse e codes e')
    (hb : ∃ p, e'.nextBlock .ident [] = .error p) : PanicsAfter P N parse e codes := by
  induction codes generalizing e with
  | nil => cases h; exact hb
  | cons c cs ih =>
    obtain ⟨e1, h1, h2⟩ := h
    exact ⟨e1, h1, ih h2⟩

theorem panicsText_spec {codes : List Name} (h : panicsText P N parse codes = true) :
    PanicsAfter P N parse (Engine.new _ N) codes := by
  unfold panicsText at h
  split at h
  · cases h
  · rename_i e he
    refine panicsAfter_of (sentText_accepts he) ?_
    split at h
    · rename_i p hp
      exact ⟨p, nextBlockFuel_spec hp⟩
    · cases h

/-- Whether sending these texts panics at the last one. -/
def updatePanicsText (P : Plat) (N : Nat) (parse : Name → Except Panic (Option (Ast Comp))) :
    List Name → Engine (glicol P N parse) → Bool
  | [], _ => false
  | c :: cs, e =>
    match e.updateWithCode TableOrder.ident c with
    | .ok (e', none) => updatePanicsText P N parse cs e'
    | .ok (_, some _) => false
    | .error _ => cs.isEmpty

theorem updatePanicsText_spec {codes : List Name} {e : Engine (glicol P N parse)}
    (h : updatePanicsText P N parse codes e = true) : UpdatePanics P N parse e codes := by
  induction codes generalizing e with
  | nil => cases h
  | cons c cs ih =>
    unfold updatePanicsText at h
    split at h
    · rename_i e1 he1
      cases cs with
      | nil => cases h
      | cons c2 cs => exact ⟨e1, he1, ih h⟩
    · cases h
    · rename_i p hp
      cases cs with
      | nil => exact ⟨p, hp⟩
      | cons c2 cs => cases h

end Verif.Demo
