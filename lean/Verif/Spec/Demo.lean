import Verif.Make
import Verif.Spec.Safe
import Verif.Lemmas.Eval

/-!
# Example programs for the real language

Not a model of anything in /repo: a platform with trivial library functions and a "parser" that looks
up programs by name, to show that the hypotheses of theorems about `glicol P N parse` can be met and to
state counterexamples.
-/

namespace Verif.Demo
open Spec

/-- Library functions that always return 0. -/
def libm : Libm := ⟨fun _ => .fin 0, fun _ => .fin 0, fun _ => .fin 0, fun _ _ => .fin 0,
  fun _ => .fin 0, fun _ _ => .fin 0, false⟩

/-- Scripted nodes that leave their buffers alone. -/
def ext : Ext := ⟨Unit, fun _ _ _ => .ok (), fun _ _ _ out => .ok ((), out), fun _ _ _ => .ok ()⟩

/-- The platform of the examples. -/
def plat : Plat := ⟨libm, .ident, ext⟩

/-- The "parser" that knows the given programs. -/
def table (progs : List (Name × Ast Comp)) : Name → Except Panic (Option (Ast Comp)) :=
  fun code => .ok (lookup progs code)

/-- The engine after the given programs have been sent to a new one, if all were accepted. -/
def sent (P : Plat) (N : Nat) (progs : List (Name × Ast Comp)) :
    List Name → Engine (glicol P N (table progs)) → Option (Engine (glicol P N (table progs)))
  | [], e => some e
  | c :: cs, e =>
    match e.updateWithCode TableOrder.ident c with
    | .ok (e', none) => sent P N progs cs e'
    | _ => none

/-- Whether the next block panics after these programs (`false` also when one is not accepted). -/
def panics (P : Plat) (N : Nat) (progs : List (Name × Ast Comp)) : Bool :=
  match sent P N progs (progs.map Prod.fst) (Engine.new _ N) with
  | none => false
  | some e =>
    match nextBlockFuel 1000 .ident e [] with
    | some (.error _) => true
    | _ => false

/-- The programs are accepted one after the other, and then the next block panics. -/
def PanicsAfter (P : Plat) (N : Nat) (parse : Name → Except Panic (Option (Ast Comp))) :
    Engine (glicol P N parse) → List Name → Prop
  | e, [] => ∃ p, e.nextBlock .ident [] = .error p
  | e, c :: cs => ∃ e', e.updateWithCode TableOrder.ident c = .ok (e', none) ∧ PanicsAfter P N parse e' cs

theorem panics_spec {P : Plat} {N : Nat} {progs : List (Name × Ast Comp)}
    (h : panics P N progs = true) :
    PanicsAfter P N (table progs) (Engine.new _ N) (progs.map Prod.fst) := by
  unfold panics at h
  split at h
  · cases h
  · rename_i e he
    have hb : ∃ p, e.nextBlock .ident [] = .error p := by
      split at h
      · rename_i p hp
        exact ⟨p, nextBlockFuel_spec hp⟩
      · cases h
    clear h
    generalize Engine.new (glicol P N (table progs)) N = e0 at he
    generalize List.map Prod.fst progs = codes at he
    induction codes generalizing e0 with
    | nil =>
      cases he
      exact hb
    | cons c cs ih =>
      unfold sent at he
      split at he
      · rename_i e' he'
        exact ⟨e', he', ih e' he⟩
      · cases he

/-- The programs are accepted one after the other, leading from the first engine to the second. -/
def Accepts (P : Plat) (N : Nat) (parse : Name → Except Panic (Option (Ast Comp))) :
    Engine (glicol P N parse) → List Name → Engine (glicol P N parse) → Prop
  | e, [], e' => e' = e
  | e, c :: cs, e' =>
    ∃ e1, e.updateWithCode TableOrder.ident c = .ok (e1, none) ∧ Accepts P N parse e1 cs e'

/-- The programs but the last are accepted one after the other, and then sending the last panics. -/
def UpdatePanics (P : Plat) (N : Nat) (parse : Name → Except Panic (Option (Ast Comp))) :
    Engine (glicol P N parse) → List Name → Prop
  | _, [] => False
  | e, [c] => ∃ p, e.updateWithCode TableOrder.ident c = .error p
  | e, c :: cs =>
    ∃ e1, e.updateWithCode TableOrder.ident c = .ok (e1, none) ∧ UpdatePanics P N parse e1 cs

theorem sent_accepts {P : Plat} {N : Nat} {progs : List (Name × Ast Comp)} {codes : List Name}
    {e e' : Engine (glicol P N (table progs))} (h : sent P N progs codes e = some e') :
    Accepts P N (table progs) e codes e' := by
  induction codes generalizing e with
  | nil => cases h; exact rfl
  | cons c cs ih =>
    unfold sent at h
    split at h
    · rename_i e1 he1
      exact ⟨e1, he1, ih h⟩
    · cases h

/-- What is computed to hold after the programs, holds after the programs. -/
theorem observe {P : Plat} {N : Nat} {progs : List (Name × Ast Comp)}
    (f : Engine (glicol P N (table progs)) → Bool)
    (h : ((sent P N progs (progs.map Prod.fst) (Engine.new _ N)).map f) = some true) :
    ∃ e, Accepts P N (table progs) (Engine.new _ N) (progs.map Prod.fst) e ∧ f e = true := by
  obtain ⟨e, he, hf⟩ := Option.map_eq_some_iff.mp h
  exact ⟨e, sent_accepts he, hf⟩

/-- Whether sending these programs panics at the last one. -/
def updatePanics (P : Plat) (N : Nat) (progs : List (Name × Ast Comp)) :
    List Name → Engine (glicol P N (table progs)) → Bool
  | [], _ => false
  | c :: cs, e =>
    match e.updateWithCode TableOrder.ident c with
    | .ok (e', none) => updatePanics P N progs cs e'
    | .ok (_, some _) => false
    | .error _ => cs.isEmpty

theorem updatePanics_spec {P : Plat} {N : Nat} {progs : List (Name × Ast Comp)} {codes : List Name}
    {e : Engine (glicol P N (table progs))} (h : updatePanics P N progs codes e = true) :
    UpdatePanics P N (table progs) e codes := by
  induction codes generalizing e with
  | nil => cases h
  | cons c cs ih =>
    unfold updatePanics at h
    split at h
    · rename_i e1 he1
      cases cs with
      | nil => cases h
      | cons c2 cs => exact ⟨e1, he1, ih h⟩
    · cases h
    · rename_i p hp
      cases cs with
      | nil => exact ⟨p, hp⟩
      | cons c2 cs => cases h

/-- The programs are accepted one after the other, and then the next block, with the given input
slices, is `out`. -/
def Plays (P : Plat) (N : Nat) (parse : Name → Except Panic (Option (Ast Comp))) (codes : List Name)
    (input out : List Buf) : Prop :=
  ∃ e, Accepts P N parse (Engine.new _ N) codes e ∧ ∃ e', e.nextBlock .ident input = .ok (e', out)

/-- The first block after the programs, if they are accepted and it does not panic. -/
def heard (P : Plat) (N : Nat) (progs : List (Name × Ast Comp)) (codes : List Name)
    (input : List Buf) : Option (List Buf) :=
  match sent P N progs codes (Engine.new _ N) with
  | none => none
  | some e =>
    match nextBlockFuel 1000 .ident e input with
    | some (.ok (_, out)) => some out
    | _ => none

theorem heard_spec {P : Plat} {N : Nat} {progs : List (Name × Ast Comp)} {codes : List Name}
    {input out : List Buf} (h : heard P N progs codes input = some out) :
    Plays P N (table progs) codes input out := by
  unfold heard at h
  split at h
  · cases h
  · rename_i e he
    refine ⟨e, sent_accepts he, ?_⟩
    split at h
    · rename_i e' o hp
      cases h
      exact ⟨e', nextBlockFuel_spec hp⟩
    · cases h

/-- The programs are accepted one after the other, and then every block with two input slices
panics. -/
def InputPanics (P : Plat) (N : Nat) (parse : Name → Except Panic (Option (Ast Comp)))
    (codes : List Name) : Prop :=
  ∃ e, Accepts P N parse (Engine.new _ N) codes e ∧
    ∀ ho b0 b1, ∃ p, e.nextBlock ho [b0, b1] = .error p

end Verif.Demo
