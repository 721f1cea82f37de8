import Verif.Spec.PagePlay

/-! # The volume of the tracks (C77) -/

namespace Verif.Spec.PagePlay
open Verif Verif.PagePlay Spec

variable {L : Lang}

/-- What a caller of the engine gets: the answer to a program, a block, or a panic, after which there is nothing. -/
inductive Gets (L : Lang) where
  | answer (r : Option EngineError)
  | block (out : List (List L.Num))
  | panicked

/-- What the caller gets from these calls. -/
def gets (e : Engine L) : List (Op L) → List (Gets L)
  | [] => []
  | .update τ code :: ops =>
    match e.updateWithCode τ code with
    | .error _ => [.panicked]
    | .ok (e', r) => .answer r :: gets e' ops
  | .nextBlock ho buf :: ops =>
    match e.nextBlock ho buf with
    | .error _ => [.panicked]
    | .ok (e', out) => .block out :: gets e' ops
  | op :: ops =>
    match op.apply e with
    | .error _ => [.panicked]
    | .ok e' => gets e' ops

/-- The calls without those that set the volume of the tracks. -/
def withoutAmps : List (Op L) → List (Op L)
  | [] => []
  | .setTrackAmp _ :: ops => withoutAmps ops
  | op :: ops => op :: withoutAmps ops

end Verif.Spec.PagePlay
