import Verif.Spec.RingBuf

/-! # Specification: texts sent through the ring buffer (C58, C59) -/

namespace Verif.Spec.Ring
open Verif.RingBuf

variable {α : Type}

/-- The texts handed to `push`, in order. -/
def sent : List (Label α) → List (List α)
  | [] => []
  | .pushCall els :: t => els :: sent t
  | _ :: t => sent t

/-- The texts whose `push` has returned, in order. -/
def returned : List (Label α) → List (List α)
  | [] => []
  | .pushRet els _ :: t => els :: returned t
  | _ :: t => returned t

/-- What each `push` has accepted, in order. -/
def accepted : List (Label α) → List (List α)
  | [] => []
  | .pushRet els n :: t => els.take n :: accepted t
  | _ :: t => accepted t

/-- What each `pop` that delivered anything has delivered, in order. -/
def received : List (Label α) → List (List α)
  | [] => []
  | .popRet out n :: t => if n = 0 then received t else out.take n :: received t
  | _ :: t => received t

/-- The arrays given to `pop` hold at least `m` elements. -/
def Roomy (m : Nat) (t : List (Label α)) : Prop := ∀ dst, .popCall dst ∈ t → m ≤ dst.length

/-- Every text fits and is not empty, and is sent when everything sent before has been received. -/
def Patient (m : Nat) (t : List (Label α)) : Prop :=
  ∀ t1 els t2, t = t1 ++ .pushCall els :: t2 → els ≠ [] ∧ els.length ≤ m ∧ size t1 = 0

/-- Every `push` accepted all it was given. -/
def Whole (t : List (Label α)) : Prop := ∀ els n, .pushRet els n ∈ t → n = els.length

end Verif.Spec.Ring
