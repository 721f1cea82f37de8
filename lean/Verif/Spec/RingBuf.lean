import Verif.RingBuf

/-! Specification of the ring buffer (C35): what an observer of calls and returns may rely on. -/

namespace Verif.Spec.Ring
open Verif.RingBuf

variable {α : Type}

/-- The elements accepted by `push`, in order: each return of `n` accepts the first `n` elements. -/
def pushed : List (Label α) → List α
  | [] => []
  | .pushRet els n :: t => els.take n ++ pushed t
  | _ :: t => pushed t

/-- The elements delivered by `pop`, in order: each return of `n` delivers the first `n` elements of
the array. -/
def popped : List (Label α) → List α
  | [] => []
  | .popRet out n :: t => out.take n ++ popped t
  | _ :: t => popped t

/-- How many elements are in the queue after the trace. -/
def size (t : List (Label α)) : Nat := (pushed t).length - (popped t).length

/-- No call or return of `push` in the trace. -/
def NoPush (t : List (Label α)) : Prop :=
  ∀ l, l ∈ t → (∀ els, l ≠ .pushCall els) ∧ ∀ els n, l ≠ .pushRet els n

/-- No call or return of `pop` in the trace. -/
def NoPop (t : List (Label α)) : Prop :=
  ∀ l, l ∈ t → (∀ d, l ≠ .popCall d) ∧ ∀ d n, l ≠ .popRet d n

/-- In the trace `t1` is followed by a call `push(els)`, then by `t2`, and then by the return of this
call with result `n`. -/
def PushIn (t t1 : List (Label α)) (els els' : List α) (n : Nat) : Prop :=
  ∃ t2 t3, t = t1 ++ .pushCall els :: t2 ++ .pushRet els' n :: t3 ∧ NoPush t2

/-- The same for a call `pop(dst)` that leaves `out` in the array and returns `n`. -/
def PopIn (t t1 : List (Label α)) (dst out : List α) (n : Nat) : Prop :=
  ∃ t2 t3, t = t1 ++ .popCall dst :: t2 ++ .popRet out n :: t3 ∧ NoPop t2

end Verif.Spec.Ring
