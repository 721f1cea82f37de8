import Verif.Startup

/-! # Specification: what is asked of an engine while it starts (C74) -/

namespace Verif.Spec.Start
open Verif Startup

variable {S : Type}

/-- The calls that returned normally, with their numbers, in order of time. -/
def askeds : List (Ev S) → List (Nat × Call S)
  | [] => []
  | .asked k c :: es => (k, c) :: askeds es
  | _ :: es => askeds es

/-- The calls that the wasm module was given by the port, in order of time. -/
def dids : List (Ev S) → List (Nat × Call S)
  | [] => []
  | .did k c :: es => (k, c) :: dids es
  | _ :: es => dids es

/-- The texts that the wasm module was given from the queue of programs (`false`) or of messages (`true`). -/
def gaves (msg : Bool) : List (Ev S) → List Name
  | [] => []
  | .gave m t :: es => if m = msg then t :: gaves msg es else gaves msg es
  | _ :: es => gaves msg es

/-- Whether a call takes the way over the port. -/
def ByPort (sab : Bool) : Call S → Prop
  | .run _ => sab = false
  | .msg _ => sab = false
  | _ => True

/-- The text that a call puts into the queue of programs or of messages. -/
def textOf (msg : Bool) : Call S → Name
  | .run t => if msg then [] else t
  | .msg t => if msg then (if t.getLast? = some ';' then t else t ++ [';']) else []
  | _ => []

/-- All that was put into the queue of programs or of messages. -/
def texts (msg : Bool) (es : List (Ev S)) : Name := ((askeds es).map (fun p => textOf msg p.2)).flatten

/-- A call that brings a sample from a file. -/
def IsFile : Call S → Prop
  | .file .. => True
  | _ => False

end Verif.Spec.Start
