import Verif.Graph

/-! # The table of objects which the compiled program holds (js/src/glicol_wasm.js:3-30)

The compiled program cannot hold JavaScript objects; it holds numbers, and the objects stand in the array
`heap`. Free places are linked: each holds the number of the next free one. -/

namespace Verif.Handles

variable {α : Type}

/-- A place of `heap`: an object, or the number of the next free place. -/
inductive Slot (α : Type) where
  | obj (o : α)
  | free (next : Nat)

/-- `heap` and `heap_next` (lines 3 and 9). -/
structure Tab (α : Type) where
  heap : List (Slot α)
  next : Nat

/-- `new Array(128).fill(undefined)`, `heap.push(undefined, null, true, false)`,
`heap_next = heap.length` (lines 3-9), the four values being parameters. -/
def init (undef null tt ff : α) : Tab α where
  heap := List.replicate 128 (.obj undef) ++ [.obj undef, .obj null, .obj tt, .obj ff]
  next := 132

/-- `getObject` (line 7); `none` for `undefined` outside of the array and for a number that is not an
object of the program. -/
def getObject (t : Tab α) (idx : Nat) : Option α :=
  match t.heap[idx]? with
  | some (.obj o) => some o
  | _ => none

/-- `dropObject` (lines 11-15). Writing outside of the array, which would make it longer, does not
happen (proved for every use in which only held numbers are dropped) and is left out. -/
def dropObject (t : Tab α) (idx : Nat) : Tab α :=
  if idx < 132 then t
  else { heap := t.heap.set idx (.free t.next), next := idx }

/-- `takeObject` (lines 17-21). -/
def takeObject (t : Tab α) (idx : Nat) : Option α × Tab α := (getObject t idx, dropObject t idx)

/-- `addHeapObject` (lines 23-30). If `heap[idx]` is not a number, `heap_next` becomes unusable: `none`. -/
def addHeapObject (t : Tab α) (o : α) : Option (Nat × Tab α) :=
  let heap := if t.next = t.heap.length then t.heap ++ [.free (t.heap.length + 1)] else t.heap
  let idx := t.next
  match heap[idx]? with
  | some (.free n) => some (idx, { heap := heap.set idx (.obj o), next := n })
  | _ => none

/-- What the imported functions do with the table (lines 353-415): put in an object which is returned to
the program (`addHeapObject`), give up one (`__wbindgen_object_drop_ref`), and put in a second reference to
one (`__wbindgen_object_clone_ref`). -/
inductive Act (α : Type) where
  | add (o : α)
  | drop (idx : Nat)
  | clone (idx : Nat)

/-- One call of an imported function: the number returned, if any, and the table afterwards; `none` if it
cannot go on. -/
def act (t : Tab α) : Act α → Option (Option Nat × Tab α)
  | .add o => (addHeapObject t o).map fun (i, t) => (some i, t)
  | .drop i => some (none, (takeObject t i).2)
  | .clone i =>
    match getObject t i with
    | none => none
    | some o => (addHeapObject t o).map fun (j, t) => (some j, t)

end Verif.Handles
