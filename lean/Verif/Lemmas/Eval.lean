import Verif.Graph
import Verif.Engine

/-! Evaluation of concrete blocks: the traversal with explicit fuel, which the kernel can compute. -/

namespace Verif

/-- `dfsPostOrder` with fuel; `none` when it runs out. Only used to evaluate examples. -/
def dfsFuel (nbrs : Nat → List Nat) (bound : Nat) :
    Nat → (stack disc fin : List Nat) → Option (Except Panic (List Nat))
  | 0, _, _, _ => none
  | _ + 1, [], _, _ => some (.ok [])
  | k + 1, nx :: st, disc, fin =>
    if nx ∈ disc then
      if nx ∈ fin then dfsFuel nbrs bound k st disc fin
      else
        match dfsFuel nbrs bound k st disc (nx :: fin) with
        | some (.ok r) => some (.ok (nx :: r))
        | x => x
    else if nx < bound then
      dfsFuel nbrs bound k (((nbrs nx).filter (fun s => s ∉ nx :: disc)).reverse ++ nx :: st)
        (nx :: disc) fin
    else some (.error .indexOutOfBounds)

theorem dfsFuel_spec {nbrs : Nat → List Nat} {bound k : Nat} {stack disc fin : List Nat}
    {r : Except Panic (List Nat)} (h : dfsFuel nbrs bound k stack disc fin = some r) :
    dfsPostOrder nbrs bound stack disc fin = r := by
  induction k generalizing stack disc fin r with
  | zero => cases h
  | succ k ih =>
    cases stack with
    | nil =>
      simp only [dfsFuel, Option.some.injEq] at h
      rw [dfsPostOrder]
      exact h
    | cons nx st =>
      rw [dfsFuel] at h
      rw [dfsPostOrder]
      split at h
      · rename_i h1
        rw [if_pos h1]
        split at h
        · rename_i h2
          rw [if_pos h2]
          exact ih h
        · rename_i h2
          rw [if_neg h2]
          split at h
          · rename_i r' hr
            rw [ih hr]
            simpa using h
          · rename_i hx
            cases hy : dfsFuel nbrs bound k st disc (nx :: fin) with
            | none => rw [hy] at h; cases h
            | some y =>
              rw [hy] at h
              cases h
              rw [ih hy]
              cases r with
              | ok z => exact absurd hy (hx z)
              | error e => rfl
      · rename_i h1
        rw [if_neg h1]
        split at h
        · rename_i h2
          rw [dif_pos h2]
          exact ih h
        · rename_i h2
          rw [dif_neg h2]
          simpa using h

variable {ν β : Type}

/-- `process` with fuel. -/
def processFuel (k : Nat) (proc : ProcFn ν β) (ho : HashOrder) (g : Graph (NodeData ν β))
    (dest : Nat) : Option (Except Panic (Graph (NodeData ν β))) :=
  match dfsFuel g.incoming g.slots.length k [dest] [] [] with
  | none => none
  | some (.error e) => some (.error e)
  | some (.ok order) => some (order.foldlM (processNode proc ho) g)

theorem processFuel_spec {k : Nat} {proc : ProcFn ν β} {ho : HashOrder} {g : Graph (NodeData ν β)}
    {dest : Nat} {r : Except Panic (Graph (NodeData ν β))}
    (h : processFuel k proc ho g dest = some r) : process proc ho g dest = r := by
  unfold processFuel at h
  unfold process
  split at h
  · cases h
  · rename_i e he
    rw [dfsFuel_spec he]
    simpa using h
  · rename_i o he
    rw [dfsFuel_spec he]
    simpa using h

/-- `Engine.nextBlock` with fuel. -/
def nextBlockFuel {L : Lang} (k : Nat) (ho : HashOrder) (e : Engine L) (buf : List (List L.Num)) :
    Option (Except Panic (Engine L × List (List L.Num))) :=
  match e.copyInputs buf with
  | .error p => some (.error p)
  | .ok e1 =>
    match processFuel k L.proc ho e1.graph e1.dest with
    | none => none
    | some (.error p) => some (.error p)
    | some (.ok g) =>
      match g.node? e1.dest with
      | none => some (.error .noSuchNode)
      | some d => some (.ok ({ e1 with graph := g, clock := e1.clock + e1.N }, d.buffers))

theorem nextBlockFuel_spec {L : Lang} {k : Nat} {ho : HashOrder} {e : Engine L}
    {buf : List (List L.Num)} {r : Except Panic (Engine L × List (List L.Num))}
    (h : nextBlockFuel k ho e buf = some r) : e.nextBlock ho buf = r := by
  unfold nextBlockFuel at h
  unfold Engine.nextBlock
  split at h
  · rename_i p hp
    rw [hp]
    cases h
    rfl
  · rename_i e1 he
    rw [he]
    simp only [bind, Except.bind]
    split at h
    · cases h
    · rename_i p hp
      rw [processFuel_spec hp]
      simpa using h
    · rename_i g hg
      rw [processFuel_spec hg]
      simp only
      split at h
      · rename_i hn
        rw [hn]
        simpa using h
      · rename_i d hn
        rw [hn]
        simpa using h

end Verif
