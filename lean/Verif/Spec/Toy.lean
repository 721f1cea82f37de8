import Verif.Spec.Engine

/-! A small language used only in `example`s, to exhibit concrete non-trivial instances of the
hypotheses of the generic engine theorems. It is not a model of anything in the repository. -/

namespace Verif.Toy
open Verif Spec

/-- A component: a number and the references it mentions. -/
abbrev Comp := Nat × List Name

/-- A node: the number it was made from, the wiring messages received, and a counter. -/
structure Node where
  made : Nat
  wires : List Nat
  count : Nat
  deriving DecidableEq, Repr

/-- Texts of the example programs. -/
def t0 : Name := ['0']
def t1 : Name := ['1']
def t2 : Name := ['2']
def t3 : Name := ['3']
def t4 : Name := ['4']
def t5 : Name := ['5']
def nameO : Name := ['o']
def nameP : Name := ['p']
def nameA : Name := ['~', 'a']
def nameAB : Name := ['~', 'a', 'b']
def patA : Name := ['~', 'a', '.', '.']

/-- `o: 1 >> 2 ~a`, `~a: 3` -/
def prog1 : Ast Comp := [(nameO, [(1, []), (2, [nameA])]), (nameA, [(3, [])])]
/-- `o: 1 >> 5 >> 2 ~a`, `~a: 3`, `p: 4` -/
def prog2 : Ast Comp :=
  [(nameO, [(1, []), (5, []), (2, [nameA])]), (nameA, [(3, [])]), (nameP, [(4, [patA])])]
/-- `o: 1 >> 2 ~a`: the reference does not resolve. -/
def prog3 : Ast Comp := [(nameO, [(1, []), (2, [nameA])])]
/-- `o: 99`: making the node fails with an unknown sample. -/
def prog4 : Ast Comp := [(nameO, [(99, [])])]

/-- `prog2` with its chains in another order. -/
def prog5 : Ast Comp :=
  [(nameP, [(4, [patA])]), (nameO, [(1, []), (5, []), (2, [nameA])]), (nameA, [(3, [])])]

/-- The example language. -/
def lang : Lang where
  Num := Nat
  Comp := Comp
  Node := Node
  Smp := Nat
  zero := 0
  one := 1
  bpm120 := 120
  parseNum := fun s => parseUInt 1000 s
  compEq := fun a b => decide (a = b)
  refs := fun c => c.2
  make := fun _ _ _ _ c =>
    if c.1 = 99 then .error (.err (.nonExistSample ['x']))
    else .ok (⟨⟨c.1, [], 0⟩, [[0, 0], [0, 0]]⟩, c.2)
  msg := fun n m => match m with
    | .index i => .ok { n with wires := n.wires ++ [i] }
    | .indexOrder p i => .ok { n with wires := n.wires.take p ++ i :: n.wires.drop p }
    | .resetOrder => .ok { n with wires := [] }
    | .setToNumber _ v => .ok { n with made := v }
    | _ => .ok n
  proc := fun n ins b =>
    .ok ({ n with count := n.count + 1 },
      if ins.isEmpty then b.map (fun c => c.map (fun _ => n.made + n.count))
      else b.map (fun c => c.map (fun _ => (ins.map (fun i => (i.2.flatten).foldl (· + ·) 0)).foldl (· + ·) 0)))
  sum2 := ⟨0, [], 0⟩
  pass := ⟨0, [], 0⟩
  parse := fun c =>
    if c = t0 then .ok none
    else if c = t1 then .ok (some prog1)
    else if c = t2 then .ok (some prog2)
    else if c = t3 then .ok (some prog3)
    else if c = t5 then .ok (some prog5)
    else .ok (some prog4)

instance : DecidableEq lang.Comp := inferInstanceAs (DecidableEq (Nat × List Name))
instance : DecidableEq lang.Num := inferInstanceAs (DecidableEq Nat)
instance : DecidableEq lang.Node := inferInstanceAs (DecidableEq Node)

theorem parserWf : ParserWf lang := by
  intro code p h
  simp only [lang] at h
  have hw : ∀ q : Ast Comp, (q.map Prod.fst).Nodup → (∀ e, e ∈ q → e.2 ≠ []) → ProgWf q :=
    fun q h1 h2 => ⟨h1, fun k c hm => h2 (k, c) hm⟩
  by_cases h0 : code = t0
  · simp [h0] at h
  · by_cases h1 : code = t1
    · simp [h1, t0, t1] at h
      cases h
      exact hw _ (by decide) (by decide)
    · by_cases h2 : code = t2
      · simp [h2, t0, t1, t2] at h
        cases h
        exact hw _ (by decide) (by decide)
      · by_cases h3 : code = t3
        · simp [h3, t0, t1, t2, t3] at h
          cases h
          exact hw _ (by decide) (by decide)
        · by_cases h5 : code = t5
          · simp [h5, t0, t1, t2, t3, t5] at h
            cases h
            exact hw _ (by decide) (by decide)
          · simp [h0, h1, h2, h3, h5] at h
            cases h
            exact hw _ (by decide) (by decide)

/-- The new engine of the example language, block length 2. -/
def e0 : Engine lang := Engine.new lang 2

/-- The engine playing `prog1`. -/
def e1 : Engine lang :=
  match e0.updateWithCode TableOrder.ident t1 with
  | .ok (e, _) => e
  | .error _ => e0

theorem e1_eq : e0.updateWithCode TableOrder.ident t1 = .ok (e1, none) := by rfl

theorem reach1 : Reachable lang e1 :=
  .step (.update TableOrder.ident t1) (.new 2) (by
    show (do let (e', _) ← e0.updateWithCode TableOrder.ident t1; .ok e') = Except.ok e1
    rw [e1_eq]; rfl)

end Verif.Toy
