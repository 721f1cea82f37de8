import Verif.Spec.Engine

/-! Specification of message texts (C14). -/

namespace Verif.Spec
open Verif

/-- The code points with the Unicode property White_Space. -/
def whiteSpace : List Nat :=
  [9, 10, 11, 12, 13, 32, 0x85, 0xA0, 0x1680, 0x2000, 0x2001, 0x2002, 0x2003, 0x2004, 0x2005,
   0x2006, 0x2007, 0x2008, 0x2009, 0x200A, 0x2028, 0x2029, 0x202F, 0x205F, 0x3000]

/-- The pieces joined with a separator. -/
def join (sep : Char) : List Name → Name
  | [] => []
  | [p] => p
  | p :: q :: ps => p ++ sep :: join sep (q :: ps)

/-- The message consists, apart from white space, of these commands, separated by semicolons, each
with these fields, separated by commas. -/
structure Splits (msg : Name) (cmds : List (List Name)) : Prop where
  text : msg.filter (fun c => !decide (c.toNat ∈ whiteSpace)) = join ';' (cmds.map (join ','))
  nonempty : cmds ≠ [] ∧ ∀ fs, fs ∈ cmds → fs ≠ []
  comma : ∀ fs f, fs ∈ cmds → f ∈ fs → ',' ∉ f
  semi : ∀ fs f, fs ∈ cmds → f ∈ fs → ';' ∉ f

/-- The text is a decimal numeral, possibly with a plus sign, of value `v ≤ max`. -/
def Numeral (max : Nat) (s : Name) (v : Nat) : Prop :=
  ∃ ds : List Nat, ds ≠ [] ∧ (∀ d, d ∈ ds → d ≤ 9) ∧
    (s = ds.map Nat.digitChar ∨ s = '+' :: ds.map Nat.digitChar) ∧
    v = ds.foldl (fun a d => a * 10 + d) 0 ∧ v ≤ max

/-- The position a text stands for: the value of a numeral, otherwise 0. -/
def Position (max : Nat) (s : Name) (v : Nat) : Prop :=
  Numeral max s v ∨ ((∀ w, ¬ Numeral max s w) ∧ v = 0)

variable {L : Lang}

/-- The message for a value text: a number if it reads as one, otherwise a symbol. -/
inductive ValueMsg (L : Lang) (pos : Nat) (value : Name) : Msg L.Num → Prop
  | number {x} : L.parseNum value = some x → ValueMsg L pos value (.setToNumber pos x)
  | symbol : L.parseNum value = none → ValueMsg L pos value (.setToSymbol pos value)

/-- The effect of one command: nothing if it has fewer than four fields or names no chain; else the
addressed node, and only it, receives the message. -/
inductive Exec (e : Engine L) : List Name → Engine L → Prop
  | short {fs} : fs.length < 4 → Exec e fs e
  | unknown {chain p q v rest} : chain ∉ e.index.map Prod.fst →
      Exec e (chain :: p :: q :: v :: rest) e
  | hit {chain p q v rest pos par m nodes n d node' e'} :
      Position (2 ^ 64 - 1) p pos → Position 255 q par → ValueMsg L par v m →
      (chain, nodes) ∈ e.index → nodes[pos]? = some n → e.graph.node? n = some d →
      L.msg d.node m = .ok node' → e' = { e with graph := e'.graph } →
      e'.graph.edges = e.graph.edges →
      e'.graph.node? n = some ⟨node', d.buffers⟩ →
      (∀ j, j ≠ n → e'.graph.node? j = e.graph.node? j) →
      Exec e (chain :: p :: q :: v :: rest) e'

/-- Commands one after the other. -/
inductive Runs : Engine L → List (List Name) → Engine L → Prop
  | nil (e) : Runs e [] e
  | cons {e e1 e2 fs cmds} : Exec e fs e1 → Runs e1 cmds e2 → Runs e (fs :: cmds) e2

end Verif.Spec
