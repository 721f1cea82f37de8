import Verif.Make
import Verif.Spec.TrackAmp
import Verif.Spec.Message

/-! # Chains with other names (C83) -/

namespace Verif.Spec.Rename
open Verif Spec Verif.Spec.PagePlay

/-- The name has two dots in a row, so that as a reference it stands for several chains. -/
def Dotted (r : Name) : Prop := ∃ a b, r = a ++ '.' :: '.' :: b

/-- A way to rename chains: no two get the same name, the mark `~` that keeps a chain from the output is kept, `~input` keeps its name, and
two dots in a row neither appear nor disappear. -/
structure Renaming (ρ : Name → Name) : Prop where
  inj : ∀ a b, ρ a = ρ b → a = b
  tilde : ∀ a, '~' ∈ ρ a ↔ '~' ∈ a
  dotted : ∀ a, Dotted (ρ a) ↔ Dotted a
  input : ρ ['~', 'i', 'n', 'p', 'u', 't'] = ['~', 'i', 'n', 'p', 'u', 't']

/-- A parameter with its reference renamed. -/
def num (ρ : Name → Name) : NumRef → NumRef
  | .num v => .num v
  | .ref r => .ref (ρ r)

/-- A parameter with its reference renamed. -/
def nat (ρ : Name → Name) : NatRef → NatRef
  | .nat v => .nat v
  | .ref r => .ref (ρ r)

/-- A component with its references renamed; names of samples, codes and symbols stay. -/
def comp (ρ : Name → Name) : Comp → Comp
  | .delayn p => .delayn (nat ρ p)
  | .delayms p => .delayms (num ρ p)
  | .imp p => .imp (num ρ p)
  | .tri p => .tri (num ρ p)
  | .squ p => .squ (num ρ p)
  | .saw p => .saw (num ρ p)
  | .onepole p => .onepole (num ρ p)
  | .sin p => .sin (num ρ p)
  | .mul p => .mul (num ρ p)
  | .add p => .add (num ρ p)
  | .pan p => .pan (num ρ p)
  | .bd p => .bd (num ρ p)
  | .sn p => .sn (num ρ p)
  | .hh p => .hh (num ρ p)
  | .seq es => .seq (es.map (fun e => (e.1, nat ρ e.2)))
  | .arrange es => .arrange (es.map (num ρ))
  | .mix ns => .mix (ns.map ρ)
  | .lpf (.ref r) q => .lpf (.ref (ρ r)) q
  | .balance l r => .balance (ρ l) (ρ r)
  | .rhpf c q => .rhpf (num ρ c) q
  | .apfmsgain d g => .apfmsgain (num ρ d) g
  | .get r => .get (ρ r)
  | c => c

/-- A program with its chains and references renamed. -/
def prog (ρ : Name → Name) (p : Ast Comp) : Ast Comp := p.map (fun x => (ρ x.1, x.2.map (comp ρ)))

/-- The references of a component. -/
def Mentions : Comp → Name → Prop
  | .delayn (.ref x), r | .delayms (.ref x), r | .imp (.ref x), r | .tri (.ref x), r | .squ (.ref x), r | .saw (.ref x), r
  | .onepole (.ref x), r | .sin (.ref x), r | .mul (.ref x), r | .add (.ref x), r | .pan (.ref x), r | .bd (.ref x), r | .sn (.ref x), r
  | .hh (.ref x), r | .lpf (.ref x) _, r | .rhpf (.ref x) _, r | .apfmsgain (.ref x) _, r | .get x, r => r = x
  | .seq es, r => ∃ t, (t, .ref r) ∈ es
  | .arrange es, r => .ref r ∈ es
  | .mix ns, r => r ∈ ns
  | .balance x y, r => r = x ∨ r = y
  | _, _ => False

/-- No reference of the program stands for several chains. -/
def NoPatterns (p : Ast Comp) : Prop := ∀ k comps, (k, comps) ∈ p → ∀ c ∈ comps, ∀ r, Mentions c r → ¬ Dotted r

/-- Iteration orders of a table and of the table with other names that correspond. -/
def SameOrder (ρ : Name → Name) (τ τ' : TableOrder) : Prop := ∀ t : Table, τ'.ord (t.map (fun p => (ρ p.1, p.2))) = (τ.ord t).map (fun p => (ρ p.1, p.2))

/-- The command with its chain renamed. -/
def command (ρ : Name → Name) : List Name → List Name
  | [] => []
  | chain :: fields => ρ chain :: fields

variable {P : Plat} {N : Nat} {parse : Name → Except Panic (Option (Ast Comp))}

/-- The same call with other names: a program is replaced by a text of the renamed program, a text that is rejected by another one, and the
chains that messages address are renamed. -/
inductive Call (ρ : Name → Name) : Op (glicol P N parse) → Op (glicol P N parse) → Prop
  | program {τ τ' code code' p} : SameOrder ρ τ τ' → parse code = .ok (some p) → NoPatterns p → parse code' = .ok (some (prog ρ p)) →
      Call ρ (.update τ code) (.update τ' code')
  | rejected {τ τ' code code'} : parse code = .ok none → parse code' = .ok none → Call ρ (.update τ code) (.update τ' code')
  | message {t t' cmds} : Splits t cmds → Splits t' (cmds.map (command ρ)) → Call ρ (.sendMsg t) (.sendMsg t')
  | block (ho buf) : Call ρ (.nextBlock ho buf) (.nextBlock ho buf)
  | bpm (v) : Call ρ (.setBpm v) (.setBpm v)
  | sr (v) : Call ρ (.setSr v) (.setSr v)
  | seed (v) : Call ρ (.setSeed v) (.setSeed v)
  | trackAmp (v) : Call ρ (.setTrackAmp v) (.setTrackAmp v)
  | sample (name s) : Call ρ (.addSample name s) (.addSample name s)
  | reset : Call ρ .reset .reset

/-- The same result with other names: an unknown chain is reported by its new name. -/
inductive Result (ρ : Name → Name) {L : Lang} : Gets L → Gets L → Prop
  | missing (name) : Result ρ (.answer (some (.nonExistReference name))) (.answer (some (.nonExistReference (ρ name))))
  | answer {r} : (∀ name, r ≠ some (.nonExistReference name)) → Result ρ (.answer r) (.answer r)
  | block (out) : Result ρ (.block out) (.block out)
  | panicked : Result ρ .panicked .panicked

end Verif.Spec.Rename
