import Verif.Spec.Write

/-! # Specification: programs that can be written down -/

namespace Verif.Spec

/-- A finite value of type `f32`: something that rounding to `f32` can give. -/
def Single (v : Fl) : Prop := v.isFinite = true ∧ ∃ s x, v = Fl.round f32 s x

/-- A finite value of type `f32` without a fractional part. -/
def SingleInt (v : Fl) : Prop := Single v ∧ ∃ n : Int, v.val = n

/-- A parameter that is a number or a reference. -/
def Arg : NumRef → Prop
  | .num v => Single v
  | .ref r => WVar r

/-- A number. -/
def NumOnly : NumRef → Prop
  | .num v => Single v
  | .ref _ => False

/-- An element of a pattern of `seq`. -/
def Elem : SeqElem → Prop
  | .note n => n < 2 ^ 64
  | .rest => True
  | .ref r => ∃ c, 'a' ≤ c ∧ c ≤ 'z' ∧ r = ['~', c]

/-- An event of a pattern. -/
def Event (e : EventValue × Fl) : Prop :=
  Single e.2 ∧ match e.1 with
  | .num v => Single v
  | .sym s => WSym s

/-- Events of a pattern. -/
def Pat (e : Events) : Prop := e ≠ [] ∧ ∀ x ∈ e, Event x

/-- An offset of a point: seconds or milliseconds. -/
def Offset : Option Dur → Prop
  | none => True
  | some (.bar _) => False
  | some (.sec v) | some (.ms v) => Single v

/-- A point. -/
def Point (p : TimeList × Fl) : Prop := Single p.1.bar ∧ Offset p.1.time ∧ Single p.2

/-- The components that can be written down whatever the library that evaluates expressions does. -/
def Printable : Comp → Prop
  | .mul a | .add a | .sin a | .saw a | .squ a | .tri a | .pan a | .onepole a | .delayms a => Arg a
  | .imp a | .bd a | .sn a | .hh a => NumOnly a
  | .constsig v | .speed v | .plate v => Single v
  | .envperc a d | .sawsynth a d | .squsynth a d | .trisynth a d => Single a ∧ Single d
  | .apfmsgain a v | .rhpf a v => Arg a ∧ Single v
  | .lpf (.num v) q => Single v ∧ Single q
  | .lpf (.ref r) q => WVar r ∧ Single q
  | .lpf (.pattern e v) q => Pat e ∧ Single v ∧ Single q
  | .lpf (.event e) q => Pat e ∧ Single q
  | .adsr a b c d => Single a ∧ Single b ∧ Single c ∧ Single d
  | .reverb a b c d e => Single a ∧ Single b ∧ Single c ∧ Single d ∧ Single e
  | .delayn (.nat n) => n < 2 ^ 64
  | .delayn (.ref r) => WVar r
  | .noise n => n < 2 ^ 64
  | .adc n => n < 2 ^ 32
  | .sp s => WSym s
  | .seq ev => ∃ gs : List (List SeqElem), gs ≠ [] ∧ (∀ g ∈ gs, g ≠ [] ∧ ∀ x ∈ g, Elem x) ∧ ev = seqEvents gs
  | .choose vs => vs ≠ [] ∧ ∀ v ∈ vs, SingleInt v
  | .mix rs => rs ≠ [] ∧ ∀ r ∈ rs, WName r
  | .arrange l => ∃ s : List (Name × Fl), s ≠ [] ∧ (∀ x ∈ s, WName x.1 ∧ Single x.2) ∧
      l = s.flatMap (fun x => [.ref x.1, .num x.2])
  | .balance l r => WName l ∧ WName r
  | .get r => WVar r
  | .psampler e (some v) => Pat e ∧ Single v
  | .psampler e none => Pat e
  | .msgsynth s a d => WSym s ∧ Single a ∧ Single d
  | .patternSynth s v => (∃ t, WCode t ∧ s = '`' :: (t ++ ['`'])) ∧ Single v
  | .expr t | .metaScript t => WCode t
  | .eval _ => False
  | .points l s b => (∀ p ∈ l, Point p) ∧ ((s = .fin (-1) ∧ b = false) ∨ (s = .fin 1 ∧ b = true))

/-- The programs that can be written down: distinct names, chains that are not empty. -/
def PrintableProg (p : List (Name × List Comp)) : Prop :=
  (p.map Prod.fst).Nodup ∧ ∀ l ∈ p, WName l.1 ∧ l.2 ≠ [] ∧ ∀ c ∈ l.2, Printable c

end Verif.Spec
