import Verif.Fl
import Verif.Engine

/-!
# The syntax tree

Models the types of `rs/parser/src/nodes.rs`. `&str` is `Name`, `f32` is `Fl`.
-/

namespace Verif

/-- rs/parser/src/nodes.rs:309-316 `NumberOrRef`. -/
inductive NumRef where
  | num (v : Fl)
  | ref (r : Name)
  deriving Repr, DecidableEq

/-- rs/parser/src/nodes.rs:441-448 `UsizeOrRef`. -/
inductive NatRef where
  | nat (v : Nat)
  | ref (r : Name)
  deriving Repr, DecidableEq

/-- rs/parser/src/nodes.rs:182-187 `Duration`. -/
inductive Dur where
  | bar (v : Fl)
  | sec (v : Fl)
  | ms (v : Fl)
  deriving Repr, DecidableEq

/-- rs/parser/src/nodes.rs:189-193 `TimeList`. -/
structure TimeList where
  bar : Fl
  time : Option Dur
  deriving Repr, DecidableEq

/-- rs/parser/src/nodes.rs:639-643 `EventValue`. -/
inductive EventValue where
  | sym (s : Name)
  | num (v : Fl)
  deriving Repr, DecidableEq

/-- rs/parser/src/nodes.rs:645-648 `EventInner`. -/
abbrev Events := List (EventValue × Fl)

/-- rs/parser/src/nodes.rs:721-727 `Signal` (`Pattern` is :687-691). -/
inductive Signal where
  | num (v : Fl)
  | ref (r : Name)
  | event (e : Events)
  | pattern (e : Events) (span : Fl)
  deriving Repr, DecidableEq

/-- rs/parser/src/nodes.rs:53-97 `Component`, with the structures of the single variants
(:195-200, 365-388, 390-1120) inlined. -/
inductive Comp where
  | points (points : List (TimeList × Fl)) (span : Fl) (looping : Bool)
  | delayn (p : NatRef)
  | delayms (p : NumRef)
  | imp (p : NumRef)
  | tri (p : NumRef)
  | squ (p : NumRef)
  | saw (p : NumRef)
  | onepole (p : NumRef)
  | sin (p : NumRef)
  | mul (p : NumRef)
  | add (p : NumRef)
  | pan (p : NumRef)
  | seq (events : List (Fl × NatRef))
  | choose (choices : List Fl)
  | arrange (events : List NumRef)
  | mix (nodes : List Name)
  | sp (sym : Name)
  | speed (v : Fl)
  | constsig (v : Fl)
  | adc (port : Nat)
  | bd (p : NumRef)
  | sn (p : NumRef)
  | hh (p : NumRef)
  | sawsynth (attack decay : Fl)
  | squsynth (attack decay : Fl)
  | trisynth (attack decay : Fl)
  | msgsynth (sym : Name) (attack decay : Fl)
  | patternSynth (sym : Name) (span : Fl)
  | lpf (signal : Signal) (q : Fl)
  | psampler (pattern : Events) (span : Option Fl)
  | balance (left right : Name)
  | rhpf (cutoff : NumRef) (q : Fl)
  | apfmsgain (delay : NumRef) (gain : Fl)
  | reverb (dampening roomSize width wet dry : Fl)
  | plate (mix : Fl)
  | envperc (attack decay : Fl)
  | adsr (attack decay sustain release : Fl)
  | get (ref : Name)
  | noise (seed : Nat)
  | metaScript (code : Name)
  | expr (code : Name)
  | eval (code : Name)
  deriving Repr, DecidableEq

/-! ### Derived equality -/

/-- `PartialEq` of a list given that of its elements. -/
def listEq {α : Type} (eq : α → α → Bool) : List α → List α → Bool
  | [], [] => true
  | a :: as, b :: bs => eq a b && listEq eq as bs
  | _, _ => false

/-- Derived `PartialEq` of `NumberOrRef`: numbers by `==` of f32. -/
def NumRef.eq : NumRef → NumRef → Bool
  | .num a, .num b => Fl.beq a b
  | .ref a, .ref b => decide (a = b)
  | _, _ => false

/-- Derived `PartialEq` of `Duration`. -/
def Dur.eq : Dur → Dur → Bool
  | .bar a, .bar b => Fl.beq a b
  | .sec a, .sec b => Fl.beq a b
  | .ms a, .ms b => Fl.beq a b
  | _, _ => false

/-- Derived `PartialEq` of `TimeList`. -/
def TimeList.eq (a b : TimeList) : Bool :=
  Fl.beq a.bar b.bar &&
  match a.time, b.time with
  | none, none => true
  | some x, some y => x.eq y
  | _, _ => false

/-- Derived `PartialEq` of `EventValue`. -/
def EventValue.eq : EventValue → EventValue → Bool
  | .sym a, .sym b => decide (a = b)
  | .num a, .num b => Fl.beq a b
  | _, _ => false

/-- Derived `PartialEq` of `EventInner`. -/
def Events.eq (a b : Events) : Bool := listEq (fun x y => x.1.eq y.1 && Fl.beq x.2 y.2) a b

/-- Derived `PartialEq` of `Signal`. -/
def Signal.eq : Signal → Signal → Bool
  | .num a, .num b => Fl.beq a b
  | .ref a, .ref b => decide (a = b)
  | .event a, .event b => Events.eq a b
  | .pattern a s, .pattern b t => Events.eq a b && Fl.beq s t
  | _, _ => false

/-- Derived `PartialEq` of `Component` (rs/parser/src/nodes.rs:53). For `psampler`, `none` stands for
the variant `PSampler::Event`, `some` for `PSampler::Pattern` (:892-896). -/
def Comp.eq : Comp → Comp → Bool
  | .points p s l, .points p' s' l' =>
    listEq (fun x y => x.1.eq y.1 && Fl.beq x.2 y.2) p p' && Fl.beq s s' && l == l'
  | .delayn p, .delayn p' => decide (p = p')
  | .delayms p, .delayms p' => p.eq p'
  | .imp p, .imp p' => p.eq p'
  | .tri p, .tri p' => p.eq p'
  | .squ p, .squ p' => p.eq p'
  | .saw p, .saw p' => p.eq p'
  | .onepole p, .onepole p' => p.eq p'
  | .sin p, .sin p' => p.eq p'
  | .mul p, .mul p' => p.eq p'
  | .add p, .add p' => p.eq p'
  | .pan p, .pan p' => p.eq p'
  | .seq e, .seq e' => listEq (fun x y => Fl.beq x.1 y.1 && decide (x.2 = y.2)) e e'
  | .choose c, .choose c' => listEq Fl.beq c c'
  | .arrange e, .arrange e' => listEq NumRef.eq e e'
  | .mix n, .mix n' => decide (n = n')
  | .sp s, .sp s' => decide (s = s')
  | .speed v, .speed v' => Fl.beq v v'
  | .constsig v, .constsig v' => Fl.beq v v'
  | .adc p, .adc p' => decide (p = p')
  | .bd p, .bd p' => p.eq p'
  | .sn p, .sn p' => p.eq p'
  | .hh p, .hh p' => p.eq p'
  | .sawsynth a d, .sawsynth a' d' => Fl.beq a a' && Fl.beq d d'
  | .squsynth a d, .squsynth a' d' => Fl.beq a a' && Fl.beq d d'
  | .trisynth a d, .trisynth a' d' => Fl.beq a a' && Fl.beq d d'
  | .msgsynth s a d, .msgsynth s' a' d' => decide (s = s') && Fl.beq a a' && Fl.beq d d'
  | .patternSynth s p, .patternSynth s' p' => decide (s = s') && Fl.beq p p'
  | .lpf s q, .lpf s' q' => s.eq s' && Fl.beq q q'
  | .psampler e none, .psampler e' none => Events.eq e e'
  | .psampler e (some s), .psampler e' (some s') => Events.eq e e' && Fl.beq s s'
  | .balance l r, .balance l' r' => decide (l = l') && decide (r = r')
  | .rhpf c q, .rhpf c' q' => c.eq c' && Fl.beq q q'
  | .apfmsgain d g, .apfmsgain d' g' => d.eq d' && Fl.beq g g'
  | .reverb a b c d e, .reverb a' b' c' d' e' =>
    Fl.beq a a' && Fl.beq b b' && Fl.beq c c' && Fl.beq d d' && Fl.beq e e'
  | .plate m, .plate m' => Fl.beq m m'
  | .envperc a d, .envperc a' d' => Fl.beq a a' && Fl.beq d d'
  | .adsr a d s r, .adsr a' d' s' r' => Fl.beq a a' && Fl.beq d d' && Fl.beq s s' && Fl.beq r r'
  | .get r, .get r' => decide (r = r')
  | .noise s, .noise s' => decide (s = s')
  | .metaScript c, .metaScript c' => decide (c = c')
  | .expr c, .expr c' => decide (c = c')
  | .eval c, .eval c' => decide (c = c')
  | _, _ => false

/-! ### References -/

/-- The reference in a parameter, if it is one. -/
def NumRef.refs : NumRef → List Name
  | .num _ => []
  | .ref r => [r]

/-- The reference in a parameter, if it is one. -/
def NatRef.refs : NatRef → List Name
  | .nat _ => []
  | .ref r => [r]

/-- rs/parser/src/nodes.rs:99-179 `Component::all_references`. -/
def Comp.refs : Comp → List Name
  | .delayn p => p.refs
  | .delayms p | .imp p | .tri p | .squ p | .saw p | .onepole p | .sin p | .mul p | .add p | .pan p
  | .bd p | .sn p | .hh p => p.refs
  | .lpf (.ref r) _ => [r]
  | .rhpf c _ => c.refs
  | .apfmsgain d _ => d.refs
  | .get r => [r]
  | .seq e => e.flatMap (fun x => x.2.refs)
  | .arrange e => e.flatMap NumRef.refs
  | .mix n => n
  | .balance l r => [l, r]
  | _ => []

end Verif
