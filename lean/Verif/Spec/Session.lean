import Verif.Spec.Safe
import Verif.Spec.Build
import Verif.Spec.Samples
import Verif.Spec.Write
import Verif.Spec.Message

/-!
# A session (specification of C93)

A session is a list of texts sent, blocks asked for, tempos set and samples registered. What a good session is is said about the programs
that its texts write, and of each about the one before; nothing is said about the engine but its sample rate and its samples.
-/

namespace Verif.Spec

/-- The components whose settings may be set to any number while they play, without a panic of `send_msg`. -/
def Settable : Comp → Prop
  | .delayn _ | .apfmsgain .. | .arrange _ => False
  | _ => True

/-- The components whose settings may be set to any text while they play, without a panic of `send_msg`. -/
def Textable : Comp → Prop
  | .msgsynth .. | .patternSynth .. | .eval _ | .metaScript _ => False
  | _ => True

/-- What a player does: send a text, ask for a block with an input (perhaps none), set the tempo, register a sample, set
the sample rate, the seed or the volume, send a message to
single nodes, reset the engine, or send a text that cannot be read or refers to a chain or a sample that is not there. The orders of the hash maps are chosen at each step. -/
inductive PlayerAct where
  | text (τ : TableOrder) (t : Name)
  | block (ho : HashOrder) (ins : List Buf)
  | tempo (v : Fl)
  | sample (name : Name) (s : Sample)
  | rate (v : Nat)
  | seed (v : Nat)
  | volume (v : Fl)
  | typo (τ : TableOrder) (t : Name)
  | wrong (τ : TableOrder) (t : Name)
  | msg (s : Name)
  | reset

/-- The program `p` can be played at the sample rate `sr`, whatever was played before, apart from the chains it refers to and the samples
it asks for. -/
structure FitsApart (checked : Bool) (script : Bool → Name → Bool → Prop) (accepts : Bool → Name → Prop) (sr : Nat)
    (p : Ast Comp) : Prop where
  distinct : ∀ k comps, (k, comps) ∈ p → Distinct Comp.eq comps
  noInput : ['~', 'i', 'n', 'p', 'u', 't'] ∉ p.map Prod.fst
  settings : ∀ k comps c, (k, comps) ∈ p → c ∈ comps → SafeSettings checked sr c
  places : ∀ k comps (i : Nat) c, (k, comps) ∈ p → comps[i]? = some c → SafePlace script k comps.length i c
  builds : ∀ k comps c, (k, comps) ∈ p → c ∈ comps → Buildable accepts sr c

/-- The program `p` can be played with the samples named `names`: all references resolve too. `input` tells whether there is an input. -/
structure Fits (checked : Bool) (script : Bool → Name → Bool → Prop) (accepts : Bool → Name → Prop) (sr : Nat) (input : Bool)
    (names : List Name) (p : Ast Comp) : Prop extends FitsApart checked script accepts sr p where
  samples : ∀ s, AsksFor p s → s ∈ names
  refs : ∀ k comps c, (k, comps) ∈ p → c ∈ comps → ∀ r, r ∈ c.refs →
    Resolves (p.map Prod.fst ++ if input then [['~', 'i', 'n', 'p', 'u', 't']] else []) r

/-- The program `p` could be played if it did not refer to a chain that is not there or ask for a sample that is not there. -/
structure Wrong (checked : Bool) (script : Bool → Name → Bool → Prop) (accepts : Bool → Name → Prop) (sr : Nat)
    (names : List Name) (p : Ast Comp) : Prop extends FitsApart checked script accepts sr p where
  unknown : (∃ k comps c r, (k, comps) ∈ p ∧ c ∈ comps ∧ r ∈ c.refs ∧ ¬ Resolves (p.map Prod.fst ++ [['~', 'i', 'n', 'p', 'u', 't']]) r) ∨
    ∃ s, AsksFor p s ∧ s ∉ names

/-- The message `s` sets components of the program `before` to numbers in range or to texts, or names chains that are not there. -/
def SetsValues (before : Option (Ast Comp)) (s : Name) : Prop :=
  ∀ cmds, Splits s cmds → ∀ chain p q v rest, (chain :: p :: q :: v :: rest) ∈ cmds →
    ∀ pos par, Position (2 ^ 64 - 1) p pos → Position 255 q par →
    (chain ≠ ['~', 'i', 'n', 'p', 'u', 't'] ∧ ∀ prog, before = some prog → chain ∉ prog.map Prod.fst) ∨
    ∃ prog comps c, before = some prog ∧ (chain, comps) ∈ prog ∧ comps[pos]? = some c ∧
      ((∃ x, parseF32 v = some x ∧ Settable c ∧ SafeNumber c par x) ∨ (parseF32 v = none ∧ Textable c))

/-- The session `acts` is good at the sample rate `sr` after the program `before`, when the samples `names` are registered: every text writes a program that fits, in which the
components kept from the program before have kept their order; every tempo is usual, and every sample can be played; a block has no input,
or two channels of its size if there is an input. A text that cannot be read (`unread`)
or refers to a chain or a sample that is not there (`wrong`) is no harm. Messages set components that are there. After a reset there are no program, no samples and no input
(`input` tells whether there is one). -/
inductive GoodSession (fe : Name → Option Fl) (N : Nat) (unread : Name → Prop) (fits : Nat → Bool → List Name → Ast Comp → Prop)
    (wrong : Nat → List Name → Ast Comp → Prop) :
    Nat → Bool → Option (Ast Comp) → List Name → List PlayerAct → Prop
  | nil {sr input before names} : GoodSession fe N unread fits wrong sr input before names []
  | block {sr input before names ho ins acts} : (ins = [] ∨ (input = true ∧ ∃ l r : Buf, ins = [l, r] ∧ l.length = N ∧ r.length = N)) →
      GoodSession fe N unread fits wrong sr input before names acts → GoodSession fe N unread fits wrong sr input before names (.block ho ins :: acts)
  | tempo {sr input before names v acts} : TempoOk v → GoodSession fe N unread fits wrong sr input before names acts → GoodSession fe N unread fits wrong sr input before names (.tempo v :: acts)
  | sample {sr input before names n s acts} : SampleOk s → GoodSession fe N unread fits wrong sr input before (n :: names) acts →
      GoodSession fe N unread fits wrong sr input before names (.sample n s :: acts)
  | text {sr input before names τ t p acts} : WProg fe p t → (p.map Prod.fst).Nodup → fits sr input names p →
      (∀ q, before = some q → ∀ k old comps, (k, old) ∈ q → (k, comps) ∈ p → OrderKept Comp.eq old comps) →
      GoodSession fe N unread fits wrong sr input (some p) names acts → GoodSession fe N unread fits wrong sr input before names (.text τ t :: acts)
  | rate {sr input before names v acts} : RateOk v → GoodSession fe N unread fits wrong v input before names acts →
      GoodSession fe N unread fits wrong sr input before names (.rate v :: acts)
  | seed {sr input before names v acts} : GoodSession fe N unread fits wrong sr input before names acts →
      GoodSession fe N unread fits wrong sr input before names (.seed v :: acts)
  | volume {sr input before names v acts} : GoodSession fe N unread fits wrong sr input before names acts →
      GoodSession fe N unread fits wrong sr input before names (.volume v :: acts)
  | typo {sr input before names τ t acts} : unread t → GoodSession fe N unread fits wrong sr input before names acts →
      GoodSession fe N unread fits wrong sr input before names (.typo τ t :: acts)
  | wrong {sr input before names τ t p acts} : WProg fe p t → (p.map Prod.fst).Nodup → wrong sr names p →
      (∀ q, before = some q → ∀ k old comps, (k, old) ∈ q → (k, comps) ∈ p → OrderKept Comp.eq old comps) →
      GoodSession fe N unread fits wrong sr input before names acts →
      GoodSession fe N unread fits wrong sr input before names (.wrong τ t :: acts)
  | msg {sr input before names s acts} : SetsValues before s → GoodSession fe N unread fits wrong sr input before names acts →
      GoodSession fe N unread fits wrong sr input before names (.msg s :: acts)
  | reset {sr input before names acts} : GoodSession fe N unread fits wrong sr false none [] acts →
      GoodSession fe N unread fits wrong sr input before names (.reset :: acts)

/-- The session runs from one engine to another: every text is accepted, except that one that cannot be read or refers to a chain or a sample that is not
there is refused without any effect, and every block is rendered. The blocks returned are `outs`. -/
inductive Session {P : Plat} {N : Nat} {parse : Name → Except Panic (Option (Ast Comp))} :
    Engine (glicol P N parse) → List PlayerAct → Engine (glicol P N parse) → List (List (List Fl)) → Prop
  | nil (e) : Session e [] e []
  | block {e e1 e2 ho ins out acts outs} : e.nextBlock ho ins = .ok (e1, out) → Session e1 acts e2 outs →
      Session e (.block ho ins :: acts) e2 (out :: outs)
  | text {e e1 e2 τ t acts outs} : e.updateWithCode τ t = .ok (e1, none) → Session e1 acts e2 outs →
      Session e (.text τ t :: acts) e2 outs
  | tempo {e e1 e2 v acts outs} : e.setBpm v = .ok e1 → Session e1 acts e2 outs → Session e (.tempo v :: acts) e2 outs
  | sample {e e2 n s acts outs} : Session (e.addSample n s) acts e2 outs → Session e (.sample n s :: acts) e2 outs
  | rate {e e2 v acts outs} : Session (e.setSr v) acts e2 outs → Session e (.rate v :: acts) e2 outs
  | seed {e e2 v acts outs} : Session (e.setSeed v) acts e2 outs → Session e (.seed v :: acts) e2 outs
  | volume {e e2 v acts outs} : Session (e.setTrackAmp v) acts e2 outs → Session e (.volume v :: acts) e2 outs
  | typo {e e2 τ t acts outs} : e.updateWithCode τ t = .ok (e, some .parsing) → Session e acts e2 outs → Session e (.typo τ t :: acts) e2 outs
  | wrong {e e1 e2 τ t r acts outs} : (e.updateWithCode τ t = .ok (e1, some (.nonExistReference r)) ∨
      e.updateWithCode τ t = .ok (e1, some (.nonExistSample r))) → SameEngine e e1 → Session e1 acts e2 outs →
      Session e (.wrong τ t :: acts) e2 outs
  | msg {e e1 e2 s acts outs} : e.sendMsg s = .ok e1 → Session e1 acts e2 outs → Session e (.msg s :: acts) e2 outs
  | reset {e e2 acts outs} : Session e.reset acts e2 outs → Session e (.reset :: acts) e2 outs

end Verif.Spec
