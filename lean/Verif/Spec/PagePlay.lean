import Verif.PagePlay
import Verif.Spec.Engine
import Verif.Spec.Wasm

/-! # What the page should play (C76, C77)

Written in terms of the engine's public calls (`Op`) and of what can be seen of the page (`Ev`). -/

namespace Verif.Spec.PagePlay
open Verif Verif.PagePlay Spec

variable {L : Lang}

/-- The calls of the engine that a message stands for; `rate` is the sample rate of the page. -/
def calls (rate : Nat) (τ : TableOrder) : Post L → List (Op L)
  | .load seed => [.setSr rate, .setSeed seed]
  | .sample name s => [.addSample name s]
  | .run code => [.update τ code]
  | .bpm v => [.setBpm v]
  | .amp v => [.setTrackAmp v]

/-- The engine after the calls, if none panics. -/
def Leads (e : Engine L) : List (Op L) → Engine L → Prop
  | [], e' => e' = e
  | op :: ops, e' => ∃ e1, op.apply e = .ok e1 ∧ Leads e1 ops e'

/-- One of the calls panics. -/
def Panics (e : Engine L) : List (Op L) → Prop
  | [] => False
  | op :: ops => (∃ p, op.apply e = .error p) ∨ ∃ e1, op.apply e = .ok e1 ∧ Panics e1 ops

/-- The bytes that tell about an error; `text` is the message of a syntax error. -/
def Tells (text : List Nat) : EngineError → List Nat → Prop
  | .parsing, bytes => Browser.ErrorBuffer 1 text bytes
  | .nonExistSample v, bytes => ∃ msg, Browser.Utf8 ("There is no sample named ".toList ++ v) msg ∧ Browser.ErrorBuffer 2 msg bytes
  | .nonExistReference v, bytes => ∃ msg, Browser.Utf8 ("There is no reference named ".toList ++ v) msg ∧ Browser.ErrorBuffer 3 msg bytes

/-- Nothing happens any more: messages are asked for in vain, and all sound is silence. -/
def Dead (evs : List (Ev L)) : Prop :=
  ∀ x ∈ evs, (∃ m, x = .asked m) ∨ ∃ ho, x = .sound ho (List.replicate 128 L.zero) (List.replicate 128 L.zero)

/-- What is seen follows the engine `e`: each message handed over acts on it as the calls it stands for; a program is followed by a
report exactly if the engine rejects it, the report tells the error, and the engine is as it was; each sound is the next block of the engine, left
and right, without external input; only a panic of the engine breaks the page, and after it there is nothing. -/
inductive Follows (rate : Nat) (parseMsg : Name → List Nat) : Engine L → List (Ev L) → Prop
  | nil (e) : Follows rate parseMsg e []
  | asked {e m es} : Follows rate parseMsg e es → Follows rate parseMsg e (.asked m :: es)
  | setting {e e' τ m es} : (∀ code, m ≠ .run code) → Leads e (calls rate τ m) e' → Follows rate parseMsg e' es →
      Follows rate parseMsg e (.did τ m :: es)
  | accepted {e e' τ code es} : e.updateWithCode τ code = .ok (e', none) → (∀ b es', es ≠ .report b :: es') →
      Follows rate parseMsg e' es → Follows rate parseMsg e (.did τ (.run code) :: es)
  | rejected {e e' τ code err bytes es} : e.updateWithCode τ code = .ok (e', some err) → SameEngine e e' → Tells (parseMsg code) err bytes →
      Follows rate parseMsg e' es → Follows rate parseMsg e (.did τ (.run code) :: .report bytes :: es)
  | sound {e e' ho l r es} : e.nextBlock ho [] = .ok (e', [l, r]) → l.length = 128 → r.length = 128 → Follows rate parseMsg e' es →
      Follows rate parseMsg e (.sound ho l r :: es)
  | brokenByMessage {e τ ho m es} : Panics e (calls rate τ m) → Dead es → Follows rate parseMsg e (.broke τ ho (some m) :: es)
  | brokenByBlock {e τ ho p es} : e.nextBlock ho [] = .error p → Dead es → Follows rate parseMsg e (.broke τ ho none :: es)

/-- The messages asked for, in order. -/
def askeds : List (Ev L) → List (Post L)
  | [] => []
  | .asked m :: es => m :: askeds es
  | _ :: es => askeds es

/-- The messages handed over, in order. -/
def dids : List (Ev L) → List (Post L)
  | [] => []
  | .did _ m :: es => m :: dids es
  | _ :: es => dids es

/-- The engine has panicked. -/
def Broken (evs : List (Ev L)) : Prop := ∃ τ ho m, Ev.broke τ ho m ∈ evs

/-- The worklet takes no message. -/
def NoTake (ds : List (Do L)) : Prop := ∀ d ∈ ds, ∀ τ, d ≠ .take τ

end Verif.Spec.PagePlay
