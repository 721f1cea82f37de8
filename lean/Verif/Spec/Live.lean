import Verif.Spec.Filter
import Verif.Spec.Script

/-!
# Nodes that are changed while they play

A node receives messages before each of its blocks, as when `send_msg` is called between two calls of `next_block` (C71; also C69, C70).
-/

namespace Verif.Spec

/-- The node receives messages and processes a block, in turn. The result is the contents of the output buffers after each block. -/
def liveBlocks (P : Plat) : GNode P → List Buf → List (List (Msg Fl) × Ins) → Except Panic (List (List Buf))
  | _, _, [] => .ok []
  | n, out, (ms, i) :: r =>
    match sendMsgs n ms with
    | .error e => .error e
    | .ok n =>
      match procG P n i out with
      | .error e => .error e
      | .ok (n', out') =>
        match liveBlocks P n' out' r with
        | .error e => .error e
        | .ok os => .ok (out' :: os)

/-- Component `c` is built for block length `N`, receives the messages `msgs` (the numbers of its sources), and then in turn messages and blocks. -/
def playChanged (P : Plat) (N : Nat) (env : Env) (c : Comp) (msgs : List (Msg Fl)) (steps : List (List (Msg Fl) × Ins)) : Except Stop (List (List Buf)) :=
  match makeNode P N env.samples env.sr env.bpm env.seed c with
  | .error e => .error e
  | .ok (d, _) =>
    match sendMsgs d.node msgs with
    | .error e => .error (.panic e)
    | .ok n =>
      match liveBlocks P n d.buffers steps with
      | .error e => .error (.panic e)
      | .ok r => .ok r

/-- The settings that are changed before a block: the number of the parameter and its new value. -/
abbrev Changes := List (Nat × Fl)

/-- The messages for changes of settings. -/
def changeMsgs (cs : Changes) : List (Msg Fl) := cs.map fun e => .setToNumber e.1 e.2

/-- What was announced last, before block `k` or earlier; `first` if nothing was. -/
def inEffect {α : Type} (first : α) (news : List (List α)) (k : Nat) : α := (news.take (k + 1)).flatten.getLastD first

/-- The value of parameter `p` in block `k`. -/
def setting (p : Nat) (first : Fl) (changes : List Changes) (k : Nat) : Fl :=
  inEffect first (changes.map fun cs => cs.filterMap fun e => if e.1 = p then some e.2 else none) k

/-- Changes and blocks without input. -/
def changedSource (bs : List Changes) : List (List (Msg Fl) × Ins) := bs.map fun cs => (changeMsgs cs, [])

/-- Changes and blocks of an input from node `k`. -/
def changedFrom (k : Nat) (mono : Bool) (bs : List (Changes × List (Fl × Fl))) : List (List (Msg Fl) × Ins) :=
  bs.map fun b => (changeMsgs b.1, [(k, bufsOf mono b.2)])

/-- New codes before blocks of an input from node `k`. -/
def codesFrom (k : Nat) (mono : Bool) (bs : List (List Name × List (Fl × Fl))) : List (List (Msg Fl) × Ins) :=
  bs.map fun b => (b.1.map fun c => .setToSymbol 0 c, [(k, bufsOf mono b.2)])

/-- New codes before blocks without input. -/
def codesSource (bs : List (List Name)) : List (List (Msg Fl) × Ins) := bs.map fun b => (b.map fun c => .setToSymbol 0 c, [])

/-- New formulas: the text and what it says. -/
abbrev News (F : FastEval) := List (Name × (List (Name × F.Prog) × F.Prog))

/-- `n` samples of an oscillation: the sample at time `t` is the value of the shape at the phase, which starts at 0 and advances by the frequency
in force, without a jump where the frequency changes; past 1 it starts over. -/
def Oscillates (shape : Fl → Fl) (sr : Nat) (freq : Nat → Fl) (n : Nat) (ys : List Fl) : Prop :=
  ys.length = n ∧ ∃ phase : Nat → Fl, phase 0 = .fin 0 ∧ ∀ t, t < n → ys[t]? = some (shape (phase t)) ∧ ∃ p,
    p = phase t +. freq t /. Fl.ofNat f32 sr ∧ (Fl.lt (.fin 1) p = true → phase (t + 1) = p -. .fin 1) ∧
    (Fl.lt (.fin 1) p = false → phase (t + 1) = p)

/-- The shapes of the oscillators at a phase from 0 to 1. -/
def sawShape (p : Fl) : Fl := p *. .fin 2 -. .fin 1

def squShape (p : Fl) : Fl := if Fl.le p (.fin (1 / 2)) then .fin 1 else .fin (-1)

def triShape (p : Fl) : Fl := .fin 2 *. (Fl.abs (.fin (-1) +. p *. .fin 2) -. .fin (1 / 2))

def sinShape (m : Libm) (p : Fl) : Fl := m.sin (p *. .fin 2 *. flPi)

/-- Every sample of `ys` is the value of the last expression of the formula in force after the assignments of its sample; variables and the number of the
sample go on when the formula changes (`Computes` with changes). -/
def ComputesBy (F : FastEval) (sr : Nat) (code : Nat → List (Name × F.Prog) × F.Prog) (xs : List (Option Fl)) (ys : List Fl) : Prop :=
  ys.length = xs.length ∧
  ∃ mem : Nat → Name → Option Fl, Starts sr (mem 0) ∧ ∀ t x, xs[t]? = some x → ∃ m v,
    Given (mem t) x t m ∧ Assigns F (code t).1 m (mem (t + 1)) ∧ F.eval (code t).2 (mem (t + 1)) = some v ∧ ys[t]? = some (Fl.conv f32 v)

/-- What a script plays that is replaced from time to time (`MetaPlays` with changes): `ast k` is evaluated in block `k`, with the variables the scripts before left behind. -/
def MetaPlaysBy (R : Rhai) (N sr : Nat) (ast : Nat → R.Ast) (ins : List (Option Buf)) (outs : List Buf) : Prop :=
  outs.length = ins.length ∧
  ∃ (scope : Nat → R.Scope) (out : Nat → Buf), scope 0 = R.start sr ∧ out 0 = List.replicate N (.fin 0) ∧
    ∀ (k : Nat) i, ins[k]? = some i → outs[k]? = some (out (k + 1)) ∧ ∃ res,
      R.eval (ast k) (inputSet R (scope k) i) = (scope (k + 1), res) ∧
      (∀ r, res = some r → Laid (out k) r (out (k + 1))) ∧ (res = none → out (k + 1) = out k)

end Verif.Spec
