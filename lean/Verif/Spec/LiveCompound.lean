import Verif.Spec.Live
import Verif.Spec.Compound

/-! # Drums and synths that are changed while they play -/

namespace Verif.Spec

/-- Component `c` alone, with changes of its settings and the mono signal `xs` at its input, has the left output `ys`. -/
def AloneChanged (P : Plat) (N : Nat) (env : Env) (c : Comp) (cs : List Changes) (xs ys : List Buf) : Prop :=
  ∀ k, ∃ outs, playChanged P N env c [.index k] (List.zipWith (fun c x => (changeMsgs c, [(k, [x])])) cs xs) = .ok outs ∧
    outs.map (fun o => o[0]?) = ys.map some

/-- The changes of a drum as changes of an envelope: the only setting of a drum is its decay, the second setting of an envelope. -/
def asDecay (cs : Changes) : Changes := (cs.filter fun e => e.1 = 0).map fun e => (1, e.2)

/-- The kick (`Kick`) with a decay that is changed. -/
def KickChanged (P : Plat) (N : Nat) (env : Env) (decay : Fl) (cs : List Changes) (xs : List Buf) (ys : List Buf) : Prop :=
  ∃ amp pitch wave,
    AloneChanged P N env (.envperc (Fl.lit f32 (3 / 1000)) decay) (cs.map asDecay) xs amp ∧
    Alone P N env (.envperc (Fl.lit f32 (1 / 100)) (Fl.lit f32 (1 / 10))) xs pitch ∧
    Alone P N env (.sin (.ref [])) (each (fun x => x *. .fin 50 +. .fin 60) pitch) wave ∧
    ys = both (fun w a => w *. a) wave amp

/-- The hi-hat (`Hat`) with a decay that is changed. -/
def HatChanged (P : Plat) (N : Nat) (env : Env) (decay : Fl) (cs : List Changes) (xs : List Buf) (ys : List Buf) : Prop :=
  ∃ amp noise high,
    AloneChanged P N env (.envperc (Fl.lit f32 (3 / 1000)) decay) (cs.map asDecay) xs amp ∧
    AloneSource P N env (.noise 42) xs.length noise ∧
    Alone P N env (.rhpf (.num (.fin 15000)) (.fin 1)) noise high ∧
    ys = both (fun h a => h *. a) high amp

/-- The snare (`Snare`) with a decay that is changed. -/
def SnareChanged (P : Plat) (N : Nat) (env : Env) (decay : Fl) (cs : List Changes) (xs : List Buf) (ys : List Buf) : Prop :=
  ∃ amp pitch wave noise,
    AloneChanged P N env (.envperc (Fl.lit f32 (1 / 1000)) decay) (cs.map asDecay) xs amp ∧
    Alone P N env (.envperc (Fl.lit f32 (1 / 1000)) (Fl.lit f32 (1 / 10))) xs pitch ∧
    Alone P N env (.sin (.ref [])) (each (fun x => x *. .fin 55 +. .fin 60) pitch) wave ∧
    AloneSource P N env (.noise 42) xs.length noise ∧
    ys = both (fun x a => x *. a) (both (fun w n => w +. n *. Fl.lit f32 (3 / 10) +. .fin 0) wave noise) amp

/-- The synths (`Note`) with an attack and a decay that are changed; they are the settings of the envelope. -/
def NoteChanged (P : Plat) (N : Nat) (env : Env) (w : Wave) (attack decay : Fl) (cs : List Changes) (xs : List Buf) (ys : List Buf) : Prop :=
  ∃ amp wave,
    AloneChanged P N env (.envperc attack decay) cs xs amp ∧
    Alone P N env (waveOsc w) (each (fun x => x *. Fl.lit f32 (26163 / 100)) xs) wave ∧
    ys = both (fun w a => w *. a) wave amp

end Verif.Spec
