import Verif.Spec.Nodes

/-! # What the drums and synths should sound like

The first lines of rs/synth/src/node/compound/bd.rs and sawsynth.rs give the program that each of them stands for. (Those
of hh.rs and sn.rs give programs too, but other ones than what the code builds, see `HatAsWritten`.) Signals are lists of
blocks here. -/

namespace Verif.Spec

/-- Component `c` alone, with the mono signal `xs` at its input, has the left output `ys`. -/
def Alone (P : Plat) (N : Nat) (env : Env) (c : Comp) (xs ys : List Buf) : Prop :=
  ∀ k, ∃ outs, play P N env c [.index k] (monoFrom k xs) = .ok outs ∧ outs.map (fun o => o[0]?) = ys.map some

/-- Component `c` alone, without an input, has the left output `ys` for `n` blocks. -/
def AloneSource (P : Plat) (N : Nat) (env : Env) (c : Comp) (n : Nat) (ys : List Buf) : Prop :=
  ∃ outs, play P N env c [] (noInput n) = .ok outs ∧ outs.map (fun o => o[0]?) = ys.map some

/-- The same settings at the usual sample rate. -/
def Env.usual (env : Env) : Env := { env with sr := 44100 }

/-- Each sample of a signal through `f`. -/
def each (f : Fl → Fl) (a : List Buf) : List Buf := a.map (List.map f)

/-- Two signals combined sample by sample. -/
def both (f : Fl → Fl → Fl) (a b : List Buf) : List Buf := List.zipWith (List.zipWith f) a b

/-- The left channel of a signal given as pairs. -/
def leftOf (xs : List (List (Fl × Fl))) : List Buf := xs.map (List.map Prod.fst)

/-- The same signal on both channels, mixed into silence (which only turns -0 into 0). -/
def onBothSides (ys : List Buf) : List (List Buf) :=
  ys.map (fun y => [y.map (.fin 0 +. ·), y.map (.fin 0 +. ·)])

/-- The kick: a sine that falls from 110 to 60 Hz, under an envelope of `decay` seconds (the comment
rs/synth/src/node/compound/bd.rs:1-7: `~env: imp 1 >> envperc 0.003 0.3`, `~ep: imp 1 >> envperc 0.01 0.1`,
`~p: ~ep >> mul 50 >> add 60`, `o: sin ~p >> mul ~env`). -/
def Kick (P : Plat) (N : Nat) (env : Env) (decay : Fl) (xs : List Buf) (ys : List Buf) : Prop :=
  ∃ amp pitch wave,
    Alone P N env (.envperc (Fl.lit f32 (3 / 1000)) decay) xs amp ∧
    Alone P N env (.envperc (Fl.lit f32 (1 / 100)) (Fl.lit f32 (1 / 10))) xs pitch ∧
    Alone P N env (.sin (.ref [])) (each (fun x => x *. .fin 50 +. .fin 60) pitch) wave ∧
    ys = both (fun w a => w *. a) wave amp

/-- The hi-hat: noise above 15 kHz, under an envelope of `decay` seconds (rs/synth/src/node/compound/hh.rs:27-48). -/
def Hat (P : Plat) (N : Nat) (env : Env) (decay : Fl) (xs : List Buf) (ys : List Buf) : Prop :=
  ∃ amp noise high,
    Alone P N env (.envperc (Fl.lit f32 (3 / 1000)) decay) xs amp ∧
    AloneSource P N env (.noise 42) xs.length noise ∧
    Alone P N env (.rhpf (.num (.fin 15000)) (.fin 1)) noise high ∧
    ys = both (fun h a => h *. a) high amp

/-- The hi-hat as the comment in rs/synth/src/node/compound/hh.rs:1-3 has it:
`noiz 42 >> mul ~env >> hpf 15000 1.0 >> mul 0.8`, `~env: … >> envperc 0.001 decay`. -/
def HatAsWritten (P : Plat) (N : Nat) (env : Env) (decay : Fl) (xs : List Buf) (ys : List Buf) : Prop :=
  ∃ amp noise high,
    Alone P N env (.envperc (Fl.lit f32 (1 / 1000)) decay) xs amp ∧
    AloneSource P N env (.noise 42) xs.length noise ∧
    Alone P N env (.rhpf (.num (.fin 15000)) (.fin 1)) (both (fun n a => n *. a) noise amp) high ∧
    ys = each (fun h => h *. Fl.lit f32 (8 / 10)) high

/-- The snare: a sine that falls from 115 to 60 Hz, and a third of noise, under an envelope of `decay` seconds
(rs/synth/src/node/compound/sn.rs:35-64). -/
def Snare (P : Plat) (N : Nat) (env : Env) (decay : Fl) (xs : List Buf) (ys : List Buf) : Prop :=
  ∃ amp pitch wave noise,
    Alone P N env (.envperc (Fl.lit f32 (1 / 1000)) decay) xs amp ∧
    Alone P N env (.envperc (Fl.lit f32 (1 / 1000)) (Fl.lit f32 (1 / 10))) xs pitch ∧
    Alone P N env (.sin (.ref [])) (each (fun x => x *. .fin 55 +. .fin 60) pitch) wave ∧
    AloneSource P N env (.noise 42) xs.length noise ∧
    ys = both (fun x a => x *. a) (both (fun w n => w +. n *. Fl.lit f32 (3 / 10) +. .fin 0) wave noise) amp

/-- The oscillator of a synth, its frequency given by a signal. -/
def waveOsc : Wave → Comp
  | .saw => .saw (.ref [])
  | .squ => .squ (.ref [])
  | .tri => .tri (.ref [])

/-- The synths: an oscillator whose frequency is 261.63 Hz (middle c) times the input, under an envelope that the input
triggers (the comment rs/synth/src/node/compound/sawsynth.rs:1-4, where middle c is 261.626 Hz). -/
def Note (P : Plat) (N : Nat) (env : Env) (w : Wave) (attack decay : Fl) (xs : List Buf) (ys : List Buf) : Prop :=
  ∃ amp wave,
    Alone P N env (.envperc attack decay) xs amp ∧
    Alone P N env (waveOsc w) (each (fun x => x *. Fl.lit f32 (26163 / 100)) xs) wave ∧
    ys = both (fun w a => w *. a) wave amp

end Verif.Spec
