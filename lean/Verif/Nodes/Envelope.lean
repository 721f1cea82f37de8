import Verif.Nodes.Basic

/-! # Envelopes -/

namespace Verif

/-- `(seconds * sr as f32) as usize`, e.g. rs/synth/src/node/envelope/envperc.rs:47. -/
def secToSamples (sr : Nat) (t : Fl) : Nat := (t *. Fl.ofNat f32 sr).toUsize

/-- rs/synth/src/node/envelope/envperc.rs:4-11. -/
structure EnvPerc where
  attack : Fl
  decay : Fl
  pos : Nat
  scale : Fl
  sr : Nat
  order : List Nat
  deriving Repr, DecidableEq

/-- `EnvPerc::new().attack(a).decay(d).sr(sr)` (rs/synth/src/node/envelope/envperc.rs:20-42). -/
def EnvPerc.new (attack decay : Fl) (sr : Nat) : EnvPerc := ⟨attack, decay, 0, .fin 1, sr, []⟩

/-- The envelope before scaling at `pos` samples after the trigger
(rs/synth/src/node/envelope/envperc.rs:57-71). -/
def percShape (attackLen decayLen pos : Nat) : Fl :=
  if pos ≤ attackLen then
    if attackLen = 0 then .fin 0 else Fl.ofNat f32 pos /. Fl.ofNat f32 attackLen
  else if pos ≤ attackLen + decayLen then
    if decayLen = 0 then .fin 0
    else Fl.ofNat f32 (attackLen + decayLen - pos) /. Fl.ofNat f32 decayLen
  else .fin 0

/-- One sample (rs/synth/src/node/envelope/envperc.rs:52-75); the state is `pos` and `scale`. -/
def percStep (attackLen decayLen : Nat) (s : Nat × Fl) (x : Fl) : (Nat × Fl) × Fl :=
  let s := if Fl.lt (.fin 0) x then (0, x) else s
  ((s.1 + 1, s.2), percShape attackLen decayLen s.1 *. s.2)

/-- rs/synth/src/node/envelope/envperc.rs:45-78. Only the left output is written. -/
def procEnvPerc (e : EnvPerc) (ins : Ins) (out : List Buf) : Except Panic (EnvPerc × List Buf) :=
  match ins with
  | [_] => do
    let a := secToSamples e.sr e.attack
    let d := secToSamples e.sr e.decay
    let _ ← usizeAdd a d
    let input ← inputAt ins e.order 0
    let x ← chan input 0
    match out with
    | [] => .error .indexOutOfBounds
    | _ :: rest =>
      let r := run (percStep a d) (e.pos, e.scale) x
      .ok ({ e with pos := r.1.1, scale := r.1.2 }, r.2 :: rest)
  | _ => .ok (e, out)

/-- rs/synth/src/node/envelope/envperc.rs:80-94. -/
def EnvPerc.msg (e : EnvPerc) (m : Msg Fl) : Except Panic EnvPerc :=
  match m with
  | .setToNumber 0 v => .ok { e with attack := v }
  | .setToNumber 1 v => .ok { e with decay := v }
  | m => do
    let o ← orderMsg true e.order m
    .ok { e with order := o }

/-- The part of `Adsr` that changes from sample to sample (rs/synth/src/node/envelope/adsr.rs:9-15).
Simplification: `gate` and `step` are never read and left out. -/
structure AdsrState where
  pos : Nat
  lastx : Fl
  lasty : Fl
  changeY : Fl
  phase : Nat
  deriving Repr, DecidableEq

/-- rs/synth/src/node/envelope/adsr.rs:4-18. -/
structure Adsr where
  attack : Fl
  decay : Fl
  sustain : Fl
  release : Fl
  st : AdsrState
  sr : Nat
  order : List Nat
  deriving Repr, DecidableEq

/-- `Adsr::new()` with the parameters set (rs/synth/src/node/envelope/adsr.rs:27-63). -/
def Adsr.new (a d s r : Fl) (sr : Nat) : Adsr :=
  ⟨a, d, s, r, ⟨0, .fin 0, .fin 0, .fin 0, 0⟩, sr, []⟩

/-- Trigger and release detection (rs/synth/src/node/envelope/adsr.rs:78-88). -/
def adsrGate (s : AdsrState) (x : Fl) : AdsrState :=
  if Fl.lt (.fin 0) x && Fl.beq s.lastx (.fin 0) then
    { s with phase := 1, pos := 0, changeY := s.lasty }
  else if Fl.beq x (.fin 0) && Fl.lt (.fin 0) s.lastx then
    { s with phase := 2, pos := 0, changeY := s.lasty }
  else s

/-- The value in the attack, decay and sustain phase (rs/synth/src/node/envelope/adsr.rs:92-116). -/
def adsrHeld (attackLen decayLen : Nat) (sustain changeY : Fl) (pos : Nat) : Except Panic Fl :=
  if pos ≤ attackLen then
    if attackLen = 0 then .ok (.fin 0)
    else .ok (Fl.ofNat f32 pos /. Fl.ofNat f32 attackLen *. (.fin 1 -. changeY))
  else do
    let total ← usizeAdd attackLen decayLen
    if pos ≤ total then
      if decayLen = 0 then .ok sustain
      else .ok (Fl.ofNat f32 (total - pos) /. Fl.ofNat f32 decayLen *. (.fin 1 -. sustain) +. sustain)
    else .ok sustain

/-- The value in the release phase (rs/synth/src/node/envelope/adsr.rs:117-124). -/
def adsrRelease (releaseLen : Nat) (changeY : Fl) (pos : Nat) : Fl :=
  if releaseLen ≤ pos then .fin 0
  else Fl.ofNat f32 (releaseLen - pos) /. Fl.ofNat f32 releaseLen *. changeY

/-- The value for the current phase (rs/synth/src/node/envelope/adsr.rs:91-126). -/
def adsrValue (attackLen decayLen releaseLen : Nat) (sustain : Fl) (s : AdsrState) :
    Except Panic Fl :=
  if s.phase = 1 then adsrHeld attackLen decayLen sustain s.changeY s.pos
  else if s.phase = 2 then .ok (adsrRelease releaseLen s.changeY s.pos)
  else .ok (.fin 0)

/-- One sample (rs/synth/src/node/envelope/adsr.rs:77-131). -/
def adsrStep (attackLen decayLen releaseLen : Nat) (sustain : Fl) (s : AdsrState) (x : Fl) :
    Except Panic (AdsrState × Fl) := do
  let s := adsrGate s x
  let y ← adsrValue attackLen decayLen releaseLen sustain s
  .ok ({ s with lasty := y, lastx := x, pos := s.pos + 1 }, y)

/-- rs/synth/src/node/envelope/adsr.rs:66-138. A second output gets a copy of the first. -/
def procAdsr (e : Adsr) (ins : Ins) (out : List Buf) : Except Panic (Adsr × List Buf) :=
  match ins with
  | [_] => do
    let input ← inputAt ins e.order 0
    let x ← chan input 0
    match out with
    | [] => .error .indexOutOfBounds
    | _ :: rest => do
      let (s, y) ← runM (adsrStep (secToSamples e.sr e.attack) (secToSamples e.sr e.decay)
        (secToSamples e.sr e.release) e.sustain) e.st x
      .ok ({ e with st := s }, y :: (if rest.length = 1 then [y] else rest))
  | _ => .ok (e, out)

/-- rs/synth/src/node/envelope/adsr.rs:140-156. -/
def Adsr.msg (e : Adsr) (m : Msg Fl) : Except Panic Adsr :=
  match m with
  | .setToNumber 0 v => .ok { e with attack := v }
  | .setToNumber 1 v => .ok { e with decay := v }
  | .setToNumber 2 v => .ok { e with sustain := v }
  | .setToNumber 3 v => .ok { e with release := v }
  | m => do
    let o ← orderMsg true e.order m
    .ok { e with order := o }

end Verif
