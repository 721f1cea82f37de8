import Verif.Nodes.Delay

/-! # Filters -/

namespace Verif

/-! ### OnePole -/

/-- rs/synth/src/node/filter/onepole.rs:4-9. -/
structure OnePole where
  a : Fl
  b : Fl
  y1 : Fl
  order : List Nat
  deriving Repr, DecidableEq

/-- `(-2.0 * PI * rate).exp()` (rs/synth/src/node/filter/onepole.rs:19,51,66). -/
def poleB (m : Libm) (rate : Fl) : Fl := m.exp (.fin (-2) *. flPi *. rate)

/-- rs/synth/src/node/filter/onepole.rs:17-29. -/
def OnePole.new (m : Libm) (rate : Fl) : OnePole :=
  ⟨.fin 1 -. poleB m rate, poleB m rate, .fin 0, []⟩

/-- One sample without modulation (rs/synth/src/node/filter/onepole.rs:38-42). -/
def poleStep (a b : Fl) (y1 x : Fl) : Fl × Fl :=
  let y := x *. a +. b *. y1
  (y, y)

/-- One sample with modulation (rs/synth/src/node/filter/onepole.rs:51-56): the first input in order
is the rate, the second one is filtered. -/
def poleModStep (m : Libm) (s : Fl × Fl × Fl) (p : Fl × Fl) : (Fl × Fl × Fl) × Fl :=
  let b := poleB m p.1
  let a := .fin 1 -. b
  let y := p.2 *. a +. b *. s.2.2
  ((a, b, y), y)

/-- rs/synth/src/node/filter/onepole.rs:33-61. -/
def procOnePole (m : Libm) (f : OnePole) (ins : Ins) (out : List Buf) :
    Except Panic (OnePole × List Buf) :=
  match ins with
  | [(_, main)] =>
    match out with
    | [] => .error .indexOutOfBounds
    | _ :: rest => do
      let x ← chan main 0
      let r := run (poleStep f.a f.b) f.y1 x
      .ok ({ f with y1 := r.1 }, r.2 :: rest)
  | [_, _] =>
    match out with
    | [] => .error .indexOutOfBounds
    | _ :: rest => do
      let main ← inputAt ins f.order 0
      let ref ← inputAt ins f.order 1
      let x ← chan main 0
      let y ← chan ref 0
      let r := run (poleModStep m) (f.a, f.b, f.y1) (x.zip y)
      .ok ({ f with a := r.1.1, b := r.1.2.1, y1 := r.1.2.2 }, r.2 :: rest)
  | _ => .ok (f, out)

/-- rs/synth/src/node/filter/onepole.rs:63-76. -/
def OnePole.msg (m : Libm) (f : OnePole) (g : Msg Fl) : Except Panic OnePole :=
  match g with
  | .setToNumber 0 v => .ok { f with b := poleB m v, a := .fin 1 -. poleB m v }
  | g => do
    let o ← orderMsg true f.order g
    .ok { f with order := o }

/-! ### Resonant low and high pass -/

/-- The memory of a biquad section (rs/synth/src/node/filter/rhpf.rs:7-11, rlpf.rs:11-15). -/
structure Biquad where
  x0 : Fl
  x1 : Fl
  x2 : Fl
  y1 : Fl
  y2 : Fl
  deriving Repr, DecidableEq

/-- All zero. -/
def Biquad.zero : Biquad := ⟨.fin 0, .fin 0, .fin 0, .fin 0, .fin 0⟩

/-- Filter coefficients. -/
structure Coef where
  a0 : Fl
  a1 : Fl
  a2 : Fl
  b1 : Fl
  b2 : Fl
  deriving Repr, DecidableEq

/-- `theta_c` (rs/synth/src/node/filter/rhpf.rs:54, rlpf.rs:104). -/
def thetaC (cutoff : Fl) (sr : Nat) : Fl := .fin 2 *. flPi *. cutoff /. Fl.ofNat f32 sr

/-- `beta` (rs/synth/src/node/filter/rhpf.rs:56, rlpf.rs:105-106); `d` is `1.0 / q`. -/
def betaC (m : Libm) (d th : Fl) : Fl :=
  .fin (1 / 2) *. (.fin 1 -. d *. m.sin th /. .fin 2) /. (.fin 1 +. d *. m.sin th /. .fin 2)

/-- High pass (rs/synth/src/node/filter/rhpf.rs:54-62). -/
def rhpfCoef (m : Libm) (cutoff q : Fl) (sr : Nat) : Coef :=
  let th := thetaC cutoff sr
  let beta := betaC m (.fin 1 /. q) th
  let gama := (.fin (1 / 2) +. beta) *. m.cos th
  ⟨(.fin (1 / 2) +. beta +. gama) /. .fin 2, .fin (-1 / 2) -. beta -. gama,
    (.fin (1 / 2) +. beta +. gama) /. .fin 2, .fin (-2) *. gama, .fin 2 *. beta⟩

/-- Low pass (rs/synth/src/node/filter/rlpf.rs:82,104-112). -/
def rlpfCoef (m : Libm) (cutoff q : Fl) (sr : Nat) : Coef :=
  let th := thetaC cutoff sr
  let beta := betaC m (.fin 1 /. q) th
  let gama := (.fin (1 / 2) +. beta) *. m.cos th
  ⟨(.fin (1 / 2) +. beta -. gama) /. .fin 2, .fin (1 / 2) +. beta -. gama,
    (.fin (1 / 2) +. beta -. gama) /. .fin 2, .fin (-2) *. gama, .fin 2 *. beta⟩

/-- One sample (rs/synth/src/node/filter/rhpf.rs:63-71, rlpf.rs:114-121). `x0` of the memory is never
changed; the new sample goes to `x1`. -/
def biquadStep (c : Coef) (s : Biquad) (x : Fl) : Biquad × Fl :=
  let y := c.a0 *. s.x0 +. c.a1 *. s.x1 +. c.a2 *. s.x2 -. c.b1 *. s.y1 -. c.b2 *. s.y2
  (⟨s.x0, x, s.x1, y, s.y1⟩, y)

/-- rs/synth/src/node/filter/rhpf.rs:4-14. -/
structure Rhpf where
  cutoff : Fl
  q : Fl
  mem : Biquad
  sr : Nat
  order : List Nat
  deriving Repr, DecidableEq

/-- `ResonantHighPassFilter::new().cutoff(c).q(q)` (rs/synth/src/node/filter/rhpf.rs:23-46): the sample
rate stays 44100. -/
def Rhpf.new (cutoff q : Fl) : Rhpf := ⟨cutoff, q, Biquad.zero, 44100, []⟩

/-- `buf[0][0]`. -/
def firstSample (b : Buf) : Except Panic Fl :=
  match b with
  | [] => .error .indexOutOfBounds
  | x :: _ => .ok x

/-- rs/synth/src/node/filter/rhpf.rs:49-101. With a modulation input its first sample is the cutoff
for the block. -/
def procRhpf (m : Libm) (f : Rhpf) (ins : Ins) (out : List Buf) : Except Panic (Rhpf × List Buf) :=
  match ins with
  | [(_, main)] =>
    match out with
    | [] => .error .indexOutOfBounds
    | _ :: rest => do
      let x ← chan main 0
      let r := run (biquadStep (rhpfCoef m f.cutoff f.q f.sr)) f.mem x
      .ok ({ f with mem := r.1 }, r.2 :: rest)
  | [_, _] =>
    match out with
    | [] => .error .indexOutOfBounds
    | _ :: rest => do
      let main ← inputAt ins f.order 0
      let ref ← inputAt ins f.order 1
      let c ← chan ref 0
      let c0 ← firstSample c
      let x ← chan main 0
      let r := run (biquadStep (rhpfCoef m c0 f.q f.sr)) f.mem x
      .ok ({ f with mem := r.1 }, r.2 :: rest)
  | _ => .ok (f, out)

/-- rs/synth/src/node/filter/rhpf.rs:103-119. -/
def Rhpf.msg (f : Rhpf) (m : Msg Fl) : Except Panic Rhpf :=
  match m with
  | .setToNumber 0 v => .ok { f with cutoff := v }
  | .setToNumber 1 v => .ok { f with q := v }
  | m => do
    let o ← orderMsg true f.order m
    .ok { f with order := o }

/-- rs/synth/src/node/filter/rlpf.rs:4-18. -/
structure Rlpf where
  pattern : List (Fl × Fl)
  span : Fl
  bpm : Fl
  sr : Nat
  cutoff : Fl
  q : Fl
  mem : Biquad
  step : Nat
  order : List Nat
  deriving Repr, DecidableEq

/-- `60. / bpm * 4.` (rs/synth/src/node/filter/rlpf.rs:85). -/
def cycleDur (bpm : Fl) : Fl := .fin 60 /. bpm *. .fin 4

/-- `cycle_dur * span * sr as f32` (rs/synth/src/node/filter/rlpf.rs:86). -/
def barDur (bpm span : Fl) (sr : Nat) : Fl := cycleDur bpm *. span *. Fl.ofNat f32 sr

/-- `(time * cycle_dur * sr as f32) as usize` (rs/synth/src/node/filter/rlpf.rs:97). -/
def eventStep (bpm time : Fl) (sr : Nat) : Nat :=
  (time *. cycleDur bpm *. Fl.ofNat f32 sr).toUsize

/-- The value set by the pattern at this step, starting from `v` (rs/synth/src/node/filter/rlpf.rs:95-101):
the last matching event wins; a bar of no samples panics. -/
def patternValue (bar step : Nat) (bpm : Fl) (sr : Nat) : List (Fl × Fl) → Fl → Except Panic Fl
  | [], v => .ok v
  | e :: es, v =>
    if bar = 0 then .error .divByZero
    else patternValue bar step bpm sr es (if step % bar = eventStep bpm e.2 sr then e.1 else v)

/-- One sample of the low pass (rs/synth/src/node/filter/rlpf.rs:94-122). State: cutoff, step, memory. -/
def rlpfStep (m : Libm) (f : Rlpf) (s : Fl × Nat × Biquad) (x : Fl) :
    Except Panic ((Fl × Nat × Biquad) × Fl) := do
  let c ← patternValue (barDur f.bpm f.span f.sr).toUsize s.2.1 f.bpm f.sr f.pattern s.1
  let r := biquadStep (rlpfCoef m c f.q f.sr) s.2.2 x
  .ok ((c, s.2.1 + 1, r.1), r.2)

/-- rs/synth/src/node/filter/rlpf.rs:80-153. -/
def procRlpf (m : Libm) (f : Rlpf) (ins : Ins) (out : List Buf) : Except Panic (Rlpf × List Buf) :=
  match ins with
  | [(_, main)] =>
    match out with
    | [] => .error .indexOutOfBounds
    | _ :: rest => do
      let x ← chan main 0
      let (s, y) ← runM (rlpfStep m f) (f.cutoff, f.step, f.mem) x
      .ok ({ f with cutoff := s.1, step := s.2.1, mem := s.2.2 }, y :: rest)
  | [_, _] =>
    match out with
    | [] => .error .indexOutOfBounds
    | _ :: rest => do
      let main ← inputAt ins f.order 0
      let ref ← inputAt ins f.order 1
      let c ← chan ref 0
      let c0 ← firstSample c
      let x ← chan main 0
      let r := run (biquadStep (rlpfCoef m c0 f.q f.sr)) f.mem x
      .ok ({ f with mem := r.1, step := f.step + x.length }, r.2 :: rest)
  | _ => .ok (f, out)

/-- rs/synth/src/node/filter/rlpf.rs:155-179 (`SetBPM` is ignored). -/
def Rlpf.msg (f : Rlpf) (m : Msg Fl) : Except Panic Rlpf :=
  match m with
  | .setToNumber 0 v => .ok { f with cutoff := v }
  | .setToNumber 1 v => .ok { f with q := v }
  | m => do
    let o ← orderMsg true f.order m
    .ok { f with order := o }

/-! ### Allpass with gain -/

/-- rs/synth/src/node/filter/apfmsgain.rs:6-12. -/
structure Apf where
  gain : Fl
  bufx : Ring
  bufy : Ring
  sr : Nat
  order : List Nat
  deriving Repr, DecidableEq

/-- `AllPassFilterGain::new().sr(sr).delay(ms).gain(g)` (rs/synth/src/node/filter/apfmsgain.rs:21-50): a
delay below one sample panics, a delay of 0 means three seconds. -/
def Apf.new (sr : Nat) (ms gain : Fl) : Except Panic Apf := do
  let size := (if Fl.beq ms (.fin 0) then .fin 3 *. Fl.ofNat f32 sr else msToSamples sr ms).toUsize
  let b ← Ring.from' (List.replicate size (.fin 0))
  .ok ⟨gain, b, b, sr, []⟩

/-- `-gain * x + xd + gain * yd` (rs/synth/src/node/filter/apfmsgain.rs:61,90). -/
def apfOut (gain x xd yd : Fl) : Fl := Fl.neg gain *. x +. xd +. gain *. yd

/-- One sample without modulation (rs/synth/src/node/filter/apfmsgain.rs:58-67); `buf[0]` is the oldest
sample. -/
def apfStep (gain : Fl) (s : Ring × Ring) (x : Fl) : Except Panic ((Ring × Ring) × Fl) := do
  let xd ← s.1.get 0
  let yd ← s.2.get 0
  let y := apfOut gain x xd yd
  let (bx, _) ← s.1.push x
  let (by', _) ← s.2.push y
  .ok ((bx, by'), y)

/-- Linear interpolation between two samples of a line (rs/synth/src/node/filter/apfmsgain.rs:85-88). -/
def readLerp (r : Ring) (pos : Nat × Fl) : Except Panic Fl := do
  let u ← r.get pos.1
  if pos.1 = 2 ^ 64 - 1 then .error .overflow
  else
    let v ← r.get (pos.1 + 1)
    .ok (u *. pos.2 +. v *. (.fin 1 -. pos.2))

/-- One sample with modulation (rs/synth/src/node/filter/apfmsgain.rs:78-95). -/
def apfModStep (gain : Fl) (sr : Nat) (s : Ring × Ring) (p : Fl × Fl) :
    Except Panic ((Ring × Ring) × Fl) := do
  let pos ← readPos [s.1] sr p.2
  let xd ← readLerp s.1 pos
  let yd ← readLerp s.2 pos
  let y := apfOut gain p.1 xd yd
  let (bx, _) ← s.1.push p.1
  let (by', _) ← s.2.push y
  .ok ((bx, by'), y)

/-- rs/synth/src/node/filter/apfmsgain.rs:53-100. -/
def procApf (f : Apf) (ins : Ins) (out : List Buf) : Except Panic (Apf × List Buf) :=
  match ins with
  | [_] =>
    match out with
    | [] => .error .indexOutOfBounds
    | _ :: rest => do
      let main ← inputAt ins f.order 0
      let x ← chan main 0
      let (s, y) ← runM (apfStep f.gain) (f.bufx, f.bufy) x
      .ok ({ f with bufx := s.1, bufy := s.2 }, y :: rest)
  | [_, _] =>
    match out with
    | [] => .error .indexOutOfBounds
    | _ :: rest => do
      let main ← inputAt ins f.order 0
      let ref ← inputAt ins f.order 1
      let x ← chan main 0
      let md ← chan ref 0
      let (s, y) ← runM (apfModStep f.gain f.sr) (f.bufx, f.bufy) (x.zip md)
      .ok ({ f with bufx := s.1, bufy := s.2 }, y :: rest)
  | _ => .ok (f, out)

/-- rs/synth/src/node/filter/apfmsgain.rs:102-122. -/
def Apf.msg (f : Apf) (m : Msg Fl) : Except Panic Apf :=
  match m with
  | .setToNumber 0 v => do
    let k := (msToSamples f.sr v).toUsize
    let bx ← f.bufx.setFirst k
    let by' ← f.bufy.setFirst k
    .ok { f with bufx := bx, bufy := by' }
  | .setToNumber 1 v => .ok { f with gain := v }
  | m => do
    let o ← orderMsg true f.order m
    .ok { f with order := o }

end Verif
