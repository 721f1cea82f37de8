import Verif.Nodes.Basic

/-! # Oscillators -/

namespace Verif

/-- The oscillators that share `process_oscillation` (rs/synth/src/node/oscillator/mod.rs:13-43). -/
inductive Wave where
  | saw
  | squ
  | tri
  deriving Repr, DecidableEq

/-- The sample at a phase (saw_osc.rs:49, squ_osc.rs:48-52, tri_osc.rs:48-50). -/
def Wave.at (w : Wave) (phase : Fl) : Fl :=
  match w with
  | .saw => phase *. .fin 2 -. .fin 1
  | .squ => if Fl.le phase (.fin (1 / 2)) then .fin 1 else .fin (-1)
  | .tri =>
    let v := .fin (-1) +. phase *. .fin 2
    .fin 2 *. (Fl.abs v -. .fin (1 / 2))

/-- rs/synth/src/node/oscillator/saw_osc.rs:6-12 (and squ_osc.rs, tri_osc.rs; `sin_osc.rs:4-9` has no
`inc`). -/
structure Osc where
  freq : Fl
  phase : Fl
  inc : Fl
  sr : Nat
  order : List Nat
  deriving Repr, DecidableEq

/-- `SawOsc::new().freq(freq).sr(sr)` (rs/synth/src/node/oscillator/saw_osc.rs:14-35). -/
def Osc.new (freq : Fl) (sr : Nat) : Osc := ⟨freq, .fin 0, .fin 0, sr, []⟩

/-- `self.phase += freq / self.sr as f32; if self.phase > 1. { self.phase -= 1. }`
(rs/synth/src/node/oscillator/saw_osc.rs:50-53). -/
def advance (sr : Nat) (freq phase : Fl) : Fl :=
  let p := phase +. freq /. Fl.ofNat f32 sr
  if Fl.lt (.fin 1) p then p -. .fin 1 else p

/-- One sample without modulation; the state is the phase. -/
def oscStep (w : Wave) (sr : Nat) (freq : Fl) (phase : Fl) (_ : Fl) : Fl × Fl :=
  (advance sr freq phase, w.at phase)

/-- One sample with modulation (rs/synth/src/node/oscillator/mod.rs:33-39): a nonzero value becomes
the frequency, a zero keeps the previous one. The state is phase and `inc`. -/
def oscModStep (w : Wave) (sr : Nat) (s : Fl × Fl) (md : Fl) : (Fl × Fl) × Fl :=
  let inc := if Fl.beq md (.fin 0) then s.2 else md
  ((advance sr inc s.1, inc), w.at s.1)

/-- The modulation input (rs/synth/src/node/oscillator/mod.rs:28-31, sin_osc.rs:56-59). -/
def modInput (ins : Ins) (order : List Nat) (e : Nat × List Buf) : Except Panic (List Buf) :=
  match order with
  | [] => .ok e.2
  | _ => inputAt ins order 0

/-- rs/synth/src/node/oscillator/mod.rs:13-43. -/
def procOsc (w : Wave) (o : Osc) (ins : Ins) (out : List Buf) : Except Panic (Osc × List Buf) :=
  match ins with
  | [] =>
    match out with
    | [] => .error .indexOutOfBounds
    | b :: rest =>
      let r := run (oscStep w o.sr o.freq) o.phase b
      .ok ({ o with phase := r.1 }, r.2 :: rest)
  | [e] =>
    match out with
    | [] => .error .indexOutOfBounds
    | _ :: rest => do
      let md ← modInput ins o.order e
      let x ← chan md 0
      let r := run (oscModStep w o.sr) (o.phase, o.inc) x
      .ok ({ o with phase := r.1.1, inc := r.1.2 }, r.2 :: rest)
  | _ => .ok (o, out)

/-- rs/synth/src/node/oscillator/saw_osc.rs:58-68 (the same in all four). -/
def Osc.msg (o : Osc) (m : Msg Fl) : Except Panic Osc :=
  match m with
  | .setToNumber 0 v => .ok { o with freq := v }
  | m => do
    let r ← orderMsg true o.order m
    .ok { o with order := r }

/-- `(phase * 2.0 * PI).sin()` (rs/synth/src/node/oscillator/sin_osc.rs:47,63). -/
def sinAt (m : Libm) (phase : Fl) : Fl := m.sin (phase *. .fin 2 *. flPi)

/-- One sample of the sine (rs/synth/src/node/oscillator/sin_osc.rs:45-52,61-69) at the given
frequency. -/
def sinStep (m : Libm) (sr : Nat) (phase freq : Fl) : Fl × Fl := (advance sr freq phase, sinAt m phase)

/-- rs/synth/src/node/oscillator/sin_osc.rs:41-73: every output channel gets the same samples. The
block length is that of the first output. -/
def procSin (m : Libm) (o : Osc) (ins : Ins) (out : List Buf) : Except Panic (Osc × List Buf) :=
  match ins with
  | [] =>
    match out with
    | [] => .ok (o, [])
    | b :: rest =>
      let r := run (sinStep m o.sr) o.phase (b.map (fun _ => o.freq))
      .ok ({ o with phase := r.1 }, (b :: rest).map (fun _ => r.2))
  | [e] => do
    let md ← modInput ins o.order e
    let x ← chan md 0
    let r := run (sinStep m o.sr) o.phase x
    .ok ({ o with phase := r.1 }, out.map (fun _ => r.2))
  | _ => .ok (o, out)

end Verif
