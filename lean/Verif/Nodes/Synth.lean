import Verif.Nodes.Basic
import Verif.ParseNum

/-! # Synthesizers driven by messages or patterns -/

namespace Verif

/-- One voice: start step, frequency, phase (`synth_list` and `phase_list` zipped). -/
structure SVoice where
  start : Nat
  freq : Fl
  phase : Fl
  deriving Repr, DecidableEq

/-- `2f32.powf((midi - 69.) / 12.) * 440.` (rs/synth/src/node/synth/msgsynth.rs:90,
pattern_synth.rs:70). -/
def midiFreq (m : Libm) (midi : Fl) : Fl := m.powf (.fin 2) ((midi -. .fin 69) /. .fin 12) *. .fin 440

/-- The amplitude when the attack stage is chosen (rs/synth/src/node/synth/msgsynth.rs:110-114,
pattern_synth.rs:93-97). -/
def attackAmp (att : Fl) (sr pos : Nat) : Fl :=
  if (att *. Fl.ofNat f32 sr).toUsize = 0 then .fin 0 else Fl.ofNat f32 pos /. (att *. Fl.ofNat f32 sr)

/-- The amplitude when the decay stage is chosen (rs/synth/src/node/synth/msgsynth.rs:117-121,
pattern_synth.rs:100-104); `dur` is the whole duration in samples and not below `pos`. -/
def decayAmp (dec : Fl) (sr dur pos : Nat) : Fl :=
  if (dec *. Fl.ofNat f32 sr).toUsize = 0 then .fin 0
  else Fl.ofNat f32 (dur - pos) /. (dec *. Fl.ofNat f32 sr)

/-- `(self.att + self.dec) * self.sr as f32` as a number of samples. -/
def synthDur (att dec : Fl) (sr : Nat) : Nat := ((att +. dec) *. Fl.ofNat f32 sr).toUsize

/-- The amplitude of `MsgSynth` (rs/synth/src/node/synth/msgsynth.rs:108-123): the attack stage is used
from the end of the attack on, the decay stage before it. -/
def msgAmp (att dec : Fl) (sr pos : Nat) : Fl :=
  if pos < (att *. Fl.ofNat f32 sr).toUsize then decayAmp dec sr (synthDur att dec sr) pos
  else attackAmp att sr pos

/-- The amplitude of `PatternSynth` (rs/synth/src/node/synth/pattern_synth.rs:91-106). -/
def patAmp (att dec : Fl) (sr pos : Nat) : Fl :=
  if pos ≤ (att *. Fl.ofNat f32 sr).toUsize then attackAmp att sr pos
  else decayAmp dec sr (synthDur att dec sr) pos

/-- The sawtooth phase of a voice (rs/synth/src/node/synth/msgsynth.rs:126-129). -/
def voicePhase (sr : Nat) (v : SVoice) : Fl :=
  let p := v.phase +. v.freq /. Fl.ofNat f32 sr
  if Fl.lt (.fin 1) p then p -. .fin 1 else p

/-- The loop over the voices (rs/synth/src/node/synth/msgsynth.rs:96-141, pattern_synth.rs:79-124). -/
def synthVoices (amp : Nat → Fl) (dur sr step : Nat) : List SVoice → Fl → List SVoice × Fl
  | [], out => ([], out)
  | v :: vs, out =>
    if step - v.start ≤ dur then
      let r := synthVoices amp dur sr step vs
        (out +. amp (step - v.start) *. (v.phase *. .fin 2 -. .fin 1) *. Fl.lit f32 (1 / 10))
      ({ v with phase := voicePhase sr v } :: r.1, r.2)
    else synthVoices amp dur sr step vs out

/-! ### MsgSynth -/

/-- rs/synth/src/node/synth/msgsynth.rs:7-19 (`ref_order` is never used). -/
structure MsgSynth where
  voices : List SVoice
  att : Fl
  dec : Fl
  events : List (Nat × Fl)
  sr : Nat
  step : Nat
  order : List Nat
  deriving Repr, DecidableEq

/-- `MsgSynth::new().sr(sr).attack(attack).decay(decay)` (rs/main/src/util.rs:96-100). -/
def MsgSynth.new (attack decay : Fl) (sr : Nat) : MsgSynth := ⟨[], attack, decay, [], sr, 0, []⟩

/-- The voices that begin now (rs/synth/src/node/synth/msgsynth.rs:87-94). -/
def msgStarts (m : Libm) (events : List (Nat × Fl)) (step : Nat) : List SVoice :=
  (events.filter (fun e => e.1 == step)).map (fun e => ⟨step, midiFreq m e.2, .fin 0⟩)

/-- One sample (rs/synth/src/node/synth/msgsynth.rs:84-143). -/
def msgSynthStep (m : Libm) (s : MsgSynth) (_ : Fl) : MsgSynth × Fl :=
  let r := synthVoices (msgAmp s.att s.dec s.sr) (synthDur s.att s.dec s.sr) s.sr s.step
    (s.voices ++ msgStarts m s.events s.step) (.fin 0)
  ({ s with voices := r.1, step := s.step + 1 }, r.2)

/-- rs/synth/src/node/synth/msgsynth.rs:76-144. -/
def procMsgSynth (m : Libm) (s : MsgSynth) (out : List Buf) : Except Panic (MsgSynth × List Buf) :=
  match out with
  | [] => .error .indexOutOfBounds
  | b :: rest =>
    let r := run (msgSynthStep m) s b
    .ok (r.1, r.2 :: rest)

/-- `parse::<f32>().unwrap()`. -/
def parseOrPanic (s : Name) : Except Panic Fl :=
  match parseF32 s with
  | none => .error .missing
  | some x => .ok x

/-- rs/synth/src/node/synth/msgsynth.rs:158-171: an event `seconds=>note`; both are parsed with
`unwrap`. -/
def msgEvent (s : MsgSynth) (text : Name) : Except Panic MsgSynth :=
  match splitArrow (text.filter (fun c => !isWhite c)) with
  | a :: b :: _ => do
    let t ← parseOrPanic a
    let n ← parseOrPanic b
    .ok { s with events := s.events ++ [((t *. Fl.ofNat f32 s.sr).toUsize, n)] }
  | _ => .ok s

/-- rs/synth/src/node/synth/msgsynth.rs:145-185. -/
def MsgSynth.msg (s : MsgSynth) (m : Msg Fl) : Except Panic MsgSynth :=
  match m with
  | .setToNumber 1 v => .ok { s with att := v }
  | .setToNumber 2 v => .ok { s with dec := v }
  | .setToSymbol 3 t => msgEvent s t
  | m => do
    let o ← orderMsg true s.order m
    .ok { s with order := o }

/-! ### PatternSynth -/

/-- rs/synth/src/node/synth/pattern_synth.rs:6-18. `att`, `dec`, `period_in_cycle` and `cycle_dur` never
change from 0.001, 0.1, 1.0 and 2.0. -/
structure PatternSynth where
  voices : List SVoice
  events : List (Fl × Fl)
  sr : Nat
  step : Nat
  order : List Nat
  deriving Repr, DecidableEq

/-- One event `time note` (rs/main/src/util.rs:107-114, pattern_synth.rs:142-149): the first two words,
both parsed with `unwrap`; fewer than two words panic too. -/
def patEvent (text : Name) : Except Panic (Fl × Fl) :=
  match (splitChar ' ' text).filter (fun w => !w.isEmpty) with
  | a :: b :: _ => do
    let t ← parseOrPanic a
    let n ← parseOrPanic b
    .ok (t, n)
  | _ => .error .missing

/-- `symbol.replace('`', "").split(',')` (rs/main/src/util.rs:104-116). -/
def patEvents (sym : Name) : Except Panic (List (Fl × Fl)) :=
  (splitChar ',' (sym.filter (fun c => c != '`'))).mapM patEvent

/-- `PatternSynth::new(events).sr(sr)` (rs/main/src/util.rs:118-121). -/
def PatternSynth.new (sym : Name) (sr : Nat) : Except Panic PatternSynth := do
  let ev ← patEvents sym
  .ok ⟨[], ev, sr, 0, []⟩

/-- The voices that begin now (rs/synth/src/node/synth/pattern_synth.rs:65-77). -/
def patStarts (m : Libm) (sr step : Nat) : List (Fl × Fl) → Except Panic (List SVoice)
  | [] => .ok []
  | e :: es =>
    let bar := (.fin 2 *. .fin 1 *. Fl.ofNat f32 sr).toUsize
    if bar = 0 then .error .divByZero
    else do
      let r ← patStarts m sr step es
      .ok (if step % bar = (e.1 *. .fin 2 *. Fl.ofNat f32 sr).toUsize
        then ⟨step, midiFreq m e.2, .fin 0⟩ :: r else r)

/-- `0.001`. -/
def patAtt : Fl := Fl.lit f32 (1 / 1000)
/-- `0.1`. -/
def patDec : Fl := Fl.lit f32 (1 / 10)

/-- One sample (rs/synth/src/node/synth/pattern_synth.rs:62-127). -/
def patSynthStep (m : Libm) (s : PatternSynth) (_ : Fl) : Except Panic (PatternSynth × Fl) := do
  let new ← patStarts m s.sr s.step s.events
  let r := synthVoices (patAmp patAtt patDec s.sr) (synthDur patAtt patDec s.sr) s.sr s.step
    (s.voices ++ new) (.fin 0)
  .ok ({ s with voices := r.1, step := s.step + 1 }, r.2)

/-- rs/synth/src/node/synth/pattern_synth.rs:55-130: nothing happens if there is an input. -/
def procPatSynth (m : Libm) (s : PatternSynth) (ins : Ins) (out : List Buf) :
    Except Panic (PatternSynth × List Buf) :=
  match ins with
  | [] =>
    match out with
    | [] => .error .indexOutOfBounds
    | b :: rest => do
      let (s', y) ← runM (patSynthStep m) s b
      .ok (s', y :: rest)
  | _ => .ok (s, out)

/-- rs/synth/src/node/synth/pattern_synth.rs:131-162. -/
def PatternSynth.msg (s : PatternSynth) (m : Msg Fl) : Except Panic PatternSynth :=
  match m with
  | .setToSymbol 0 t => do
    let ev ← patEvents t
    .ok { s with events := ev }
  | m => do
    let o ← orderMsg true s.order m
    .ok { s with order := o }

end Verif
