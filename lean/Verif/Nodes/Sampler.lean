import Verif.Nodes.Basic

/-! # Sample players -/

namespace Verif

/-- A registered sample `(&'static [f32], channels, sr)` (rs/main/src/lib.rs:40). -/
structure Sample where
  data : List Fl
  channels : Nat
  sr : Nat
  deriving Repr, DecidableEq

/-- `sample[i]`. -/
def Sample.at (s : Sample) (i : Nat) : Except Panic Fl :=
  match s.data[i]? with
  | none => .error .indexOutOfBounds
  | some x => .ok x

/-- `a - b` on `usize`. -/
def usizeSub (a b : Nat) : Except Panic Nat := if b ≤ a then .ok (a - b) else .error .underflow

/-- The mix of the two neighbours of position `x`, the second channel `off` samples later
(rs/synth/src/node/sampling/sampler.rs:56-63,80-92). The left neighbour is weighted with the
distance from it, the right one with the rest. -/
def sampleLerp (s : Sample) (x : Fl) (off : Nat) : Except Panic Fl := do
  let a ← s.at (x.floor.toUsize + off)
  let b ← s.at (x.ceil.toUsize + off)
  .ok (a *. (x -. x.floor) +. b *. (.fin 1 -. (x -. x.floor)))

/-- What one voice at `pos ≤ 1` of a mono sample adds (rs/synth/src/node/sampling/sampler.rs:49-66,
psampler.rs:78-92). `fin` is `endindex`. -/
def monoRead (s : Sample) (pos : Fl) : Except Panic Fl :=
  if Fl.beq pos (.fin 0) then s.at 0
  else if Fl.beq pos (.fin 1) then do
    let e ← usizeSub s.data.length 1
    s.at e
  else if Fl.lt (.fin 0) pos && Fl.lt pos (.fin 1) then do
    let e ← usizeSub s.data.length 1
    sampleLerp s (pos *. Fl.ofNat f32 e) 0
  else .ok (.fin 0)

/-- What one voice at `pos ≤ 1` of a stereo sample adds to the two channels
(rs/synth/src/node/sampling/sampler.rs:69-95, psampler.rs:96-123); `none`: nothing. -/
def stereoRead (s : Sample) (pos : Fl) : Except Panic (Option (Fl × Fl)) :=
  let len := s.data.length / s.channels
  if Fl.beq pos (.fin 0) then do
    let a ← s.at 0
    let b ← s.at len
    .ok (some (a, b))
  else if Fl.beq pos (.fin 1) then do
    let l ← usizeSub len 1
    let a ← s.at l
    let e ← usizeSub s.data.length 1
    let b ← s.at e
    .ok (some (a, b))
  else if Fl.lt (.fin 0) pos && Fl.lt pos (.fin 1) then do
    let l ← usizeSub len 2
    let a ← sampleLerp s (pos *. Fl.ofNat f32 l) 0
    let b ← sampleLerp s (pos *. Fl.ofNat f32 l) (len + 1)
    .ok (some (a, b))
  else .ok none

/-- One voice: start and duration in samples. -/
abbrev Voice := Nat × Fl

/-- Adds one playing voice to the output pair (rs/synth/src/node/sampling/sampler.rs:47-97);
`none`: the sample has neither one nor two channels. -/
def addVoice (s : Sample) (pos : Fl) (o : Fl × Fl) : Except Panic (Option (Fl × Fl)) :=
  if s.channels = 1 then do
    let v ← monoRead s pos
    .ok (some (o.1 +. v, o.1 +. v))
  else if s.channels = 2 then do
    match ← stereoRead s pos with
    | none => .ok (some o)
    | some v => .ok (some (o.1 +. v.1, o.2 +. v.2))
  else .ok none

/-! ### Sampler -/

/-- rs/synth/src/node/sampling/sampler.rs:5-13. `len` and `endindex` are recomputed from the sample
instead of stored. -/
structure Sampler where
  voices : List Voice
  sample : Sample
  clock : Nat
  sr : Nat
  order : List Nat
  deriving Repr, DecidableEq

/-- rs/synth/src/node/sampling/sampler.rs:16-26: no channels divide by zero, an empty sample makes
`len() - 1` underflow. -/
def Sampler.new (s : Sample) (sr : Nat) : Except Panic Sampler :=
  if s.channels = 0 then .error .divByZero
  else if s.data.length = 0 then .error .underflow
  else .ok ⟨[], s, 0, sr, []⟩

/-- `self.len as f32 / x / (sample_rate as f32 / sr as f32)`
(rs/synth/src/node/sampling/sampler.rs:38-39). -/
def voiceDur (s : Sample) (sr : Nat) (x : Fl) : Fl :=
  Fl.ofNat f32 (s.data.length / s.channels) /. x /. (Fl.ofNat f32 s.sr /. Fl.ofNat f32 sr)

/-- Where a voice stands, `(self.clock - begin) as f32 / dur` (rs/synth/src/node/sampling/sampler.rs:45,
psampler.rs:73). -/
def voicePos (clock : Nat) (v : Voice) : Except Panic Fl := do
  let n ← usizeSub clock v.1
  .ok (Fl.ofNat f32 n /. v.2)

/-- The loop over the voices (rs/synth/src/node/sampling/sampler.rs:43-105): the voices that remain
and the output. -/
def playVoices (s : Sample) (clock : Nat) : List Voice → Fl × Fl → Except Panic (List Voice × (Fl × Fl))
  | [], o => .ok ([], o)
  | v :: vs, o =>
    match voicePos clock v with
    | .error e => .error e
    | .ok pos =>
      if Fl.le pos (.fin 1) then do
        let o' ← addVoice s pos o
        let (r, o'') ← playVoices s clock vs (o'.getD o)
        .ok (v :: r, o'')
      else playVoices s clock vs o

/-- One sample (rs/synth/src/node/sampling/sampler.rs:37-110). -/
def samplerStep (s : Sampler) (x : Fl) : Except Panic (Sampler × (Fl × Fl)) := do
  let vs := if Fl.lt (.fin 0) x then s.voices ++ [(s.clock, voiceDur s.sample s.sr x)] else s.voices
  let (r, o) ← playVoices s.sample s.clock vs (.fin 0, .fin 0)
  .ok ({ s with voices := r, clock := s.clock + 1 }, o)

/-- rs/synth/src/node/sampling/sampler.rs:30-113. -/
def procSampler (s : Sampler) (ins : Ins) (out : List Buf) : Except Panic (Sampler × List Buf) :=
  match out with
  | l :: r :: rest =>
    match ins with
    | [i] => do
      let x ← chan i.2 0
      let (s', y) ← runM samplerStep s x
      .ok (s', y.map (·.1) :: y.map (·.2) :: rest)
    | _ => .ok (s, silent l :: silent r :: rest)
  | _ => .error .indexOutOfBounds

/-- rs/synth/src/node/sampling/sampler.rs:114-129. -/
def Sampler.msg (s : Sampler) (m : Msg Fl) : Except Panic Sampler := do
  let o ← orderMsg true s.order m
  .ok { s with order := o }

/-! ### PSampler -/

/-- rs/synth/src/node/sampling/psampler.rs:5-17. Simplification: the samples themselves are kept in
place of their names and the dictionary. -/
structure PSampler where
  voices : List (Sample × Voice)
  pattern : List (Sample × Fl)
  step : Nat
  period : Fl
  cycleDur : Fl
  sr : Nat
  order : List Nat
  deriving Repr, DecidableEq

/-- rs/synth/src/node/sampling/psampler.rs:20-41. -/
def PSampler.new (pattern : List (Sample × Fl)) (span : Fl) (sr : Nat) (bpm : Fl) : PSampler :=
  ⟨[], pattern, 0, span, .fin 60 /. bpm *. .fin 4, sr, []⟩

/-- The voices that begin now (rs/synth/src/node/sampling/psampler.rs:57-69). -/
def psTrigger (p : PSampler) (step : Nat) : List (Sample × Fl) → Except Panic (List (Sample × Voice))
  | [] => .ok []
  | e :: es =>
    let bar := (p.cycleDur *. p.period *. Fl.ofNat f32 p.sr).toUsize
    if bar = 0 then .error .divByZero
    else if step % bar = (e.2 *. p.cycleDur *. Fl.ofNat f32 p.sr).toUsize then
      if e.1.channels = 0 then .error .divByZero
      else do
        let r ← psTrigger p step es
        .ok ((e.1, (step, voiceDur e.1 p.sr (.fin 1))) :: r)
    else psTrigger p step es

/-- The loop over the voices (rs/synth/src/node/sampling/psampler.rs:71-133); the flag says that the
whole function returned (:125). -/
def psPlay (step : Nat) : List (Sample × Voice) → Fl × Fl →
    Except Panic (Bool × List (Sample × Voice) × (Fl × Fl))
  | [], o => .ok (false, [], o)
  | v :: vs, o =>
    match voicePos step v.2 with
    | .error e => .error e
    | .ok pos =>
      if Fl.le pos (.fin 1) then
        match addVoice v.1 pos o with
        | .error e => .error e
        | .ok none => .ok (true, v :: vs, o)
        | .ok (some o') => do
          let (b, r, o'') ← psPlay step vs o'
          .ok (b, v :: r, o'')
      else do
        let (b, r, o') ← psPlay step vs o
        .ok (b, if b then v :: r else r, o')

/-- The loop over the samples (rs/synth/src/node/sampling/psampler.rs:54-135), `n` samples to go; after
the early return the rest of the block stays silent. -/
def psRun : (n : Nat) → PSampler → Except Panic (PSampler × List (Fl × Fl))
  | 0, p => .ok (p, [])
  | n + 1, p => do
    let new ← psTrigger p p.step p.pattern
    let (b, r, o) ← psPlay p.step (p.voices ++ new) (.fin 0, .fin 0)
    if b then .ok ({ p with voices := r }, o :: List.replicate n (.fin 0, .fin 0))
    else do
      let (p', y) ← psRun n { p with voices := r, step := p.step + 1 }
      .ok (p', o :: y)

/-- rs/synth/src/node/sampling/psampler.rs:45-136. -/
def procPSampler (p : PSampler) (out : List Buf) : Except Panic (PSampler × List Buf) :=
  match out with
  | l :: _ :: rest => do
    let (p', y) ← psRun l.length p
    .ok (p', y.map (·.1) :: y.map (·.2) :: rest)
  | _ => .error .indexOutOfBounds

/-- rs/synth/src/node/sampling/psampler.rs:138-153 (the tempo message is ignored). -/
def PSampler.msg (p : PSampler) (m : Msg Fl) : Except Panic PSampler := do
  let o ← orderMsg true p.order m
  .ok { p with order := o }

end Verif
