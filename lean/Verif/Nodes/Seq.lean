import Verif.Nodes.Basic
import Verif.Ast

/-! # Sequencers and breakpoints -/

namespace Verif

/-! ### Sequencer -/

/-- rs/synth/src/node/sequencer/seq.rs:6-15. -/
structure Sequencer where
  events : List (Fl × NatRef)
  refOrder : List (Name × Nat)
  speed : Fl
  bpm : Fl
  sr : Nat
  step : Nat
  order : List Nat
  deriving Repr, DecidableEq

/-- The references of the events without repetitions (rs/main/src/util.rs:361-370). -/
def seqRefs (events : List (Fl × NatRef)) : List Name :=
  events.foldl (fun acc e =>
    match e.2 with
    | .nat _ => acc
    | .ref r => if acc.contains r then acc else acc ++ [r]) []

/-- `Sequencer::new(events).sr(sr).bpm(bpm).ref_order(order)` (rs/main/src/util.rs:357-376,
rs/synth/src/node/sequencer/seq.rs:18-37): each reference is numbered by its first occurrence. -/
def Sequencer.new (events : List (Fl × NatRef)) (sr : Nat) (bpm : Fl) : Sequencer :=
  ⟨events, (enumFrom 0 (seqRefs events)).map (fun p => (p.2, p.1)), .fin 1, bpm, sr, 0, []⟩

/-- `240.0 / bpm as f64 * sr as f64 / speed as f64` (rs/synth/src/node/sequencer/seq.rs:45,76). -/
def barLength (bpm : Fl) (sr : Nat) (speed : Fl) : Fl :=
  Fl.div f64 (Fl.mul f64 (Fl.div f64 (.fin 240) bpm) (Fl.ofNat f64 sr)) speed

/-- `2.0f32.powf((midi - 60.0) / 12.0)`, 0 for the value 0 (rs/synth/src/node/sequencer/seq.rs:57-61,
93-97). -/
def seqPitch (m : Libm) (midi : Fl) : Fl :=
  if Fl.beq midi (.fin 0) then .fin 0 else m.powf (.fin 2) ((midi -. .fin 60) /. .fin 12)

/-- One sample (rs/synth/src/node/sequencer/seq.rs:47-64,78-100): the last event whose time has come
gives the output. `value` looks up the number of an event. -/
def seqSample (m : Libm) (bar : Fl) (step : Nat) (value : NatRef → Except Panic Fl) :
    List (Fl × NatRef) → Fl → Except Panic Fl
  | [], out => .ok out
  | e :: es, out =>
    if bar.toUsize = 0 then .error .divByZero
    else if step % bar.toUsize = (Fl.mul f64 e.1 bar).toUsize then do
      let v ← value e.2
      seqSample m bar step value es (seqPitch m v)
    else seqSample m bar step value es out

/-- Without inputs a reference counts as 0 (rs/synth/src/node/sequencer/seq.rs:52-55). -/
def seqValue0 (v : NatRef) : Except Panic Fl :=
  match v with
  | .nat n => .ok (Fl.ofNat f32 n)
  | .ref _ => .ok (.fin 0)

/-- With inputs a reference is the current sample of its input
(rs/synth/src/node/sequencer/seq.rs:84-91). -/
def seqValue (ins : Ins) (refOrder : List (Name × Nat)) (order : List Nat) (shift idx : Nat)
    (v : NatRef) : Except Panic Fl :=
  match v with
  | .nat n => .ok (Fl.ofNat f32 n)
  | .ref r =>
    match lookup refOrder r with
    | none => .error .missing
    | some k => do
      let src ← inputAt ins order (k + shift)
      let b ← chan src 0
      match b[idx]? with
      | none => .error .indexOutOfBounds
      | some x => .ok x

/-- `possible_speed[0] > 0. && possible_speed[1] == 0.` (rs/synth/src/node/sequencer/seq.rs:69-70): the
speed, if the first ordered input carries one. -/
def speedOf (b : Buf) : Except Panic (Option Fl) :=
  match b with
  | [] => .error .indexOutOfBounds
  | x :: rest =>
    if Fl.lt (.fin 0) x then
      match rest with
      | [] => .error .indexOutOfBounds
      | y :: _ => .ok (if Fl.beq y (.fin 0) then some x else none)
    else .ok none

/-- rs/synth/src/node/sequencer/seq.rs:41-104. Only the left output is written. -/
def procSeq (m : Libm) (s : Sequencer) (ins : Ins) (out : List Buf) :
    Except Panic (Sequencer × List Buf) :=
  match ins with
  | [] =>
    match out with
    | [] => .error .indexOutOfBounds
    | b :: rest => do
      let bar := barLength s.bpm s.sr s.speed
      let (k, y) ← runM (fun k _ => do
        let v ← seqSample m bar k seqValue0 s.events (.fin 0)
        .ok (k + 1, v)) s.step b
      .ok ({ s with step := k }, y :: rest)
  | _ => do
    let first ← inputAt ins s.order 0
    let fb ← chan first 0
    let sp ← speedOf fb
    let speed := sp.getD s.speed
    let shift := if sp.isSome then 1 else 0
    let bar := barLength s.bpm s.sr speed
    match out with
    | [] => .error .indexOutOfBounds
    | b :: rest => do
      let (k, y) ← runM (fun (k : Nat) _ => do
        let v ← seqSample m bar k (seqValue ins s.refOrder s.order shift (k - s.step)) s.events (.fin 0)
        .ok (k + 1, v)) s.step b
      .ok ({ s with step := k, speed := speed }, y :: rest)

/-- rs/synth/src/node/sequencer/seq.rs:105-119. -/
def Sequencer.msg (s : Sequencer) (m : Msg Fl) : Except Panic Sequencer :=
  match m with
  | .setBPM v => .ok { s with bpm := v }
  | m => do
    let o ← orderMsg true s.order m
    .ok { s with order := o }

/-! ### Arrange -/

/-- rs/synth/src/node/sequencer/arrange.rs:6-15. -/
structure Arrange where
  events : List NumRef
  speed : Fl
  bpm : Fl
  sr : Nat
  step : Nat
  order : List Nat
  deriving Repr, DecidableEq

/-- `Arrange::new(events).sr(sr).bpm(bpm)` (rs/synth/src/node/sequencer/arrange.rs:18-41). -/
def Arrange.new (events : List NumRef) (sr : Nat) (bpm : Fl) : Arrange :=
  ⟨events, .fin 1, bpm, sr, 0, []⟩

/-- What the loop over the pairs finds (rs/synth/src/node/sequencer/arrange.rs:51-79). -/
inductive ArrHit where
  /-- `return`: the duration is not a number -/
  | stop
  /-- part `j` plays -/
  | part (j : Nat)
  /-- past the end: start over with part 0 -/
  | wrap
  /-- there are no parts -/
  | none
  deriving Repr, DecidableEq

/-- The loop over the pairs (rs/synth/src/node/sequencer/arrange.rs:51-79); `n` pairs are left. -/
def arrFind (events : List NumRef) (pos : Fl) : (n j : Nat) → Fl → Except Panic ArrHit
  | 0, _, _ => .ok .none
  | n + 1, j, count =>
    match events[j * 2 + 1]? with
    | Option.none => .error .indexOutOfBounds
    | some (.ref _) => .ok .stop
    | some (.num bar) =>
      if Fl.lt pos (count +. bar) then .ok (.part j)
      else if n = 0 then .ok .wrap
      else arrFind events pos n (j + 1) (count +. bar)

/-- `inputs[&input_order[j]].buffers()[0][i]`. -/
def inputSample (ins : Ins) (order : List Nat) (j i : Nat) : Except Panic Fl := do
  let src ← inputAt ins order j
  let b ← chan src 0
  match b[i]? with
  | none => .error .indexOutOfBounds
  | some x => .ok x

/-- The loop over the samples (rs/synth/src/node/sequencer/arrange.rs:48-82); `old` is the previous
content of the output, `i` the number of the sample. `return` leaves the rest as it was. -/
def arrRun (a : Arrange) (ins : Ins) : (i : Nat) → (step : Nat) → (old : Buf) →
    Except Panic (Nat × Buf)
  | _, step, [] => .ok (step, [])
  | i, step, o :: old => do
    let bar := .fin 240 /. a.bpm *. Fl.ofNat f32 a.sr /. a.speed
    let hit ← arrFind a.events (Fl.ofNat f32 step /. bar) (a.events.length / 2) 0 (.fin 0)
    match hit with
    | .stop => .ok (step, o :: old)
    | .part j => do
      let x ← inputSample ins a.order j i
      let (s, r) ← arrRun a ins (i + 1) (step + 1) old
      .ok (s, x :: r)
    | .wrap => do
      let x ← inputSample ins a.order 0 i
      let (s, r) ← arrRun a ins (i + 1) 1 old
      .ok (s, x :: r)
    | .none => do
      let (s, r) ← arrRun a ins (i + 1) (step + 1) old
      .ok (s, o :: r)

/-- rs/synth/src/node/sequencer/arrange.rs:44-83. -/
def procArrange (a : Arrange) (ins : Ins) (out : List Buf) : Except Panic (Arrange × List Buf) :=
  match out with
  | [] => .error .indexOutOfBounds
  | b :: rest => do
    let (s, y) ← arrRun a ins 0 a.step b
    .ok ({ a with step := s }, y :: rest)

/-- rs/synth/src/node/sequencer/arrange.rs:84-102: a number for a position that exists makes
`i as usize - self.events.len()` underflow (debug builds; release builds then fail to reserve). -/
def Arrange.msg (a : Arrange) (m : Msg Fl) : Except Panic Arrange :=
  match m with
  | .setToNumber i v =>
    if i < a.events.length then .error .underflow
    else .ok { a with step := 0,
                      events := a.events ++ List.replicate (i - a.events.length) (.num (.fin 0)) ++ [.num v] }
  | m => do
    let o ← orderMsg true a.order m
    .ok { a with order := o }

/-! ### Choose -/

/-- rs/synth/src/node/sequencer/choose.rs:5-9; seed and number of values drawn stand for `sig`. -/
structure Choose where
  seed : Nat
  drawn : Nat
  notes : List Fl
  order : List Nat
  deriving Repr, DecidableEq

/-- rs/synth/src/node/sequencer/choose.rs:12-18. -/
def Choose.new (notes : List Fl) (seed : Nat) : Choose := ⟨seed, 0, notes, []⟩

/-- The picked position (rs/synth/src/node/sequencer/choose.rs:24-27), in f64. -/
def chooseIndex (x : Fl) (n : Nat) : Nat :=
  let id := (Fl.mul f64 (Fl.add f64 (Fl.mul f64 x (.fin (1 / 2))) (.fin (1 / 2))) (Fl.ofNat f64 n)).toUsize
  if id = n then 0 else id

/-- rs/synth/src/node/sequencer/choose.rs:22-29: one draw per block, held for the whole block. -/
def procChoose (m : Libm) (c : Choose) (out : List Buf) : Except Panic (Choose × List Buf) :=
  let id := chooseIndex (m.noise c.seed c.drawn) c.notes.length
  match out with
  | [] => .error .indexOutOfBounds
  | b :: rest =>
    match b with
    | [] => .ok ({ c with drawn := c.drawn + 1 }, b :: rest)
    | _ =>
      match c.notes[id]? with
      | none => .error .indexOutOfBounds
      | some v => .ok ({ c with drawn := c.drawn + 1 }, b.map (fun _ => v) :: rest)

/-- rs/synth/src/node/sequencer/choose.rs:30-40. -/
def Choose.msg (c : Choose) (m : Msg Fl) : Except Panic Choose := do
  let o ← orderMsg true c.order m
  .ok { c with order := o }

/-! ### Points -/

/-- rs/synth/src/node/signal/points.rs:7-16. -/
structure Points where
  points : List (Nat × Fl)
  span : Fl
  bpm : Fl
  sr : Nat
  step : Nat
  looping : Bool
  order : List Nat
  deriving Repr, DecidableEq

/-- `cycle_dur * span * sr as f32` with `cycle_dur = 60. / bpm * 4.` (rs/synth/src/node/signal/points.rs:75-76,
104-105). -/
def pointsBar (bpm span : Fl) (sr : Nat) : Fl :=
  .fin 60 /. bpm *. .fin 4 *. span *. Fl.ofNat f32 sr

/-- The sample at which a point lies (rs/synth/src/node/signal/points.rs:78-85). -/
def pointStep (bpm span : Fl) (sr : Nat) (t : TimeList) : Nat :=
  let bar := pointsBar bpm span sr
  let off := match t.time with
    | none => .fin 0
    | some (.bar b) => b *. bar
    | some (.sec s) => s *. Fl.ofNat f32 sr
    | some (.ms x) => x /. .fin 1000 *. Fl.ofNat f32 sr
  (t.bar *. bar +. off).toUsize

/-- rs/synth/src/node/signal/points.rs:65-94: an empty list panics; a point at 0 with value 0 is put
in front unless the first one is at 0. -/
def pointList (bpm span : Fl) (sr : Nat) (ps : List (TimeList × Fl)) :
    Except Panic (List (Nat × Fl)) :=
  match ps.map (fun p => (pointStep bpm span sr p.1, p.2)) with
  | [] => .error .indexOutOfBounds
  | p :: rest => .ok (if p.1 ≠ 0 then (0, .fin 0) :: p :: rest else p :: rest)

/-- `Points::new().bpm(bpm).sr(sr).span(span).points(ps).is_looping(l)` (rs/main/src/util.rs:81-87). -/
def Points.new (ps : List (TimeList × Fl)) (span : Fl) (looping : Bool) (bpm : Fl) (sr : Nat) :
    Except Panic Points := do
  let l ← pointList bpm span sr ps
  .ok ⟨l, span, bpm, sr, 0, looping, []⟩

/-- `prev_val + t * (next_val - prev_val)`, `t = (pos - prev_pos) / width`
(rs/synth/src/node/signal/points.rs:119-120,143-149). -/
def lerpPoint (pos prevPos width prevVal nextVal : Fl) : Fl :=
  prevVal +. (pos -. prevPos) /. width *. (nextVal -. prevVal)

/-- One sample of the non-looping mode (rs/synth/src/node/signal/points.rs:109-126). `p - 1` underflows
for the point at 0: a panic in debug builds, the largest index in release builds. -/
def pointsOnce (checked : Bool) (ps : List (Nat × Fl)) (pos : Nat) : Except Panic Fl := do
  let index ← match ps.findIdx? (fun s => decide (pos ≤ s.1)) with
    | none => .ok 0
    | some 0 => if checked then .error .underflow else .ok (2 ^ 64 - 1)
    | some (p + 1) => .ok p
  match ps[index]?, ps[index + 1]? with
  | some a, some b =>
    .ok (lerpPoint (Fl.ofNat f32 pos) (Fl.ofNat f32 a.1) (Fl.ofNat f32 b.1 -. Fl.ofNat f32 a.1) a.2 b.2)
  | _, _ =>
    match ps.getLast? with
    | none => .error .missing
    | some a => .ok a.2

/-- One sample of the looping mode (rs/synth/src/node/signal/points.rs:131-149). -/
def pointsLoop (ps : List (Nat × Fl)) (bar step : Nat) : Except Panic Fl :=
  if bar = 0 then .error .divByZero
  else
    let pos := step % bar
    let hit := ps.findIdx? (fun s => decide (pos ≤ s.1))
    let index := hit.getD (ps.length - 1)
    match ps[index]?, ps[(index + 1) % ps.length]? with
    | some a, some b =>
      .ok (lerpPoint (Fl.ofNat f32 pos) (Fl.ofNat f32 a.1)
        (if hit.isNone then Fl.ofNat f32 bar -. Fl.ofNat f32 a.1 +. Fl.ofNat f32 b.1
         else Fl.ofNat f32 b.1 -. Fl.ofNat f32 a.1) a.2 b.2)
    | _, _ => .error .indexOutOfBounds

/-- rs/synth/src/node/signal/points.rs:98-154. -/
def procPoints (m : Libm) (p : Points) (out : List Buf) : Except Panic (Points × List Buf) :=
  match p.points with
  | [] => .ok (p, out)
  | _ =>
    match out with
    | [] => .error .indexOutOfBounds
    | b :: rest => do
      let bar := (pointsBar p.bpm p.span p.sr).toUsize
      let (k, y) ← runM (fun (k : Nat) _ => do
        let v ← if p.looping then pointsLoop p.points bar k else pointsOnce m.checked p.points k
        .ok (k + 1, v)) p.step b
      .ok ({ p with step := k }, y :: rest)

/-- rs/synth/src/node/signal/points.rs:155-174 (no `ResetOrder`). The tempo only changes the length
of the loop, not the places of the points. -/
def Points.msg (p : Points) (m : Msg Fl) : Except Panic Points :=
  match m with
  | .setToNumber 1 v => .ok { p with span := v, step := 0 }
  | .setBPM v => .ok { p with bpm := v }
  | m => do
    let o ← orderMsg false p.order m
    .ok { p with order := o }

end Verif
