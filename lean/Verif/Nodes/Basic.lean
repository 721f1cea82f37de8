import Verif.Nodes.Base

/-! # Arithmetic, mixing and simple sources -/

namespace Verif

/-! ### Pass, Sum, Sum2 -/

/-- The body of `Pass::process` for one input (rs/synth/src/node/pass.rs:42-52). -/
def passBufs (input : List Buf) (out : List Buf) : List Buf :=
  match input, out with
  | [b], [_, _] => [b, b]
  | _, _ => input.take out.length ++ out.drop input.length

/-- rs/synth/src/node/pass.rs:37-53: nothing without input; otherwise the first input in
iteration order. -/
def procPass (ins : Ins) (out : List Buf) : List Buf :=
  match ins with
  | [] => out
  | (_, input) :: _ => passBufs input out

/-- `dasp_slice::add_in_place`. -/
def addBuf (a b : Buf) : Buf := List.zipWith (· +. ·) a b

/-- rs/synth/src/node/sum.rs:51-67. -/
def procSum (ins : Ins) (out : List Buf) : List Buf :=
  out.mapIdx (fun ch b =>
    ins.foldl (fun acc i => match i.2[ch]? with | some x => addBuf acc x | none => acc) (silent b))

/-- One output channel of `Sum2` (rs/synth/src/node/sum.rs:78-91); a missing channel is replaced by
channel 0. -/
def sum2Chan (ins : Ins) (ch : Nat) (b : Buf) : Except Panic Buf :=
  ins.foldlM (fun acc i =>
    match i.2[ch]? with
    | some x => .ok (addBuf acc x)
    | none => do
      let x ← chan i.2 0
      .ok (addBuf acc x)) (silent b)

/-- All output channels of `Sum2`, starting with number `ch`. -/
def sum2From (ins : Ins) : Nat → List Buf → Except Panic (List Buf)
  | _, [] => .ok []
  | ch, b :: bs => do
    let c ← sum2Chan ins ch b
    let cs ← sum2From ins (ch + 1) bs
    .ok (c :: cs)

/-- rs/synth/src/node/sum.rs:71-93. -/
def procSum2 (ins : Ins) (out : List Buf) : Except Panic (List Buf) := sum2From ins 0 out

/-! ### Mul and Add -/

/-- The right output of `apply_op`, if there is one (rs/synth/src/node/operator/mod.rs:26-28,45-50). -/
def setRight (rest : List Buf) (r : Buf) : List Buf :=
  match rest with
  | [] => []
  | _ :: more => r :: more

/-- `main_input.get(1).map_or(main_input[0], ..)` (rs/synth/src/node/operator/mod.rs:27,47-48). -/
def rightOf (bs : List Buf) (left : Buf) : Buf :=
  match bs[1]? with
  | some r => r
  | none => left

/-- rs/synth/src/node/operator/mod.rs:9-53 `apply_op`. -/
def applyOp (op : Fl → Fl → Fl) (order : List Nat) (v : Fl) (ins : Ins) (out : List Buf) :
    Except Panic (List Buf) :=
  match out with
  | [] => .error .indexOutOfBounds
  | _ :: rest =>
    match ins with
    | [(_, main)] => do
      let m0 ← chan main 0
      .ok (m0.map (fun x => op x v) :: setRight rest ((rightOf main m0).map (fun x => op x v)))
    | [_, _] => do
      let main ← inputAt ins order 0
      let ref ← inputAt ins order 1
      let m0 ← chan main 0
      let r0 ← chan ref 0
      .ok (List.zipWith op m0 r0 :: setRight rest (List.zipWith op (rightOf main m0) (rightOf ref r0)))
    | _ => .ok out

/-- rs/synth/src/node/operator/mul.rs:6-9, add.rs:6-9 (`Mul`, `Add`): the value and the input
order. -/
structure Arith where
  val : Fl
  order : List Nat
  deriving Repr, DecidableEq

/-- rs/synth/src/node/operator/mul.rs:32-42, add.rs:38-49. -/
def Arith.msg (a : Arith) (m : Msg Fl) : Except Panic Arith :=
  match m with
  | .setToNumber 0 v => .ok { a with val := v }
  | m => do
    let o ← orderMsg true a.order m
    .ok { a with order := o }

/-- rs/synth/src/node/operator/mul.rs:21-31. -/
def procMul (a : Arith) (ins : Ins) (out : List Buf) : Except Panic (List Buf) :=
  applyOp (Fl.mul f32) a.order a.val ins out

/-- rs/synth/src/node/operator/add.rs:27-36. -/
def procAdd (a : Arith) (ins : Ins) (out : List Buf) : Except Panic (List Buf) :=
  applyOp (Fl.add f32) a.order a.val ins out

/-! ### ConstSig -/

/-- rs/synth/src/node/signal/constsig.rs:4-13. Simplification: `events` and `pattern` are left out;
they are empty for every node the engine builds (rs/main/src/util.rs, `ConstSig::new(..).sr(..)`)
and only filled by `SetPattern`, which is never sent. -/
structure ConstSig where
  val : Fl
  span : Fl
  bpm : Fl
  sr : Nat
  step : Nat
  order : List Nat
  deriving Repr, DecidableEq

/-- rs/synth/src/node/signal/constsig.rs:16-27 with `.sr(sr)` (:45-47). -/
def ConstSig.new (v : Fl) (sr : Nat) : ConstSig := ⟨v, .fin 1, .fin 120, sr, 0, []⟩

/-- rs/synth/src/node/signal/constsig.rs:51-76 without events and patterns. -/
def procConstSig (c : ConstSig) (out : List Buf) : Except Panic (ConstSig × List Buf) :=
  match out with
  | [] => .error .indexOutOfBounds
  | b :: rest => .ok ({ c with step := c.step + b.length }, b.map (fun _ => c.val) :: rest)

/-- rs/synth/src/node/signal/constsig.rs:77-89 (no `ResetOrder`). -/
def ConstSig.msg (c : ConstSig) (m : Msg Fl) : Except Panic ConstSig :=
  match m with
  | .setToNumber 0 v => .ok { c with val := v }
  | .setBPM v => .ok { c with bpm := v }
  | m => do
    let o ← orderMsg false c.order m
    .ok { c with order := o }

/-! ### Impulse -/

/-- rs/synth/src/node/signal/imp.rs:5-10. -/
structure Impulse where
  clock : Nat
  period : Nat
  sr : Nat
  order : List Nat
  deriving Repr, DecidableEq

/-- `(sr as f32 / freq) as usize` (rs/synth/src/node/signal/imp.rs:28). -/
def impPeriod (sr : Nat) (freq : Fl) : Nat := (Fl.ofNat f32 sr /. freq).toUsize

/-- `Impulse::new().sr(sr).freq(freq)` (rs/synth/src/node/signal/imp.rs:19-34,
rs/main/src/util.rs). -/
def Impulse.new (sr : Nat) (freq : Fl) : Impulse := ⟨0, impPeriod sr freq, sr, []⟩

/-- One sample (rs/synth/src/node/signal/imp.rs:46-49): `clock % 0` panics. -/
def impStep (period : Nat) (clock : Nat) (_ : Fl) : Except Panic (Nat × Fl) :=
  if period = 0 then .error .divByZero
  else .ok (clock + 1, if clock % period = 0 then .fin 1 else .fin 0)

/-- rs/synth/src/node/signal/imp.rs:38-50. -/
def procImp (s : Impulse) (out : List Buf) : Except Panic (Impulse × List Buf) :=
  match out with
  | [] => .error .indexOutOfBounds
  | b :: rest => do
    let (c, o) ← runM (impStep s.period) s.clock b
    .ok ({ s with clock := c }, o :: rest)

/-- rs/synth/src/node/signal/imp.rs:52-59 (no `ResetOrder`). -/
def Impulse.msg (s : Impulse) (m : Msg Fl) : Except Panic Impulse :=
  match m with
  | .setToNumber 0 v => .ok { s with period := impPeriod s.sr v }
  | m => do
    let o ← orderMsg false s.order m
    .ok { s with order := o }

/-! ### Noise -/

/-- rs/synth/src/node/signal/noise.rs:6-9: the seed and the number of values drawn so far stand for
`sig`. -/
structure Noise where
  seed : Nat
  drawn : Nat
  order : List Nat
  deriving Repr, DecidableEq

/-- The next value, `as f32`. -/
def noiseStep (m : Libm) (seed : Nat) (k : Nat) (_ : Fl) : Nat × Fl :=
  (k + 1, Fl.conv f32 (m.noise seed k))

/-- The loop over the output buffers (rs/synth/src/node/signal/noise.rs:22-25). -/
def noiseBufs (m : Libm) (seed : Nat) : Nat → List Buf → Nat × List Buf
  | k, [] => (k, [])
  | k, b :: bs =>
    let r := run (noiseStep m seed) k b
    let q := noiseBufs m seed r.1 bs
    (q.1, r.2 :: q.2)

/-- rs/synth/src/node/signal/noise.rs:20-26. -/
def procNoise (m : Libm) (s : Noise) (out : List Buf) : Noise × List Buf :=
  let r := noiseBufs m s.seed s.drawn out
  ({ s with drawn := r.1 }, r.2)

/-- rs/synth/src/node/signal/noise.rs:27-34 (no `ResetOrder`; `value as u64`). -/
def Noise.msg (s : Noise) (m : Msg Fl) : Except Panic Noise :=
  match m with
  | .setToNumber 0 v => .ok { s with seed := v.toUsize, drawn := 0 }
  | m => do
    let o ← orderMsg false s.order m
    .ok { s with order := o }

/-! ### Speed -/

/-- rs/synth/src/node/sequencer/speed.rs:5-8; the same shape as `Arith`. Output: the value in the
first sample, zeros after it (:20-23). -/
def procSpeed (a : Arith) (out : List Buf) : Except Panic (List Buf) :=
  match out with
  | [] => .error .indexOutOfBounds
  | [] :: _ => .error .indexOutOfBounds
  | (_ :: b) :: rest => .ok ((a.val :: silent b) :: rest)

/-! ### Pan and Balance -/

/-- The two outputs for one sample (rs/synth/src/node/effect/pan.rs:27-29,36-39). -/
def panSample (m : Libm) (pos x : Fl) : Fl × Fl :=
  let norm := (pos +. .fin 1) /. .fin 2
  (m.sqrt (.fin 1 -. norm) *. x, m.sqrt norm *. x)

/-- `left`, `right` of `output.split_at_mut(1)` with `right[0]` (rs/synth/src/node/effect/pan.rs:31-35). -/
def setStereo (out : List Buf) (l r : Buf) : Except Panic (List Buf) :=
  match out with
  | _ :: _ :: more => .ok (l :: r :: more)
  | _ => .error .indexOutOfBounds

/-- rs/synth/src/node/effect/pan.rs:20-61. With anything but one input the ordered inputs are
used. -/
def procPan (m : Libm) (a : Arith) (ins : Ins) (out : List Buf) : Except Panic (List Buf) :=
  match ins with
  | [(_, main)] => do
    let x ← chan main 0
    setStereo out (x.map (fun v => (panSample m a.val v).1)) (x.map (fun v => (panSample m a.val v).2))
  | _ => do
    let ref ← inputAt ins a.order 1
    let main ← inputAt ins a.order 0
    let r ← chan ref 0
    let x ← chan main 0
    setStereo out (List.zipWith (fun p v => (panSample m p v).1) r x)
      (List.zipWith (fun p v => (panSample m p v).2) r x)

/-- `f32::clamp(-1.0, 1.0)` (rs/synth/src/node/effect/pan.rs:66). -/
def clamp1 (v : Fl) : Fl :=
  if Fl.lt v (.fin (-1)) then .fin (-1) else if Fl.lt (.fin 1) v then .fin 1 else v

/-- rs/synth/src/node/effect/pan.rs:63-73. -/
def panMsg (a : Arith) (m : Msg Fl) : Except Panic Arith :=
  match m with
  | .setToNumber 0 v => .ok { a with val := clamp1 v }
  | m => do
    let o ← orderMsg true a.order m
    .ok { a with order := o }

/-- rs/synth/src/node/effect/balance.rs:23-34. -/
def procBalance (order : List Nat) (ins : Ins) (out : List Buf) : Except Panic (List Buf) :=
  match ins with
  | [_, _] => do
    let l ← inputAt ins order 0
    let r ← inputAt ins order 1
    let l0 ← chan l 0
    let r0 ← chan r 0
    setStereo out l0 r0
  | _ => .ok out

end Verif
