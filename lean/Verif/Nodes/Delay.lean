import Verif.Nodes.Basic
import Verif.Lemmas.Fl

/-! # The delay lines -/

namespace Verif

/-! ### DelayN -/

/-- rs/synth/src/node/delay/delayn.rs:7-11. -/
structure DelayN where
  buf : Ring
  n : Nat
  order : List Nat
  deriving Repr, DecidableEq

/-- rs/synth/src/node/delay/delayn.rs:14-26. -/
def DelayN.new (n : Nat) : DelayN :=
  ⟨⟨List.replicate (if n = 0 then 1 else n) (.fin 0), 0⟩, n, []⟩

/-- rs/synth/src/node/delay/delayn.rs:30-61. The right output is only written for a mono input. -/
def procDelayN (d : DelayN) (ins : Ins) (out : List Buf) : Except Panic (DelayN × List Buf) :=
  match ins with
  | [(_, main)] =>
    if d.n = 0 then .ok (d, passBufs main out)
    else
      match out with
      | [] => .error .indexOutOfBounds
      | _ :: rest => do
        let x ← chan main 0
        let (r, y) ← runM Ring.push d.buf x
        .ok ({ d with buf := r }, y :: (if main.length = 1 ∧ rest.length = 1 then [y] else rest))
  | _ => .ok (d, out)

/-- rs/synth/src/node/delay/delayn.rs:63-80. `SetToNumber` with a value below 1 panics
(`Fixed::from(vec![])`). -/
def DelayN.msg (d : DelayN) (m : Msg Fl) : Except Panic DelayN :=
  match m with
  | .setToNumber 0 v => do
    let b ← Ring.from' (List.replicate v.toUsize (.fin 0))
    .ok { d with n := v.toUsize, buf := b }
  | m => do
    let o ← orderMsg true d.order m
    .ok { d with order := o }

/-! ### DelayMs -/

/-- rs/synth/src/node/delay/delayms.rs:6-11. -/
structure DelayMs where
  buf : List Ring
  sr : Nat
  order : List Nat
  n : Nat
  deriving Repr, DecidableEq

/-- `delay / 1000. * sr as f32` (rs/synth/src/node/delay/delayms.rs:30,105). -/
def msToSamples (sr : Nat) (ms : Fl) : Fl := (ms /. .fin 1000) *. Fl.ofNat f32 sr

/-- `DelayMs::new().sr(sr).delay(ms, chan)` (rs/synth/src/node/delay/delayms.rs:20-43). -/
def DelayMs.new (sr : Nat) (ms : Fl) (chans : Nat) : DelayMs :=
  let n := max (msToSamples sr ms).toUsize 1
  ⟨List.replicate chans ⟨List.replicate n (.fin 0), 0⟩, sr, [], n⟩

/-- One channel without modulation (rs/synth/src/node/delay/delayms.rs:61-71): the lines, outputs
and inputs are zipped. -/
def delayMsPlain : List Ring → List Buf → List Buf → Except Panic (List Ring × List Buf)
  | r :: rs, _ :: out, x :: xs => do
    let (r', y) ← runM Ring.push r x
    let (rs', ys) ← delayMsPlain rs out xs
    .ok (r' :: rs', y :: ys)
  | rs, out, _ => .ok (rs, out)

theorem wrapUp_lt {q v : ℚ} (hq : q < 0) (hv : v = 0 ∨ (q < v ∧ ∃ k : Int, v * 2 ^ 149 = k)) :
    (⌈-v * 2 ^ 149⌉).toNat < (⌈-q * 2 ^ 149⌉).toNat := by
  have hpos : 0 < ⌈-q * 2 ^ 149⌉ := Int.ceil_pos.mpr (by
    apply mul_pos (by linarith); norm_num)
  rcases hv with rfl | ⟨hlt, k, hk⟩
  · have : ⌈-(0 : ℚ) * 2 ^ 149⌉ = 0 := by simp
    rw [this]; omega
  · have h1 : ⌈-v * 2 ^ 149⌉ = -k := by
      rw [neg_mul, hk, ← Int.cast_neg, Int.ceil_intCast]
    have h2 : -k < ⌈-q * 2 ^ 149⌉ := by
      rw [Int.lt_ceil]
      push_cast
      rw [← hk, neg_mul]
      have : q * 2 ^ 149 < v * 2 ^ 149 := mul_lt_mul_of_pos_right hlt (by norm_num)
      linarith
    rw [h1]
    omega

theorem rep_f32_int {x : ℚ} (h : f32.Rep x) : ∃ k : Int, x * 2 ^ 149 = k := by
  obtain ⟨m, e, _, he, rfl⟩ := h
  obtain ⟨d, hd⟩ := Int.le.dest he
  refine ⟨m * 2 ^ d, ?_⟩
  have : (2 : ℚ) ^ (149 : Nat) = pow2 149 := by rw [pow2_eq]; norm_num
  rw [this, mul_assoc, ← pow2_add]
  have hx : e + 149 = (d : Int) := by simp [f32] at hd; omega
  rw [hx, pow2_nat]
  push_cast
  rfl

theorem wrapUp_dec {len pos : Fl} (h : Fl.lt pos (.fin 0) = true)
    (h2 : Fl.lt pos (pos +. len) = true) :
    (⌈-(pos +. len).val * 2 ^ 149⌉).toNat < (⌈-pos.val * 2 ^ 149⌉).toNat := by
  cases pos with
  | nan => simp [Fl.lt] at h
  | nz => simp [Fl.lt, Fl.val] at h
  | inf s =>
    cases s
    · simp [Fl.lt] at h
    · cases len <;> simp only [Fl.add] at h2
      · simp [Fl.lt] at h2
      · rename_i t
        cases t <;> simp [Fl.lt] at h2
      · simp [Fl.lt] at h2
      · simp [Fl.lt] at h2
  | fin q =>
    have hq : q < 0 := of_decide_eq_true h
    have key : ∀ v : ℚ, Fl.lt (.fin q) (Fl.round f32 false v) = true →
        (⌈-(Fl.round f32 false v).val * 2 ^ 149⌉).toNat < (⌈-q * 2 ^ 149⌉).toNat := by
      intro v hl
      unfold Fl.round at hl ⊢
      split at hl
      · rename_i h0
        rw [if_pos h0]
        exact wrapUp_lt hq (Or.inl rfl)
      · rename_i h0
        rw [if_neg h0]
        split at hl
        · rename_i h1
          rw [if_pos h1]
          exact wrapUp_lt hq (Or.inl rfl)
        · rename_i h1
          rw [if_neg h1]
          split at hl
          · simp [Fl.lt] at hl
          · rename_i h3
            rw [if_neg h3]
            apply wrapUp_lt hq
            right
            refine ⟨of_decide_eq_true hl, ?_⟩
            exact rep_f32_int (Fmt.rep_rnd v)
    cases len with
    | nan => simp [Fl.add, Fl.lt] at h2
    | inf t => exact wrapUp_lt hq (Or.inl rfl)
    | nz => exact key _ h2
    | fin v => exact key _ h2

/-- `while pos < 0. { pos += len }` (rs/synth/src/node/delay/delayms.rs:81-83). When the addition no
longer changes `pos` the real loop runs forever (`Panic.hang`). `len` is a length, so it is not
negative; the last branch is only taken for NaN, which ends the loop. -/
def wrapUp (len : Fl) (pos : Fl) : Except Panic Fl :=
  if _h : Fl.lt pos (.fin 0) then
    if _h2 : Fl.lt pos (pos +. len) then wrapUp len (pos +. len)
    else if Fl.beq pos (pos +. len) then .error .hang
    else .ok (pos +. len)
  else .ok pos
  termination_by (⌈-pos.val * 2 ^ 149⌉).toNat
  decreasing_by
    exact wrapUp_dec _h _h2

/-- The length of the line in `self.buf[0].len() as f32` (rs/synth/src/node/delay/delayms.rs:82). -/
def lineLen (bufs : List Ring) : Except Panic Fl :=
  match bufs with
  | [] => .error .indexOutOfBounds
  | r :: _ => .ok (Fl.ofNat f32 r.len)

/-- The read position for one value of the modulation (rs/synth/src/node/delay/delayms.rs:80-85).
The line length is only looked up when the position is negative. -/
def readPos (bufs : List Ring) (sr : Nat) (md : Fl) : Except Panic (Nat × Fl) :=
  let pos := msToSamples sr (Fl.neg md)
  if Fl.lt pos (.fin 0) then do
    let len ← lineLen bufs
    let p ← wrapUp len pos
    .ok ((Fl.floor p).toUsize, Fl.fract f32 p)
  else .ok ((Fl.floor pos).toUsize, Fl.fract f32 pos)

/-- One channel of one sample of the modulated line (rs/synth/src/node/delay/delayms.rs:93-96): reads
by linear interpolation, then writes. -/
def modStep (r : Ring) (a : (Nat × Fl) × Fl) : Except Panic (Ring × Fl) := do
  let u ← r.get a.1.1
  if a.1.1 = 2 ^ 64 - 1 then .error .overflow
  else
    let v ← r.get (a.1.1 + 1)
    let (r', _) ← r.push a.2
    .ok (r', u *. a.1.2 +. v *. (.fin 1 -. a.1.2))

/-- The channels of the modulated line (rs/synth/src/node/delay/delayms.rs:87-97). Simplification:
the code goes sample by sample through all channels; as the channels do not share state they are
taken one after the other here. -/
def delayMsMod (pos : List (Nat × Fl)) : List Ring → List Buf → List Buf →
    Except Panic (List Ring × List Buf)
  | r :: rs, _ :: out, x :: xs => do
    let (r', y) ← runM modStep r (pos.zip x)
    let (rs', ys) ← delayMsMod pos rs out xs
    .ok (r' :: rs', y :: ys)
  | rs, out, _ => .ok (rs, out)

/-- rs/synth/src/node/delay/delayms.rs:47-102. Without input `unwrap` panics; if the first input
in iteration order has no or more than two channels nothing is done. -/
def procDelayMs (d : DelayMs) (ins : Ins) (out : List Buf) : Except Panic (DelayMs × List Buf) :=
  match ins with
  | [] => .error .missing
  | (_, main) :: more =>
    if main.length = 0 ∨ 2 < main.length then .ok (d, out)
    else
      match more with
      | [] =>
        if d.n = 0 then
          match out with
          | [] => .error .indexOutOfBounds
          | _ :: rest => do
            let x ← chan main 0
            .ok (d, x :: rest)
        else do
          let (b, y) ← delayMsPlain d.buf out main
          .ok ({ d with buf := b }, y)
      | [_] => do
        let main ← inputAt ins d.order 0
        let ref ← inputAt ins d.order 1
        let md ← chan ref 0
        let pos ← md.mapM (readPos d.buf d.sr)
        let (b, y) ← delayMsMod pos d.buf out main
        .ok ({ d with buf := b }, y)
      | _ => .ok (d, out)

/-- rs/synth/src/node/delay/delayms.rs:104-124. -/
def DelayMs.msg (d : DelayMs) (m : Msg Fl) : Except Panic DelayMs :=
  match m with
  | .setToNumber 0 v =>
    let n := (msToSamples d.sr v).toUsize
    .ok { d with n := n, buf := if n = 0 then []
                                else d.buf.map (fun _ => ⟨List.replicate n (.fin 0), 0⟩) }
  | m => do
    let o ← orderMsg true d.order m
    .ok { d with order := o }

end Verif
