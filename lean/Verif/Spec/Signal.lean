import Verif.Spec.Nodes
import Verif.ParseSeq

/-!
# Vocabulary for statements about envelopes, sequencers and samplers

Everything here speaks about streams of samples.
-/

namespace Verif.Spec

/-- A positive sample. -/
def Positive (x : Fl) : Prop := Fl.lt (.fin 0) x = true

/-- The last positive sample of `xs` up to time `t` is `x`, at time `s`. -/
def LastTrigger (xs : List Fl) (t s : Nat) (x : Fl) : Prop :=
  s ≤ t ∧ xs[s]? = some x ∧ Positive x ∧ ∀ u z, s < u → u ≤ t → xs[u]? = some z → ¬ Positive z

/-- There is no positive sample up to time `t`. -/
def Untriggered (xs : List Fl) (t : Nat) : Prop := ∀ u z, u ≤ t → xs[u]? = some z → ¬ Positive z

/-- The exact shape of a percussive envelope: up to 1 in `a` samples, down to 0 in `d` samples. -/
def percRamp (a d p : Nat) : ℚ :=
  if p ≤ a then (if a = 0 then 0 else p / a)
  else if p ≤ a + d then ((a + d : Nat) - p : ℚ) / d
  else 0

/-- `n` is the number of samples in `t` seconds, up to one sample and the rounding of f32. -/
def InSamples (sr : Nat) (t : Fl) (n : Nat) : Prop :=
  |(n : ℚ) - t.val * sr| ≤ 1 + t.val * sr / 2 ^ 23

/-- The output `y` of a percussive envelope `p` samples after a trigger of amplitude `x`. -/
def PercAt (a d p : Nat) (x y : Fl) : Prop :=
  Within 0 x.val y ∧ (p = a → 1 ≤ a → y.val = x.val) ∧ (a + d < p → y.val = 0) ∧
  (a ≤ 2 ^ 24 → d ≤ 2 ^ 24 → |y.val - percRamp a d p * x.val| ≤ x.val / 2 ^ 22 + 1 / 2 ^ 150)

/-- A sample that counts as zero. -/
def IsZero (x : Fl) : Prop := Fl.beq x (.fin 0) = true

/-- The gate went up at time `s` (the sample before, if any, is zero) and has been up until `t`. -/
def HeldSince (xs : List Fl) (t s : Nat) : Prop :=
  s ≤ t ∧ (∀ z, 1 ≤ s → xs[s - 1]? = some z → IsZero z) ∧
  ∀ u z, s ≤ u → u ≤ t → xs[u]? = some z → Positive z

/-- The gate went down at time `s` and has been down until `t`. -/
def ReleasedSince (xs : List Fl) (t s : Nat) : Prop :=
  1 ≤ s ∧ s ≤ t ∧ (∀ z, xs[s - 1]? = some z → Positive z) ∧
  ∀ u z, s ≤ u → u ≤ t → xs[u]? = some z → IsZero z

/-- The output `y` of an envelope with attack `a`, decay `d` (in samples) and sustain level `sus`, `p`
samples after the gate went up, the output having been 0 before. -/
def HeldAt (a d : Nat) (sus : Fl) (p : Nat) (y : Fl) : Prop :=
  (p = a → 1 ≤ a → y.val = 1) ∧
  (p ≤ a → 1 ≤ a → a ≤ 2 ^ 24 → |y.val - p / a| ≤ 1 / 2 ^ 20) ∧
  (a ≤ p → 1 ≤ a → sus.val ≤ y.val) ∧
  (a < p → p ≤ a + d → d ≤ 2 ^ 24 →
    |y.val - (sus.val + ((a + d : Nat) - p : ℚ) / d * (1 - sus.val))| ≤ 1 / 2 ^ 20) ∧
  (a + d < p → y = sus)

/-- The output `y` of an envelope with release `r` (in samples), `p` samples after the gate went down,
the output having been `c` before. -/
def ReleasedAt (r : Nat) (c : Fl) (p : Nat) (y : Fl) : Prop :=
  y.val ≤ c.val ∧ (p = 0 → 1 ≤ r → y.val = c.val) ∧ (r ≤ p → y.val = 0) ∧
  (p < r → r ≤ 2 ^ 24 → |y.val - ((r : ℚ) - p) / r * c.val| ≤ 1 / 2 ^ 20)

/-- The exact place, in samples, of a breakpoint written as a part of the bar plus a time. -/
def pointPos (sr : Nat) (bpm span : ℚ) (t : TimeList) : ℚ :=
  t.bar.val * (240 / bpm * span * sr) +
    match t.time with
    | none => 0
    | some (.bar b) => b.val * (240 / bpm * span * sr)
    | some (.sec s) => s.val * sr
    | some (.ms x) => x.val / 1000 * sr

/-- The breakpoints of a node as places and values: the list starts at place 0, with value 0 unless the
first breakpoint is there. -/
def breakpoints (sr : Nat) (bpm span : ℚ) (ps : List (TimeList × Fl)) : List (ℚ × Fl) :=
  match ps.map (fun p => (pointPos sr bpm span p.1, p.2)) with
  | [] => []
  | p :: rest => if p.1 = 0 then p :: rest else (0, .fin 0) :: p :: rest

/-- The straight line through `(a, v)` and `(b, w)` at `t`. -/
def lineAt (a b v w t : ℚ) : ℚ := v + (t - a) / (b - a) * (w - v)

/-- Non-negative numbers that are zero or of a size met in practice. -/
def Sane (x : Fl) : Prop := x.isFinite = true ∧ (x.val = 0 ∨ 1 / 2 ^ 20 ≤ x.val) ∧ x.val ≤ 2 ^ 20

/-- All numbers of a breakpoint time are sane. -/
def TimeSane (t : TimeList) : Prop :=
  Sane t.bar ∧ ∀ d, t.time = some d → match d with
    | .bar b => Sane b
    | .sec s => Sane s
    | .ms x => Sane x

/-- What an element of a sequencer pattern puts out when its time has come and there are no inputs: the
frequency ratio of the note to note 60; 0 for rests and note 0 (and references, which have nothing to
refer to). -/
def noteOut (m : Libm) : SeqElem → Fl
  | .note 0 => .fin 0
  | .note (k + 1) => m.powf (.fin 2) ((Fl.ofNat f32 (k + 1) -. .fin 60) /. .fin 12)
  | .rest => .fin 0
  | .ref _ => .fin 0

/-- The length of a bar (four beats) in samples. -/
def barSamples (sr : Nat) (bpm : ℚ) : ℚ := 240 / bpm * sr

end Verif.Spec

namespace Verif.Spec

/-- Samples the player can play: not empty (nor too long for the memory), with some channels, and with
at least two frames if stereo. -/
def Playable (s : Sample) : Prop :=
  s.data ≠ [] ∧ 1 ≤ s.channels ∧ s.data.length ≤ 2 ^ 64 ∧ (s.channels = 2 → 2 ≤ s.data.length / 2)

/-- The stream `xs` with everything but sample `u` set to zero. -/
def onlyAt (u : Nat) (xs : List Fl) : List Fl := xs.mapIdx (fun i x => if i = u then x else .fin 0)

end Verif.Spec
