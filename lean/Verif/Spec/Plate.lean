import Verif.Spec.Filter
import Verif.Spec.Voices

/-!
# The network of the plate reverb

The lines of the reverb are streams of samples, each with the equation that it has to fulfil. The names are those of
rs/synth/src/node/effect/plate.rs:22-152; there is no notion of blocks here.
-/

namespace Verif.Spec

/-- The number nearest to the decimal `q`. -/
def num (q : ℚ) : Fl := Fl.lit f32 q

/-- Streams of the same length; every sample of `ys` is the sum of the samples of the streams `ls` at that time, in whatever
order they are added. -/
def Mixed (ls : List (List Fl)) (ys : List Fl) : Prop :=
  (∀ l ∈ ls, l.length = ys.length) ∧ ∀ t, t < ys.length → ∃ vs, vs.Perm (ls.map (fun l => before l t 0)) ∧ ys[t]? = some (flSum vs)

/-- Every sample is multiplied with `v`. -/
def Scaled (v : Fl) (xs ys : List Fl) : Prop := ys = xs.map (fun x => x *. v)

/-- The sample at time `t` is multiplied with `v t`. -/
def ScaledBy (v : Nat → Fl) (xs ys : List Fl) : Prop := ys = xs.mapIdx (fun t x => x *. v t)

/-- The place, in samples behind the oldest sample of a line of 4410 samples, for a delay of `md` ms. -/
def place (md : Fl) : Fl := Fl.neg md /. .fin 1000 *. .fin 44100 +. .fin 4410

/-- The value of a stream between two neighbouring samples, counted from the time 4410 samples before. The nearer one of the
two has the smaller weight: this is how the code interpolates. -/
def between (xs : List Fl) (t : Nat) (p : Fl) : Fl :=
  before xs t (4410 - (Fl.floor p).toUsize) *. Fl.fract f32 p +.
    before xs t (4410 - ((Fl.floor p).toUsize + 1)) *. (.fin 1 -. Fl.fract f32 p)

/-- `y[t] = -g x[t] + x[t-d] + g y[t-d]` where `d` is `ms[t]` milliseconds. -/
def WobbleEq (g : Fl) (ms xs ys : List Fl) : Prop :=
  ys.length = xs.length ∧ ∀ t, t < xs.length → ys[t]? = some
    (Fl.neg g *. before xs t 0 +. between xs t (place (before ms t 0)) +. g *. between ys t (place (before ms t 0)))

/-- The filter of first order. -/
def Damped (m : Libm) (rate : ℚ) (xs ys : List Fl) : Prop :=
  OnePoleEq (fun _ => .fin 1 -. pole m (num rate)) (fun _ => pole m (num rate)) xs ys

/-- The lines of the reverb. -/
structure PlateLines where
  wet1 : List Fl
  wet2 : List Fl
  wet3 : List Fl
  wet4 : List Fl
  wet5 : List Fl
  wet6 : List Fl
  wet7 : List Fl
  wet8 : List Fl
  mod3 : List Fl
  aa : List Fl
  ab : List Fl
  ac : List Fl
  ba1 : List Fl
  ba2 : List Fl
  ba3 : List Fl
  bb : List Fl
  bc : List Fl
  ca : List Fl
  cb : List Fl
  cc1 : List Fl
  cc2 : List Fl
  da1 : List Fl
  da2 : List Fl
  db : List Fl
  dc : List Fl
  ea1 : List Fl
  ea2 : List Fl
  eb : List Fl
  fa1 : List Fl
  fa2 : List Fl
  fb : List Fl
  fb1 : List Fl
  fb2 : List Fl
  lsub : List Fl
  lsub2 : List Fl
  left : List Fl
  leftwet : List Fl
  leftdry : List Fl
  leftmix : List Fl
  rsub : List Fl
  rsub2 : List Fl
  right : List Fl
  rightwet : List Fl
  rightdry : List Fl
  rightmix : List Fl

/-- The equations of the lines for the input `x`, the part `mix` of the wet signal, and the outputs `l` and `r`. The line
`ab` is longer than written by `late` samples. -/
structure PlateNet (m : Libm) (late : Nat) (mix : Nat → Fl) (x : List Fl) (L : PlateLines) (l r : List Fl) : Prop where
  wet1 : Damped m (7 / 10) x L.wet1
  wet2 : Delayed 2205 L.wet1 L.wet2
  wet3 : AllPassEq (.fin (3 / 4)) 210 L.wet2 L.wet3
  wet4 : AllPassEq (.fin (3 / 4)) 158 L.wet3 L.wet4
  wet5 : AllPassEq (.fin (5 / 8)) 560 L.wet4 L.wet5
  wet6 : AllPassEq (.fin (5 / 8)) 410 L.wet5 L.wet6
  wet7 : L.wet7 = List.zipWith (· +. ·) L.wet6 L.fb2
  mod3 : L.mod3 = (List.range x.length).map (fun t =>
    m.sin (rampAt (num (1 / 10) /. .fin 44100) t *. .fin 2 *. flPi) *. .fin (11 / 2) +. .fin (59 / 2))
  wet8 : WobbleEq (num (7 / 10)) L.mod3 L.wet7 L.wet8
  aa : Delayed 394 L.wet8 L.aa
  ab : Delayed (2800 + late) L.aa L.ab
  ac : Delayed 1204 L.ab L.ac
  ba1 : Delayed 2000 L.ac L.ba1
  ba2 : Damped m (1 / 10) L.ba1 L.ba2
  ba3 : AllPassEq (.fin (1 / 2)) 334 L.ba2 L.ba3
  bb : AllPassEq (.fin (1 / 2)) 1577 L.ba3 L.bb
  bc : WobbleEq (.fin (1 / 2)) L.mod3 L.bb L.bc
  ca : Delayed 179 L.bc L.ca
  cb : Delayed 2679 L.ca L.cb
  cc1 : Delayed 3500 L.cb L.cc1
  cc2 : Scaled (num (3 / 10)) L.cc1 L.cc2
  da1 : AllPassEq (num (7 / 10)) 1323 L.cc2 L.da1
  da2 : Delayed 522 L.da1 L.da2
  db : Delayed 2400 L.da2 L.db
  dc : Delayed 2400 L.db L.dc
  ea1 : Damped m (1 / 10) L.dc L.ea1
  ea2 : AllPassEq (num (7 / 10)) 273 L.ea1 L.ea2
  eb : AllPassEq (num (7 / 10)) 1539 L.ea2 L.eb
  fa1 : AllPassEq (num (7 / 10)) 899 L.eb L.fa1
  fa2 : Delayed 1578 L.fa1 L.fa2
  fb : Delayed 2378 L.fa2 L.fb
  fb1 : Delayed 2500 L.fb L.fb1
  fb2 : Scaled (num (3 / 10)) L.fb1 L.fb2
  lsub : Mixed [L.bb, L.db, L.ea2, L.fa2] L.lsub
  lsub2 : Scaled (.fin (-1)) L.lsub L.lsub2
  left : Mixed [L.aa, L.ab, L.cb, L.lsub2] L.left
  leftwet : ScaledBy mix L.left L.leftwet
  leftdry : ScaledBy (fun t => .fin 1 -. mix t) x L.leftdry
  leftmix : Mixed [L.leftdry, L.leftwet] L.leftmix
  rsub : Mixed [L.eb, L.ab, L.ba3, L.ca] L.rsub
  rsub2 : Scaled (.fin (-1)) L.rsub L.rsub2
  right : Mixed [L.da2, L.db, L.fb, L.rsub2] L.right
  rightwet : ScaledBy mix L.right L.rightwet
  rightdry : ScaledBy (fun t => .fin 1 -. mix t) x L.rightdry
  rightmix : Mixed [L.rightdry, L.rightwet] L.rightmix
  l : l = L.leftmix.map (.fin 0 +. ·)
  r : r = L.rightmix.map (.fin 0 +. ·)

end Verif.Spec
