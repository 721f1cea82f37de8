import Verif.Spec.Nodes

/-!
# The equations of filters

Digital filters as their difference equations, in f32 arithmetic in the order in which the terms are written.
-/

namespace Verif.Spec

/-- The sample `k` before sample `t` of a stream, 0 before its start. -/
def before (xs : List Fl) (t k : Nat) : Fl := if k ≤ t then xs.getD (t - k) (.fin 0) else .fin 0

/-- `y[t] = a x[t] + b y[t-1]` -/
def OnePoleEq (a b : Nat → Fl) (xs ys : List Fl) : Prop :=
  ys.length = xs.length ∧ ∀ t, t < xs.length → ys[t]? = some (before xs t 0 *. a t +. b t *. before ys t 1)

/-- The coefficients of a filter of second order. -/
structure Coefs where
  a0 : Fl
  a1 : Fl
  a2 : Fl
  b1 : Fl
  b2 : Fl
  deriving DecidableEq

/-- `y[t] = a0 x[t] + a1 x[t-1] + a2 x[t-2] - b1 y[t-1] - b2 y[t-2]` -/
def SecondOrderEq (c : Nat → Coefs) (xs ys : List Fl) : Prop :=
  ys.length = xs.length ∧ ∀ t, t < xs.length → ys[t]? = some
    ((c t).a0 *. before xs t 0 +. (c t).a1 *. before xs t 1 +. (c t).a2 *. before xs t 2 -. (c t).b1 *. before ys t 1
      -. (c t).b2 *. before ys t 2)

/-- The same equation without the term of the current sample. -/
def LaggingEq (c : Nat → Coefs) (xs ys : List Fl) : Prop :=
  ys.length = xs.length ∧ ∀ t, t < xs.length → ys[t]? = some
    ((c t).a0 *. .fin 0 +. (c t).a1 *. before xs t 1 +. (c t).a2 *. before xs t 2 -. (c t).b1 *. before ys t 1
      -. (c t).b2 *. before ys t 2)

/-- `y[t] = -g x[t] + x[t-d] + g y[t-d]` -/
def AllPassEq (g : Fl) (d : Nat) (xs ys : List Fl) : Prop :=
  ys.length = xs.length ∧ ∀ t, t < xs.length → ys[t]? = some
    (Fl.neg g *. before xs t 0 +. before xs t d +. g *. before ys t d)

/-- The angle of a cutoff frequency: `2π cutoff / sr`. -/
def angle (cutoff : Fl) (sr : Nat) : Fl := .fin 2 *. flPi *. cutoff /. Fl.ofNat f32 sr

/-- `beta = (1 - sin θ / 2q) / (1 + sin θ / 2q) / 2` -/
def beta (m : Libm) (th q : Fl) : Fl :=
  .fin (1 / 2) *. (.fin 1 -. .fin 1 /. q *. m.sin th /. .fin 2) /. (.fin 1 +. .fin 1 /. q *. m.sin th /. .fin 2)

/-- `gamma = (1/2 + beta) cos θ` -/
def gamma (m : Libm) (th q : Fl) : Fl := (.fin (1 / 2) +. beta m th q) *. m.cos th

/-- The coefficients of the resonant high pass. -/
def highPass (m : Libm) (sr : Nat) (cutoff q : Fl) : Coefs :=
  ⟨(.fin (1 / 2) +. beta m (angle cutoff sr) q +. gamma m (angle cutoff sr) q) /. .fin 2,
    .fin (-1 / 2) -. beta m (angle cutoff sr) q -. gamma m (angle cutoff sr) q,
    (.fin (1 / 2) +. beta m (angle cutoff sr) q +. gamma m (angle cutoff sr) q) /. .fin 2,
    .fin (-2) *. gamma m (angle cutoff sr) q, .fin 2 *. beta m (angle cutoff sr) q⟩

/-- The coefficients of the resonant low pass. -/
def lowPass (m : Libm) (sr : Nat) (cutoff q : Fl) : Coefs :=
  ⟨(.fin (1 / 2) +. beta m (angle cutoff sr) q -. gamma m (angle cutoff sr) q) /. .fin 2,
    .fin (1 / 2) +. beta m (angle cutoff sr) q -. gamma m (angle cutoff sr) q,
    (.fin (1 / 2) +. beta m (angle cutoff sr) q -. gamma m (angle cutoff sr) q) /. .fin 2,
    .fin (-2) *. gamma m (angle cutoff sr) q, .fin 2 *. beta m (angle cutoff sr) q⟩

/-- The coefficient `exp(-2π rate)` of a filter of first order. -/
def pole (m : Libm) (rate : Fl) : Fl := m.exp (.fin (-2) *. flPi *. rate)

/-- The value in force at sample `t` under a pattern of values with their places in a bar of `bar` samples that is repeated
without end: the last one that occurred at or before `t`; of two in the same place the later one in the list; `first` before
the first occurrence. -/
def inForce (first : Fl) (bar : Nat) (p : List (Fl × Nat)) (t : Nat) : Fl :=
  ((List.range (t + 1)).flatMap (fun u => (p.filter (fun e => u % bar = e.2)).map Prod.fst)).getLastD first

/-- The left channel of a stream of pairs in blocks. -/
def lefts (xs : List (List (Fl × Fl))) : List Fl := xs.flatten.map Prod.fst

end Verif.Spec
