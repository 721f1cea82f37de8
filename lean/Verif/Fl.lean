import Mathlib.Data.Rat.Floor

/-!
# Binary floating point

Models the `f32`/`f64` arithmetic of the audio code (IEEE 754 binary32/binary64: round to nearest,
ties to even, gradual underflow, overflow to infinity, one NaN). Every `f32`/`f64` expression of
`/repo/rs` that is modelled uses these operations, each rounding its exact result.
Simplification: all NaNs are the same value. The transcendental functions are parameters (see
`Verif/Nodes/Base.lean`).
-/

namespace Verif

/-- A floating point number: NaN, an infinity (`true` = negative), negative zero, or the finite
number `q` (`fin 0` is positive zero). -/
inductive Fl where
  | nan
  | inf (neg : Bool)
  | nz
  | fin (q : ℚ)
  deriving DecidableEq, Repr

/-- A binary format: `p` bits of precision, smallest quantum `2 ^ emin`, largest quantum
`2 ^ emax`. -/
structure Fmt where
  p : Nat
  emin : Int
  emax : Int

/-- Rust `f32`. -/
def f32 : Fmt := ⟨24, -149, 104⟩

/-- Rust `f64`. -/
def f64 : Fmt := ⟨53, -1074, 971⟩

/-- `2 ^ e`. -/
def pow2 : Int → ℚ
  | .ofNat n => ((2 ^ n : Nat) : ℚ)
  | .negSucc n => mkRat 1 (2 ^ (n + 1))

/-- The integer nearest to `x`, the even one of two. -/
def rne (x : ℚ) : Int :=
  let n := x.floor
  let r := x - n
  if r < 1 / 2 then n else if 1 / 2 < r then n + 1 else if n % 2 = 0 then n else n + 1

/-- The exponent of the largest power of two not above the positive rational `x`. -/
def ilog2 (x : ℚ) : Int :=
  let e : Int := (Nat.log2 x.num.natAbs : Int) - (Nat.log2 x.den : Int)
  if pow2 e ≤ x then e else e - 1

/-- The quantum exponent for numbers of the size of `x`. -/
def Fmt.quantum (f : Fmt) (x : ℚ) : Int := max (ilog2 |x| - ((f.p : Int) - 1)) f.emin

/-- The exact value `x` rounded to the precision of the format, ignoring overflow. -/
def Fmt.rnd (f : Fmt) (x : ℚ) : ℚ :=
  if x = 0 then 0
  else rne (x / pow2 (f.quantum x)) * pow2 (f.quantum x)

/-- The largest finite number of the format. -/
def Fmt.maxFin (f : Fmt) : ℚ := ((2 ^ f.p - 1 : Nat) : ℚ) * pow2 f.emax

namespace Fl

/-- The number meant by a finite value (0 for NaN and the infinities). -/
def val : Fl → ℚ
  | fin q => q
  | _ => 0

/-- Is the value neither NaN nor infinite? -/
def isFinite : Fl → Bool
  | fin _ => true
  | nz => true
  | _ => false

/-- The sign bit. -/
def sign : Fl → Bool
  | nan => false
  | inf s => s
  | nz => true
  | fin q => decide (q < 0)

/-- Rounding of an exact result; `s` is the sign of a result that is or rounds to zero. -/
def round (f : Fmt) (s : Bool) (x : ℚ) : Fl :=
  if f.rnd x = 0 then (if s then nz else fin 0)
  else if f.maxFin < f.rnd x then inf false
  else if f.rnd x < -f.maxFin then inf true
  else fin (f.rnd x)

/-- Unary minus. -/
def neg : Fl → Fl
  | nan => nan
  | inf s => inf (!s)
  | nz => fin 0
  | fin q => if q = 0 then nz else fin (-q)

/-- Addition. -/
def add (f : Fmt) : Fl → Fl → Fl
  | nan, _ => nan
  | _, nan => nan
  | inf s, inf t => if s = t then inf s else nan
  | inf s, _ => inf s
  | _, inf t => inf t
  | nz, nz => nz
  | a, b => round f false (a.val + b.val)

/-- Subtraction. -/
def sub (f : Fmt) (a b : Fl) : Fl := add f a (neg b)

/-- Is the value a zero of either sign? -/
def isZero : Fl → Bool
  | nz => true
  | fin q => decide (q = 0)
  | _ => false

/-- Multiplication. -/
def mul (f : Fmt) : Fl → Fl → Fl
  | nan, _ => nan
  | _, nan => nan
  | inf s, b => if b.isZero then nan else inf (s ^^ b.sign)
  | a, inf t => if a.isZero then nan else inf (a.sign ^^ t)
  | a, b => round f (a.sign ^^ b.sign) (a.val * b.val)

/-- Division. -/
def div (f : Fmt) : Fl → Fl → Fl
  | nan, _ => nan
  | _, nan => nan
  | inf _, inf _ => nan
  | inf s, b => inf (s ^^ b.sign)
  | a, inf t => if a.sign ^^ t then nz else fin 0
  | a, b =>
    if b.isZero then (if a.isZero then nan else inf (a.sign ^^ b.sign))
    else round f (a.sign ^^ b.sign) (a.val / b.val)

/-- `==`: false if an operand is NaN; the zeros are equal. -/
def beq : Fl → Fl → Bool
  | nan, _ => false
  | _, nan => false
  | inf s, inf t => s == t
  | inf _, _ => false
  | _, inf _ => false
  | a, b => decide (a.val = b.val)

/-- `<`. -/
def lt : Fl → Fl → Bool
  | nan, _ => false
  | _, nan => false
  | inf s, inf t => s && !t
  | inf s, _ => s
  | _, inf t => !t
  | a, b => decide (a.val < b.val)

/-- `<=`. -/
def le (a b : Fl) : Bool := lt a b || beq a b

/-- `abs`. -/
def abs : Fl → Fl
  | nan => nan
  | inf _ => inf false
  | nz => fin 0
  | fin q => fin |q|

/-- `floor` (exact: the integer part of a number of the format is a number of the format). -/
def floor : Fl → Fl
  | fin q => fin q.floor
  | x => x

/-- `ceil`; results in `(-1, 0]` from negative arguments are negative zeros. -/
def ceil : Fl → Fl
  | fin q => if q < 0 ∧ q.ceil = 0 then nz else fin q.ceil
  | x => x

/-- `trunc`. -/
def trunc (a : Fl) : Fl := if a.sign then ceil a else floor a

/-- `fract`: `self - self.trunc()`. -/
def fract (f : Fmt) (a : Fl) : Fl := sub f a (trunc a)

/-- The integer `n as f32` / `n as f64`. -/
def ofNat (f : Fmt) (n : Nat) : Fl := round f false n

/-- `as usize`: towards zero, saturating, NaN gives 0. -/
def toUsize : Fl → Nat
  | fin q => min q.floor.toNat (2 ^ 64 - 1)
  | inf false => 2 ^ 64 - 1
  | _ => 0

/-- Conversion to another format (`as f32` from f64 rounds; `as f64` from f32 is exact). -/
def conv (f : Fmt) : Fl → Fl
  | fin q => round f (decide (q < 0)) q
  | x => x

/-- The decimal literal or parsed text with exact value `x`. -/
def lit (f : Fmt) (x : ℚ) : Fl := round f false x

end Fl

/-- f32 addition. -/
scoped infixl:65 " +. " => Fl.add f32
/-- f32 subtraction. -/
scoped infixl:65 " -. " => Fl.sub f32
/-- f32 multiplication. -/
scoped infixl:70 " *. " => Fl.mul f32
/-- f32 division. -/
scoped infixl:70 " /. " => Fl.div f32

end Verif
