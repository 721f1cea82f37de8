import Verif.Lemmas.Loop

/-! Relative errors of products of non-negative numbers. -/

namespace Verif
open Spec

/-- `x` is the non-negative number `X` up to a relative error of about `k` units of 2^-23. -/
structure Rel (k : Nat) (x : Fl) (X : ℚ) : Prop where
  fin : x.isFinite = true
  nonneg : 0 ≤ X
  lo : X * (1 - 1 / 2 ^ 23) ^ k ≤ x.val
  hi : x.val ≤ X * (1 + 1 / 2 ^ 23) ^ k

theorem Rel.of_eq {x : Fl} {X : ℚ} (h : x.isFinite = true) (h0 : 0 ≤ X) (hv : x.val = X) : Rel 0 x X :=
  ⟨h, h0, by rw [hv]; simp, by rw [hv]; simp⟩

theorem Rel.val_nonneg {k : Nat} {x : Fl} {X : ℚ} (h : Rel k x X) : 0 ≤ x.val :=
  le_trans (mul_nonneg h.nonneg (pow_nonneg (by norm_num) _)) h.lo

theorem pow_hi_le {k : Nat} (h : k ≤ 20) : ((1 : ℚ) + 1 / 2 ^ 23) ^ k ≤ 2 :=
  le_trans (pow_le_pow_right₀ (by norm_num) h) (by norm_num)

theorem pow_lo_ge {k : Nat} (h : k ≤ 20) : (1 : ℚ) / 2 ≤ (1 - 1 / 2 ^ 23) ^ k :=
  le_trans (by norm_num) (pow_le_pow_of_le_one (by norm_num) (by norm_num) h)

/-- Rounding a number that is not tiny, or 0. -/
theorem rnd_relw {v : ℚ} (h0 : 0 ≤ v) (h : v = 0 ∨ 1 / 2 ^ 101 ≤ v) :
    v * (1 - 1 / 2 ^ 23) ≤ f32.rnd v ∧ f32.rnd v ≤ v * (1 + 1 / 2 ^ 23) := by
  rcases h with rfl | h
  · rw [Fmt.rnd_zero]; simp
  · have := Fmt.rnd_rel (f := f32) (x := v) (by
      rw [abs_of_nonneg h0]
      refine le_trans ?_ h
      have : pow2 (f32.emin + f32.p - 1) = pow2 (-126) := rfl
      rw [this, pow2_eq]; norm_num)
    have heps : pow2 (-(f32.p : Int)) = 1 / 2 ^ 24 := by rw [pow2_eq]; norm_num [f32]
    rw [heps, abs_of_nonneg h0, abs_le] at this
    constructor
    · have : v * (1 / 2 ^ 24) ≤ v * (1 / 2 ^ 23) := mul_le_mul_of_nonneg_left (by norm_num) h0
      linarith
    · have : v * (1 / 2 ^ 24) ≤ v * (1 / 2 ^ 23) := mul_le_mul_of_nonneg_left (by norm_num) h0
      linarith

/-- The formats for which the lemmas below hold. -/
class RelFmt (f : Fmt) : Prop where
  relw : ∀ {v : ℚ}, 0 ≤ v → (v = 0 ∨ 1 / 2 ^ 101 ≤ v) →
    v * (1 - 1 / 2 ^ 23) ≤ f.rnd v ∧ f.rnd v ≤ v * (1 + 1 / 2 ^ 23)
  range : ∀ {x : ℚ}, |x| ≤ 2 ^ 100 → InRange f x

instance : RelFmt f32 := ⟨rnd_relw, f32_inRange⟩

theorem f64_inRange {x : ℚ} (h : |x| ≤ 2 ^ 100) : InRange f64 x := by
  have hb : f64.Rep ((2 : ℚ) ^ 100) :=
    ⟨1, 100, by decide, by decide, by rw [pow2_eq]; norm_num⟩
  have := Fmt.abs_rnd_le f64_p hb h
  unfold InRange
  refine le_trans this ?_
  have : f64.maxFin = (2 ^ 53 - 1) * pow2 971 := by norm_num [Fmt.maxFin, f64]
  rw [this]
  have h1 : (2 : ℚ) ^ 100 = pow2 100 := by rw [pow2_eq]; norm_num
  have h2 : pow2 100 < pow2 971 := pow2_lt_iff.mpr (by decide)
  rw [h1]
  have h3 : (1 : ℚ) ≤ 2 ^ 53 - 1 := by norm_num
  have h4 := mul_le_mul_of_nonneg_right h3 (pow2_pos 971).le
  linarith

theorem rnd_relw64 {v : ℚ} (h0 : 0 ≤ v) (h : v = 0 ∨ 1 / 2 ^ 101 ≤ v) :
    v * (1 - 1 / 2 ^ 23) ≤ f64.rnd v ∧ f64.rnd v ≤ v * (1 + 1 / 2 ^ 23) := by
  rcases h with rfl | h
  · rw [Fmt.rnd_zero]; simp
  · have := Fmt.rnd_rel (f := f64) (x := v) (by
      rw [abs_of_nonneg h0]
      refine le_trans ?_ h
      have : pow2 (f64.emin + f64.p - 1) = pow2 (-1022) := rfl
      have h1 : (1 : ℚ) / 2 ^ 101 = pow2 (-101) := by rw [pow2_eq]; norm_num
      rw [this, h1]
      exact (pow2_lt_iff.mpr (by decide)).le)
    have heps : pow2 (-(f64.p : Int)) = 1 / 2 ^ 53 := by rw [pow2_eq]; norm_num [f64]
    rw [heps, abs_of_nonneg h0, abs_le] at this
    constructor
    · have : v * (1 / 2 ^ 53) ≤ v * (1 / 2 ^ 23) := mul_le_mul_of_nonneg_left (by norm_num) h0
      linarith
    · have : v * (1 / 2 ^ 53) ≤ v * (1 / 2 ^ 23) := mul_le_mul_of_nonneg_left (by norm_num) h0
      linarith

instance : RelFmt f64 := ⟨rnd_relw64, f64_inRange⟩

theorem Rel.of_rnd {f : Fmt} [RelFmt f] {k : Nat} {x : Fl} {v X : ℚ} (hk : k ≤ 20) (hf : x.isFinite = true)
    (hx : x.val = f.rnd v) (h0 : 0 ≤ X) (hX : X = 0 ∨ 1 / 2 ^ 100 ≤ X)
    (lo : X * (1 - 1 / 2 ^ 23) ^ k ≤ v) (hi : v ≤ X * (1 + 1 / 2 ^ 23) ^ k) : Rel (k + 1) x X := by
  have hv0 : 0 ≤ v := le_trans (mul_nonneg h0 (pow_nonneg (by norm_num) _)) lo
  have hv : v = 0 ∨ 1 / 2 ^ 101 ≤ v := by
    rcases hX with rfl | hX
    · left; rw [zero_mul] at hi; exact le_antisymm hi hv0
    · right
      refine le_trans ?_ lo
      calc (1 : ℚ) / 2 ^ 101 = 1 / 2 ^ 100 * (1 / 2) := by norm_num
        _ ≤ X * (1 - 1 / 2 ^ 23) ^ k := mul_le_mul hX (pow_lo_ge hk) (by norm_num) h0
  obtain ⟨a, b⟩ := RelFmt.relw (f := f) hv0 hv
  refine ⟨hf, h0, ?_, ?_⟩
  · rw [hx, pow_succ, ← mul_assoc]
    exact le_trans (mul_le_mul_of_nonneg_right lo (by norm_num)) a
  · rw [hx, pow_succ, ← mul_assoc]
    exact le_trans b (mul_le_mul_of_nonneg_right hi (by norm_num))

theorem Rel.mul {f : Fmt} [RelFmt f] {k l : Nat} {x y : Fl} {X Y : ℚ} (hx : Rel k x X) (hy : Rel l y Y) (hk : k + l ≤ 20)
    (h1 : X * Y = 0 ∨ 1 / 2 ^ 100 ≤ X * Y) (h2 : X * Y ≤ 2 ^ 90) :
    Rel (k + l + 1) (Fl.mul f x y) (X * Y) := by
  have hlo : X * Y * (1 - 1 / 2 ^ 23) ^ (k + l) ≤ x.val * y.val := by
    rw [pow_add]
    calc X * Y * ((1 - 1 / 2 ^ 23) ^ k * (1 - 1 / 2 ^ 23) ^ l)
        = (X * (1 - 1 / 2 ^ 23) ^ k) * (Y * (1 - 1 / 2 ^ 23) ^ l) := by ring
      _ ≤ _ := mul_le_mul hx.lo hy.lo (mul_nonneg hy.nonneg (pow_nonneg (by norm_num) _)) hx.val_nonneg
  have hhi : x.val * y.val ≤ X * Y * (1 + 1 / 2 ^ 23) ^ (k + l) := by
    rw [pow_add]
    calc x.val * y.val ≤ (X * (1 + 1 / 2 ^ 23) ^ k) * (Y * (1 + 1 / 2 ^ 23) ^ l) :=
          mul_le_mul hx.hi hy.hi hy.val_nonneg (mul_nonneg hx.nonneg (pow_nonneg (by norm_num) _))
      _ = _ := by ring
  have hXY : 0 ≤ X * Y := mul_nonneg hx.nonneg hy.nonneg
  have hbound : x.val * y.val ≤ 2 ^ 91 := by
    refine le_trans hhi ?_
    calc X * Y * (1 + 1 / 2 ^ 23) ^ (k + l) ≤ 2 ^ 90 * 2 :=
          mul_le_mul h2 (pow_hi_le hk) (pow_nonneg (by norm_num) _) (by norm_num)
      _ = 2 ^ 91 := by norm_num
  have hm := Fl.mul_fin (f := f) hx.fin hy.fin (RelFmt.range (by
    rw [abs_of_nonneg (mul_nonneg hx.val_nonneg hy.val_nonneg)]
    exact le_trans hbound (by norm_num)))
  exact Rel.of_rnd hk hm.1 hm.2 hXY h1 hlo hhi

theorem Rel.div {f : Fmt} [RelFmt f] {k : Nat} {x y : Fl} {X Y : ℚ} (hx : Rel k x X) (hy : Rel 0 y Y) (hk : k ≤ 20)
    (hY : 0 < Y) (h1 : X / Y = 0 ∨ 1 / 2 ^ 100 ≤ X / Y) (h2 : X / Y ≤ 2 ^ 90) :
    Rel (k + 1) (Fl.div f x y) (X / Y) := by
  have hyv : y.val = Y := by
    have a := hy.lo; have b := hy.hi; simp only [pow_zero, mul_one] at a b; exact le_antisymm b a
  have hlo : X / Y * (1 - 1 / 2 ^ 23) ^ k ≤ x.val / y.val := by
    rw [hyv, div_mul_eq_mul_div]
    exact div_le_div_of_nonneg_right hx.lo hY.le
  have hhi : x.val / y.val ≤ X / Y * (1 + 1 / 2 ^ 23) ^ k := by
    rw [hyv, div_mul_eq_mul_div]
    exact div_le_div_of_nonneg_right hx.hi hY.le
  have h0 : 0 ≤ x.val / y.val := div_nonneg hx.val_nonneg (by rw [hyv]; exact hY.le)
  have hd := Fl.div_fin (f := f) hx.fin hy.fin (by rw [hyv]; exact hY.ne') (RelFmt.range (by
    rw [abs_of_nonneg h0]
    calc x.val / y.val ≤ X / Y * (1 + 1 / 2 ^ 23) ^ k := hhi
      _ ≤ 2 ^ 90 * 2 := mul_le_mul h2 (pow_hi_le hk) (pow_nonneg (by norm_num) _) (by norm_num)
      _ ≤ 2 ^ 100 := by norm_num))
  exact Rel.of_rnd hk hd.1 hd.2 (div_nonneg hx.nonneg hY.le) h1 hlo hhi

theorem Rel.weaken {k l : Nat} {x : Fl} {X : ℚ} (h : Rel k x X) (hl : k ≤ l) : Rel l x X := by
  refine ⟨h.fin, h.nonneg, le_trans ?_ h.lo, le_trans h.hi ?_⟩
  · exact mul_le_mul_of_nonneg_left (pow_le_pow_of_le_one (by norm_num) (by norm_num) hl) h.nonneg
  · exact mul_le_mul_of_nonneg_left (pow_le_pow_right₀ (by norm_num) hl) h.nonneg

theorem Rel.add {f : Fmt} [RelFmt f] {k : Nat} {x y : Fl} {X Y : ℚ} (hx : Rel k x X) (hy : Rel k y Y) (hk : k ≤ 20)
    (h1 : X + Y = 0 ∨ 1 / 2 ^ 100 ≤ X + Y) (h2 : X + Y ≤ 2 ^ 90) :
    Rel (k + 1) (Fl.add f x y) (X + Y) := by
  have hlo : (X + Y) * (1 - 1 / 2 ^ 23) ^ k ≤ x.val + y.val := by
    rw [add_mul]; exact add_le_add hx.lo hy.lo
  have hhi : x.val + y.val ≤ (X + Y) * (1 + 1 / 2 ^ 23) ^ k := by
    rw [add_mul]; exact add_le_add hx.hi hy.hi
  have hd := Fl.add_fin (f := f) hx.fin hy.fin (RelFmt.range (by
    rw [abs_of_nonneg (add_nonneg hx.val_nonneg hy.val_nonneg)]
    calc x.val + y.val ≤ (X + Y) * (1 + 1 / 2 ^ 23) ^ k := hhi
      _ ≤ 2 ^ 90 * 2 := mul_le_mul h2 (pow_hi_le hk) (pow_nonneg (by norm_num) _) (by norm_num)
      _ ≤ 2 ^ 100 := by norm_num))
  exact Rel.of_rnd hk hd.1 hd.2 (add_nonneg hx.nonneg hy.nonneg) h1 hlo hhi

/-- Up to ten roundings. -/
theorem Rel.close {k : Nat} {x : Fl} {X : ℚ} (h : Rel k x X) (hk : k ≤ 7) :
    |x.val - X| ≤ X / 2 ^ 20 := by
  have h' := h.weaken hk
  have a := h'.lo
  have b := h'.hi
  have e1 : X * (1 - 1 / 2 ^ 20) ≤ X * (1 - 1 / 2 ^ 23) ^ 7 :=
    mul_le_mul_of_nonneg_left (by norm_num) h.nonneg
  have e2 : X * (1 + 1 / 2 ^ 23) ^ 7 ≤ X * (1 + 1 / 2 ^ 20) :=
    mul_le_mul_of_nonneg_left (by norm_num) h.nonneg
  rw [abs_le]
  have : X / 2 ^ 20 = X * (1 / 2 ^ 20) := by ring
  constructor <;> linarith

/-- The whole part of a value below 2^64. -/
theorem Rel.toUsize {k : Nat} {x : Fl} {X : ℚ} (h : Rel k x X) (hk : k ≤ 7) (hX : X ≤ 2 ^ 62) :
    |(x.toUsize : ℚ) - X| ≤ 1 + X / 2 ^ 20 := by
  have hc := h.close hk
  have hlt : x.val < 2 ^ 64 := by
    rw [abs_le] at hc
    have : X / 2 ^ 20 ≤ 2 ^ 62 / 2 ^ 20 := div_le_div_of_nonneg_right hX (by positivity)
    have e : (2 : ℚ) ^ 62 + 2 ^ 62 / 2 ^ 20 < 2 ^ 64 := by norm_num
    linarith
  rw [Fl.toUsize_of h.fin hlt]
  obtain ⟨f1, f2⟩ := floor_toNat h.val_nonneg
  rw [abs_le] at hc ⊢
  constructor <;> linarith

end Verif
