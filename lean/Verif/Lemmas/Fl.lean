import Verif.Fl
import Mathlib.Algebra.Order.Field.Power
import Mathlib.Tactic.Linarith
import Mathlib.Tactic.Positivity
import Mathlib.Tactic.FieldSimp
import Mathlib.Tactic.Ring
import Mathlib.Tactic.NormNum

/-! Facts about rounding: monotone, odd, exact on representable numbers. -/

namespace Verif

theorem pow2_eq (e : Int) : pow2 e = (2 : ℚ) ^ e := by
  cases e with
  | ofNat n => simp [pow2]
  | negSucc n => simp [pow2, Rat.mkRat_eq_div, zpow_negSucc]

theorem pow2_pos (e : Int) : 0 < pow2 e := by rw [pow2_eq]; positivity

theorem pow2_ne (e : Int) : pow2 e ≠ 0 := (pow2_pos e).ne'

theorem pow2_add (a b : Int) : pow2 (a + b) = pow2 a * pow2 b := by
  simp only [pow2_eq]; exact zpow_add₀ (by norm_num) a b

theorem pow2_le {a b : Int} (h : a ≤ b) : pow2 a ≤ pow2 b := by
  simp only [pow2_eq]; exact zpow_le_zpow_right₀ (by norm_num) h

theorem pow2_lt {a b : Int} (h : a < b) : pow2 a < pow2 b := by
  simp only [pow2_eq]; exact zpow_lt_zpow_right₀ (by norm_num) h

theorem pow2_lt_iff {a b : Int} : pow2 a < pow2 b ↔ a < b := by
  constructor
  · intro h
    by_contra hc
    exact absurd (pow2_le (not_lt.mp hc)) (not_le.mpr h)
  · exact pow2_lt

theorem pow2_nat (n : Nat) : pow2 (n : Int) = ((2 ^ n : Nat) : ℚ) := rfl

/-! ### Rounding to an integer -/

theorem floor_eq (x : ℚ) : x.floor = ⌊x⌋ := rfl

theorem floor_le' (x : ℚ) : ((x.floor : Int) : ℚ) ≤ x := Int.floor_le x

theorem lt_floor' (x : ℚ) : x < (x.floor : ℚ) + 1 := Int.lt_floor_add_one x

theorem rne_int (n : Int) : rne (n : ℚ) = n := by
  have : (n : ℚ).floor = n := by rw [floor_eq]; exact Int.floor_intCast n
  simp [rne, this]

theorem rne_cases (x : ℚ) : rne x = x.floor ∨ rne x = x.floor + 1 := by
  unfold rne
  dsimp only
  split
  · exact Or.inl rfl
  · split
    · exact Or.inr rfl
    · split
      · exact Or.inl rfl
      · exact Or.inr rfl

theorem rne_mono {x y : ℚ} (h : x ≤ y) : rne x ≤ rne y := by
  have hf : x.floor ≤ y.floor := Int.floor_mono h
  rcases lt_or_eq_of_le hf with hlt | heq
  · have h1 := rne_cases x
    have h2 := rne_cases y
    omega
  · unfold rne
    dsimp only
    rw [heq]
    split
    · split
      · exact le_refl _
      · split
        · omega
        · split <;> omega
    · split
      · rename_i h1 h2
        rw [if_neg (by linarith), if_pos (by linarith)]
      · rename_i h1 h2
        have hx : x - (y.floor : ℚ) = 1 / 2 := le_antisymm (not_lt.mp h2) (not_lt.mp h1)
        have hy : ¬ y - (y.floor : ℚ) < 1 / 2 := by linarith
        rw [if_neg hy]
        split <;> split <;> omega

theorem rne_neg (x : ℚ) : rne (-x) = - rne x := by
  by_cases hint : (x.floor : ℚ) = x
  · have : rne x = x.floor := by rw [← hint, rne_int, hint]
    have h2 : rne (-x) = - x.floor := by
      rw [← hint]
      have := rne_int (-x.floor)
      push_cast at this
      rw [hint] at this ⊢
      exact this
    omega
  · have hfl : (-x).floor = - x.floor - 1 := by
      have h1 := floor_le' x
      have h2 := lt_floor' x
      have h3 : ((x.floor : Int) : ℚ) < x := lt_of_le_of_ne h1 hint
      rw [floor_eq (-x)]
      apply Int.floor_eq_iff.mpr
      push_cast
      constructor <;> linarith
    have hr : -x - ((-x).floor : ℚ) = 1 - (x - x.floor) := by
      rw [hfl]; push_cast; ring
    unfold rne
    dsimp only
    rw [hr, hfl]
    by_cases h1 : x - (x.floor : ℚ) < 1 / 2
    · rw [if_neg (by linarith), if_pos (by linarith), if_pos h1]; ring
    · by_cases h2 : 1 / 2 < x - (x.floor : ℚ)
      · rw [if_pos (by linarith), if_neg h1, if_pos h2]; ring
      · have he : x - (x.floor : ℚ) = 1 / 2 := le_antisymm (not_lt.mp h2) (not_lt.mp h1)
        rw [if_neg (by linarith), if_neg (by linarith), if_neg h1, if_neg h2]
        split <;> split <;> omega

theorem rne_abs (x : ℚ) : |(rne x : ℚ) - x| ≤ 1 / 2 := by
  have h1 := floor_le' x
  have h2 := lt_floor' x
  unfold rne
  dsimp only
  rw [abs_le]
  split
  · constructor <;> linarith
  · split
    · push_cast; constructor <;> linarith
    · split
      · constructor <;> linarith
      · push_cast; constructor <;> linarith

/-! ### The binary logarithm -/

theorem log2_le (n : Nat) (h : n ≠ 0) : 2 ^ n.log2 ≤ n := Nat.log2_self_le h

theorem lt_log2 (n : Nat) : n < 2 ^ (n.log2 + 1) := Nat.lt_log2_self

theorem ilog2_spec {x : ℚ} (hx : 0 < x) : pow2 (ilog2 x) ≤ x ∧ x < pow2 (ilog2 x + 1) := by
  have hnum : 0 < x.num := Rat.num_pos.mpr hx
  have hn : x.num.natAbs ≠ 0 := by omega
  have hd : x.den ≠ 0 := x.den_ne_zero
  have hxeq : x = (x.num.natAbs : ℚ) / (x.den : ℚ) := by
    have h1 : ((x.num.natAbs : Nat) : ℚ) = (x.num : ℚ) := by
      have : ((x.num.natAbs : Nat) : Int) = x.num := by omega
      rw [← Int.cast_natCast, this]
    rw [h1]
    exact (Rat.num_div_den x).symm
  have hdpos : (0 : ℚ) < (x.den : ℚ) := by exact_mod_cast x.den_pos
  have hn1 : ((2 ^ x.num.natAbs.log2 : Nat) : ℚ) ≤ (x.num.natAbs : ℚ) := by
    exact_mod_cast log2_le _ hn
  have hn2 : (x.num.natAbs : ℚ) < ((2 ^ (x.num.natAbs.log2 + 1) : Nat) : ℚ) := by
    exact_mod_cast lt_log2 _
  have hd1 : ((2 ^ x.den.log2 : Nat) : ℚ) ≤ (x.den : ℚ) := by exact_mod_cast log2_le _ hd
  have hd2 : (x.den : ℚ) < ((2 ^ (x.den.log2 + 1) : Nat) : ℚ) := by exact_mod_cast lt_log2 _
  rw [← pow2_nat] at hn1 hn2 hd1 hd2
  generalize hA : (x.num.natAbs.log2) = A at *
  generalize hB : (x.den.log2) = B at *
  have hup : x < pow2 ((A : Int) - B + 1) := by
    rw [hxeq, div_lt_iff₀ hdpos]
    calc (x.num.natAbs : ℚ) < pow2 ((A + 1 : Nat) : Int) := hn2
      _ = pow2 ((A : Int) - B + 1) * pow2 (B : Int) := by
          rw [← pow2_add]; congr 1; push_cast; ring
      _ ≤ pow2 ((A : Int) - B + 1) * (x.den : ℚ) :=
          mul_le_mul_of_nonneg_left hd1 (pow2_pos _).le
  have hlo : pow2 ((A : Int) - B - 1) < x := by
    rw [hxeq, lt_div_iff₀ hdpos]
    calc pow2 ((A : Int) - B - 1) * (x.den : ℚ)
        < pow2 ((A : Int) - B - 1) * pow2 ((B + 1 : Nat) : Int) :=
          mul_lt_mul_of_pos_left hd2 (pow2_pos _)
      _ = pow2 (A : Int) := by rw [← pow2_add]; congr 1; push_cast; ring
      _ ≤ _ := hn1
  unfold ilog2
  dsimp only
  rw [hA, hB]
  split
  · rename_i h; exact ⟨h, hup⟩
  · rename_i h
    refine ⟨hlo.le, ?_⟩
    have : (A : Int) - B - 1 + 1 = A - B := by ring
    rw [this]
    exact not_le.mp h

theorem ilog2_mono {x y : ℚ} (hx : 0 < x) (h : x ≤ y) : ilog2 x ≤ ilog2 y := by
  have h1 := ilog2_spec hx
  have h2 := ilog2_spec (lt_of_lt_of_le hx h)
  have : pow2 (ilog2 x) < pow2 (ilog2 y + 1) := lt_of_le_of_lt h1.1 (lt_of_le_of_lt h h2.2)
  have := pow2_lt_iff.mp this
  omega

theorem ilog2_eq {x : ℚ} {k : Int} (hx : 0 < x) (h1 : pow2 k ≤ x) (h2 : x < pow2 (k + 1)) :
    ilog2 x = k := by
  have h := ilog2_spec hx
  have a := pow2_lt_iff.mp (lt_of_le_of_lt h.1 h2)
  have b := pow2_lt_iff.mp (lt_of_le_of_lt h1 h.2)
  omega

/-! ### Rounding to a format -/

namespace Fmt
variable {f : Fmt}

theorem rnd_zero : f.rnd 0 = 0 := by simp [rnd]

theorem quantum_neg (x : ℚ) : f.quantum (-x) = f.quantum x := by simp [quantum]

theorem rnd_neg (x : ℚ) : f.rnd (-x) = - f.rnd x := by
  unfold rnd
  rw [quantum_neg]
  by_cases h : x = 0
  · simp [h]
  · rw [if_neg h, if_neg (by simpa using h)]
    rw [neg_div, rne_neg]; push_cast; ring

theorem rnd_nonneg {x : ℚ} (h : 0 ≤ x) : 0 ≤ f.rnd x := by
  unfold rnd
  split
  · exact le_refl _
  · apply mul_nonneg _ (pow2_pos _).le
    have h0 : rne ((0 : Int) : ℚ) = 0 := rne_int 0
    have : rne ((0 : Int) : ℚ) ≤ rne (x / pow2 (f.quantum x)) :=
      rne_mono (by push_cast; exact div_nonneg h (pow2_pos _).le)
    rw [h0] at this
    exact_mod_cast this

/-- Multiples of a quantum not above it bound the rounding from above. -/
theorem rnd_le_of_mul {x : ℚ} {m : Int} (hx : x ≠ 0)
    (h : x ≤ m * pow2 (f.quantum x)) : f.rnd x ≤ m * pow2 (f.quantum x) := by
  unfold rnd
  rw [if_neg hx]
  apply mul_le_mul_of_nonneg_right _ (pow2_pos _).le
  have : x / pow2 (f.quantum x) ≤ (m : ℚ) := (div_le_iff₀ (pow2_pos _)).mpr h
  have := rne_mono this
  rw [rne_int] at this
  exact_mod_cast this

theorem le_rnd_of_mul {x : ℚ} {m : Int} (hx : x ≠ 0)
    (h : m * pow2 (f.quantum x) ≤ x) : m * pow2 (f.quantum x) ≤ f.rnd x := by
  unfold rnd
  rw [if_neg hx]
  apply mul_le_mul_of_nonneg_right _ (pow2_pos _).le
  have : (m : ℚ) ≤ x / pow2 (f.quantum x) := (le_div_iff₀ (pow2_pos _)).mpr h
  have := rne_mono this
  rw [rne_int] at this
  exact_mod_cast this

/-- A power of two at or above the quantum is a multiple of it. -/
theorem pow2_mul_of_le {q k : Int} (h : q ≤ k) : ∃ m : Int, pow2 k = m * pow2 q := by
  obtain ⟨d, rfl⟩ := Int.le.dest h
  refine ⟨(2 ^ d : Nat), ?_⟩
  rw [add_comm q, pow2_add, pow2_nat]
  push_cast
  rfl

theorem rnd_mono_pos (hp : 1 ≤ f.p) {x y : ℚ} (hx : 0 < x) (h : x ≤ y) : f.rnd x ≤ f.rnd y := by
  have hy : 0 < y := lt_of_lt_of_le hx h
  have hl := ilog2_mono hx h
  have hqx : f.quantum x = max (ilog2 x - ((f.p : Int) - 1)) f.emin := by
    rw [quantum, abs_of_pos hx]
  have hqy : f.quantum y = max (ilog2 y - ((f.p : Int) - 1)) f.emin := by
    rw [quantum, abs_of_pos hy]
  rcases eq_or_lt_of_le (show f.quantum x ≤ f.quantum y by rw [hqx, hqy]; omega) with he | hlt
  · unfold rnd
    rw [if_neg hx.ne', if_neg hy.ne', he]
    apply mul_le_mul_of_nonneg_right _ (pow2_pos _).le
    exact_mod_cast rne_mono (by
      apply div_le_div_of_nonneg_right h (pow2_pos _).le)
  · have hq : f.quantum y ≤ ilog2 y := by rw [hqy] at hlt ⊢; rw [hqx] at hlt; omega
    have hk : ilog2 x + 1 ≤ ilog2 y := by rw [hqx, hqy] at hlt; omega
    obtain ⟨m, hm⟩ := pow2_mul_of_le hq
    obtain ⟨m', hm'⟩ := pow2_mul_of_le (le_trans hlt.le hq)
    have hsx := ilog2_spec hx
    have hsy := ilog2_spec hy
    have hxle : x ≤ pow2 (ilog2 y) := le_trans hsx.2.le (pow2_le hk)
    have h1 : f.rnd x ≤ pow2 (ilog2 y) := by
      rw [hm']; apply rnd_le_of_mul hx.ne'; rw [← hm']; exact hxle
    have h2 : pow2 (ilog2 y) ≤ f.rnd y := by
      rw [hm]; apply le_rnd_of_mul hy.ne'; rw [← hm]; exact hsy.1
    exact le_trans h1 h2

theorem rnd_mono (hp : 1 ≤ f.p) {x y : ℚ} (h : x ≤ y) : f.rnd x ≤ f.rnd y := by
  rcases lt_or_ge 0 x with hx | hx
  · exact rnd_mono_pos hp hx h
  · have h1 : f.rnd x ≤ 0 := by
      have := rnd_nonneg (f := f) (x := -x) (by linarith)
      rw [rnd_neg] at this; linarith
    rcases le_or_gt 0 y with hy | hy
    · exact le_trans h1 (rnd_nonneg hy)
    · have := rnd_mono_pos (f := f) hp (x := -y) (y := -x) (by linarith) (by linarith)
      rw [rnd_neg, rnd_neg] at this; linarith

/-- `x` is a number of the format (up to overflow). -/
def Rep (f : Fmt) (x : ℚ) : Prop := ∃ (m e : Int), |m| ≤ 2 ^ f.p ∧ f.emin ≤ e ∧ x = m * pow2 e

theorem rnd_of_mul {x : ℚ} {m : Int} (h : x = m * pow2 (f.quantum x)) : f.rnd x = x := by
  unfold rnd
  split
  · rename_i h0; exact h0.symm
  · have : x / pow2 (f.quantum x) = (m : ℚ) := by
      rw [div_eq_iff (pow2_ne _)]; exact h
    rw [this, rne_int]; exact h.symm

theorem rep_quantum (hp : 1 ≤ f.p) {x : ℚ} (h : f.Rep x) :
    ∃ m : Int, x = m * pow2 (f.quantum x) := by
  obtain ⟨m, e, hm, he, rfl⟩ := h
  by_cases h0 : m = 0
  · exact ⟨0, by simp [h0]⟩
  · have hm0 : 0 < |m| := abs_pos.mpr h0
    have hmq : (0 : ℚ) < |((m : Int) : ℚ)| := by
      have : (0 : ℚ) < ((|m| : Int) : ℚ) := by exact_mod_cast hm0
      rwa [Int.cast_abs] at this
    have hx0 : 0 < |(m : ℚ) * pow2 e| := by
      rw [abs_mul, abs_of_pos (pow2_pos e)]
      exact mul_pos hmq (pow2_pos e)
    have habs : |(m : ℚ) * pow2 e| ≤ pow2 ((f.p : Int) + e) := by
      rw [abs_mul, abs_of_pos (pow2_pos e), pow2_add]
      apply mul_le_mul_of_nonneg_right _ (pow2_pos _).le
      rw [← Int.cast_abs, pow2_nat]
      exact_mod_cast hm
    rcases eq_or_lt_of_le habs with heq | hlt
    · -- a power of two
      have hk : ilog2 |(m : ℚ) * pow2 e| = (f.p : Int) + e := by
        rw [heq]; exact ilog2_eq (pow2_pos _) (le_refl _) (pow2_lt (by omega))
      have hq : f.quantum ((m : ℚ) * pow2 e) ≤ (f.p : Int) + e := by
        rw [quantum, hk]; omega
      obtain ⟨m', hm'⟩ := pow2_mul_of_le hq
      rcases abs_choice ((m : ℚ) * pow2 e) with hc | hc
      · exact ⟨m', by rw [← hm', ← heq, hc]⟩
      · refine ⟨-m', ?_⟩
        push_cast
        rw [neg_mul, ← hm', ← heq, hc, neg_neg]
    · have hk := ilog2_spec hx0
      have hlt2 := pow2_lt_iff.mp (lt_of_le_of_lt hk.1 hlt)
      have hq : f.quantum ((m : ℚ) * pow2 e) ≤ e := by
        rw [quantum]; omega
      obtain ⟨m', hm'⟩ := pow2_mul_of_le hq
      exact ⟨m * m', by rw [Int.cast_mul, mul_assoc, ← hm']⟩

theorem rnd_rep (hp : 1 ≤ f.p) {x : ℚ} (h : f.Rep x) : f.rnd x = x := by
  obtain ⟨m, hm⟩ := rep_quantum hp h
  exact rnd_of_mul hm

theorem rep_rnd (x : ℚ) : f.Rep (f.rnd x) := by
  by_cases h : x = 0
  · rw [h, rnd_zero]; exact ⟨0, f.emin, by positivity, le_refl _, by simp⟩
  · unfold rnd
    rw [if_neg h]
    refine ⟨rne (x / pow2 (f.quantum x)), f.quantum x, ?_, ?_, rfl⟩
    · have hx0 : 0 < |x| := abs_pos.mpr h
      have hs := ilog2_spec hx0
      have hq : ilog2 |x| + 1 ≤ (f.p : Int) + f.quantum x := by rw [quantum]; omega
      have hb : |x / pow2 (f.quantum x)| ≤ ((2 ^ f.p : Nat) : Int) := by
        rw [abs_div, abs_of_pos (pow2_pos _), div_le_iff₀ (pow2_pos _)]
        calc |x| ≤ pow2 (ilog2 |x| + 1) := hs.2.le
          _ ≤ pow2 ((f.p : Int) + f.quantum x) := pow2_le hq
          _ = _ := by rw [pow2_add, pow2_nat]; push_cast; rfl
      rw [abs_le] at hb ⊢
      have h1 := rne_mono hb.2
      have h2 := rne_mono hb.1
      rw [rne_int] at h1
      rw [rne_neg, rne_int] at h2
      push_cast at h1 h2
      exact ⟨h2, h1⟩
    · rw [quantum]; omega

theorem rep_neg {x : ℚ} (h : f.Rep x) : f.Rep (-x) := by
  obtain ⟨m, e, hm, he, rfl⟩ := h
  exact ⟨-m, e, by rwa [abs_neg], he, by push_cast; ring⟩

/-- Rounding cannot leave an interval with representable ends. -/
theorem rnd_le (hp : 1 ≤ f.p) {x b : ℚ} (hb : f.Rep b) (h : x ≤ b) : f.rnd x ≤ b := by
  have := rnd_mono (f := f) hp h
  rwa [rnd_rep hp hb] at this

theorem le_rnd (hp : 1 ≤ f.p) {x a : ℚ} (ha : f.Rep a) (h : a ≤ x) : a ≤ f.rnd x := by
  have := rnd_mono (f := f) hp h
  rwa [rnd_rep hp ha] at this

theorem rep_int {n : Int} (h : |n| ≤ 2 ^ f.p) (he : f.emin ≤ 0) : f.Rep n :=
  ⟨n, 0, h, he, by simp [pow2]⟩

theorem rep_zero : f.Rep 0 := ⟨0, f.emin, by positivity, le_refl _, by simp⟩

/-- The numbers of the format that are finite. -/
def Fin (f : Fmt) (x : ℚ) : Prop := f.Rep x ∧ |x| ≤ f.maxFin

theorem maxFin_rep : f.emin ≤ f.emax → f.Rep f.maxFin := fun h =>
  ⟨((2 ^ f.p - 1 : Nat) : Int), f.emax, by
    rw [abs_of_nonneg (by omega)]
    have : (2 ^ f.p - 1 : Nat) ≤ 2 ^ f.p := Nat.sub_le _ _
    exact_mod_cast this, h, rfl⟩

theorem maxFin_nonneg : 0 ≤ f.maxFin :=
  mul_nonneg (Nat.cast_nonneg _) (pow2_pos _).le

/-- A bound on the exact value is a bound on the rounded one. -/
theorem abs_rnd_le (hp : 1 ≤ f.p) {x b : ℚ} (hb : f.Rep b) (h : |x| ≤ b) : |f.rnd x| ≤ b := by
  rw [abs_le] at h ⊢
  exact ⟨le_rnd hp (rep_neg hb) h.1, rnd_le hp hb h.2⟩

/-- Rounding changes a number by at most half a unit in the last place. -/
theorem rnd_err (x : ℚ) : |f.rnd x - x| ≤ pow2 (f.quantum x) / 2 := by
  unfold rnd
  split
  · rename_i h; subst h; have := pow2_pos (f.quantum 0); simp; linarith
  · have h := rne_abs (x / pow2 (f.quantum x))
    have hq := pow2_pos (f.quantum x)
    have : (rne (x / pow2 (f.quantum x)) : ℚ) * pow2 (f.quantum x) - x
        = ((rne (x / pow2 (f.quantum x)) : ℚ) - x / pow2 (f.quantum x)) * pow2 (f.quantum x) := by
      field_simp
    rw [this, abs_mul, abs_of_pos hq]
    linarith [mul_le_mul_of_nonneg_right h hq.le]

end Fmt

/-! ### Operations on finite numbers -/

/-- The exact value the format can hold after rounding (no overflow). -/
def InRange (f : Fmt) (x : ℚ) : Prop := |f.rnd x| ≤ f.maxFin

namespace Fl
variable {f : Fmt}

/-- A value the format can really hold. -/
def Ok (f : Fmt) : Fl → Prop
  | fin q => f.Fin q
  | _ => True

theorem val_fin (q : ℚ) : (fin q).val = q := rfl

theorem round_val {s : Bool} {x : ℚ} (h : InRange f x) :
    (round f s x).isFinite = true ∧ (round f s x).val = f.rnd x := by
  unfold InRange at h
  rw [abs_le] at h
  unfold round
  split
  · rename_i h0
    rw [h0]; split <;> exact ⟨rfl, rfl⟩
  · rw [if_neg (by linarith), if_neg (by linarith)]
    exact ⟨rfl, rfl⟩

theorem add_fin {a b : Fl} (ha : a.isFinite = true) (hb : b.isFinite = true)
    (h : InRange f (a.val + b.val)) :
    (add f a b).isFinite = true ∧ (add f a b).val = f.rnd (a.val + b.val) := by
  cases a <;> cases b <;> simp only [isFinite, Bool.false_eq_true] at ha hb
  · exact ⟨rfl, by simp [add, val, Fmt.rnd_zero]⟩
  · exact round_val h
  · exact round_val h
  · exact round_val h

theorem neg_fin {a : Fl} (ha : a.isFinite = true) :
    (neg a).isFinite = true ∧ (neg a).val = - a.val := by
  cases a <;> simp only [isFinite, Bool.false_eq_true] at ha
  · exact ⟨rfl, by simp [neg, val]⟩
  · unfold neg
    dsimp only
    split
    · rename_i h; exact ⟨rfl, by simp [val, h]⟩
    · exact ⟨rfl, rfl⟩

theorem sub_fin {a b : Fl} (ha : a.isFinite = true) (hb : b.isFinite = true)
    (h : InRange f (a.val - b.val)) :
    (sub f a b).isFinite = true ∧ (sub f a b).val = f.rnd (a.val - b.val) := by
  have hn := neg_fin hb
  have : a.val - b.val = a.val + (neg b).val := by rw [hn.2]; ring
  rw [this] at h ⊢
  exact add_fin ha hn.1 h

theorem mul_fin {a b : Fl} (ha : a.isFinite = true) (hb : b.isFinite = true)
    (h : InRange f (a.val * b.val)) :
    (mul f a b).isFinite = true ∧ (mul f a b).val = f.rnd (a.val * b.val) := by
  cases a <;> cases b <;> simp only [isFinite, Bool.false_eq_true] at ha hb <;> exact round_val h

theorem isZero_iff {a : Fl} (ha : a.isFinite = true) : a.isZero = true ↔ a.val = 0 := by
  cases a <;> simp_all [isFinite, isZero, val]

theorem div_fin {a b : Fl} (ha : a.isFinite = true) (hb : b.isFinite = true) (h0 : b.val ≠ 0)
    (h : InRange f (a.val / b.val)) :
    (div f a b).isFinite = true ∧ (div f a b).val = f.rnd (a.val / b.val) := by
  have hz : ¬ b.isZero = true := fun hc => h0 ((isZero_iff hb).mp hc)
  cases a <;> cases b <;> simp only [isFinite, Bool.false_eq_true] at ha hb <;>
    (simp only [div]; rw [if_neg hz]; exact round_val h)

theorem lt_fin {a b : Fl} (ha : a.isFinite = true) (hb : b.isFinite = true) :
    lt a b = true ↔ a.val < b.val := by
  cases a <;> cases b <;> simp_all [isFinite, lt]

theorem beq_fin {a b : Fl} (ha : a.isFinite = true) (hb : b.isFinite = true) :
    beq a b = true ↔ a.val = b.val := by
  cases a <;> cases b <;> simp_all [isFinite, beq]

theorem le_fin {a b : Fl} (ha : a.isFinite = true) (hb : b.isFinite = true) :
    le a b = true ↔ a.val ≤ b.val := by
  unfold le
  rw [Bool.or_eq_true, lt_fin ha hb, beq_fin ha hb, le_iff_lt_or_eq]

theorem round_ok {s : Bool} {x : ℚ} : Ok f (round f s x) := by
  unfold round
  split
  · split
    · trivial
    · exact ⟨Fmt.rep_zero, by simpa using Fmt.maxFin_nonneg⟩
  · split
    · trivial
    · split
      · trivial
      · exact ⟨Fmt.rep_rnd _, by rw [abs_le]; constructor <;> linarith⟩

end Fl

namespace Fmt
variable {f : Fmt}

/-- The relative error of rounding, outside the subnormal range. -/
theorem rnd_rel {x : ℚ} (h : pow2 (f.emin + f.p - 1) ≤ |x|) : |f.rnd x - x| ≤ |x| * pow2 (-(f.p : Int)) := by
  have hx : 0 < |x| := lt_of_lt_of_le (pow2_pos _) h
  have hs := ilog2_spec hx
  have hl := pow2_lt_iff.mp (lt_of_le_of_lt h hs.2)
  have hq : f.quantum x = ilog2 |x| - ((f.p : Int) - 1) := by
    rw [quantum]; omega
  have he := rnd_err (f := f) x
  have h2 : pow2 (f.quantum x) / 2 = pow2 (ilog2 |x|) * pow2 (-(f.p : Int)) := by
    have h1 : f.quantum x = ilog2 |x| + -(f.p : Int) + 1 := by rw [hq]; ring
    have h3 : pow2 1 = 2 := by simp [pow2]
    rw [h1, pow2_add, pow2_add, h3]; ring
  rw [h2] at he
  exact le_trans he (mul_le_mul_of_nonneg_right hs.1 (pow2_pos _).le)

end Fmt

/-! ### The two formats -/

theorem f32_p : 1 ≤ f32.p := by decide

theorem f64_p : 1 ≤ f64.p := by decide

theorem f32_maxFin : f32.maxFin = (2 ^ 24 - 1) * 2 ^ 104 := by
  simp [Fmt.maxFin, f32, pow2]; norm_num

theorem f32_rep_int {n : Int} (h : |n| ≤ 2 ^ 24) : f32.Rep n :=
  Fmt.rep_int h (by decide)

/-- Numbers below 2^100 in size do not overflow. -/
theorem f32_inRange {x : ℚ} (h : |x| ≤ 2 ^ 100) : InRange f32 x := by
  have hb : f32.Rep ((2 : ℚ) ^ 100) :=
    ⟨1, 100, by decide, by decide, by rw [pow2_eq]; norm_num⟩
  have := Fmt.abs_rnd_le f32_p hb h
  unfold InRange
  rw [f32_maxFin]
  exact le_trans this (by norm_num)

theorem f32_ofNat {n : Nat} (h : n ≤ 2 ^ 24) :
    (Fl.ofNat f32 n).isFinite = true ∧ (Fl.ofNat f32 n).val = n := by
  have h1 : f32.Rep ((n : Int) : ℚ) := f32_rep_int (by
    rw [abs_of_nonneg (by omega)]; exact_mod_cast h)
  have h2 : f32.rnd (n : ℚ) = n := by exact_mod_cast Fmt.rnd_rep f32_p h1
  have h3 : InRange f32 (n : ℚ) := f32_inRange (by
    rw [abs_of_nonneg (by positivity)]
    have : (n : ℚ) ≤ 2 ^ 24 := by exact_mod_cast h
    exact le_trans this (by norm_num))
  have := Fl.round_val (s := false) h3
  rw [h2] at this
  exact this

theorem Fl.toUsize_of {a : Fl} (h : a.isFinite = true) (h2 : a.val < 2 ^ 64) :
    a.toUsize = ⌊a.val⌋.toNat := by
  cases a with
  | nan => simp [Fl.isFinite] at h
  | inf s => simp [Fl.isFinite] at h
  | nz => simp [Fl.toUsize, Fl.val]
  | fin q =>
    simp only [Fl.toUsize, Fl.val, floor_eq] at h2 ⊢
    have : ⌊q⌋ < 2 ^ 64 := by
      rw [Int.floor_lt]; exact_mod_cast h2
    omega

/-- Integers up to 2^24 are exact. -/
theorem round_int {s : Bool} {n : Int} (h : |n| ≤ 2 ^ 24) (h0 : n ≠ 0) :
    Fl.round f32 s (n : ℚ) = .fin n := by
  have h1 : f32.rnd ((n : Int) : ℚ) = n := Fmt.rnd_rep f32_p (f32_rep_int h)
  have hq : |(n : ℚ)| ≤ 2 ^ 24 := by
    have : ((|n| : Int) : ℚ) ≤ ((2 ^ 24 : Int) : ℚ) := by exact_mod_cast h
    rw [Int.cast_abs] at this
    exact_mod_cast this
  have hb : (n : ℚ) ≠ 0 := by exact_mod_cast h0
  have hm : (2 : ℚ) ^ 24 ≤ f32.maxFin := by rw [f32_maxFin]; norm_num
  rw [abs_le] at hq
  unfold Fl.round
  rw [h1, if_neg hb, if_neg (by linarith), if_neg (by linarith)]

end Verif
