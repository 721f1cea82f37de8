import Verif.Props.Sequencer
import Verif.Spec.Safe

/-! Lower and upper bounds for products of floating point numbers (helpers for C37). -/

namespace Verif
open Spec

/-- Not below `c`: a finite number or positive infinity. -/
def AtLeast (c : ℚ) (x : Fl) : Prop := x = .inf false ∨ ∃ q, x = .fin q ∧ c ≤ q

theorem AtLeast.of_le {c q : ℚ} (h : c ≤ q) : AtLeast c (.fin q) := .inr ⟨q, rfl, h⟩

theorem AtLeast.round {f : Fmt} (hp : 1 ≤ f.p) {s : Bool} {c x : ℚ} (hc : f.Rep c) (h0 : 0 < c) (h : c ≤ x) :
    AtLeast c (Fl.round f s x) := by
  have h1 := Fmt.le_rnd hp hc h
  have hM : 0 ≤ f.maxFin := Fmt.maxFin_nonneg
  unfold Fl.round
  rw [if_neg (by linarith)]
  split
  · exact .inl rfl
  · rw [if_neg (by linarith)]
    exact .inr ⟨_, rfl, h1⟩

theorem AtLeast.mul {f : Fmt} (hp : 1 ≤ f.p) {a b c : ℚ} {x y : Fl} (hx : AtLeast a x) (hy : AtLeast b y)
    (ha : 0 < a) (hb : 0 < b) (hc : f.Rep c) (h0 : 0 < c) (hle : c ≤ a * b) : AtLeast c (Fl.mul f x y) := by
  have hz : ∀ {a q : ℚ}, 0 < a → a ≤ q → (Fl.fin q).isZero = false ∧ (Fl.fin q).sign = false := by
    intro a q h1 h2
    constructor
    · simp [Fl.isZero]; linarith
    · simp [Fl.sign]; linarith
  rcases hx with rfl | ⟨q, rfl, hq⟩
  · rcases hy with rfl | ⟨r, rfl, hr⟩
    · exact .inl rfl
    · left
      simp [Fl.mul, (hz hb hr).1, (hz hb hr).2]
  · rcases hy with rfl | ⟨r, rfl, hr⟩
    · left
      simp [Fl.mul, (hz ha hq).1, (hz ha hq).2]
    · have : c ≤ q * r := hle.trans (mul_le_mul hq hr hb.le (by linarith))
      simp only [Fl.mul]
      exact AtLeast.round hp hc h0 this

theorem AtLeast.div {f : Fmt} (hp : 1 ≤ f.p) {a b c r : ℚ} {x : Fl} (hx : AtLeast a x) (h1 : 0 < r) (h2 : r ≤ b)
    (ha : 0 < a) (hc : f.Rep c) (h0 : 0 < c) (hle : c * b ≤ a) : AtLeast c (Fl.div f x (.fin r)) := by
  have hz : (Fl.fin r).isZero = false ∧ (Fl.fin r).sign = false := by
    constructor
    · simp [Fl.isZero]; linarith
    · simp [Fl.sign]; linarith
  rcases hx with rfl | ⟨q, rfl, hq⟩
  · left
    simp [Fl.div, hz.2]
  · have : c ≤ q / r := by
      rw [le_div_iff₀ h1]
      have := mul_le_mul_of_nonneg_left h2 h0.le
      linarith
    simp only [Fl.div, hz.1]
    exact AtLeast.round hp hc h0 this

theorem AtLeast.toUsize {x : Fl} (h : AtLeast 1 x) : x.toUsize ≠ 0 := by
  rcases h with rfl | ⟨q, rfl, hq⟩
  · simp [Fl.toUsize]
  · have : (1 : Int) ≤ ⌊q⌋ := Int.le_floor.mpr (by exact_mod_cast hq)
    simp only [Fl.toUsize, floor_eq]
    omega

theorem AtLeast.ofNat {f : Fmt} (hp : 1 ≤ f.p) {n : Nat} {c : ℚ} (hc : f.Rep c) (h0 : 0 < c) (h : c ≤ n) :
    AtLeast c (Fl.ofNat f n) := AtLeast.round hp hc h0 h

theorem rep_pow (k : Int) (h : -149 ≤ k) : f32.Rep (pow2 k) := ⟨1, k, by decide, h, by simp⟩

theorem f32_sixteenth : f32.Rep (1 / 16) := ⟨1, -4, by decide, by decide, by rw [pow2_eq]; norm_num⟩
theorem f32_quarter : f32.Rep (1 / 4) := ⟨1, -2, by decide, by decide, by rw [pow2_eq]; norm_num⟩
theorem f32_4096th : f32.Rep (1 / 4096) := ⟨1, -12, by decide, by decide, by rw [pow2_eq]; norm_num⟩
theorem f32_4096 : f32.Rep 4096 := ⟨1, 12, by decide, by decide, by rw [pow2_eq]; norm_num⟩
theorem f64_1024 : f64.Rep 1024 := ⟨1, 10, by decide, by decide, by rw [pow2_eq]; norm_num⟩
theorem f64_4096 : f64.Rep 4096 := ⟨1, 12, by decide, by decide, by rw [pow2_eq]; norm_num⟩
theorem f64_quarter : f64.Rep (1 / 4) := ⟨1, -2, by decide, by decide, by rw [pow2_eq]; norm_num⟩

/-- A beat lasts at least a sixteenth of a second, a bar a quarter. -/
theorem cycle_atLeast {bpm : Fl} (h : TempoOk bpm) : AtLeast (1 / 4) (.fin 60 /. bpm *. .fin 4) := by
  obtain ⟨q, rfl, h1, h2⟩ := h
  exact (AtLeast.div f32_p (AtLeast.of_le (le_refl 60)) h1 h2 (by norm_num) f32_sixteenth (by norm_num)
    (by norm_num)).mul f32_p (AtLeast.of_le (le_refl 4)) (by norm_num) (by norm_num) f32_quarter (by norm_num)
    (by norm_num)

theorem rate_atLeast {sr : Nat} (h : 4096 ≤ sr) : AtLeast 4096 (Fl.ofNat f32 sr) :=
  AtLeast.ofNat f32_p f32_4096 (by norm_num) (by exact_mod_cast h)

/-- A pattern lasts at least one sample. -/
theorem bar_ne {bpm span : Fl} {sr : Nat} (h1 : TempoOk bpm) (h2 : SpanOk span) (h3 : 4096 ≤ sr) :
    (.fin 60 /. bpm *. .fin 4 *. span *. Fl.ofNat f32 sr).toUsize ≠ 0 := by
  obtain ⟨s, rfl, hs⟩ := h2
  exact AtLeast.toUsize (((cycle_atLeast h1).mul f32_p (AtLeast.of_le hs) (by norm_num) (by norm_num)
    f32_4096th (by norm_num) (by norm_num)).mul f32_p (rate_atLeast h3) (by norm_num) (by norm_num) rep1
    (by norm_num) (by norm_num))

/-- A bar of `seq` lasts at least one sample. -/
theorem seqBar_ne {bpm : Fl} {sr : Nat} (h1 : TempoOk bpm) (h3 : 4096 ≤ sr) :
    (barLength bpm sr (.fin 1)).toUsize ≠ 0 := by
  obtain ⟨q, rfl, hq1, hq2⟩ := h1
  refine AtLeast.toUsize (AtLeast.div f64_p (b := 1) (AtLeast.mul f64_p (c := 1024) (AtLeast.div f64_p (c := 1 / 4)
    (AtLeast.of_le (le_refl 240)) hq1 hq2 (by norm_num) f64_quarter (by norm_num) (by norm_num))
    (AtLeast.ofNat f64_p (c := 4096) f64_4096 (by norm_num) (by exact_mod_cast h3)) (by norm_num) (by norm_num) f64_1024
    (by norm_num) (by norm_num)) (by norm_num) (le_refl 1) (by norm_num) ?_ (by norm_num) (by norm_num))
  exact ⟨1, 0, by decide, by decide, by rw [pow2_eq]; norm_num⟩

theorem patBar_ne {sr : Nat} (h : 4096 ≤ sr) : (.fin 2 *. .fin 1 *. Fl.ofNat f32 sr).toUsize ≠ 0 :=
  AtLeast.toUsize ((AtLeast.mul f32_p (AtLeast.of_le (le_refl 2)) (AtLeast.of_le (le_refl 1)) (by norm_num) (by norm_num)
    rep1 (by norm_num) (by norm_num)).mul f32_p (rate_atLeast h) (by norm_num) (by norm_num) rep1
    (by norm_num) (by norm_num))

/-- An impulse up to the sample rate has a period of at least one sample. -/
theorem period_ne {sr : Nat} (h : RateOk sr) {q : ℚ} (h0 : 0 ≤ q) (h1 : q ≤ sr) : impPeriod sr (.fin q) ≠ 0 := by
  unfold impPeriod
  have hsr : (4096 : ℚ) ≤ sr := by exact_mod_cast h.1
  obtain ⟨f1, f2⟩ := f32_ofNat h.2
  have hA : AtLeast sr (Fl.ofNat f32 sr) := by
    refine AtLeast.ofNat f32_p ?_ (by linarith) (le_refl _)
    have := f32_rep_int (n := (sr : Int)) (by rw [abs_of_nonneg (by omega)]; exact_mod_cast h.2)
    exact_mod_cast this
  rcases h0.lt_or_eq with h0 | h0
  · exact AtLeast.toUsize (AtLeast.div f32_p hA h0 h1 (by linarith) rep1 (by norm_num) (by linarith))
  · subst h0
    rcases hA with h | ⟨r, h, hr⟩
    · rw [h]; simp [Fl.div, Fl.toUsize, Fl.sign]
    · rw [h]
      have : (Fl.fin r).isZero = false ∧ (Fl.fin r).sign = false := by
        constructor
        · simp [Fl.isZero]; linarith
        · simp [Fl.sign]; linarith
      have hr0 : r ≠ 0 := by linarith
      have hr1 : ¬ r < 0 := by linarith
      simp [Fl.div, Fl.isZero, Fl.sign, Fl.toUsize, hr0, hr1]

/-- Not above `c` (or NaN). -/
def AtMost (c : ℚ) (x : Fl) : Prop := Fl.lt (.fin c) x = false

/-- A time of at most 2^20 seconds has at most 2^44 samples. -/
theorem sec_le {sr : Nat} (h : sr ≤ 2 ^ 24) {t : Fl} (ht : TimeOk t) : secToSamples sr t ≤ 2 ^ 44 := by
  obtain ⟨f1, f2⟩ := f32_ofNat h
  have hsr : (sr : ℚ) ≤ 2 ^ 24 := by exact_mod_cast h
  have hsr0 : (0 : ℚ) ≤ sr := by positivity
  unfold secToSamples
  generalize Fl.ofNat f32 sr = y at f1 f2
  have hy : y = .fin (sr : ℚ) ∨ (y = .nz ∧ (sr : ℚ) = 0) := by
    cases y with
    | nan => simp [Fl.isFinite] at f1
    | inf s => simp [Fl.isFinite] at f1
    | nz => exact .inr ⟨rfl, f2.symm⟩
    | fin q => left; rw [← f2]; rfl
  have hround : ∀ (s : Bool) (v : ℚ), v ≤ 2 ^ 44 → (Fl.round f32 s v).toUsize ≤ 2 ^ 44 := by
    intro s v hv
    have h1 := Fmt.rnd_le (f := f32) f32_p ⟨1, 44, by decide, by decide, by rw [pow2_eq]; norm_num⟩ hv
    unfold Fl.round
    split
    · cases s
      · simp only [Fl.toUsize, Bool.false_eq_true, if_false, floor_eq]
        norm_num
      · simp [Fl.toUsize]
    · split
      · rename_i h2
        rw [f32_maxFin] at h2
        exact absurd (h2.trans_le h1) (by norm_num)
      · split
        · simp [Fl.toUsize]
        · simp only [Fl.toUsize, floor_eq]
          have : ⌊f32.rnd v⌋ ≤ 2 ^ 44 := by
            have := (Int.floor_le (f32.rnd v)).trans h1
            exact_mod_cast this
          omega
  have hle : ∀ q : ℚ, TimeOk (.fin q) → q ≤ 2 ^ 20 := by
    intro q hq
    unfold TimeOk at hq
    simp only [Fl.lt, Fl.val] at hq
    exact not_lt.mp (of_decide_eq_false hq)
  cases t with
  | nan => simp [Fl.mul, Fl.toUsize]
  | inf s =>
    cases s with
    | false => simp [TimeOk, Fl.lt] at ht
    | true =>
      rcases hy with rfl | ⟨rfl, _⟩
      · simp only [Fl.mul]
        split
        · simp [Fl.toUsize]
        · have : (Fl.fin (sr : ℚ)).sign = false := by simp [Fl.sign]
          simp [this, Fl.toUsize]
      · simp [Fl.mul, Fl.isZero, Fl.toUsize]
  | nz =>
    rcases hy with rfl | ⟨rfl, _⟩
    · exact hround _ _ (by simp [Fl.val])
    · exact hround _ _ (by simp [Fl.val])
  | fin q =>
    have hq := hle q ht
    rcases hy with rfl | ⟨rfl, _⟩
    · refine hround _ _ ?_
      simp only [Fl.val]
      nlinarith
    · exact hround _ _ (by simp [Fl.val])

end Verif
