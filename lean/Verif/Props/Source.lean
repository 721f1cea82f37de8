import Verif.Lemmas.Nodes

/-! # Impulses and oscillators (C20, C24, C41) -/

namespace Verif.Props
open Spec

/-! ### imp -/

theorem imp_run (p : Nat) (hp : p ≠ 0) (c n : Nat) :
    runM (fun c (_ : Unit) => impStep p c (.fin 0)) c (List.replicate n ()) =
      .ok (c + n, (List.range n).map (fun i => .fin (if p ∣ c + i then 1 else 0))) := by
  induction n generalizing c with
  | zero => rfl
  | succ n ih =>
    rw [List.replicate_succ, runM]
    simp only [impStep, if_neg hp]
    have := ih (c + 1)
    simp only [impStep, if_neg hp] at this
    rw [this]
    simp only [List.range_succ_eq_map, List.map_cons, List.map_map, Nat.add_zero]
    congr 2
    · omega
    · rw [List.cons_eq_cons]
      constructor
      · by_cases h : c % p = 0
        · rw [if_pos h, if_pos (Nat.dvd_of_mod_eq_zero h)]
        · rw [if_neg h, if_neg (fun hd => h (Nat.mod_eq_zero_of_dvd hd))]
      · apply List.map_congr_left
        intro i _
        simp only [Function.comp_apply]
        have : c + 1 + i = c + (i + 1) := by omega
        rw [this]

theorem imp_make (P : Plat) (N : Nat) (env : Env) (f : Fl) :
    makeNode P N env.samples env.sr env.bpm env.seed (.imp (.num f)) =
      .ok (fresh N 1 (.prim (.imp (Impulse.new env.sr f))), []) := rfl

theorem imp_blocks (P : Plat) (N : Nat) (env : Env) (f : Fl) (ins : List Ins)
    (hp : impPeriod env.sr f ≠ 0) :
    ∃ outs ys, play P N env (.imp (.num f)) [] ins = .ok outs ∧ channel 0 outs = some ys ∧
      ys.length = ins.length * N ∧ PulseTrain (impPeriod env.sr f) ys := by
  obtain ⟨o, h1, h2⟩ := blocks_source (procG P)
    (fun c => .prim (.imp ⟨c, impPeriod env.sr f, env.sr, []⟩))
    (fun c (_ : Unit) => impStep (impPeriod env.sr f) c (.fin 0)) N (Shaped 1 N) ins
    (fun s i out _ ho => by
      obtain ⟨a, rfl, ha⟩ := ho.one
      have := runM_const (impStep (impPeriod env.sr f))
        (fun c (_ : Unit) => impStep (impPeriod env.sr f) c (.fin 0)) (fun _ _ _ => rfl) s a
        (List.replicate N ()) (by simp [ha])
      rw [← this]
      simp only [procG, procPrim, procImp]
      cases runM (impStep (impPeriod env.sr f)) s a with
      | error e => rfl
      | ok r => rfl)
    (fun y hy => ⟨rfl, by simp [hy]⟩) 0 _ (shaped_fresh N 1 (GNode.prim (P := P) (.imp (Impulse.new env.sr f))))
    _ (imp_run _ hp 0 _)
  refine ⟨o, _, play_ok (imp_make P N env f) rfl h1, h2, by simp, fun t ht => ?_⟩
  simp only [List.length_map, List.length_range] at ht
  simp [ht]

/-- The number of samples between two clicks. -/
theorem impPeriod_close {sr : Nat} {f : Fl} (h2 : sr ≤ 2 ^ 24) (hf : f.isFinite = true) (hpos : 1 / 2 ^ 30 ≤ f.val) (hle : f.val ≤ sr) :
    1 ≤ impPeriod sr f ∧ |(impPeriod sr f : ℚ) - sr / f.val| ≤ 1 + sr / f.val / 2 ^ 24 := by
  obtain ⟨f1, f2⟩ := f32_ofNat h2
  have hf0 : 0 < f.val := lt_of_lt_of_le (by norm_num) hpos
  have hx1 : 1 ≤ sr / f.val := (one_le_div hf0).mpr hle
  have hsr2 : (sr : ℚ) ≤ 2 ^ 24 := by exact_mod_cast h2
  have hx2 : sr / f.val ≤ 2 ^ 54 := by
    rw [div_le_iff₀ hf0]
    calc (sr : ℚ) ≤ 2 ^ 54 * (1 / 2 ^ 30) := by linarith
      _ ≤ 2 ^ 54 * f.val := mul_le_mul_of_nonneg_left hpos (by norm_num)
  have hd := Fl.div_fin (f := f32) f1 hf hf0.ne' (by
    rw [f2]; exact inRange_of hx1 hx2 (by norm_num) (by norm_num))
  rw [f2] at hd
  have hr54 : f32.Rep ((2 : ℚ) ^ 54) := ⟨1, 54, by decide, by decide, by rw [pow2_eq]; norm_num⟩
  have hv1 : 1 ≤ f32.rnd (sr / f.val) := Fmt.le_rnd f32_p rep1 hx1
  have hv2 : f32.rnd (sr / f.val) ≤ 2 ^ 54 := Fmt.rnd_le f32_p hr54 hx2
  have hp : impPeriod sr f = ⌊f32.rnd (sr / f.val)⌋.toNat := by
    rw [impPeriod, Fl.toUsize_of hd.1 (by rw [hd.2]; exact lt_of_le_of_lt hv2 (by norm_num)), hd.2]
  have hfl : 1 ≤ ⌊f32.rnd (sr / f.val)⌋ := by rw [Int.le_floor]; exact_mod_cast hv1
  have hp1 : 1 ≤ impPeriod sr f := by rw [hp]; omega
  refine ⟨hp1, ?_⟩
  have e := Fmt.rnd_rel (f := f32) (x := sr / f.val) (by
    rw [abs_of_nonneg (by linarith)]
    refine le_trans ?_ hx1
    rw [pow2_eq]; norm_num [f32])
  have heps : pow2 (-(f32.p : Int)) = 1 / 2 ^ 24 := by rw [pow2_eq]; norm_num [f32]
  rw [heps, abs_of_nonneg (by linarith : (0 : ℚ) ≤ sr / f.val)] at e
  have h4 : ((impPeriod sr f : Nat) : ℚ) = (⌊f32.rnd (sr / f.val)⌋ : ℚ) := by
    rw [hp]
    have : ((⌊f32.rnd (sr / f.val)⌋.toNat : Nat) : Int) = ⌊f32.rnd (sr / f.val)⌋ :=
      Int.toNat_of_nonneg (by omega)
    exact_mod_cast congrArg (Int.cast (R := ℚ)) this
  have a1 := Int.floor_le (f32.rnd (sr / f.val))
  have a2 := Int.lt_floor_add_one (f32.rnd (sr / f.val))
  rw [h4]
  rw [abs_le] at e ⊢
  constructor <;> linarith

/-- C20 for frequencies between 0 and the sample rate: the pulses are exactly at the multiples of a
period, which is the whole number of samples in `1 / f` seconds up to one sample and f32 rounding; the
block length and the input play no role. Missing: the exact period (`c20_rounding_counterexample`) and
frequencies above the sample rate (`c20_panics`). -/
theorem c20_imp_partial (P : Plat) (N : Nat) (env : Env) (f : Fl) (ins : List Ins)
    (h2 : env.sr ≤ 2 ^ 24) (hf : f.isFinite = true) (hpos : 1 / 2 ^ 30 ≤ f.val) (hle : f.val ≤ env.sr) :
    ∃ outs ys p, play P N env (.imp (.num f)) [] ins = .ok outs ∧ channel 0 outs = some ys ∧
      ys.length = ins.length * N ∧ 1 ≤ p ∧ PulseTrain p ys ∧
      |(p : ℚ) - env.sr / f.val| ≤ 1 + env.sr / f.val / 2 ^ 24 := by
  obtain ⟨hp1, hc⟩ := impPeriod_close h2 hf hpos hle
  obtain ⟨o, ys, g1, g2, g3, g4⟩ := imp_blocks P N env f ins (by omega)
  exact ⟨o, ys, _, g1, g2, g3, hp1, g4, hc⟩

/-- `imp 440` at 44.1 kHz. -/
example : ∃ (env : Env) (f : Fl), env.sr = 44100 ∧ f.val = 440 ∧ env.sr ≤ 2 ^ 24 ∧ f.isFinite = true ∧
    1 / 2 ^ 30 ≤ f.val ∧ f.val ≤ env.sr :=
  ⟨⟨[], 44100, .fin 120, 0⟩, .fin 440, rfl, rfl, by decide, rfl, by norm_num [Fl.val], by norm_num [Fl.val]⟩

/-- C20 fails in the exact period: `imp 0.128` at 48 kHz has a period of 375000 samples, but fires every
374999 samples. -/
theorem c20_rounding_counterexample (P : Plat) (N : Nat) (env : Env) (ins : List Ins)
    (hsr : env.sr = 48000) :
    ∃ outs ys, play P N env (.imp (.num (Fl.lit f32 (128 / 1000)))) [] ins = .ok outs ∧
      channel 0 outs = some ys ∧ ys.length = ins.length * N ∧ PulseTrain 374999 ys ∧
      (48000 : ℚ) / (128 / 1000) = 375000 := by
  have hp : impPeriod env.sr (Fl.lit f32 (128 / 1000)) = 374999 := by
    rw [hsr]; decide +kernel
  obtain ⟨o, ys, g1, g2, g3, g4⟩ := imp_blocks P N env (Fl.lit f32 (128 / 1000)) ins (by rw [hp]; decide)
  rw [hp] at g4
  exact ⟨o, ys, g1, g2, g3, g4, by norm_num⟩

/-- C20 fails above the sample rate: the first block of `imp 50000` at 44.1 kHz panics. -/
theorem c20_panics (P : Plat) (N : Nat) (env : Env) (i : Ins) (ins : List Ins) (hsr : env.sr = 44100) :
    play P (N + 1) env (.imp (.num (.fin 50000))) [] (i :: ins) = .error (.panic .divByZero) := by
  have hp : impPeriod env.sr (.fin 50000) = 0 := by rw [hsr]; decide +kernel
  simp [play, imp_make, sendMsgs, runBlocks, fresh, procG, procPrim, procImp, Impulse.new, hp,
    List.replicate_succ, runM, impStep, bind, Except.bind, reState]

end Verif.Props
