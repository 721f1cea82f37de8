import Verif.Lemmas.Nodes

/-! # Oscillators (C24, C41) -/

namespace Verif.Props
open Spec

theorem within_weak {a b a' b' : ℚ} {x : Fl} (h : Within a b x) (ha : a' ≤ a) (hb : b ≤ b') :
    Within a' b' x := ⟨h.1, le_trans ha h.2.1, le_trans h.2.2 hb⟩

/-- The phase stays in [0, 1]. -/
theorem advance_within {sr : Nat} (h1 : 1 ≤ sr) (h2 : sr ≤ 2 ^ 24) {f ph : Fl} (hf : Within 0 sr f)
    (hp : Within 0 1 ph) : Within 0 1 (advance sr f ph) := by
  obtain ⟨f1, f2⟩ := f32_ofNat h2
  have hsr : (1 : ℚ) ≤ sr := by exact_mod_cast h1
  have hsr0 : (0 : ℚ) < sr := by linarith
  have hinc : Within 0 1 (f /. Fl.ofNat f32 sr) := by
    apply within_div hf.1 f1 rep0 rep1 (by norm_num) (by norm_num)
    · rw [f2]; exact hsr0.ne'
    · rw [f2]; exact div_nonneg hf.2.1 hsr0.le
    · rw [f2]; exact (div_le_one hsr0).mpr hf.2.2
  have hsum : Within 0 2 (ph +. f /. Fl.ofNat f32 sr) := by
    apply within_add hp.1 hinc.1 rep0 rep2 (by norm_num) (by norm_num)
    · linarith [hp.2.1, hinc.2.1]
    · linarith [hp.2.2, hinc.2.2]
  unfold advance
  dsimp only
  split
  · next h =>
    have h1 : (1 : ℚ) < (ph +. f /. Fl.ofNat f32 sr).val := (Fl.lt_fin (a := .fin 1) rfl hsum.1).mp h
    apply within_sub hsum.1 rfl rep0 rep1 (by norm_num) (by norm_num)
    · simp only [Fl.val_fin]; linarith
    · have := hsum.2.2; simp only [Fl.val_fin]; linarith
  · next h =>
    refine ⟨hsum.1, hsum.2.1, ?_⟩
    by_contra hc
    exact h ((Fl.lt_fin (a := .fin 1) rfl hsum.1).mpr (not_le.mp hc))

theorem abs_within {x : Fl} (h : Within (-1) 1 x) : Within 0 1 (Fl.abs x) := by
  obtain ⟨h1, h2, h3⟩ := h
  cases x with
  | nan => simp [Fl.isFinite] at h1
  | inf s => simp [Fl.isFinite] at h1
  | nz => exact ⟨rfl, by simp [Fl.abs, Fl.val], by simp [Fl.abs, Fl.val]⟩
  | fin q => exact ⟨rfl, abs_nonneg q, abs_le.mpr ⟨h2, h3⟩⟩

/-- A phase in [0, 1] gives an output in [-1, 1]. -/
theorem wave_within (w : Wave) {ph : Fl} (hp : Within 0 1 ph) : Within (-1) 1 (w.at ph) := by
  have hd : Within 0 2 (ph *. .fin 2) := by
    apply within_mul hp.1 rfl rep0 rep2 (by norm_num) (by norm_num)
    · simp only [Fl.val_fin]; linarith [hp.2.1]
    · simp only [Fl.val_fin]; linarith [hp.2.2]
  cases w with
  | saw =>
    apply within_sub hd.1 rfl repm1 rep1 (by norm_num) (by norm_num)
    · simp only [Fl.val_fin]; linarith [hd.2.1]
    · simp only [Fl.val_fin]; linarith [hd.2.2]
  | squ =>
    simp only [Wave.at]
    split
    · exact ⟨rfl, by norm_num [Fl.val], by norm_num [Fl.val]⟩
    · exact ⟨rfl, by norm_num [Fl.val], by norm_num [Fl.val]⟩
  | tri =>
    simp only [Wave.at]
    have hv : Within (-1) 1 (.fin (-1) +. ph *. .fin 2) := by
      apply within_add rfl hd.1 repm1 rep1 (by norm_num) (by norm_num)
      · simp only [Fl.val_fin]; linarith [hd.2.1]
      · simp only [Fl.val_fin]; linarith [hd.2.2]
    have ha := abs_within hv
    have hs : Within (-(1 / 2)) (1 / 2) (Fl.abs (.fin (-1) +. ph *. .fin 2) -. .fin (1 / 2)) := by
      apply within_sub ha.1 rfl (Fmt.rep_neg rephalf) rephalf (by norm_num) (by norm_num)
      · simp only [Fl.val_fin]; linarith [ha.2.1]
      · simp only [Fl.val_fin]; linarith [ha.2.2]
    apply within_mul rfl hs.1 repm1 rep1 (by norm_num) (by norm_num)
    · simp only [Fl.val_fin]; linarith [hs.2.1]
    · simp only [Fl.val_fin]; linarith [hs.2.2]

/-- The component of an oscillator. -/
def waveComp : Wave → NumRef → Comp
  | .saw => .saw
  | .squ => .squ
  | .tri => .tri

theorem osc_make (P : Plat) (N : Nat) (env : Env) (w : Wave) (p : NumRef) :
    makeNode P N env.samples env.sr env.bpm env.seed (waveComp w p) =
      .ok (fresh N 1 (.prim (.osc w (Osc.new (p.value (.fin 0)) env.sr))), p.refs) := by
  cases w <;> rfl

theorem sin_make (P : Plat) (N : Nat) (env : Env) (p : NumRef) :
    makeNode P N env.samples env.sr env.bpm env.seed (.sin p) =
      .ok (fresh N 1 (.prim (.sin (Osc.new (p.value (.fin 0)) env.sr))), p.refs) := rfl

theorem run_unit {σ ο : Type} (f : σ → Fl → σ × ο) (h : ∀ s x y, f s x = f s y) (s : σ) (b : Buf) :
    runM (fun s (_ : Unit) => .ok (f s (.fin 0))) s (List.replicate b.length ()) = .ok (run f s b) := by
  rw [← runM_pure]
  exact (runM_const _ _ (fun s x y => by rw [h s x (.fin 0)]) s b _ (by simp)).symm

/-- C24 for a fixed frequency between 0 and the sample rate. -/
theorem c24_fixed (P : Plat) (N : Nat) (env : Env) (w : Wave) (f : Fl) (n : Nat) (h1 : 1 ≤ env.sr)
    (h2 : env.sr ≤ 2 ^ 24) (hf : Within 0 env.sr f) :
    ∃ outs ys, play P N env (waveComp w (.num f)) [] (noInput n) = .ok outs ∧
      channel 0 outs = some ys ∧ ys.length = n * N ∧ ∀ y, y ∈ ys → Within (-1) 1 y := by
  have hrun : ∀ k, runM (fun s (_ : Unit) => .ok (oscStep w env.sr f s (.fin 0))) (.fin 0)
      (List.replicate k ()) = .ok (run (oscStep w env.sr f) (.fin 0) (List.replicate k (.fin 0))) := by
    intro k
    have := run_unit (oscStep w env.sr f) (fun _ _ _ => rfl) (.fin 0) (List.replicate k (.fin 0))
    simpa using this
  obtain ⟨o, g1, g2⟩ := blocks_source (procG P) (fun ph => .prim (.osc w ⟨f, ph, .fin 0, env.sr, []⟩))
    (fun s (_ : Unit) => .ok (oscStep w env.sr f s (.fin 0))) N (Shaped 1 N) (noInput n)
    (fun s i out hi ho => by
      obtain ⟨a, rfl, ha⟩ := ho.one
      rw [noInput, List.mem_replicate] at hi
      have := run_unit (oscStep w env.sr f) (fun _ _ _ => rfl) s a
      rw [ha] at this
      rw [this, hi.2]
      rfl)
    (fun y hy => ⟨rfl, by simp [hy]⟩) (.fin 0) _
    (shaped_fresh N 1 (GNode.prim (P := P) (.osc w (Osc.new f env.sr)))) _ (hrun _)
  refine ⟨o, _, play_ok (osc_make P N env w (.num f)) rfl g1, g2, by rw [run_length]; simp [noInput], ?_⟩
  exact (run_all (I := Within 0 1) (J := fun _ => True) (O := Within (-1) 1) (oscStep w env.sr f)
    (fun s x hs _ => ⟨advance_within h1 h2 hf hs, wave_within w hs⟩) (.fin 0)
    ⟨rfl, le_refl _, by norm_num [Fl.val]⟩ _ (fun _ _ => trivial)).2

/-- C24 with the frequency given by a signal that stays between 0 and the sample rate. -/
theorem c24_modulated (P : Plat) (N : Nat) (env : Env) (w : Wave) (p : NumRef) (k : Nat) (xs : List Buf)
    (h1 : 1 ≤ env.sr) (h2 : env.sr ≤ 2 ^ 24) (hx : ∀ x, x ∈ xs.flatten → Within 0 env.sr x) :
    ∃ outs ys, play P N env (waveComp w p) [.index k] (monoFrom k xs) = .ok outs ∧
      channel 0 outs = some ys ∧ ys.length = xs.flatten.length ∧ ∀ y, y ∈ ys → Within (-1) 1 y := by
  obtain ⟨o, g1, g2⟩ := blocks_mono (procG P)
    (fun s : Fl × Fl => .prim (.osc w ⟨p.value (.fin 0), s.1, s.2, env.sr, [k]⟩))
    (fun s x => .ok (oscModStep w env.sr s x)) (fun x => [(k, [x])]) (fun o => o.length = 1) xs
    (fun s x out _ ho => by
      obtain ⟨a, rfl⟩ := List.length_eq_one_iff.mp ho
      rw [runM_pure]
      simp [procG, procPrim, procOsc, modInput, inputAt, chan, bind, Except.bind, reState, blockOf])
    (fun _ _ _ _ _ => rfl) (.fin 0, .fin 0) _
    (shaped_fresh N 1 (GNode.prim (P := P) (.osc w (Osc.new (p.value (.fin 0)) env.sr)))).1 _
    (runM_pure _ _ _)
  refine ⟨o, _, play_ok (osc_make P N env w p) rfl g1, g2, run_length _ _ _, ?_⟩
  exact (run_all (I := fun s : Fl × Fl => Within 0 1 s.1 ∧ Within 0 env.sr s.2)
    (J := Within 0 env.sr) (O := Within (-1) 1) (oscModStep w env.sr)
    (fun s x hs hx => by
      have hi : Within 0 env.sr (if Fl.beq x (.fin 0) then s.2 else x) := by
        split
        · exact hs.2
        · exact hx
      exact ⟨⟨advance_within h1 h2 hi hs.1, hi⟩, wave_within w hs.1⟩) (.fin 0, .fin 0)
    ⟨⟨rfl, le_refl _, by norm_num [Fl.val]⟩, rfl, le_refl _, by simp [Fl.val]⟩ _ hx).2

/-- What is taken from the standard library: the sine of a number is between -1 and 1. -/
def SinBounded (m : Libm) : Prop := ∀ x, x.isFinite = true → Within (-1) 1 (m.sin x)

theorem sin_within {m : Libm} (hm : SinBounded m) {ph : Fl} (hp : Within 0 1 ph) :
    Within (-1) 1 (sinAt m ph) := by
  apply hm
  have hd : Within 0 2 (ph *. .fin 2) := by
    apply within_mul hp.1 rfl rep0 rep2 (by norm_num) (by norm_num)
    · simp only [Fl.val_fin]; linarith [hp.2.1]
    · simp only [Fl.val_fin]; linarith [hp.2.2]
  have hpi : flPi.val ≤ 4 := by norm_num [flPi, Fl.val]
  have hpi0 : 0 ≤ flPi.val := by norm_num [flPi, Fl.val]
  have r8 : f32.Rep 8 := by exact_mod_cast f32_rep_int (n := 8) (by decide)
  refine (within_mul (lo := 0) (hi := 8) hd.1 (y := flPi) rfl rep0 r8 (by norm_num) (by norm_num) ?_ ?_).1
  · exact mul_nonneg hd.2.1 hpi0
  · calc (ph *. .fin 2).val * flPi.val ≤ 2 * 4 := mul_le_mul hd.2.2 hpi hpi0 (by norm_num)
      _ = 8 := by norm_num

/-- C24 for the sine, fixed frequency. -/
theorem c24_sin_fixed (P : Plat) (hm : SinBounded P.libm) (N : Nat) (env : Env) (f : Fl) (n : Nat)
    (h1 : 1 ≤ env.sr) (h2 : env.sr ≤ 2 ^ 24) (hf : Within 0 env.sr f) :
    ∃ outs ys, play P N env (.sin (.num f)) [] (noInput n) = .ok outs ∧
      channel 0 outs = some ys ∧ ys.length = n * N ∧ ∀ y, y ∈ ys → Within (-1) 1 y := by
  have hmap : ∀ b : Buf, ∀ s, run (sinStep P.libm env.sr) s (b.map (fun _ => f)) =
      run (fun s (_ : Fl) => sinStep P.libm env.sr s f) s b := by
    intro b
    induction b with
    | nil => intro s; rfl
    | cons x b ih => intro s; simp only [List.map_cons, run, ih]
  have hrun : ∀ k, runM (fun s (_ : Unit) => .ok (sinStep P.libm env.sr s f)) (.fin 0)
      (List.replicate k ()) = .ok (run (fun s (_ : Fl) => sinStep P.libm env.sr s f) (.fin 0)
        (List.replicate k (.fin 0))) := by
    intro k
    have := run_unit (fun s (_ : Fl) => sinStep P.libm env.sr s f) (fun _ _ _ => rfl) (.fin 0)
      (List.replicate k (.fin 0))
    simpa using this
  obtain ⟨o, g1, g2⟩ := blocks_source (procG P) (fun ph => .prim (.sin ⟨f, ph, .fin 0, env.sr, []⟩))
    (fun s (_ : Unit) => .ok (sinStep P.libm env.sr s f)) N (Shaped 1 N) (noInput n)
    (fun s i out hi ho => by
      obtain ⟨a, rfl, ha⟩ := ho.one
      rw [noInput, List.mem_replicate] at hi
      have := run_unit (fun s (_ : Fl) => sinStep P.libm env.sr s f) (fun _ _ _ => rfl) s a
      rw [ha] at this
      rw [this, hi.2]
      simp only [procG, procPrim, procSin, hmap]
      rfl)
    (fun y hy => ⟨rfl, by simp [hy]⟩) (.fin 0) _
    (shaped_fresh N 1 (GNode.prim (P := P) (.sin (Osc.new f env.sr)))) _ (hrun _)
  refine ⟨o, _, play_ok (sin_make P N env (.num f)) rfl g1, g2, by rw [run_length]; simp [noInput], ?_⟩
  exact (run_all (I := Within 0 1) (J := fun _ => True) (O := Within (-1) 1)
    (fun s (_ : Fl) => sinStep P.libm env.sr s f)
    (fun s x hs _ => ⟨advance_within h1 h2 hf hs, sin_within hm hs⟩) (.fin 0)
    ⟨rfl, le_refl _, by norm_num [Fl.val]⟩ _ (fun _ _ => trivial)).2

/-- C24 for the sine with the frequency given by a signal. -/
theorem c24_sin_modulated (P : Plat) (hm : SinBounded P.libm) (N : Nat) (env : Env) (p : NumRef) (k : Nat)
    (xs : List Buf) (h1 : 1 ≤ env.sr) (h2 : env.sr ≤ 2 ^ 24)
    (hx : ∀ x, x ∈ xs.flatten → Within 0 env.sr x) :
    ∃ outs ys, play P N env (.sin p) [.index k] (monoFrom k xs) = .ok outs ∧
      channel 0 outs = some ys ∧ ys.length = xs.flatten.length ∧ ∀ y, y ∈ ys → Within (-1) 1 y := by
  obtain ⟨o, g1, g2⟩ := blocks_mono (procG P)
    (fun s : Fl => .prim (.sin ⟨p.value (.fin 0), s, .fin 0, env.sr, [k]⟩))
    (fun s x => .ok (sinStep P.libm env.sr s x)) (fun x => [(k, [x])]) (fun o => o.length = 1) xs
    (fun s x out _ ho => by
      obtain ⟨a, rfl⟩ := List.length_eq_one_iff.mp ho
      rw [runM_pure]
      simp [procG, procPrim, procSin, modInput, inputAt, chan, bind, Except.bind, reState, blockOf])
    (fun _ _ _ _ _ => rfl) (.fin 0) _
    (shaped_fresh N 1 (GNode.prim (P := P) (.sin (Osc.new (p.value (.fin 0)) env.sr)))).1 _
    (runM_pure _ _ _)
  refine ⟨o, _, play_ok (sin_make P N env p) rfl g1, g2, run_length _ _ _, ?_⟩
  exact (run_all (I := Within 0 1) (J := Within 0 env.sr) (O := Within (-1) 1) (sinStep P.libm env.sr)
    (fun s x hs hx => ⟨advance_within h1 h2 hx hs, sin_within hm hs⟩) (.fin 0)
    ⟨rfl, le_refl _, by norm_num [Fl.val]⟩ _ hx).2

/-- 440 Hz at 44.1 kHz, and a modulation between 220 Hz and 440 Hz. -/
example : ∃ (env : Env) (f : Fl) (xs : List Buf), 1 ≤ env.sr ∧ env.sr ≤ 2 ^ 24 ∧ Within 0 env.sr f ∧
    (∀ x, x ∈ xs.flatten → Within 0 env.sr x) ∧ xs.flatten.length = 2 :=
  ⟨⟨[], 44100, .fin 120, 0⟩, .fin 440, [[.fin 220], [.fin 440]], by decide, by decide,
    ⟨rfl, by norm_num [Fl.val], by norm_num [Fl.val]⟩, by
      intro x hx
      simp at hx
      rcases hx with rfl | rfl
      · exact ⟨rfl, by norm_num [Fl.val], by norm_num [Fl.val]⟩
      · exact ⟨rfl, by norm_num [Fl.val], by norm_num [Fl.val]⟩, rfl⟩

/-- A platform for which the sine is bounded exists. -/
example : ∃ m : Libm, SinBounded m :=
  ⟨⟨fun _ => .fin 0, id, id, fun _ x => x, id, fun _ _ => .nan, true⟩, fun _ _ =>
    ⟨rfl, by norm_num [Fl.val], by norm_num [Fl.val]⟩⟩

/-! ### Negative frequencies -/

theorem fl_int_add {a b : Int} (h : |a + b| ≤ 2 ^ 24) (h0 : a + b ≠ 0) :
    Fl.fin a +. Fl.fin b = .fin ((a + b : Int) : ℚ) := by
  have := round_int (s := false) h h0
  rw [← this]
  simp only [Fl.add, Fl.val_fin]
  push_cast
  rfl

theorem advance_neg {sr t : Nat} (h1 : 1 ≤ sr) (h2 : sr ≤ 2 ^ 24) (ht : t + 1 ≤ 2 ^ 24) :
    advance sr (.fin (-(sr : ℚ))) (.fin (-(t : ℚ))) = .fin (-((t + 1 : Nat) : ℚ)) := by
  have hsr : Fl.ofNat f32 sr = .fin (sr : ℚ) := by
    have := round_int (s := false) (n := (sr : Int)) (by rw [abs_of_nonneg (by omega)]; exact_mod_cast h2)
      (by omega)
    exact_mod_cast this
  have hne : (sr : ℚ) ≠ 0 := by
    have : sr ≠ 0 := by omega
    exact_mod_cast this
  have hpos : (0 : ℚ) < sr := by
    have : 0 < sr := by omega
    exact_mod_cast this
  have hdiv : Fl.fin (-(sr : ℚ)) /. Fl.fin (sr : ℚ) = .fin (((-1 : Int)) : ℚ) := by
    have := round_int (s := true) (n := -1) (by decide) (by decide)
    simp only [Fl.div, Fl.isZero, Fl.sign, Fl.val_fin, decide_eq_true_eq]
    rw [if_neg hne]
    have e1 : decide (-(sr : ℚ) < 0) = true := decide_eq_true (by linarith)
    have e2 : decide ((sr : ℚ) < 0) = false := decide_eq_false (by linarith)
    have e3 : -(sr : ℚ) / sr = ((-1 : Int) : ℚ) := by
      rw [neg_div, div_self hne]; norm_num
    rw [e1, e2, e3]
    exact this
  have hadd : Fl.fin (-(t : ℚ)) +. Fl.fin ((-1 : Int) : ℚ) = .fin (-((t + 1 : Nat) : ℚ)) := by
    have := fl_int_add (a := -(t : Int)) (b := -1) (by rw [abs_le]; omega) (by omega)
    have e : (((-(t : Int) + -1 : Int)) : ℚ) = -((t + 1 : Nat) : ℚ) := by push_cast; ring
    rw [e] at this
    rw [← this]
    push_cast
    rfl
  unfold advance
  rw [hsr, hdiv, hadd]
  dsimp only
  rw [if_neg]
  intro hc
  have hc : (1 : ℚ) < -((t + 1 : Nat) : ℚ) := of_decide_eq_true hc
  have : (0 : ℚ) ≤ ((t + 1 : Nat) : ℚ) := by positivity
  linarith

theorem saw_neg {t : Nat} (ht : 2 * t + 1 ≤ 2 ^ 24) :
    Wave.saw.at (.fin (-(t : ℚ))) = .fin (-(2 * t + 1 : ℚ)) := by
  have hs : ∀ x : Fl, x -. .fin 1 = x +. .fin ((-1 : Int) : ℚ) := by
    intro x; simp only [Fl.sub, Fl.neg]; norm_num
  unfold Wave.at
  simp only
  by_cases h0 : t = 0
  · subst h0
    rw [hs]
    have : Fl.fin (-((0 : Nat) : ℚ)) *. Fl.fin 2 = .fin ((0 : Int) : ℚ) := by
      simp [Fl.mul, Fl.sign, Fl.val, Fl.round, Fmt.rnd_zero]
    rw [this, fl_int_add (by decide) (by decide)]
    norm_num
  · have hm : Fl.fin (-(t : ℚ)) *. Fl.fin 2 = .fin ((-(2 * t : Int) : Int) : ℚ) := by
      have := round_int (s := true) (n := -(2 * t : Int)) (by rw [abs_le]; omega) (by omega)
      simp only [Fl.mul, Fl.sign, Fl.val_fin]
      have hp : (0 : ℚ) < t := by
        have : 0 < t := by omega
        exact_mod_cast this
      have e1 : decide (-(t : ℚ) < 0) = true := decide_eq_true (by linarith)
      have e2 : decide ((2 : ℚ) < 0) = false := by decide
      rw [e1, e2]
      have e3 : -(t : ℚ) * 2 = ((-(2 * t : Int) : Int) : ℚ) := by push_cast; ring
      rw [e3]
      exact this
    rw [hs, hm, fl_int_add (by rw [abs_le]; omega) (by omega)]
    push_cast
    ring_nf

theorem saw_neg_run {sr : Nat} (h1 : 1 ≤ sr) (h2 : sr ≤ 2 ^ 24) (n t0 : Nat) (hn : 2 * (t0 + n) ≤ 2 ^ 24) :
    run (oscStep .saw sr (.fin (-(sr : ℚ)))) (.fin (-(t0 : ℚ))) (List.replicate n (.fin 0)) =
      (.fin (-((t0 + n : Nat) : ℚ)),
        (List.range n).map (fun i => .fin (-(2 * ((t0 + i : Nat) : ℚ) + 1)))) := by
  induction n generalizing t0 with
  | zero => simp [run]
  | succ n ih =>
    simp only [List.replicate_succ, run, oscStep]
    rw [advance_neg h1 h2 (by omega), saw_neg (by omega)]
    have := ih (t0 + 1) (by omega)
    rw [this]
    simp only [List.range_succ_eq_map, List.map_cons, List.map_map]
    refine Prod.ext ?_ ?_
    · show Fl.fin (-((t0 + 1 + n : Nat) : ℚ)) = Fl.fin (-((t0 + (n + 1) : Nat) : ℚ))
      congr 3; omega
    · simp only [Nat.add_zero]
      congr 1
      apply List.map_congr_left
      intro i _
      simp only [Function.comp_apply]
      congr 5
      omega

/-- C41 fails: at the frequency `-sr` (frequency modulation easily makes frequencies negative) the
output of `saw` is not bounded by 1; sample `t` is `-(2 t + 1)`, as long as these numbers are exact. -/
theorem c41_negative_frequency_counterexample (P : Plat) (N : Nat) (env : Env) (n : Nat)
    (h1 : 1 ≤ env.sr) (h2 : env.sr ≤ 2 ^ 24) (hn : n * N ≤ 2 ^ 23) :
    ∃ outs ys, play P N env (.saw (.num (.fin (-(env.sr : ℚ))))) [] (noInput n) = .ok outs ∧
      channel 0 outs = some ys ∧ ys.length = n * N ∧
      ∀ t, t < n * N → ys[t]? = some (.fin (-(2 * (t : ℚ) + 1))) := by
  have hrun : ∀ k, runM (fun s (_ : Unit) => .ok (oscStep .saw env.sr (.fin (-(env.sr : ℚ))) s (.fin 0))) (.fin 0)
      (List.replicate k ()) = .ok (run (oscStep .saw env.sr (.fin (-(env.sr : ℚ)))) (.fin 0)
        (List.replicate k (.fin 0))) := by
    intro k
    have := run_unit (oscStep .saw env.sr (.fin (-(env.sr : ℚ)))) (fun _ _ _ => rfl) (.fin 0)
      (List.replicate k (.fin 0))
    simpa using this
  obtain ⟨o, g1, g2⟩ := blocks_source (procG P)
    (fun ph => .prim (.osc .saw ⟨.fin (-(env.sr : ℚ)), ph, .fin 0, env.sr, []⟩))
    (fun s (_ : Unit) => .ok (oscStep .saw env.sr (.fin (-(env.sr : ℚ))) s (.fin 0))) N (Shaped 1 N) (noInput n)
    (fun s i out hi ho => by
      obtain ⟨a, rfl, ha⟩ := ho.one
      rw [noInput, List.mem_replicate] at hi
      have := run_unit (oscStep .saw env.sr (.fin (-(env.sr : ℚ)))) (fun _ _ _ => rfl) s a
      rw [ha] at this
      rw [this, hi.2]
      rfl)
    (fun y hy => ⟨rfl, by simp [hy]⟩) (.fin 0) _
    (shaped_fresh N 1 (GNode.prim (P := P) (.osc .saw (Osc.new (.fin (-(env.sr : ℚ))) env.sr)))) _ (hrun _)
  have hl : (noInput n).length = n := by simp [noInput]
  rw [hl] at g2
  have e0 : Fl.fin (0 : ℚ) = .fin (-((0 : Nat) : ℚ)) := by norm_num
  have e1 := saw_neg_run h1 h2 (n * N) 0 (by omega)
  rw [← e0] at e1
  rw [e1] at g2
  refine ⟨o, _, play_ok (osc_make P N env .saw (.num (.fin (-(env.sr : ℚ))))) rfl g1, g2, by simp, ?_⟩
  intro t ht
  simp [ht]

end Verif.Props
