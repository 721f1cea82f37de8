import Verif.Spec.Freq
import Verif.Props.Live
import Verif.Lemmas.Loop
import Verif.Lemmas.KernelRfl
import Mathlib.Analysis.Real.Pi.Bounds

/-! # C75: an oscillator runs at the frequency it is given -/

namespace Verif.Props.Freq
open Verif Spec Spec.Freq

/-- The wave of the code and the shape of the specification. -/
def shape : Wave → Shape
  | .saw => .saw
  | .squ => .squ
  | .tri => .tri

/-- Rounding a number up to `2^k` moves it by at most `2^(k - 25)`. -/
theorem rnd_small {k : Nat} {x : ℚ} (hk : k ≤ 24) (h : |x| ≤ 2 ^ k) : |f32.rnd x - x| ≤ 2 ^ k / 2 ^ 25 := by
  have hpos : (0 : ℚ) ≤ 2 ^ k / 2 ^ 25 := by positivity
  rcases eq_or_lt_of_le h with h | h
  · have hr : f32.Rep ((2 : ℚ) ^ k) := by
      have : |((2 : Int) ^ k)| ≤ 2 ^ 24 := by
        rw [abs_of_nonneg (by positivity)]; exact pow_le_pow_right₀ (by norm_num) hk
      exact_mod_cast f32_rep_int this
    have hx : f32.Rep x := by
      rcases abs_choice x with h' | h'
      · rw [h'] at h; rw [h]; exact hr
      · rw [h'] at h
        have : x = -2 ^ k := by linarith
        rw [this]; exact Fmt.rep_neg hr
    rw [Fmt.rnd_rep f32_p hx]; simpa using hpos
  · by_cases h0 : x = 0
    · subst h0; rw [Fmt.rnd_zero]; simpa using hpos
    have he := Fmt.rnd_err (f := f32) x
    have hx : 0 < |x| := abs_pos.mpr h0
    have e1 : ((2 : ℚ) ^ k) = pow2 (k : Int) := by rw [pow2_eq]; simp
    rw [e1] at h
    have h1 := pow2_lt_iff.mp (lt_of_le_of_lt (ilog2_spec hx).1 h)
    have hq : f32.quantum x ≤ (k : Int) - 24 := by
      rw [Fmt.quantum]
      have : f32.emin ≤ -24 := by decide
      have : (f32.p : Int) = 24 := by decide
      omega
    have h2 : pow2 (f32.quantum x) ≤ 2 ^ k / 2 ^ 24 := by
      refine le_trans (pow2_le hq) ?_
      rw [pow2_eq, zpow_sub₀ (by norm_num)]
      norm_num
    have h3 : (2 : ℚ) ^ k / 2 ^ 24 / 2 = 2 ^ k / 2 ^ 25 := by ring
    linarith

theorem inR {x : ℚ} (h : |x| ≤ 8) : InRange f32 x := f32_inRange (le_trans h (by norm_num))

/-- One step of the phase: it moves on by `f / sr` of a period, or by that and a whole period back. -/
theorem advance_step {sr : Nat} (h1 : 1 ≤ sr) (h2 : sr ≤ 2 ^ 24) {f ph : Fl} (hf : Within 0 sr f) (hp : Within 0 1 ph) :
    ∃ j : Nat, |j + (advance sr f ph).val - (ph.val + f.val / sr)| ≤ 1 / 2 ^ 23 := by
  obtain ⟨s1, s2⟩ := f32_ofNat h2
  have hsr : (1 : ℚ) ≤ sr := by exact_mod_cast h1
  have hsr0 : (0 : ℚ) < sr := by linarith
  have d0 : 0 ≤ f.val / sr := div_nonneg hf.2.1 hsr0.le
  have d1 : f.val / sr ≤ 1 := (div_le_one hsr0).mpr hf.2.2
  have hinc : Within 0 1 (f /. Fl.ofNat f32 sr) := by
    apply within_div hf.1 s1 rep0 rep1 (by norm_num) (by norm_num)
    · rw [s2]; exact hsr0.ne'
    · rw [s2]; exact d0
    · rw [s2]; exact d1
  have einc : (f /. Fl.ofNat f32 sr).val = f32.rnd (f.val / sr) := by
    have := (Fl.div_fin (f := f32) hf.1 s1 (by rw [s2]; exact hsr0.ne') (inR (by rw [s2, abs_of_nonneg d0]; linarith))).2
    rw [this, s2]
  have b1 : |(f /. Fl.ofNat f32 sr).val - f.val / sr| ≤ 1 / 2 ^ 25 := by
    rw [einc]
    have := rnd_small (k := 0) (x := f.val / sr) (by omega) (by rw [abs_of_nonneg d0]; simpa using d1)
    simpa using this
  unfold advance
  dsimp only
  generalize f /. Fl.ofNat f32 sr = i at hinc b1 ⊢
  have q0 : 0 ≤ ph.val + i.val := by linarith [hp.2.1, hinc.2.1]
  have q1 : ph.val + i.val ≤ 2 := by linarith [hp.2.2, hinc.2.2]
  have hsum : Within 0 2 (ph +. i) := within_add hp.1 hinc.1 rep0 rep2 (by norm_num) (by norm_num) q0 q1
  have b2 : |(ph +. i).val - (ph.val + i.val)| ≤ 1 / 2 ^ 24 := by
    rw [(Fl.add_fin (f := f32) hp.1 hinc.1 (inR (by rw [abs_of_nonneg q0]; linarith))).2]
    have := rnd_small (k := 1) (x := ph.val + i.val) (by omega) (by rw [abs_of_nonneg q0]; simpa using q1)
    norm_num at this ⊢
    exact this
  have e : (1 : ℚ) / 2 ^ 23 = 1 / 2 ^ 25 + 1 / 2 ^ 24 + 1 / 2 ^ 25 := by norm_num
  have hpos : (0 : ℚ) ≤ 1 / 2 ^ 25 := by norm_num
  rw [abs_le] at b1 b2
  split
  · next h =>
    have hgt : (1 : ℚ) < (ph +. i).val := (Fl.lt_fin (a := .fin 1) rfl hsum.1).mp h
    have hv : (Fl.fin 1).val = (1 : ℚ) := rfl
    have hab : |(ph +. i).val - (Fl.fin 1).val| ≤ 1 := by
      rw [hv, abs_of_nonneg (by linarith)]; linarith [hsum.2.2]
    have b3 := rnd_small (k := 0) (by omega) (by simpa using hab)
    rw [← (Fl.sub_fin (f := f32) hsum.1 rfl (inR (by linarith))).2, hv, abs_le] at b3
    refine ⟨1, ?_⟩
    rw [abs_le, e]
    norm_num at b3
    constructor <;> push_cast <;> norm_num <;> norm_num at b1 b2 <;> linarith [b1.1, b1.2, b2.1, b2.2, b3.1, b3.2]
  · refine ⟨0, ?_⟩
    rw [abs_le, e]
    constructor <;> push_cast <;> linarith [b1.1, b1.2, b2.1, b2.2]

/-- The run of an oscillator whose output depends on the phase only: before sample `t` the phase is that of the exact number of
periods. -/
theorem phase_run {sr : Nat} (h1 : 1 ≤ sr) (h2 : sr ≤ 2 ^ 24) (g : Fl → Fl) {fs : List Fl} (hf : ∀ f, f ∈ fs → Within 0 sr f)
    {t : Nat} {y : Fl} (hy : (run (fun ph f => (advance sr f ph, g ph)) (.fin 0) fs).2[t]? = some y) :
    ∃ (ph : Fl) (k : Nat), Within 0 1 ph ∧ y = g ph ∧ |k + ph.val - turns sr fs t| ≤ t / 2 ^ 23 := by
  obtain ⟨st, s0, -, hs⟩ := run_states (fun ph f => (advance sr f ph, g ph)) (.fin 0) fs
  have key : ∀ t, t ≤ fs.length → Within 0 1 (st t) ∧ ∃ k : Nat, |k + (st t).val - turns sr fs t| ≤ t / 2 ^ 23 := by
    intro t
    induction t with
    | zero =>
      intro _
      rw [s0]
      exact ⟨⟨rfl, le_refl _, by norm_num [Fl.val]⟩, 0, by simp [turns, Fl.val]⟩
    | succ t ih =>
      intro ht
      obtain ⟨hw, k, hk⟩ := ih (by omega)
      have hx : fs[t]? = some fs[t] := List.getElem?_eq_getElem (by omega)
      have hin := hf _ (List.getElem_mem (show t < fs.length by omega))
      obtain ⟨-, hn⟩ := hs t _ hx
      rw [hn]
      obtain ⟨j, hj⟩ := advance_step h1 h2 hin hw
      refine ⟨advance_within h1 h2 hin hw, k + j, ?_⟩
      have ht : turns sr fs (t + 1) = turns sr fs t + fs[t].val / sr := by
        simp only [turns]
        rw [← List.take_concat_get' fs t (by omega), List.map_append, List.sum_append, add_div]
        simp
      rw [ht]
      push_cast
      have e : ((t : ℚ) + 1) / 2 ^ 23 = t / 2 ^ 23 + 1 / 2 ^ 23 := by ring
      rw [e]
      rw [abs_le] at hj hk ⊢
      constructor <;> linarith [hj.1, hj.2, hk.1, hk.2]
  have hlen := (List.getElem?_eq_some_iff.mp hy).1
  rw [run_length] at hlen
  obtain ⟨hw, k, hk⟩ := key t (by omega)
  obtain ⟨ho, -⟩ := hs t _ (List.getElem?_eq_getElem hlen)
  rw [hy] at ho
  exact ⟨st t, k, hw, Option.some.inj ho, hk⟩

/-- The waves of the code are the waves of the specification, up to rounding. -/
theorem wave_close (w : Wave) {ph : Fl} (hp : Within 0 1 ph) :
    (w.at ph).isFinite = true ∧ |(w.at ph).val - (shape w).exact ph.val| ≤ 1 / 2 ^ 21 := by
  refine ⟨(wave_within w hp).1, ?_⟩
  have v2 : (Fl.fin 2).val = (2 : ℚ) := rfl
  have v1 : (Fl.fin 1).val = (1 : ℚ) := rfl
  have vm1 : (Fl.fin (-1)).val = (-1 : ℚ) := rfl
  have vh : (Fl.fin (1 / 2)).val = (1 / 2 : ℚ) := rfl
  have d0 : 0 ≤ ph.val * (Fl.fin 2).val := by rw [v2]; linarith [hp.2.1]
  have d2 : ph.val * (Fl.fin 2).val ≤ 2 := by rw [v2]; linarith [hp.2.2]
  have hd : Within 0 2 (ph *. .fin 2) := within_mul hp.1 rfl rep0 rep2 (by norm_num) (by norm_num) d0 d2
  have b1 : |(ph *. .fin 2).val - ph.val * 2| ≤ 1 / 2 ^ 24 := by
    rw [(Fl.mul_fin (f := f32) (b := .fin 2) hp.1 rfl (inR (by rw [abs_of_nonneg d0]; linarith))).2]
    have := rnd_small (k := 1) (x := ph.val * (Fl.fin 2).val) (by omega) (by rw [abs_of_nonneg d0]; simpa using d2)
    rw [v2] at this ⊢
    norm_num at this ⊢
    exact this
  rw [abs_le] at b1
  cases w with
  | saw =>
    have hab : |(ph *. .fin 2).val - (Fl.fin 1).val| ≤ 1 := by
      rw [v1, abs_le]; constructor <;> linarith [hd.2.1, hd.2.2]
    have b3 := rnd_small (k := 0) (by omega) (by simpa using hab)
    rw [← (Fl.sub_fin (f := f32) hd.1 rfl (inR (by linarith))).2, v1, abs_le] at b3
    show |(ph *. .fin 2 -. .fin 1).val - (2 * ph.val - 1)| ≤ _
    norm_num at b1 b3 ⊢
    rw [abs_le]
    constructor <;> linarith [b1.1, b1.2, b3.1, b3.2]
  | squ =>
    have hiff : Fl.le ph (.fin (1 / 2)) = true ↔ ph.val ≤ 1 / 2 := Fl.le_fin hp.1 rfl
    show |(if Fl.le ph (.fin (1 / 2)) then Fl.fin 1 else .fin (-1)).val - (if ph.val ≤ 1 / 2 then (1 : ℚ) else -1)| ≤ _
    by_cases h : ph.val ≤ 1 / 2
    · rw [if_pos (hiff.mpr h), if_pos h, v1]; norm_num
    · rw [if_neg (fun c => h (hiff.mp c)), if_neg h, vm1]; norm_num
  | tri =>
    have hab : |(Fl.fin (-1)).val + (ph *. .fin 2).val| ≤ 1 := by
      rw [vm1, abs_le]; constructor <;> linarith [hd.2.1, hd.2.2]
    have b3 := rnd_small (k := 0) (by omega) (by simpa using hab)
    have hv := Fl.add_fin (f := f32) (a := .fin (-1)) rfl hd.1 (inR (by linarith))
    have hvw : Within (-1) 1 (.fin (-1) +. ph *. .fin 2) := by
      apply within_add rfl hd.1 repm1 rep1 (by norm_num) (by norm_num)
      · simp only [Fl.val_fin]; linarith [hd.2.1]
      · simp only [Fl.val_fin]; linarith [hd.2.2]
    rw [← hv.2, vm1, abs_le] at b3
    show |(.fin 2 *. (Fl.abs (.fin (-1) +. ph *. .fin 2) -. .fin (1 / 2))).val - (if ph.val ≤ 1 / 2 then 1 - 4 * ph.val else 4 * ph.val - 3)| ≤ _
    generalize Fl.fin (-1) +. ph *. .fin 2 = v at b3 hvw
    have ha := abs_within hvw
    have va : (Fl.abs v).val = |v.val| := by
      cases v <;> simp [Fl.abs, Fl.val]
    have hab2 : |(Fl.abs v).val - (Fl.fin (1 / 2)).val| ≤ 1 := by
      rw [vh, abs_le]; constructor <;> linarith [ha.2.1, ha.2.2]
    have b4 := rnd_small (k := 0) (by omega) (by rw [pow_zero]; exact hab2)
    have hs : Within (-(1 / 2)) (1 / 2) (Fl.abs v -. .fin (1 / 2)) := by
      apply within_sub ha.1 rfl (Fmt.rep_neg rephalf) rephalf (by norm_num) (by norm_num)
      · simp only [Fl.val_fin]; linarith [ha.2.1]
      · simp only [Fl.val_fin]; linarith [ha.2.2]
    rw [← (Fl.sub_fin (f := f32) (b := .fin (1 / 2)) ha.1 rfl (inR (by linarith))).2, vh, va, abs_le] at b4
    generalize Fl.abs v -. .fin (1 / 2) = u at b4 hs
    have hab3 : |(Fl.fin 2).val * u.val| ≤ 1 := by
      rw [v2, abs_le]; constructor <;> linarith [hs.2.1, hs.2.2]
    have b5 := rnd_small (k := 0) (by omega) (by rw [pow_zero]; exact hab3)
    rw [← (Fl.mul_fin (f := f32) (a := .fin 2) rfl hs.1 (inR (by linarith))).2, v2, abs_le] at b5
    generalize (Fl.fin 2 *. u).val = z at b5
    norm_num at b1 b3 b4 b5 ⊢
    have hz : |z - (2 * |2 * ph.val - 1| - 1)| ≤ 1 / 2097152 := by
      have hvv : |(|v.val| - |2 * ph.val - 1|)| ≤ 1 / 33554432 + 1 / 16777216 := by
        refine le_trans (abs_abs_sub_abs_le _ _) ?_
        rw [abs_le]; constructor <;> linarith [b1.1, b1.2, b3.1, b3.2]
      rw [abs_le] at hvv ⊢
      constructor <;> linarith [b4.1, b4.2, b5.1, b5.2, hvv.1, hvv.2]
    split
    · rw [abs_of_nonpos (by linarith : 2 * ph.val - 1 ≤ 0)] at hz
      have e : z - (2 * -(2 * ph.val - 1) - 1) = z - (1 - 4 * ph.val) := by ring
      rwa [e] at hz
    · rw [abs_of_nonneg (by linarith : 0 ≤ 2 * ph.val - 1)] at hz
      have e : z - (2 * (2 * ph.val - 1) - 1) = z - (4 * ph.val - 3) := by ring
      rwa [e] at hz

theorem wave_run (w : Wave) {sr : Nat} (h1 : 1 ≤ sr) (h2 : sr ≤ 2 ^ 24) {fs : List Fl} (hf : ∀ f, f ∈ fs → Within 0 sr f) :
    RunsAt (shape w) sr fs (run (fun ph f => (advance sr f ph, w.at ph)) (.fin 0) fs).2 := by
  refine ⟨run_length _ _ _, fun t y hy => ?_⟩
  obtain ⟨ph, k, hw, rfl, hk⟩ := phase_run h1 h2 _ hf hy
  exact ⟨k, ph.val, hw.2.1, hw.2.2, hk, wave_close w hw⟩

theorem run_fixed {g : Fl → Fl} {sr : Nat} {f : Fl} (n : Nat) (s : Fl) :
    run (fun ph (_ : Fl) => (advance sr f ph, g ph)) s (List.replicate n (.fin 0)) =
      run (fun ph f => (advance sr f ph, g ph)) s (List.replicate n f) := by
  induction n generalizing s with
  | zero => rfl
  | succ n ih => simp only [List.replicate_succ, run, ih]

/-- With modulation the wave is that at the frequencies held. -/
theorem run_held (w : Wave) (sr : Nat) (xs : List Fl) (s i : Fl) :
    (run (oscModStep w sr) (s, i) xs).2 = (run (fun ph f => (advance sr f ph, w.at ph)) s (held i xs)).2 := by
  induction xs generalizing s i with
  | nil => rfl
  | cons x xs ih =>
    have hz : Fl.beq x (.fin 0) = x.isZero := by
      rw [Bool.eq_iff_iff]
      cases x <;> simp [Fl.beq, Fl.isZero, Fl.val]
      exact decide_eq_true_iff
    simp only [run, oscModStep, held, hz]
    by_cases h : x.isZero = true
    · simp only [if_pos h, run, ih]
    · simp only [if_neg h, run, ih]

theorem held_within {sr : Nat} {i : Fl} (hi : Within 0 sr i) {xs : List Fl} (hx : ∀ x, x ∈ xs → Within 0 sr x) :
    ∀ x, x ∈ held i xs → Within 0 sr x := by
  induction xs generalizing i with
  | nil => intro x hx; cases hx
  | cons y xs ih =>
    intro x h
    have hy := hx y (by simp)
    have hxs : ∀ x, x ∈ xs → Within 0 sr x := fun x h => hx x (by simp [h])
    unfold held at h
    split at h
    · rcases List.mem_cons.mp h with rfl | h
      · exact hi
      · exact ih hi hxs x h
    · rcases List.mem_cons.mp h with rfl | h
      · exact hy
      · exact ih hy hxs x h

theorem held_length (i : Fl) (xs : List Fl) : (held i xs).length = xs.length := by
  fun_induction held i xs <;> simp_all

theorem held_id {i : Fl} {xs : List Fl} (h : ∀ x, x ∈ xs → x.isZero = false) : held i xs = xs := by
  induction xs generalizing i with
  | nil => rfl
  | cons x xs ih =>
    have hx := h x (by simp)
    simp [held, hx, ih (fun y hy => h y (by simp [hy]))]

/-- C75 for `saw`, `squ` and `tri` at a fixed frequency from 0 to the sample rate. -/
theorem c75_fixed_partial (P : Plat) (N : Nat) (env : Env) (w : Wave) (f : Fl) (n : Nat) (h1 : 1 ≤ env.sr)
    (h2 : env.sr ≤ 2 ^ 24) (hf : Within 0 env.sr f) :
    ∃ outs ys, play P N env (waveComp w (.num f)) [] (noInput n) = .ok outs ∧ channel 0 outs = some ys ∧
      RunsAt (shape w) env.sr (List.replicate (n * N) f) ys := by
  have hrun : ∀ k, runM (fun s (_ : Unit) => .ok (oscStep w env.sr f s (.fin 0))) (.fin 0)
      (List.replicate k ()) = .ok (run (oscStep w env.sr f) (.fin 0) (List.replicate k (.fin 0))) := by
    intro k
    have := run_unit (oscStep w env.sr f) (fun _ _ _ => rfl) (.fin 0) (List.replicate k (.fin 0))
    simpa using this
  obtain ⟨o, g1, g2⟩ := blocks_source (procG P) (fun ph => .prim (.osc w ⟨f, ph, .fin 0, env.sr, []⟩))
    (fun s (_ : Unit) => .ok (oscStep w env.sr f s (.fin 0))) N (Shaped 1 N) (noInput n)
    (fun s i out hi ho => by
      obtain ⟨a, rfl, ha⟩ := ho.one
      rw [noInput, List.mem_replicate] at hi
      have := run_unit (oscStep w env.sr f) (fun _ _ _ => rfl) s a
      rw [ha] at this
      rw [this, hi.2]
      rfl)
    (fun y hy => ⟨rfl, by simp [hy]⟩) (.fin 0) _
    (shaped_fresh N 1 (GNode.prim (P := P) (.osc w (Osc.new f env.sr)))) _ (hrun _)
  refine ⟨o, _, play_ok (osc_make P N env w (.num f)) rfl g1, g2, ?_⟩
  have hl : (noInput n).length = n := by simp [noInput]
  rw [hl]
  have := wave_run w h1 h2 (fs := List.replicate (n * N) f) (fun x hx => by rw [List.eq_of_mem_replicate hx]; exact hf)
  rw [← run_fixed] at this
  exact this

/-- C75 for `saw`, `squ` and `tri` with the frequency given by a signal from 0 to the sample rate: the wave is that at the frequencies
held, and so that at the signal where the signal is never 0. -/
theorem c75_modulated_partial (P : Plat) (N : Nat) (env : Env) (w : Wave) (p : NumRef) (k : Nat) (xs : List Buf)
    (h1 : 1 ≤ env.sr) (h2 : env.sr ≤ 2 ^ 24) (hx : ∀ x, x ∈ xs.flatten → Within 0 env.sr x) :
    ∃ outs ys, play P N env (waveComp w p) [.index k] (monoFrom k xs) = .ok outs ∧ channel 0 outs = some ys ∧
      RunsAt (shape w) env.sr (held (.fin 0) xs.flatten) ys ∧
      ((∀ x, x ∈ xs.flatten → x.isZero = false) → RunsAt (shape w) env.sr xs.flatten ys) := by
  obtain ⟨o, g1, g2⟩ := blocks_mono (procG P)
    (fun s : Fl × Fl => .prim (.osc w ⟨p.value (.fin 0), s.1, s.2, env.sr, [k]⟩))
    (fun s x => .ok (oscModStep w env.sr s x)) (fun x => [(k, [x])]) (fun o => o.length = 1) xs
    (fun s x out _ ho => by
      obtain ⟨a, rfl⟩ := List.length_eq_one_iff.mp ho
      rw [runM_pure]
      simp [procG, procPrim, procOsc, modInput, inputAt, chan, bind, Except.bind, reState, blockOf])
    (fun _ _ _ _ _ => rfl) (.fin 0, .fin 0) _
    (shaped_fresh N 1 (GNode.prim (P := P) (.osc w (Osc.new (p.value (.fin 0)) env.sr)))).1 _
    (runM_pure _ _ _)
  rw [run_held] at g2
  have := wave_run w h1 h2 (fs := held (.fin 0) xs.flatten)
    (held_within ⟨rfl, le_refl _, by simp [Fl.val]⟩ hx)
  exact ⟨o, _, play_ok (osc_make P N env w p) rfl g1, g2, this, fun hz => by rw [held_id hz] at this ⊢; exact this⟩

/-! ### The sine -/

theorem sin_close {m : Libm} {δ : ℝ} (hm : SinClose m δ) {ph : Fl} (hp : Within 0 1 ph) :
    (sinAt m ph).isFinite = true ∧ |((sinAt m ph).val : ℝ) - Real.sin (2 * Real.pi * (ph.val : ℝ))| ≤ δ + 1 / 2 ^ 20 := by
  have v2 : (Fl.fin 2).val = (2 : ℚ) := rfl
  have vp : flPi.val = 13176795 / 4194304 := rfl
  have d0 : 0 ≤ ph.val * (Fl.fin 2).val := by rw [v2]; linarith [hp.2.1]
  have d2 : ph.val * (Fl.fin 2).val ≤ 2 := by rw [v2]; linarith [hp.2.2]
  have hd : Within 0 2 (ph *. .fin 2) := within_mul hp.1 rfl rep0 rep2 (by norm_num) (by norm_num) d0 d2
  have b1 : |(ph *. .fin 2).val - ph.val * 2| ≤ 1 / 2 ^ 24 := by
    rw [(Fl.mul_fin (f := f32) (b := .fin 2) hp.1 rfl (inR (by rw [abs_of_nonneg d0]; linarith))).2]
    have := rnd_small (k := 1) (x := ph.val * (Fl.fin 2).val) (by omega) (by rw [abs_of_nonneg d0]; simpa using d2)
    rw [v2] at this ⊢
    norm_num at this ⊢
    exact this
  have e0 : 0 ≤ (ph *. .fin 2).val * flPi.val := mul_nonneg hd.2.1 (by rw [vp]; norm_num)
  have e1 : (ph *. .fin 2).val * flPi.val ≤ 7 := by rw [vp]; linarith [hd.2.2]
  have r7 : f32.Rep 7 := by exact_mod_cast f32_rep_int (n := 7) (by decide)
  have ha : Within 0 7 (ph *. .fin 2 *. flPi) :=
    within_mul hd.1 (y := flPi) rfl rep0 r7 (by norm_num) (by norm_num) e0 e1
  have b2 : |(ph *. .fin 2 *. flPi).val - (ph *. .fin 2).val * flPi.val| ≤ 1 / 2 ^ 22 := by
    rw [(Fl.mul_fin (f := f32) (b := flPi) hd.1 rfl (inR (by rw [abs_of_nonneg e0]; linarith))).2]
    have := rnd_small (k := 3) (x := (ph *. .fin 2).val * flPi.val) (by omega)
      (by rw [abs_of_nonneg e0]; norm_num; linarith)
    norm_num at this ⊢
    exact this
  obtain ⟨f1, f2⟩ := hm _ ha
  refine ⟨f1, ?_⟩
  have hq : |(ph *. .fin 2 *. flPi).val - 2 * (13176795 / 4194304) * ph.val| ≤ 1 / 2 ^ 22 + 1 / 2 ^ 22 := by
    rw [vp] at b2
    rw [abs_le] at b1 b2 ⊢
    norm_num at b1 b2 ⊢
    constructor <;> linarith [b1.1, b1.2, b2.1, b2.2]
  have harg : |((ph *. .fin 2 *. flPi).val : ℝ) - 2 * Real.pi * (ph.val : ℝ)| ≤ 1 / 2 ^ 20 := by
    have hq' : |((ph *. .fin 2 *. flPi).val : ℝ) - 2 * (13176795 / 4194304) * (ph.val : ℝ)| ≤ 1 / 2 ^ 22 + 1 / 2 ^ 22 := by
      have := (Rat.cast_le (K := ℝ)).mpr hq
      push_cast at this
      exact this
    have p0 : (0 : ℝ) ≤ (ph.val : ℝ) := by exact_mod_cast hp.2.1
    have p1 : (ph.val : ℝ) ≤ 1 := by exact_mod_cast hp.2.2
    have hpi : |(13176795 / 4194304 : ℝ) - Real.pi| ≤ 1 / 2 ^ 23 := by
      have := Real.pi_gt_d20
      have := Real.pi_lt_d20
      rw [abs_le]
      constructor <;> norm_num at * <;> linarith
    have hpp : |2 * (13176795 / 4194304) * (ph.val : ℝ) - 2 * Real.pi * (ph.val : ℝ)| ≤ 2 * (1 / 2 ^ 23) * 1 := by
      rw [← sub_mul, ← mul_sub, abs_mul, abs_mul, abs_of_nonneg p0, abs_of_nonneg (by norm_num : (0 : ℝ) ≤ 2)]
      gcongr
    have := abs_sub_le ((ph *. .fin 2 *. flPi).val : ℝ) (2 * (13176795 / 4194304) * (ph.val : ℝ)) (2 * Real.pi * (ph.val : ℝ))
    norm_num at *
    linarith
  have := Real.abs_sin_sub_sin_le ((ph *. .fin 2 *. flPi).val : ℝ) (2 * Real.pi * (ph.val : ℝ))
  have := abs_sub_le ((sinAt m ph).val : ℝ) (Real.sin ((ph *. .fin 2 *. flPi).val : ℝ)) (Real.sin (2 * Real.pi * (ph.val : ℝ)))
  have f2 : |((sinAt m ph).val : ℝ) - Real.sin ((ph *. .fin 2 *. flPi).val : ℝ)| ≤ δ := f2
  linarith

/-- A phase that is close to the exact number of periods gives a sample close to the exact sine. -/
theorem sine_at {m : Libm} {δ : ℝ} (hm : SinClose m δ) {ph : Fl} (hw : Within 0 1 ph) {k t : Nat} {x : ℚ}
    (hk : |k + ph.val - x| ≤ t / 2 ^ 23) : (sinAt m ph).isFinite = true ∧
      |((sinAt m ph).val : ℝ) - Real.sin (2 * Real.pi * (x : ℚ))| ≤ δ + (t + 1) / 2 ^ 20 := by
  obtain ⟨c1, c2⟩ := sin_close hm hw
  refine ⟨c1, ?_⟩
  have hk' : |(k : ℝ) + (ph.val : ℝ) - (x : ℝ)| ≤ t / 2 ^ 23 := by
    have := (Rat.cast_le (K := ℝ)).mpr hk
    push_cast at this
    exact this
  have hper : Real.sin (2 * Real.pi * (ph.val : ℝ)) = Real.sin (2 * Real.pi * ((k : ℝ) + (ph.val : ℝ))) := by
    rw [← Real.sin_add_nat_mul_two_pi (2 * Real.pi * (ph.val : ℝ)) k]
    congr 1; ring
  rw [hper] at c2
  have hs := Real.abs_sin_sub_sin_le (2 * Real.pi * ((k : ℝ) + (ph.val : ℝ))) (2 * Real.pi * (x : ℝ))
  have hpi := Real.pi_lt_d6
  have hpi0 := Real.pi_pos
  have hd : |2 * Real.pi * ((k : ℝ) + (ph.val : ℝ)) - 2 * Real.pi * (x : ℝ)| ≤ t / 2 ^ 20 := by
    rw [← mul_sub, abs_mul, abs_of_nonneg (by linarith)]
    calc 2 * Real.pi * |(k : ℝ) + (ph.val : ℝ) - (x : ℝ)| ≤ 8 * (t / 2 ^ 23) := by
          apply mul_le_mul _ hk' (abs_nonneg _) (by norm_num)
          norm_num at hpi; linarith
      _ = t / 2 ^ 20 := by ring
  have := abs_sub_le ((sinAt m ph).val : ℝ) (Real.sin (2 * Real.pi * ((k : ℝ) + (ph.val : ℝ))))
    (Real.sin (2 * Real.pi * (x : ℝ)))
  have e : ((t : ℝ) + 1) / 2 ^ 20 = t / 2 ^ 20 + 1 / 2 ^ 20 := by ring
  rw [e]
  linarith

theorem sine_run {m : Libm} {δ : ℝ} (hm : SinClose m δ) {sr : Nat} (h1 : 1 ≤ sr) (h2 : sr ≤ 2 ^ 24) {fs : List Fl}
    (hf : ∀ f, f ∈ fs → Within 0 sr f) : Sine δ sr fs (run (sinStep m sr) (.fin 0) fs).2 := by
  refine ⟨run_length _ _ _, fun t y hy => ?_⟩
  obtain ⟨ph, k, hw, rfl, hk⟩ := phase_run h1 h2 (sinAt m) hf hy
  exact sine_at hm hw hk

/-- C75 for `sin` at a fixed frequency from 0 to the sample rate. -/
theorem c75_sin_fixed_partial (P : Plat) (δ : ℝ) (hm : SinClose P.libm δ) (N : Nat) (env : Env) (f : Fl) (n : Nat)
    (h1 : 1 ≤ env.sr) (h2 : env.sr ≤ 2 ^ 24) (hf : Within 0 env.sr f) :
    ∃ outs ys, play P N env (.sin (.num f)) [] (noInput n) = .ok outs ∧ channel 0 outs = some ys ∧
      Sine δ env.sr (List.replicate (n * N) f) ys := by
  have hmap : ∀ b : Buf, ∀ s, run (sinStep P.libm env.sr) s (b.map (fun _ => f)) =
      run (fun s (_ : Fl) => sinStep P.libm env.sr s f) s b := by
    intro b
    induction b with
    | nil => intro s; rfl
    | cons x b ih => intro s; simp only [List.map_cons, run, ih]
  have hrun : ∀ k, runM (fun s (_ : Unit) => .ok (sinStep P.libm env.sr s f)) (.fin 0)
      (List.replicate k ()) = .ok (run (fun s (_ : Fl) => sinStep P.libm env.sr s f) (.fin 0)
        (List.replicate k (.fin 0))) := by
    intro k
    have := run_unit (fun s (_ : Fl) => sinStep P.libm env.sr s f) (fun _ _ _ => rfl) (.fin 0)
      (List.replicate k (.fin 0))
    simpa using this
  obtain ⟨o, g1, g2⟩ := blocks_source (procG P) (fun ph => .prim (.sin ⟨f, ph, .fin 0, env.sr, []⟩))
    (fun s (_ : Unit) => .ok (sinStep P.libm env.sr s f)) N (Shaped 1 N) (noInput n)
    (fun s i out hi ho => by
      obtain ⟨a, rfl, ha⟩ := ho.one
      rw [noInput, List.mem_replicate] at hi
      have := run_unit (fun s (_ : Fl) => sinStep P.libm env.sr s f) (fun _ _ _ => rfl) s a
      rw [ha] at this
      rw [this, hi.2]
      simp only [procG, procPrim, procSin, hmap]
      rfl)
    (fun y hy => ⟨rfl, by simp [hy]⟩) (.fin 0) _
    (shaped_fresh N 1 (GNode.prim (P := P) (.sin (Osc.new f env.sr)))) _ (hrun _)
  refine ⟨o, _, play_ok (sin_make P N env (.num f)) rfl g1, g2, ?_⟩
  have hl : (noInput n).length = n := by simp [noInput]
  rw [hl]
  have := sine_run hm h1 h2 (fs := List.replicate (n * N) f) (fun x hx => by rw [List.eq_of_mem_replicate hx]; exact hf)
  have e := run_fixed (g := sinAt P.libm) (sr := env.sr) (f := f) (n * N) (.fin 0)
  exact e ▸ this

/-- C75 for `sin` with the frequency given by a signal from 0 to the sample rate. -/
theorem c75_sin_modulated_partial (P : Plat) (δ : ℝ) (hm : SinClose P.libm δ) (N : Nat) (env : Env) (p : NumRef) (k : Nat)
    (xs : List Buf) (h1 : 1 ≤ env.sr) (h2 : env.sr ≤ 2 ^ 24) (hx : ∀ x, x ∈ xs.flatten → Within 0 env.sr x) :
    ∃ outs ys, play P N env (.sin p) [.index k] (monoFrom k xs) = .ok outs ∧ channel 0 outs = some ys ∧
      Sine δ env.sr xs.flatten ys := by
  obtain ⟨o, g1, g2⟩ := blocks_mono (procG P)
    (fun s : Fl => .prim (.sin ⟨p.value (.fin 0), s, .fin 0, env.sr, [k]⟩))
    (fun s x => .ok (sinStep P.libm env.sr s x)) (fun x => [(k, [x])]) (fun o => o.length = 1) xs
    (fun s x out _ ho => by
      obtain ⟨a, rfl⟩ := List.length_eq_one_iff.mp ho
      rw [runM_pure]
      simp [procG, procPrim, procSin, modInput, inputAt, chan, bind, Except.bind, reState, blockOf])
    (fun _ _ _ _ _ => rfl) (.fin 0) _
    (shaped_fresh N 1 (GNode.prim (P := P) (.sin (Osc.new (p.value (.fin 0)) env.sr)))).1 _
    (runM_pure _ _ _)
  exact ⟨o, _, play_ok (sin_make P N env p) rfl g1, g2, sine_run hm h1 h2 hx⟩

/-! ### Frequencies that are changed while playing -/

/-- The frequencies of `n` samples. -/
theorem turns_range (sr : Nat) (freq : Nat → Fl) {n t : Nat} (h : t < n) :
    turns sr ((List.range n).map freq) (t + 1) = turns sr ((List.range n).map freq) t + (freq t).val / sr := by
  have hl : t < ((List.range n).map freq).length := by simpa using h
  simp only [turns]
  rw [← List.take_concat_get' _ t hl, List.map_append, List.sum_append, add_div]
  simp

/-- What C71 says about phases, in numbers. -/
theorem phases {g : Fl → Fl} {sr : Nat} {freq : Nat → Fl} {n : Nat} {ys : List Fl} (h : Spec.Oscillates g sr freq n ys) (h1 : 1 ≤ sr)
    (h2 : sr ≤ 2 ^ 24) (hf : ∀ t, t < n → Within 0 sr (freq t)) {t : Nat} {y : Fl} (hy : ys[t]? = some y) :
    ∃ (ph : Fl) (k : Nat), Within 0 1 ph ∧ y = g ph ∧ |k + ph.val - turns sr ((List.range n).map freq) t| ≤ t / 2 ^ 23 := by
  obtain ⟨hl, st, s0, hs⟩ := h
  have key : ∀ t, t ≤ n → Within 0 1 (st t) ∧
      ∃ k : Nat, |k + (st t).val - turns sr ((List.range n).map freq) t| ≤ t / 2 ^ 23 := by
    intro t
    induction t with
    | zero =>
      intro _
      rw [s0]
      exact ⟨⟨rfl, le_refl _, by norm_num [Fl.val]⟩, 0, by simp [turns, Fl.val]⟩
    | succ t ih =>
      intro ht
      obtain ⟨hw, k, hk⟩ := ih (by omega)
      have hin := hf t (by omega)
      obtain ⟨-, p, hp, p1, p2⟩ := hs t (by omega)
      have hn : st (t + 1) = advance sr (freq t) (st t) := by
        unfold advance
        dsimp only
        rw [← hp]
        cases hc : Fl.lt (.fin 1) p with
        | true => rw [p1 hc]; rfl
        | false => rw [p2 hc]; rfl
      rw [hn]
      obtain ⟨j, hj⟩ := advance_step h1 h2 hin hw
      refine ⟨advance_within h1 h2 hin hw, k + j, ?_⟩
      rw [turns_range sr freq (by omega)]
      push_cast
      have e : ((t : ℚ) + 1) / 2 ^ 23 = t / 2 ^ 23 + 1 / 2 ^ 23 := by ring
      rw [e]
      rw [abs_le] at hj hk ⊢
      constructor <;> linarith [hj.1, hj.2, hk.1, hk.2]
  have hlen := (List.getElem?_eq_some_iff.mp hy).1
  obtain ⟨hw, k, hk⟩ := key t (by omega)
  obtain ⟨ho, -⟩ := hs t (by omega)
  rw [hy] at ho
  exact ⟨st t, k, hw, Option.some.inj ho, hk⟩

/-- C75 for `saw`, `squ` and `tri` whose frequency is changed by messages between blocks, always to values from 0 to the sample rate:
the wave goes on where it is, at the new frequency. -/
theorem c75_changed_partial (P : Plat) (N : Nat) (env : Env) (w : Wave) (f : Fl) (bs : List Changes) (h1 : 1 ≤ env.sr)
    (h2 : env.sr ≤ 2 ^ 24) (hf : ∀ j, j < bs.length → Within 0 env.sr (setting 0 f bs j)) :
    ∃ outs ys, playChanged P N env (waveComp w (.num f)) [] (changedSource bs) = .ok outs ∧ channel 0 outs = some ys ∧
      RunsAt (shape w) env.sr ((List.range (bs.length * N)).map fun t => setting 0 f bs (t / N)) ys := by
  obtain ⟨outs, ys, g1, g2, g3⟩ := c71_oscillators_partial (P := P) (N := N) (env := env) w f bs
  refine ⟨outs, ys, g1, g2, by rw [g3.1]; simp, fun t y hy => ?_⟩
  obtain ⟨ph, k, hw, rfl, hk⟩ := phases g3 h1 h2 (fun t ht => hf _ (Nat.div_lt_of_lt_mul (by rw [Nat.mul_comm]; exact ht))) hy
  have hs : waveShape w ph = w.at ph := by cases w <;> rfl
  rw [hs]
  exact ⟨k, ph.val, hw.2.1, hw.2.2, hk, wave_close w hw⟩

/-- The same for `sin`. -/
theorem c75_sin_changed_partial (P : Plat) (δ : ℝ) (hm : SinClose P.libm δ) (N : Nat) (env : Env) (f : Fl) (bs : List Changes)
    (h1 : 1 ≤ env.sr) (h2 : env.sr ≤ 2 ^ 24) (hf : ∀ j, j < bs.length → Within 0 env.sr (setting 0 f bs j)) :
    ∃ outs ys, playChanged P N env (.sin (.num f)) [] (changedSource bs) = .ok outs ∧ channel 0 outs = some ys ∧
      Sine δ env.sr ((List.range (bs.length * N)).map fun t => setting 0 f bs (t / N)) ys := by
  obtain ⟨outs, ys, g1, g2, g3⟩ := c71_sin_partial (P := P) (N := N) (env := env) f bs
  refine ⟨outs, ys, g1, g2, by rw [g3.1]; simp, fun t y hy => ?_⟩
  obtain ⟨ph, k, hw, rfl, hk⟩ := phases g3 h1 h2 (fun t ht => hf _ (Nat.div_lt_of_lt_mul (by rw [Nat.mul_comm]; exact ht))) hy
  exact sine_at hm hw hk

/-- There is a platform whose sine is within half a unit of the last place of a number below 1. -/
example : ∃ m : Libm, SinClose m (1 / 2 ^ 25) := by
  have h : ∀ x : ℝ, ∃ q : ℚ, |(q : ℝ) - x| ≤ 1 / 2 ^ 25 := fun x => by
    obtain ⟨q, h1, h2⟩ := exists_rat_btwn (show x - 1 / 2 ^ 25 < x by norm_num)
    exact ⟨q, by rw [abs_le]; constructor <;> linarith [show (0 : ℝ) < 1 / 2 ^ 25 by norm_num]⟩
  choose f hf using h
  exact ⟨⟨fun x => .fin (f (Real.sin x.val)), id, id, fun _ x => x, id, fun _ _ => .nan, true⟩, fun x _ => ⟨rfl, hf _⟩⟩

/-- Frequencies that are changed while playing, within the bounds. -/
example : ∃ bs : List Changes, bs.length = 2 ∧ (∀ j, j < bs.length → Within 0 (44100 : Nat) (setting 0 (.fin 220) bs j)) ∧
    setting 0 (.fin 220) bs 1 = .fin 440 := by
  refine ⟨[[], [(0, .fin 440)]], rfl, fun j hj => ?_, by decide +kernel⟩
  have : setting 0 (.fin 220) [[], [(0, .fin 440)]] 0 = .fin 220 := by decide +kernel
  have : setting 0 (.fin 220) [[], [(0, .fin 440)]] 1 = .fin 440 := by decide +kernel
  match j, hj with
  | 0, _ => simp only [*]; exact ⟨rfl, by norm_num [Fl.val], by norm_num [Fl.val]⟩
  | 1, _ => simp only [*]; exact ⟨rfl, by norm_num [Fl.val], by norm_num [Fl.val]⟩

/-- A signal that meets the hypotheses, and one with zeros whose frequencies held are other. -/
example : ∃ xs ys : List Fl, (∀ x, x ∈ xs → Within 0 (44100 : Nat) x ∧ x.isZero = false) ∧ xs.length = 2 ∧
    (∀ x, x ∈ ys → Within 0 (44100 : Nat) x) ∧ held (.fin 0) ys ≠ ys := by
  refine ⟨[.fin 220, .fin 440], [.fin 220, .fin 0], ?_, rfl, ?_, by decide +kernel⟩
  · intro x hx
    simp at hx
    rcases hx with rfl | rfl
    · exact ⟨⟨rfl, by norm_num [Fl.val], by norm_num [Fl.val]⟩, by decide +kernel⟩
    · exact ⟨⟨rfl, by norm_num [Fl.val], by norm_num [Fl.val]⟩, by decide +kernel⟩
  · intro x hx
    simp at hx
    rcases hx with rfl | rfl <;> exact ⟨rfl, by norm_num [Fl.val], by norm_num [Fl.val]⟩

/-- C75 fails for `saw`, `squ` and `tri` when the signal is 0: 11025 Hz for one sample and 0 Hz from then on should move a saw at 44100
samples per second by a quarter of a period and stop it, but it runs on. -/
theorem c75_zero_counterexample (P : Plat) : ∃ outs ys,
    play P 4 ⟨[], 44100, .fin 120, 0⟩ (waveComp .saw (.ref ['a'])) [.index 0] (monoFrom 0 [[.fin 11025, .fin 0, .fin 0, .fin 0]]) = .ok outs ∧
    channel 0 outs = some ys ∧ ys = [.fin (-1), .fin (-1 / 2), .fin 0, .fin (1 / 2)] ∧
    ¬ RunsAt .saw 44100 [.fin 11025, .fin 0, .fin 0, .fin 0] ys := by
  refine ⟨[[[.fin (-1), .fin (-1 / 2), .fin 0, .fin (1 / 2)]]], _, by kernel_rfl, rfl, rfl, fun h => ?_⟩
  obtain ⟨k, p, h0, h1, h2, -, h4⟩ := h.2 2 _ rfl
  have ht : turns 44100 [.fin 11025, .fin 0, .fin 0, .fin 0] 2 = 1 / 4 := by
    norm_num [turns, Fl.val]
  rw [ht, abs_le] at h2
  simp only [Shape.exact, Fl.val] at h4
  rw [abs_le] at h4
  norm_num at h2 h4
  have hk : (0 : ℚ) ≤ k := by positivity
  linarith [h2.2, h4.1]

end Verif.Props.Freq
