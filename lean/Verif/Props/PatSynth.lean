import Verif.Spec.PatSynth
import Verif.Lemmas.PatText
import Verif.Props.Voices
import Verif.Lemmas.Rel

/-! # C55: the pattern synth -/

namespace Verif.Props
open Spec

/-! ### Numbers -/

theorem rel_quotient {f : Fmt} [RelFmt f] {k l : Nat} {x y : Fl} {X Y : ℚ} (hx : Rel k x X) (hy : Rel l y Y)
    (hk : k + 2 * l ≤ 20) (hY : 0 < Y) (h1 : X / Y = 0 ∨ 1 / 2 ^ 100 ≤ X / Y) (h2 : X / Y ≤ 2 ^ 90) :
    Rel (k + 2 * l + 1) (Fl.div f x y) (X / Y) := by
  have hp : 0 < Y * (1 - 1 / 2 ^ 23) ^ l := mul_pos hY (by norm_num)
  have hy0 : 0 < y.val := lt_of_lt_of_le hp hy.lo
  have hXY : 0 ≤ X / Y := div_nonneg hx.nonneg hY.le
  have e1 : (1 : ℚ) ≤ (1 - 1 / 2 ^ 23) * (1 + 1 / 2 ^ 23) ^ 2 := by norm_num
  have e1l : (1 : ℚ) ≤ (1 - 1 / 2 ^ 23) ^ l * (1 + 1 / 2 ^ 23) ^ (2 * l) := by
    rw [pow_mul, ← mul_pow]; exact one_le_pow₀ e1
  have e2 : (1 + 1 / 2 ^ 23 : ℚ) * (1 - 1 / 2 ^ 23) ^ 2 ≤ 1 := by norm_num
  have e2l : (1 + 1 / 2 ^ 23 : ℚ) ^ l * (1 - 1 / 2 ^ 23) ^ (2 * l) ≤ 1 := by
    rw [pow_mul, ← mul_pow]; exact pow_le_one₀ (by norm_num) e2
  have hlo : X / Y * (1 - 1 / 2 ^ 23) ^ (k + 2 * l) ≤ x.val / y.val := by
    rw [le_div_iff₀ hy0]
    calc X / Y * (1 - 1 / 2 ^ 23) ^ (k + 2 * l) * y.val
        ≤ X / Y * (1 - 1 / 2 ^ 23) ^ (k + 2 * l) * (Y * (1 + 1 / 2 ^ 23) ^ l) :=
          mul_le_mul_of_nonneg_left hy.hi (mul_nonneg hXY (pow_nonneg (by norm_num) _))
      _ = X * (1 - 1 / 2 ^ 23) ^ k * ((1 + 1 / 2 ^ 23) ^ l * (1 - 1 / 2 ^ 23) ^ (2 * l)) := by
          rw [pow_add]; field_simp
      _ ≤ X * (1 - 1 / 2 ^ 23) ^ k * 1 :=
          mul_le_mul_of_nonneg_left e2l (mul_nonneg hx.nonneg (pow_nonneg (by norm_num) _))
      _ ≤ x.val := by rw [mul_one]; exact hx.lo
  have hhi : x.val / y.val ≤ X / Y * (1 + 1 / 2 ^ 23) ^ (k + 2 * l) := by
    rw [div_le_iff₀ hy0]
    calc x.val ≤ X * (1 + 1 / 2 ^ 23) ^ k * 1 := by rw [mul_one]; exact hx.hi
      _ ≤ X * (1 + 1 / 2 ^ 23) ^ k * ((1 - 1 / 2 ^ 23) ^ l * (1 + 1 / 2 ^ 23) ^ (2 * l)) :=
          mul_le_mul_of_nonneg_left e1l (mul_nonneg hx.nonneg (by positivity))
      _ = X / Y * (1 + 1 / 2 ^ 23) ^ (k + 2 * l) * (Y * (1 - 1 / 2 ^ 23) ^ l) := by
          rw [pow_add]; field_simp
      _ ≤ X / Y * (1 + 1 / 2 ^ 23) ^ (k + 2 * l) * y.val :=
          mul_le_mul_of_nonneg_left hy.lo (mul_nonneg hXY (by positivity))
  have h0 : 0 ≤ x.val / y.val := div_nonneg hx.val_nonneg hy0.le
  have hd := Fl.div_fin (f := f) hx.fin hy.fin hy0.ne' (RelFmt.range (by
    rw [abs_of_nonneg h0]
    calc x.val / y.val ≤ X / Y * (1 + 1 / 2 ^ 23) ^ (k + 2 * l) := hhi
      _ ≤ 2 ^ 90 * 2 := mul_le_mul h2 (pow_hi_le hk) (pow_nonneg (by norm_num) _) (by norm_num)
      _ ≤ 2 ^ 100 := by norm_num))
  exact Rel.of_rnd hk hd.1 hd.2 hXY h1 hlo hhi

theorem rel_nat {n : Nat} (h : n ≤ 2 ^ 24) : Rel 0 (Fl.ofNat f32 n) n :=
  .of_eq (f32_ofNat h).1 (by positivity) (f32_ofNat h).2

theorem rel_lit {q : ℚ} (h0 : 1 / 2 ^ 100 ≤ q) (hf : (Fl.lit f32 q).isFinite = true)
    (hv : (Fl.lit f32 q).val = f32.rnd q) : Rel 1 (Fl.lit f32 q) q :=
  Rel.of_rnd (k := 0) (by omega) hf hv (le_trans (by norm_num) h0) (.inr h0) (by simp) (by simp)

theorem patAtt_rel : Rel 1 patAtt (1 / 1000) :=
  rel_lit (by norm_num) (by decide +kernel) (by decide +kernel)

theorem patDec_rel : Rel 1 patDec (1 / 10) :=
  rel_lit (by norm_num) (by decide +kernel) (by decide +kernel)

/-- A number of samples over a time. -/
theorem samples_over {sr n : Nat} {T : Fl} {q : ℚ} (hT : Rel 1 T q) (hq : 1 / 2 ^ 20 ≤ q) (hq1 : q ≤ 1) (h1 : 1 ≤ sr) (h2 : sr ≤ 2 ^ 23)
    (hn : n ≤ 2 ^ 24) : Rel 5 (Fl.ofNat f32 n /. (T *. Fl.ofNat f32 sr)) (n / (q * sr)) := by
  have hs1 : (1 : ℚ) ≤ sr := by exact_mod_cast h1
  have hs2 : (sr : ℚ) ≤ 2 ^ 23 := by exact_mod_cast h2
  have hn2 : (n : ℚ) ≤ 2 ^ 24 := by exact_mod_cast hn
  have hlow : (1 : ℚ) / 2 ^ 20 ≤ q * sr := by
    calc (1 : ℚ) / 2 ^ 20 = 1 / 2 ^ 20 * 1 := by ring
      _ ≤ q * sr := mul_le_mul hq hs1 (by norm_num) (le_trans (by norm_num) hq)
  have hhigh : q * sr ≤ 2 ^ 23 := by
    calc q * sr ≤ 1 * 2 ^ 23 := mul_le_mul hq1 hs2 (by positivity) (by norm_num)
      _ = 2 ^ 23 := by norm_num
  have hpos : 0 < q * (sr : ℚ) := lt_of_lt_of_le (by norm_num) hlow
  have hm : Rel 2 (T *. Fl.ofNat f32 sr) (q * sr) :=
    hT.mul (rel_nat (by omega)) (by omega) (.inr (le_trans (by norm_num) hlow)) (le_trans hhigh (by norm_num))
  refine (rel_quotient (k := 0) (l := 2) (rel_nat hn) hm (by omega) hpos ?_ ?_)
  · rcases Nat.eq_zero_or_pos n with rfl | hn0
    · left; simp
    · right
      have : (1 : ℚ) ≤ n := by exact_mod_cast hn0
      rw [le_div_iff₀ hpos]
      calc (1 : ℚ) / 2 ^ 100 * (q * sr) ≤ 1 / 2 ^ 100 * 2 ^ 23 := mul_le_mul_of_nonneg_left hhigh (by norm_num)
        _ ≤ n := le_trans (by norm_num) this
  · rw [div_le_iff₀ hpos]
    calc (n : ℚ) ≤ 2 ^ 24 := hn2
      _ ≤ 2 ^ 90 * (1 / 2 ^ 20) := by norm_num
      _ ≤ 2 ^ 90 * (q * sr) := mul_le_mul_of_nonneg_left hlow (by norm_num)

theorem synth_stage {sr : Nat} {T : Fl} {q : ℚ} (hT : Rel 1 T q) (hq1 : q ≤ 1) (hv : q ≤ T.val) (h1 : 1 ≤ q * sr)
    (h2 : sr ≤ 2 ^ 23) : (T *. Fl.ofNat f32 sr).toUsize ≠ 0 ∧ |((T *. Fl.ofNat f32 sr).toUsize : ℚ) - q * sr| ≤ 1 + q * sr / 2 ^ 20 := by
  have hs2 : (sr : ℚ) ≤ 2 ^ 23 := by exact_mod_cast h2
  have hhigh : q * sr ≤ 2 ^ 23 := by
    calc q * sr ≤ 1 * 2 ^ 23 := mul_le_mul hq1 hs2 (by positivity) (by norm_num)
      _ = 2 ^ 23 := by norm_num
  have hm : Rel 2 (T *. Fl.ofNat f32 sr) (q * sr) :=
    hT.mul (rel_nat (by omega)) (by omega) (.inr (le_trans (by norm_num) h1)) (le_trans hhigh (by norm_num))
  refine ⟨?_, hm.toUsize (by omega) (le_trans hhigh (by norm_num))⟩
  obtain ⟨f1, f2⟩ := f32_ofNat (n := sr) (by omega)
  have hv' : q * sr ≤ T.val * sr := mul_le_mul_of_nonneg_right hv (by positivity)
  have hb : T.val * sr ≤ 2 ^ 50 := by
    have := hT.hi
    have : T.val ≤ 2 ^ 20 := le_trans this (by rw [pow_one]; nlinarith)
    calc T.val * sr ≤ 2 ^ 20 * 2 ^ 23 := mul_le_mul this hs2 (by positivity) (by norm_num)
      _ ≤ 2 ^ 50 := by norm_num
  have hmul := Fl.mul_fin (f := f32) hT.fin f1 (by
    rw [f2]; apply f32_inRange; rw [abs_of_nonneg (le_trans (le_trans (by norm_num) h1) hv')]; exact le_trans hb (by norm_num))
  rw [f2] at hmul
  have hr1 : f32.Rep ((1 : ℚ)) := ⟨1, 0, by decide, by decide, by rw [pow2_eq]; norm_num⟩
  have hr50 : f32.Rep ((2 : ℚ) ^ 50) := ⟨1, 50, by decide, by decide, by rw [pow2_eq]; norm_num⟩
  have g1 : 1 ≤ f32.rnd (T.val * sr) := Fmt.le_rnd f32_p hr1 (le_trans h1 hv')
  have g2 : f32.rnd (T.val * sr) ≤ 2 ^ 50 := Fmt.rnd_le f32_p hr50 hb
  rw [Fl.toUsize_of hmul.1 (by rw [hmul.2]; exact lt_of_le_of_lt g2 (by norm_num)), hmul.2]
  have : (1 : ℤ) ≤ ⌊f32.rnd (T.val * sr)⌋ := by rw [Int.le_floor]; exact_mod_cast g1
  omega

theorem pat_dur {sr : Nat} (h1 : 1000 ≤ sr) (h2 : sr ≤ 2 ^ 23) :
    |(synthDur patAtt patDec sr : ℚ) - 101 / 1000 * sr| ≤ 1 + 101 / 1000 * sr / 2 ^ 20 := by
  have hs1 : (1000 : ℚ) ≤ sr := by exact_mod_cast h1
  have hs2 : (sr : ℚ) ≤ 2 ^ 23 := by exact_mod_cast h2
  have ha : Rel 2 (patAtt +. patDec) (1 / 1000 + 1 / 10) :=
    patAtt_rel.add patDec_rel (by omega) (.inr (by norm_num)) (by norm_num)
  rw [show (1 : ℚ) / 1000 + 1 / 10 = 101 / 1000 by norm_num] at ha
  have hm : Rel 3 ((patAtt +. patDec) *. Fl.ofNat f32 sr) (101 / 1000 * sr) :=
    ha.mul (rel_nat (by omega)) (by omega) (.inr (by nlinarith)) (by nlinarith)
  exact hm.toUsize (by omega) (by nlinarith)

theorem pat_envelope {sr : Nat} (h1 : 1000 ≤ sr) (h2 : sr ≤ 2 ^ 23) :
    RisesAndFalls sr (1 / 1000) (1 / 10) (patAtt *. Fl.ofNat f32 sr).toUsize (synthDur patAtt patDec sr) (patAmp patAtt patDec sr) := by
  have hs1 : (1000 : ℚ) ≤ sr := by exact_mod_cast h1
  have hs2 : (sr : ℚ) ≤ 2 ^ 23 := by exact_mod_cast h2
  obtain ⟨a1, a2⟩ := synth_stage patAtt_rel (by norm_num) (by decide +kernel) (by linarith) h2
  obtain ⟨d1, -⟩ := synth_stage patDec_rel (by norm_num) (by decide +kernel) (by linarith) h2
  have hd := pat_dur h1 h2
  constructor
  · intro i hi
    have hi' : i ≤ 2 ^ 24 := by
      have : (i : ℚ) ≤ ((patAtt *. Fl.ofNat f32 sr).toUsize : ℚ) := by exact_mod_cast hi
      rw [abs_le] at a2
      have : (i : ℚ) ≤ 2 ^ 24 := by linarith
      exact_mod_cast this
    have := samples_over (n := i) patAtt_rel (by norm_num) (by norm_num) (by omega) h2 hi'
    rw [patAmp, if_pos hi, attackAmp, if_neg a1]
    exact ⟨this.fin, this.close (by omega)⟩
  · intro i hi hi2
    have hi' : synthDur patAtt patDec sr - i ≤ 2 ^ 24 := by
      refine le_trans (Nat.sub_le _ _) ?_
      rw [abs_le] at hd
      have : (synthDur patAtt patDec sr : ℚ) ≤ 2 ^ 24 := by linarith
      exact_mod_cast this
    have := samples_over (n := synthDur patAtt patDec sr - i) patDec_rel (by norm_num) (by norm_num) (by omega) h2 hi'
    rw [patAmp, if_neg (by omega), decayAmp, if_neg d1]
    refine ⟨this.fin, ?_⟩
    have h3 := this.close (by omega)
    rwa [Nat.cast_sub hi2] at h3

theorem pat_place {sr : Nat} (h1 : 1000 ≤ sr) (h2 : sr ≤ 2 ^ 23) {t : Fl} (hf : t.isFinite = true)
    (h0 : t.val = 0 ∨ 1 / 2 ^ 60 ≤ t.val) (hl : t.val ≤ 1 - 1 / 2 ^ 20) :
    (t *. .fin 2 *. Fl.ofNat f32 sr).toUsize < 2 * sr ∧
      |((t *. .fin 2 *. Fl.ofNat f32 sr).toUsize : ℚ) - t.val * (2 * sr)| ≤ 1 + t.val * (2 * sr) / 2 ^ 20 := by
  have hs1 : (1000 : ℚ) ≤ sr := by exact_mod_cast h1
  have hs2 : (sr : ℚ) ≤ 2 ^ 23 := by exact_mod_cast h2
  have ht0 : 0 ≤ t.val := by
    rcases h0 with h | h
    · exact h.ge
    · exact le_trans (by norm_num) h
  have r1 : Rel 1 (t *. .fin 2) (t.val * 2) :=
    (Rel.of_eq hf ht0 rfl).mul (Rel.of_eq (x := .fin 2) (X := 2) rfl (by norm_num) rfl) (by omega)
      (by rcases h0 with h | h
          · left; rw [h, zero_mul]
          · right; linarith)
      (by linarith)
  have r2 : Rel 2 (t *. .fin 2 *. Fl.ofNat f32 sr) (t.val * (2 * sr)) := by
    rw [← mul_assoc]
    refine r1.mul (rel_nat (by omega)) (by omega) ?_ ?_
    · rcases h0 with h | h
      · left; rw [h]; simp
      · right; nlinarith
    · nlinarith
  have hb : t.val * (2 * sr) ≤ 2 ^ 24 := by nlinarith
  refine ⟨?_, r2.toUsize (by omega) (le_trans hb (by norm_num))⟩
  have hhi := r2.hi
  have hlt : (t *. .fin 2 *. Fl.ofNat f32 sr).val < 2 * sr := by
    refine lt_of_le_of_lt hhi ?_
    calc t.val * (2 * sr) * (1 + 1 / 2 ^ 23) ^ 2 ≤ (1 - 1 / 2 ^ 20) * (2 * sr) * (1 + 1 / 2 ^ 23) ^ 2 :=
          mul_le_mul_of_nonneg_right (mul_le_mul_of_nonneg_right hl (by positivity)) (by norm_num)
      _ = (2 * sr) * ((1 - 1 / 2 ^ 20) * (1 + 1 / 2 ^ 23) ^ 2) := by ring
      _ < 2 * sr * 1 := mul_lt_mul_of_pos_left (by norm_num) (by linarith)
      _ = 2 * sr := by ring
  have hn := r2.val_nonneg
  rw [Fl.toUsize_of r2.fin (lt_of_lt_of_le hlt (by nlinarith))]
  have : ⌊(t *. .fin 2 *. Fl.ofNat f32 sr).val⌋ < ((2 * sr : Nat) : ℤ) := by
    rw [Int.floor_lt]; push_cast; exact hlt
  omega

theorem pat_cycle {sr : Nat} (h2 : sr ≤ 2 ^ 23) : (.fin 2 *. .fin 1 *. Fl.ofNat f32 sr).toUsize = 2 * sr := by
  have hs2 : (sr : ℚ) ≤ 2 ^ 23 := by exact_mod_cast h2
  obtain ⟨f1, f2⟩ := f32_ofNat (n := sr) (by omega)
  have h1 : Fl.fin 2 *. Fl.fin 1 = .fin 2 := by decide +kernel
  have hrep : f32.Rep (2 * sr : ℚ) := by
    have := f32_rep_int (n := ((2 * sr : Nat) : Int)) (by rw [abs_of_nonneg (by omega)]; omega)
    push_cast at this; exact this
  have hmul := Fl.mul_fin (f := f32) (a := .fin 2) rfl f1 (by
    rw [f2]; apply f32_inRange; rw [abs_of_nonneg (by simp [Fl.val])]; simp only [Fl.val]; linarith)
  rw [f2] at hmul
  have hv : (Fl.fin 2 *. Fl.ofNat f32 sr).val = 2 * sr := by rw [hmul.2]; exact Fmt.rnd_rep f32_p hrep
  rw [h1, Fl.toUsize_of hmul.1 (by rw [hv]; linarith), hv]
  have : ⌊(2 * sr : ℚ)⌋ = ((2 * sr : Nat) : ℤ) := by
    have : (2 * sr : ℚ) = ((2 * sr : Nat) : ℤ) := by push_cast; rfl
    rw [this, Int.floor_intCast]
  rw [this]; rfl

/-! ### Playing -/

/-- The place of an event in a cycle. -/
def patPlace (sr : Nat) (t : Fl) : Nat := (t *. .fin 2 *. Fl.ofNat f32 sr).toUsize

theorem patStarts_eq (m : Libm) {sr : Nat} (h0 : 0 < sr) (h2 : sr ≤ 2 ^ 23) (step : Nat) (es : List (Fl × Fl)) :
    patStarts m sr step es = .ok (((es.filter (fun e => decide (step % (2 * sr) = patPlace sr e.1))).map
      (fun e => noteFreq m e.2)).map (fun f => (⟨step, f, .fin 0⟩ : SVoice))) := by
  induction es with
  | nil => rfl
  | cons e es ih =>
    rw [patStarts, pat_cycle h2]
    simp only [if_neg (show ¬(2 * sr = 0) by omega), ih, bind, Except.bind]
    by_cases h : step % (2 * sr) = patPlace sr e.1
    · rw [if_pos (by exact h), List.filter_cons, if_pos (by exact decide_eq_true h)]; rfl
    · rw [if_neg (by exact h), List.filter_cons, if_neg (by exact fun g => h (of_decide_eq_true g))]

/-- The state of the synthesizer before time `t`. -/
def patState (sr : Nat) (events : List (Fl × Fl)) (starts : Nat → List Fl) (t : Nat) : PatternSynth :=
  ⟨voicesBefore starts (synthDur patAtt patDec sr) sr t, events, sr, t, []⟩

/-- What is heard at time `t`. -/
def patOut (sr : Nat) (starts : Nat → List Fl) (t : Nat) : Fl :=
  voicesAt (patAmp patAtt patDec sr) sr (sounding starts (synthDur patAtt patDec sr) t) t

theorem patSynth_run (m : Libm) {sr : Nat} (h0 : 0 < sr) (h2 : sr ≤ 2 ^ 23) (events : List (Fl × Fl)) (starts : Nat → List Fl) (t : Nat)
    (xs : List Fl) (h : ∀ u, t ≤ u → u < t + xs.length →
      starts u = (events.filter (fun e => decide (u % (2 * sr) = patPlace sr e.1))).map (fun e => noteFreq m e.2)) :
    runM (patSynthStep m) (patState sr events starts t) xs =
      .ok (patState sr events starts (t + xs.length), (List.range xs.length).map (fun j => patOut sr starts (t + j))) := by
  refine runM_along (patSynthStep m) xs (patState sr events starts) (patOut sr starts) t (fun j x hx => ?_)
  have hj : j < xs.length := (List.getElem?_eq_some_iff.mp hx).1
  have hs := h (t + j) (by omega) (by omega)
  have hv := voices_step (patAmp patAtt patDec sr) starts (synthDur patAtt patDec sr) sr (t + j)
  rw [hs] at hv
  simp only [patSynthStep, patState, patStarts_eq m h0 h2, bind, Except.bind]
  rw [hv]
  rfl

theorem patSynth_msgs {P : Plat} {s : PatternSynth} {ms : List (Msg Fl)} {ps : List (List (Fl × Fl))}
    (h : List.Forall₂ PatternMsg ms ps) :
    sendMsgs (P := P) (.prim (.patSynth s)) ms = .ok (.prim (.patSynth { s with events := ps.getLast?.getD s.events })) := by
  induction h generalizing s with
  | nil => rfl
  | @cons m p ms ps h _ ih =>
    obtain ⟨text, rfl, ht⟩ := h
    have h1 : msgG P (.prim (.patSynth s)) (.setToSymbol 0 text) = .ok (.prim (.patSynth { s with events := p })) := by
      simp only [msgG, msgPrim, PatternSynth.msg, patEvents_text ht, bind, Except.bind, Functor.map, Except.map]
    rw [sendMsgs, h1]
    simp only
    rw [ih]
    simp only
    congr 4
    cases ps with
    | nil => rfl
    | cons q ps => simp [List.getLast?_cons]

theorem patSynth_perform (P : Plat) (N : Nat) {sr : Nat} (h0 : 0 < sr) (h2 : sr ≤ 2 ^ 23) (es : List (Fl × Fl))
    (pre : List (List (List (Fl × Fl)))) (bs : List (List (Msg Fl) × Ins)) (ps : List (List (List (Fl × Fl))))
    (h : List.Forall₂ (fun b p => List.Forall₂ PatternMsg b.1 p ∧ b.2 = []) bs ps) (out : Buf) (ho : out.length = N) :
    ∃ outs, performBlocks (P := P) (.prim (.patSynth (patState sr (pre.flatten.getLast?.getD es)
        (patternStarts P.libm sr (patPlace sr) (patternAt N es (pre ++ ps))) (pre.length * N)))) [out] bs = .ok outs ∧
      channel 0 outs = some ((List.range (bs.length * N)).map (fun j =>
        patOut sr (patternStarts P.libm sr (patPlace sr) (patternAt N es (pre ++ ps))) (pre.length * N + j))) := by
  induction h generalizing pre out with
  | nil => exact ⟨[], rfl, by simp [channel]⟩
  | @cons b p bs ps hb _ ih =>
    obtain ⟨hb1, hb2⟩ := hb
    have hl : ((pre ++ [p]).flatten.getLast?.getD es) = p.getLast?.getD (pre.flatten.getLast?.getD es) := by
      rw [List.flatten_append, List.flatten_singleton, List.getLast?_append]
      cases p.getLast? <;> simp
    have hrun := patSynth_run P.libm h0 h2 ((pre ++ [p]).flatten.getLast?.getD es)
      (patternStarts P.libm sr (patPlace sr) (patternAt N es (pre ++ p :: ps))) (pre.length * N) out
      (fun u h1 h2 => by
        rw [ho] at h2
        have hk : u / N = pre.length := by
          have hN : 0 < N := by omega
          rw [Nat.div_eq_iff hN]
          constructor
          · rw [Nat.mul_comm] at h1; rw [Nat.mul_comm]; omega
          · omega
        unfold patternStarts patternAt
        rw [hk, show pre ++ p :: ps = (pre ++ [p]) ++ ps by simp, List.take_append_of_le_length (by simp),
          List.take_of_length_le (by simp)])
    rw [ho] at hrun
    obtain ⟨o, o1, o2⟩ := ih (pre ++ [p]) ((List.range N).map (fun j =>
        patOut sr (patternStarts P.libm sr (patPlace sr) (patternAt N es (pre ++ p :: ps))) (pre.length * N + j))) (by simp)
    rw [List.length_append, List.length_singleton, List.append_assoc, List.singleton_append, Nat.add_mul, Nat.one_mul] at o1 o2
    refine ⟨[(List.range N).map (fun j =>
        patOut sr (patternStarts P.libm sr (patPlace sr) (patternAt N es (pre ++ p :: ps))) (pre.length * N + j))] :: o, ?_, ?_⟩
    · rw [performBlocks, patSynth_msgs (s := patState sr (pre.flatten.getLast?.getD es)
        (patternStarts P.libm sr (patPlace sr) (patternAt N es (pre ++ p :: ps))) (pre.length * N)) hb1]
      simp only [patState] at hrun o1 ⊢
      rw [hl] at hrun o1
      simp only [procG, procPrim, procPatSynth, hb2, bind, Except.bind, hrun]
      simp only [reState, o1]
    · simp only [channel, o2, List.getElem?_cons_zero, Option.some.injEq]
      rw [List.length_cons, Nat.add_mul, Nat.one_mul, Nat.add_comm (bs.length * N) N, List.range_add, List.map_append, List.map_map]
      congr 1
      apply List.map_congr_left
      intro j _
      simp only [Function.comp_def, Nat.add_assoc]

/-- C55: `psynth` starts each event of the pattern in force once in every cycle of two seconds, at the part of the cycle given
by the event; each note rises for a thousandth of a second and falls for a tenth of a second; the output is the sum of
the notes that sound, and what a note adds depends only on its pitch and on the time since its start. The pattern may be
replaced before any block. -/
theorem c55_psynth_partial (P : Plat) (env : Env) (h1 : 1000 ≤ env.sr) (h2 : env.sr ≤ 2 ^ 23) :
    ∃ (amp : Nat → Fl) (a dur : Nat) (place : Fl → Nat),
      |(a : ℚ) - 1 / 1000 * env.sr| ≤ 1 + 1 / 1000 * env.sr / 2 ^ 20 ∧
      |(dur : ℚ) - 101 / 1000 * env.sr| ≤ 1 + 101 / 1000 * env.sr / 2 ^ 20 ∧
      RisesAndFalls env.sr (1 / 1000) (1 / 10) a dur amp ∧
      (∀ t : Fl, t.isFinite = true → (t.val = 0 ∨ 1 / 2 ^ 60 ≤ t.val) → t.val ≤ 1 - 1 / 2 ^ 20 →
        place t < 2 * env.sr ∧ |(place t : ℚ) - t.val * (2 * env.sr)| ≤ 1 + t.val * (2 * env.sr) / 2 ^ 20) ∧
      ∀ (N : Nat) (sym : Name) (span : Fl) (es : List (Fl × Fl)) (bs : List (List (Msg Fl) × Ins))
        (ps : List (List (List (Fl × Fl)))), PatternText sym es →
        List.Forall₂ (fun b p => List.Forall₂ PatternMsg b.1 p ∧ b.2 = []) bs ps →
        ∃ outs ys, perform P N env (.patternSynth sym span) bs = .ok outs ∧ channel 0 outs = some ys ∧
          ys.length = bs.length * N ∧ ∀ t, t < ys.length → ys[t]? = some (voicesAt amp env.sr
            (sounding (patternStarts P.libm env.sr place (patternAt N es ps)) dur t) t) := by
  refine ⟨patAmp patAtt patDec env.sr, _, synthDur patAtt patDec env.sr, patPlace env.sr,
    (synth_stage patAtt_rel (by norm_num) (by decide +kernel) ?_ h2).2, pat_dur h1 h2, pat_envelope h1 h2,
    fun t a b c => pat_place h1 h2 a b c, fun N sym span es bs ps hp hb => ?_⟩
  · have hs1 : (1000 : ℚ) ≤ env.sr := by exact_mod_cast h1
    linarith
  obtain ⟨o, o1, o2⟩ := patSynth_perform P N (by omega) h2 es [] bs ps hb (List.replicate N (.fin 0)) (by simp)
  simp only [List.nil_append, List.length_nil, Nat.zero_mul, Nat.zero_add] at o1 o2
  refine ⟨o, _, ?_, o2, by simp, fun t ht => ?_⟩
  · have hm : makeNode P N env.samples env.sr env.bpm env.seed (.patternSynth sym span) =
        .ok (fresh N 1 (.prim (.patSynth ⟨[], es, env.sr, 0, []⟩)), []) := by
      simp only [makeNode, makePrim, PatternSynth.new, patEvents_text hp, bind, Except.bind, liftP]
      rfl
    rw [perform, hm]
    simp only [fresh]
    have o1' : performBlocks (P := P) (.prim (.patSynth ⟨[], es, env.sr, 0, []⟩))
      (List.replicate 1 (List.replicate N (.fin 0))) bs = .ok o := o1
    rw [o1']
  · simp only [List.length_map, List.length_range] at ht
    simp [ht, patOut]

/-- Two events in a text with blanks; before the second of two blocks the pattern is replaced. -/
example : PatternText ['`', '0', ' ', '6', '0', ',', ' ', '0', '.', '5', ' ', '6', '2', '`'] [(.fin 0, .fin 60), (.fin (1 / 2), .fin 62)] ∧
    List.Forall₂ (fun (b : List (Msg Fl) × Ins) p => List.Forall₂ PatternMsg b.1 p ∧ b.2 = [])
      [([], []), ([.setToSymbol 0 ['0', ' ', '7', '0']], [])] [[], [[(.fin 0, .fin 70)]]] := by
  refine ⟨.more (t := ['0', ' ', '6', '0']) ⟨0, 0, 0, ['0'], ['6', '0'], rfl, by decide, by decide, by decide, by decide, by decide, by decide,
    by decide +kernel, by decide +kernel⟩ (.one ⟨1, 0, 0, ['0', '.', '5'], ['6', '2'], rfl, by decide, by decide, by decide, by decide,
      by decide, by decide, by decide +kernel, by decide +kernel⟩), .cons ⟨.nil, rfl⟩ (.cons ⟨.cons ⟨_, rfl, .one ⟨0, 0, 0, ['0'],
        ['7', '0'], rfl, by decide, by decide, by decide, by decide, by decide, by decide, by decide +kernel, by decide +kernel⟩⟩ .nil,
        rfl⟩ .nil)⟩

/-- What is heard of a note that rises: at its start nothing. -/
theorem rising_start {sr : Nat} {att dec : ℚ} {a dur : Nat} {amp : Nat → Fl} (h : RisesAndFalls sr att dec a dur amp) (f : Fl) :
    (voicesAt amp sr [(0, f)] 0).val = 0 := by
  obtain ⟨h1, h2⟩ := h.1 0 (Nat.zero_le _)
  have h0 : (amp 0).val = 0 := by simpa using h2
  have e : voicesAt amp sr [(0, f)] 0 = .fin 0 +. amp 0 *. (.fin 0 *. .fin 2 -. .fin 1) *. Fl.lit f32 (1 / 10) := rfl
  rw [e]
  cases ha : amp 0 with
  | nan => rw [ha] at h1; simp [Fl.isFinite] at h1
  | inf s => rw [ha] at h1; simp [Fl.isFinite] at h1
  | nz => decide +kernel
  | fin q =>
    rw [ha] at h0
    obtain rfl : q = 0 := h0
    decide +kernel

/-- The notes of `msgsynth` do not rise: with an attack of 1/4 s and a decay of 1/2 s, at 8 samples per second, a note at 0 is
loudest at once. -/
theorem c55_msgsynth_counterexample (P : Plat) :
    ∃ outs x, perform P 1 ⟨[], 8, .fin 120, 0⟩ (.msgsynth [] (.fin (1 / 4)) (.fin (1 / 2)))
        [([.setToSymbol 3 ['0', '=', '>', '6', '0']], [])] = .ok outs ∧ channel 0 outs = some [x] ∧ x.val < -1 / 10 ∧
      ∀ amp a dur f, RisesAndFalls 8 (1 / 4) (1 / 2) a dur amp → voicesAt amp 8 [(0, f)] 0 ≠ x := by
  have hx : (voicesAt (msgAmp (.fin (1 / 4)) (.fin (1 / 2)) 8) 8 [(0, .fin 0)] 0).val < -1 / 10 := by decide +kernel
  have hrun := msgSynth_perform P 1 (.fin (1 / 4)) (.fin (1 / 2)) 8 [] [([.setToSymbol 3 ['0', '=', '>', '6', '0']], [])] [[(0, .fin 60)]]
    (.cons (.cons ⟨_, ['0'], ['6', '0'], .fin 0, rfl, by decide, by decide, by decide, by decide +kernel,
    by decide +kernel, by decide +kernel⟩ .nil) .nil) [.fin 0] rfl
  obtain ⟨o, o1, o2⟩ := hrun
  refine ⟨o, voicesAt (msgAmp (.fin (1 / 4)) (.fin (1 / 2)) 8) 8 [(0, .fin 0)] 0, ?_, o2, hx, fun amp a dur f h e => ?_⟩
  · rw [perform]
    have hm : makeNode P 1 [] 8 (.fin 120) 0 (.msgsynth [] (.fin (1 / 4)) (.fin (1 / 2))) =
      .ok (fresh 1 1 (.prim (.msgSynth (MsgSynth.new (.fin (1 / 4)) (.fin (1 / 2)) 8))), []) := rfl
    rw [hm]
    have o1' : performBlocks (P := P) (.prim (.msgSynth (MsgSynth.new (.fin (1 / 4)) (.fin (1 / 2)) 8)))
      (List.replicate 1 (List.replicate 1 (.fin 0))) [([.setToSymbol 3 ['0', '=', '>', '6', '0']], [])] = .ok o := o1
    simp only [fresh, o1']
  · have := rising_start h f
    rw [e] at this
    rw [this] at hx
    norm_num at hx

end Verif.Props
