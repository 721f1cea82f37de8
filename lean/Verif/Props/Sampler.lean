import Verif.Spec.Signal
import Verif.Lemmas.Loop
import Verif.Lemmas.KernelRfl

/-! # Sample playback (C27, C44, C45) -/

namespace Verif.Props
open Spec

/-! ### Reading the sample -/

theorem at_ok {s : Sample} {i : Nat} (h : i < s.data.length) : ∃ x, s.at i = .ok x ∧ x ∈ s.data :=
  ⟨s.data[i], by simp [Sample.at, List.getElem?_eq_getElem h], List.getElem_mem h⟩

/-- The largest f32 number below 1. -/
theorem below_one {p : ℚ} (hp : f32.Rep p) (h1 : p < 1) : p ≤ 1 - 1 / 2 ^ 24 := by
  obtain ⟨m, x, hm, _, rfl⟩ := hp
  have hm' : m ≤ 2 ^ 24 := (le_abs_self m).trans hm
  rcases lt_or_ge x (-24) with hx | hx
  · have h2 : pow2 x ≤ 1 / 2 ^ 25 := by
      have := pow2_le (show x ≤ -25 by omega)
      refine this.trans (le_of_eq ?_)
      rw [pow2_eq]; norm_num
    have h0 := pow2_pos x
    rcases le_or_gt m 0 with hm0 | hm0
    · have : (m : ℚ) ≤ 0 := by exact_mod_cast hm0
      nlinarith
    · have h3 : (m : ℚ) ≤ 2 ^ 24 := by exact_mod_cast hm'
      have h4 : (0 : ℚ) < m := by exact_mod_cast hm0
      have : (m : ℚ) * pow2 x ≤ 2 ^ 24 * (1 / 2 ^ 25) := by
        apply mul_le_mul h3 h2 h0.le (by norm_num)
      norm_num at this ⊢
      linarith
  · obtain ⟨n, hn⟩ := Fmt.pow2_mul_of_le hx
    rw [hn] at h1 ⊢
    have h24 : pow2 (-24) = 1 / 2 ^ 24 := by rw [pow2_eq]; norm_num
    rw [h24] at h1 ⊢
    have : (m * n : ℚ) < 2 ^ 24 := by
      have : (m * n : ℚ) * (1 / 2 ^ 24) < 1 := by rw [mul_assoc]; exact h1
      rw [mul_one_div, div_lt_one (by norm_num)] at this
      exact this
    have : m * n < 2 ^ 24 := by exact_mod_cast this
    have : m * n ≤ 2 ^ 24 - 1 := by omega
    have : (m * n : ℚ) ≤ 2 ^ 24 - 1 := by exact_mod_cast this
    rw [← mul_assoc]
    linarith

/-- A part of a whole number, computed in f32, does not exceed the whole number, even where it is not
representable. -/
theorem scale_le {p : ℚ} (hp : f32.Rep p) (h1 : p < 1) (e : Nat) :
    f32.rnd (p * f32.rnd e) ≤ e := by
  rcases Nat.eq_zero_or_pos e with rfl | he
  · simp [Fmt.rnd_zero]
  have heq : (0 : ℚ) < e := by exact_mod_cast he
  have hE0 := Fmt.rnd_nonneg (f := f32) heq.le
  have hb := below_one hp h1
  rcases le_or_gt (f32.rnd (e : ℚ)) e with hle | hgt
  · refine (Fmt.rnd_le f32_p (Fmt.rep_rnd _) (?_ : p * f32.rnd e ≤ f32.rnd (e : ℚ))).trans hle
    nlinarith
  obtain ⟨k1, k2⟩ := ilog2_spec heq
  have herr := abs_le.mp (Fmt.rnd_err (f := f32) (e : ℚ))
  have hk0 : 0 ≤ ilog2 (e : ℚ) := by
    have : pow2 0 < pow2 (ilog2 (e : ℚ) + 1) := by
      refine lt_of_le_of_lt ?_ k2
      have : (1 : ℚ) ≤ e := by exact_mod_cast he
      simpa [pow2] using this
    rw [pow2_lt_iff] at this
    omega
  have hq : f32.quantum (e : ℚ) = ilog2 (e : ℚ) - 23 := by
    rw [Fmt.quantum, abs_of_pos heq]
    simp only [f32]
    omega
  generalize hk : ilog2 (e : ℚ) = k at *
  have hu := pow2_pos (k - 23)
  have h23 : pow2 k = 2 ^ 23 * pow2 (k - 23) := by
    have h : pow2 23 = 2 ^ 23 := by rw [pow2_eq]; norm_num
    rw [← h, ← pow2_add]
    congr 1
    ring
  have h24 : pow2 (k + 1) = 2 ^ 24 * pow2 (k - 23) := by
    rw [pow2_add, h23]; simp only [pow2]; norm_num; ring
  obtain ⟨r, hr⟩ : ∃ r : Int, f32.rnd (e : ℚ) = r * pow2 (k - 23) :=
    ⟨rne ((e : ℚ) / pow2 (k - 23)), by rw [Fmt.rnd, if_neg heq.ne', hq]⟩
  rw [hq] at herr
  have hEle : f32.rnd (e : ℚ) ≤ pow2 (k + 1) := by
    have : (pow2 (k + 1)) = ((2 ^ 24 : Int) : ℚ) * pow2 (f32.quantum (e : ℚ)) := by
      rw [hq, h24]; norm_num
    rw [this]
    exact Fmt.rnd_le_of_mul heq.ne' (by rw [← this]; exact k2.le)
  have hr1 : 2 ^ 23 + 1 ≤ r := by
    have : (2 ^ 23 : ℚ) * pow2 (k - 23) < r * pow2 (k - 23) := by rw [← hr, ← h23]; linarith
    have : (2 ^ 23 : ℚ) < r := lt_of_mul_lt_mul_right this hu.le
    have : 2 ^ 23 < r := by exact_mod_cast this
    omega
  have hr2 : r ≤ 2 ^ 24 := by
    have : (r : ℚ) * pow2 (k - 23) ≤ 2 ^ 24 * pow2 (k - 23) := by rw [← hr, ← h24]; exact hEle
    have : (r : ℚ) ≤ 2 ^ 24 := le_of_mul_le_mul_right this hu
    exact_mod_cast this
  have hr1q : (2 ^ 23 + 1 : ℚ) ≤ r := by exact_mod_cast hr1
  -- the neighbour below
  have hPe : ((r - 1 : Int) : ℚ) * pow2 (k - 23) ≤ e := by
    push_cast
    rw [sub_mul, ← hr]; linarith
  have hPrep : f32.Rep (((r - 1 : Int) : ℚ) * pow2 (k - 23)) :=
    ⟨r - 1, k - 23, by rw [abs_of_nonneg (by omega)]; simp only [f32]; omega, by simp only [f32]; omega, rfl⟩
  have hx : p * f32.rnd e < ((r - 1 : Int) : ℚ) * pow2 (k - 23) + pow2 (k - 23) / 2 := by
    have h5 : p * f32.rnd e ≤ (1 - 1 / 2 ^ 24) * f32.rnd e := mul_le_mul_of_nonneg_right hb hE0
    refine lt_of_le_of_lt h5 ?_
    rw [hr]
    push_cast
    have : (2 ^ 23 + 1 : ℚ) * pow2 (k - 23) ≤ r * pow2 (k - 23) := mul_le_mul_of_nonneg_right hr1q hu.le
    nlinarith
  rcases le_or_gt (p * f32.rnd e) (((r - 1 : Int) : ℚ) * pow2 (k - 23)) with hc | hc
  · exact (Fmt.rnd_le f32_p hPrep hc).trans hPe
  · have hxpos : 0 < p * f32.rnd e := by
      refine lt_of_le_of_lt ?_ hc
      have : (0 : ℚ) ≤ ((r - 1 : Int) : ℚ) := by exact_mod_cast (by omega : (0 : Int) ≤ r - 1)
      positivity
    have hl : ilog2 (p * f32.rnd e) = k := by
      apply ilog2_eq hxpos
      · refine le_trans ?_ hc.le
        rw [h23]
        apply mul_le_mul_of_nonneg_right _ hu.le
        push_cast; linarith
      · refine lt_of_lt_of_le hx ?_
        rw [h24]
        have : (r : ℚ) ≤ 2 ^ 24 := by exact_mod_cast hr2
        push_cast
        nlinarith
    have hqx : f32.quantum (p * f32.rnd e) = k - 23 := by
      rw [Fmt.quantum, abs_of_pos hxpos, hl]
      simp only [f32]
      omega
    have herr2 := abs_le.mp (Fmt.rnd_err (f := f32) (p * f32.rnd e))
    rw [hqx] at herr2
    have hn : f32.rnd (p * f32.rnd e) = rne (p * f32.rnd e / pow2 (k - 23)) * pow2 (k - 23) := by
      rw [Fmt.rnd, if_neg hxpos.ne', hqx]
    rw [hn] at herr2 ⊢
    generalize rne (p * f32.rnd e / pow2 (k - 23)) = n at herr2 ⊢
    have : (n : ℚ) * pow2 (k - 23) < r * pow2 (k - 23) := by
      push_cast at hx
      nlinarith
    have : (n : ℚ) < r := lt_of_mul_lt_mul_right this hu.le
    have : n ≤ r - 1 := by
      have : n < r := by exact_mod_cast this
      omega
    refine le_trans (mul_le_mul_of_nonneg_right ?_ hu.le) hPe
    exact_mod_cast this
/-- A position strictly inside (0, 1) scaled to the length reads no further than the last value. -/
theorem index_le {pos : Fl} (hp : pos.Ok f32) (h0 : Fl.lt (.fin 0) pos = true) (h1 : Fl.lt pos (.fin 1) = true)
    {e : Nat} (he : e ≤ 2 ^ 64) :
    (pos *. Fl.ofNat f32 e).floor.toUsize ≤ e ∧ (pos *. Fl.ofNat f32 e).ceil.toUsize ≤ e := by
  have hf : pos.isFinite = true := by
    cases pos with
    | nan => simp [Fl.lt] at h0
    | inf s => cases s <;> simp [Fl.lt] at h0 h1
    | nz => rfl
    | fin q => rfl
  rw [Fl.lt_fin rfl hf] at h0
  rw [Fl.lt_fin hf rfl] at h1
  simp only [Fl.val_fin] at h0 h1
  have hrep : f32.Rep pos.val := by
    cases pos with
    | fin q => exact hp.1
    | _ => exact Fmt.rep_zero
  have heq : (e : ℚ) ≤ 2 ^ 64 := by exact_mod_cast he
  have hE0 := Fmt.rnd_nonneg (f := f32) (Nat.cast_nonneg (α := ℚ) e)
  have hE1 : f32.rnd (e : ℚ) ≤ 2 ^ 64 :=
    Fmt.rnd_le f32_p ⟨1, 64, by norm_num [f32], by norm_num [f32], by rw [pow2_eq]; norm_num⟩ heq
  obtain ⟨e1, e2⟩ := Fl.round_val (f := f32) (s := false) (x := e) (f32_inRange (by
    rw [abs_of_nonneg (Nat.cast_nonneg e)]; exact heq.trans (by norm_num)))
  change (Fl.ofNat f32 e).isFinite = true at e1
  change (Fl.ofNat f32 e).val = _ at e2
  have hp0 : 0 ≤ pos.val * f32.rnd (e : ℚ) := by positivity
  obtain ⟨m1, m2⟩ := Fl.mul_fin (f := f32) hf e1 (f32_inRange (by
    rw [e2, abs_of_nonneg hp0]
    have : (2 : ℚ) ^ 64 ≤ 2 ^ 100 := by norm_num
    nlinarith))
  rw [e2] at m2
  have b0 : 0 ≤ (pos *. Fl.ofNat f32 e).val := by rw [m2]; exact Fmt.rnd_nonneg hp0
  have b1 : (pos *. Fl.ofNat f32 e).val ≤ e := by rw [m2]; exact scale_le hrep h1 e
  generalize pos *. Fl.ofNat f32 e = x at m1 b0 b1
  cases x with
  | nan => simp [Fl.isFinite] at m1
  | inf s => simp [Fl.isFinite] at m1
  | nz => simp [Fl.floor, Fl.ceil, Fl.toUsize]
  | fin q =>
    simp only [Fl.val_fin] at b0 b1
    have hc : q.ceil ≤ (e : Int) := Rat.ceil_le_iff.mpr (by exact_mod_cast b1)
    have hfl : q.floor ≤ (e : Int) := by
      have : ((q.floor : Int) : ℚ) ≤ ((e : Int) : ℚ) := by
        push_cast
        exact (Int.floor_le q).trans b1
      exact_mod_cast this
    have h3 : ((q.floor : ℚ)).floor = q.floor := Int.floor_intCast (R := ℚ) _
    have h4 : ((q.ceil : ℚ)).floor = q.ceil := Int.floor_intCast (R := ℚ) _
    constructor
    · simp only [Fl.floor, Fl.toUsize, h3]
      omega
    · simp only [Fl.ceil]
      split
      · simp [Fl.toUsize]
      · simp only [Fl.toUsize, h4]
        omega

theorem sampleLerp_ok {s : Sample} {x : Fl} {off : Nat} (h1 : x.floor.toUsize + off < s.data.length)
    (h2 : x.ceil.toUsize + off < s.data.length) :
    ∃ v, sampleLerp s x off = .ok v ∧ v.Ok f32 := by
  obtain ⟨a, ha, _⟩ := at_ok h1
  obtain ⟨b, hb, _⟩ := at_ok h2
  exact ⟨a *. (x -. x.floor) +. b *. (.fin 1 -. (x -. x.floor)),
    by simp only [sampleLerp, ha, hb, bind, Except.bind], Fl.add_ok _ _⟩

/-- Reading a mono sample does not fail. -/
theorem monoRead_ok {s : Sample} (hs : Playable s) (hc : s.channels = 1) (pos : Fl) (hp : pos.Ok f32)
    (hd : ∀ x, x ∈ s.data → x.Ok f32) : ∃ v, monoRead s pos = .ok v ∧ v.Ok f32 := by
  have hl : 0 < s.data.length := List.length_pos_iff.mpr hs.1
  have hle := hs.2.2.1
  have hsub : usizeSub s.data.length 1 = .ok (s.data.length - 1) := if_pos (by omega)
  simp only [monoRead]
  split
  · obtain ⟨v, h1, h2⟩ := at_ok hl
    exact ⟨v, h1, hd v h2⟩
  · split
    · obtain ⟨v, h1, h2⟩ := at_ok (s := s) (i := s.data.length - 1) (by omega)
      exact ⟨v, by simp [hsub, h1, bind, Except.bind], hd v h2⟩
    · split
      · next h =>
        simp only [Bool.and_eq_true] at h
        obtain ⟨i1, i2⟩ := index_le hp h.1 h.2 (e := s.data.length - 1) (by omega)
        obtain ⟨v, h1, h2⟩ := sampleLerp_ok (s := s) (x := pos *. Fl.ofNat f32 (s.data.length - 1)) (off := 0)
          (by omega) (by omega)
        exact ⟨v, by simp only [hsub, h1, bind, Except.bind], h2⟩
      · exact ⟨_, rfl, Fl.zero_ok⟩

/-- Reading a stereo sample does not fail. -/
theorem stereoRead_ok {s : Sample} (hs : Playable s) (hc : s.channels = 2) (pos : Fl) (hp : pos.Ok f32)
    (hd : ∀ x, x ∈ s.data → x.Ok f32) :
    ∃ v, stereoRead s pos = .ok v ∧ ∀ p, p ∈ v → p.1.Ok f32 ∧ p.2.Ok f32 := by
  have hle := hs.2.2.2 hc
  have hmax := hs.2.2.1
  have hsub : usizeSub s.data.length 1 = .ok (s.data.length - 1) := if_pos (by omega)
  have hsub1 : usizeSub (s.data.length / 2) 1 = .ok (s.data.length / 2 - 1) := if_pos (by omega)
  have hsub2 : usizeSub (s.data.length / 2) 2 = .ok (s.data.length / 2 - 2) := if_pos (by omega)
  simp only [stereoRead, hc]
  split
  · obtain ⟨v, h1, h2⟩ := at_ok (s := s) (i := 0) (by omega)
    obtain ⟨w, h3, h4⟩ := at_ok (s := s) (i := s.data.length / 2) (by omega)
    exact ⟨some (v, w), by simp [h1, h3, bind, Except.bind], by simpa using ⟨hd v h2, hd w h4⟩⟩
  · split
    · obtain ⟨v, h1, h2⟩ := at_ok (s := s) (i := s.data.length / 2 - 1) (by omega)
      obtain ⟨w, h3, h4⟩ := at_ok (s := s) (i := s.data.length - 1) (by omega)
      exact ⟨some (v, w), by simp [hsub1, hsub, h1, h3, bind, Except.bind], by simpa using ⟨hd v h2, hd w h4⟩⟩
    · split
      · next h =>
        simp only [Bool.and_eq_true] at h
        obtain ⟨i1, i2⟩ := index_le hp h.1 h.2 (e := s.data.length / 2 - 2) (by omega)
        obtain ⟨v, h1, h2⟩ := sampleLerp_ok (s := s) (x := pos *. Fl.ofNat f32 (s.data.length / 2 - 2)) (off := 0)
          (by omega) (by omega)
        obtain ⟨w, h3, h4⟩ := sampleLerp_ok (s := s) (x := pos *. Fl.ofNat f32 (s.data.length / 2 - 2))
          (off := s.data.length / 2 + 1) (by omega) (by omega)
        exact ⟨some (v, w), by simp only [hsub2, h1, h3, bind, Except.bind], by simpa using ⟨h2, h4⟩⟩
      · exact ⟨none, rfl, by simp⟩

/-- What a voice at `pos` adds; `none`: nothing. -/
def voiceOut (s : Sample) (pos : Fl) : Option (Fl × Fl) :=
  if s.channels = 1 then (monoRead s pos).toOption.map (fun v => (v, v))
  else if s.channels = 2 then (stereoRead s pos).toOption.getD none
  else none

/-- Addition of what a voice adds. -/
def addOut (o : Fl × Fl) : Option (Fl × Fl) → Fl × Fl
  | none => o
  | some v => (o.1 +. v.1, o.2 +. v.2)

/-- A pair of outputs that is possible for the sample: equal on both sides if it is mono. -/
def Sided (s : Sample) (o : Fl × Fl) : Prop := s.channels = 1 → o.1 = o.2

theorem addVoice_ok {s : Sample} (hs : Playable s) (hd : ∀ x, x ∈ s.data → x.Ok f32) (pos : Fl)
    (hp : pos.Ok f32) (o : Fl × Fl) (ho : Sided s o) :
    ∃ w, addVoice s pos o = .ok w ∧ w.getD o = addOut o (voiceOut s pos) ∧
      Sided s (addOut o (voiceOut s pos)) ∧ (∀ p, p ∈ voiceOut s pos → p.1.Ok f32 ∧ p.2.Ok f32) := by
  by_cases h1 : s.channels = 1
  · obtain ⟨v, v1, v2⟩ := monoRead_ok hs h1 pos hp hd
    have hv : voiceOut s pos = some (v, v) := by simp [voiceOut, h1, v1, Except.toOption]
    have := ho h1
    exact ⟨some (o.1 +. v, o.1 +. v), by simp [addVoice, h1, v1, bind, Except.bind],
      by simp [hv, addOut, this], by intro _; simp [hv, addOut, this], by simp [hv, v2]⟩
  · by_cases h2 : s.channels = 2
    · obtain ⟨v, v1, v2⟩ := stereoRead_ok hs h2 pos hp hd
      have hv : voiceOut s pos = v := by simp [voiceOut, h2, v1, Except.toOption]
      refine ⟨some (addOut o v), ?_, by simp [hv], fun h => absurd h h1, by simpa [hv] using v2⟩
      cases v <;> simp [addVoice, h2, v1, bind, Except.bind, addOut]
    · have hv : voiceOut s pos = none := by simp [voiceOut, h1, h2]
      exact ⟨none, by simp [addVoice, h1, h2], by simp [hv, addOut], fun h => absurd h h1, by simp [hv]⟩

/-! ### Voices -/

/-- Where a voice stands at `t`. -/
def standAt (t : Nat) (v : Voice) : Fl := Fl.ofNat f32 (t - v.1) /. v.2

theorem div_ok {f : Fmt} (a b : Fl) : (Fl.div f a b).Ok f := by
  cases a <;> cases b <;> simp only [Fl.div] <;> (try split) <;> (try split) <;>
    first | exact Fl.round_ok | trivial | exact Fl.zero_ok

theorem stand_ok (t : Nat) (v : Voice) : (standAt t v).Ok f32 := div_ok _ _

/-- Is the voice still playing at `t`? -/
def alive (t : Nat) (v : Voice) : Bool := Fl.le (standAt t v) (.fin 1)

theorem voicePos_ok {t : Nat} {v : Voice} (h : v.1 ≤ t) : voicePos t v = .ok (standAt t v) := by
  simp [voicePos, usizeSub, h, bind, Except.bind, standAt]

theorem playVoices_ok {s : Sample} (hs : Playable s) (hd : ∀ x, x ∈ s.data → x.Ok f32) (t : Nat)
    (vs : List Voice) (hv : ∀ v, v ∈ vs → v.1 ≤ t) (o : Fl × Fl) (ho : Sided s o) :
    playVoices s t vs o = .ok (vs.filter (alive t),
      ((vs.filter (alive t)).map (fun v => voiceOut s (standAt t v))).foldl addOut o) := by
  induction vs generalizing o with
  | nil => rfl
  | cons v vs ih =>
    have hv' := fun w hw => hv w (List.mem_cons_of_mem _ hw)
    simp only [playVoices, voicePos_ok (hv v (by simp))]
    by_cases ha : Fl.le (standAt t v) (.fin 1) = true
    · obtain ⟨w, w1, w2, w3, _⟩ := addVoice_ok hs hd (standAt t v) (stand_ok t v) o ho
      have hf : alive t v = true := ha
      rw [if_pos ha]
      simp only [w1, bind, Except.bind, w2, ih hv' _ w3, List.filter_cons, hf, if_true, List.map_cons,
        List.foldl_cons]
    · have hf : ¬ alive t v = true := ha
      rw [if_neg ha, ih hv' _ ho, List.filter_cons, if_neg hf]

/-- `a` is not NaN, not negative and not a negative zero, or it is NaN. -/
def NonNeg (a : Fl) : Prop := a = .nan ∨ a = .inf false ∨ ∃ q, 0 ≤ q ∧ a = .fin q

/-- Rounding of a number that is not negative. -/
theorem round_eq {x : ℚ} (h : 0 ≤ x) : Fl.round f32 false x =
    if f32.maxFin < f32.rnd x then .inf false else .fin (f32.rnd x) := by
  have h0 := Fmt.rnd_nonneg (f := f32) h
  have hM : 0 ≤ f32.maxFin := Fmt.maxFin_nonneg
  simp only [Fl.round]
  by_cases h1 : f32.rnd x = 0
  · rw [if_pos h1, h1, if_neg (not_lt.mpr hM)]; rfl
  · rw [if_neg h1]
    split
    · rfl
    · rw [if_neg (by linarith)]

theorem round_nonneg {x : ℚ} (h : 0 ≤ x) : NonNeg (Fl.round f32 false x) := by
  rw [round_eq h]
  split
  · exact .inr (.inl rfl)
  · exact .inr (.inr ⟨_, Fmt.rnd_nonneg h, rfl⟩)

theorem ofNat_nonneg (n : Nat) : NonNeg (Fl.ofNat f32 n) := round_nonneg (Nat.cast_nonneg n)

theorem sign_nonneg {q : ℚ} (h : 0 ≤ q) : (Fl.fin q).sign = false := by
  simp [Fl.sign, h]

theorem NonNeg.div {a b : Fl} (ha : NonNeg a) (hb : NonNeg b) : NonNeg (a /. b) := by
  rcases ha with rfl | rfl | ⟨q, hq, rfl⟩
  · exact .inl rfl
  · rcases hb with rfl | rfl | ⟨r, hr, rfl⟩
    · exact .inl rfl
    · exact .inl rfl
    · right; left; simp [Fl.div, sign_nonneg hr]
  · rcases hb with rfl | rfl | ⟨r, hr, rfl⟩
    · exact .inl rfl
    · right; right; exact ⟨0, le_refl _, by simp [Fl.div, sign_nonneg hq]⟩
    · simp only [Fl.div, sign_nonneg hr, sign_nonneg hq]
      split
      · split
        · exact .inl rfl
        · exact .inr (.inl rfl)
      · exact round_nonneg (div_nonneg hq hr)

theorem nonneg_of_pos {x : Fl} (h : Positive x) : NonNeg x := by
  cases x with
  | nan => exact .inl rfl
  | inf s =>
    cases s with
    | false => exact .inr (.inl rfl)
    | true => simp [Positive, Fl.lt] at h
  | nz => simp [Positive, Fl.lt, Fl.val] at h
  | fin q =>
    have h' : (0 : ℚ) < q := of_decide_eq_true h
    exact .inr (.inr ⟨q, h'.le, rfl⟩)

theorem dur_nonneg (s : Sample) (sr : Nat) {x : Fl} (h : Positive x) : NonNeg (voiceDur s sr x) :=
  ((ofNat_nonneg _).div (nonneg_of_pos h)).div ((ofNat_nonneg _).div (ofNat_nonneg _))

theorem round_le_one {x y : ℚ} (hx : 0 ≤ x) (hxy : x ≤ y) (h : Fl.le (Fl.round f32 false y) (.fin 1) = true) :
    Fl.le (Fl.round f32 false x) (.fin 1) = true := by
  have hm := Fmt.rnd_mono (f := f32) f32_p hxy
  have h0 := Fmt.rnd_nonneg (f := f32) hx
  have hM : (1 : ℚ) ≤ f32.maxFin := by rw [f32_maxFin]; norm_num
  have key : ∀ z : ℚ, 0 ≤ z → (Fl.le (Fl.round f32 false z) (.fin 1) = true ↔ f32.rnd z ≤ 1) := by
    intro z hz
    rw [round_eq hz]
    split
    · simp only [Fl.le, Fl.lt, Fl.beq, Bool.or_self, Bool.false_eq_true, false_iff, not_le]
      linarith
    · rw [Fl.le_fin rfl rfl]
      rfl
  rw [key x hx]
  rw [key y (hx.trans hxy)] at h
  linarith

theorem ofNat_cases (n : Nat) : Fl.ofNat f32 n = .inf false ∧ f32.maxFin < f32.rnd n ∨
    Fl.ofNat f32 n = .fin (f32.rnd n) ∧ f32.rnd n ≤ f32.maxFin := by
  rw [Fl.ofNat, round_eq (Nat.cast_nonneg n)]
  split
  · exact .inl ⟨rfl, by assumption⟩
  · exact .inr ⟨rfl, by linarith⟩

/-- A voice that is playing has been playing since it began. -/
theorem alive_mono {t u : Nat} {v : Voice} (hv : NonNeg v.2) (htu : t ≤ u) (h : alive u v = true) :
    alive t v = true := by
  simp only [alive, standAt] at h ⊢
  have hm : ((t - v.1 : Nat) : ℚ) ≤ ((u - v.1 : Nat) : ℚ) := by exact_mod_cast Nat.sub_le_sub_right htu _
  generalize t - v.1 = a at hm ⊢
  generalize u - v.1 = b at hm h
  have hrm := Fmt.rnd_mono (f := f32) f32_p hm
  have hn := Fmt.rnd_nonneg (f := f32) (Nat.cast_nonneg (α := ℚ) a)
  have hn' := Fmt.rnd_nonneg (f := f32) (Nat.cast_nonneg (α := ℚ) b)
  rcases hv with hv | hv | ⟨q, hq, hv⟩
  · rw [hv] at h
    rcases ofNat_cases b with ⟨hb, hb'⟩ | ⟨hb, hb'⟩ <;> simp [hb, Fl.div, Fl.le, Fl.lt, Fl.beq] at h
  · rw [hv] at h ⊢
    rcases ofNat_cases b with ⟨hb, hb'⟩ | ⟨hb, hb'⟩
    · simp [hb, Fl.div, Fl.le, Fl.lt, Fl.beq] at h
    · rcases ofNat_cases a with ⟨ha, ha'⟩ | ⟨ha, ha'⟩
      · linarith
      · rw [ha]
        simp [Fl.div, sign_nonneg hn, Fl.le, Fl.lt, Fl.beq, Fl.val]
  · rw [hv] at h ⊢
    rcases ofNat_cases b with ⟨hb, hb'⟩ | ⟨hb, hb'⟩
    · rw [hb] at h
      simp [Fl.div, sign_nonneg hq, Fl.le, Fl.lt, Fl.beq] at h
    · rcases ofNat_cases a with ⟨ha, ha'⟩ | ⟨ha, ha'⟩
      · linarith
      · rw [ha]
        rw [hb] at h
        simp only [Fl.div, sign_nonneg hq, sign_nonneg hn, sign_nonneg hn', Fl.isZero, Fl.val_fin] at h ⊢
        by_cases hq0 : q = 0
        · exfalso
          simp only [hq0, decide_true, if_true] at h
          split at h <;> simp [Fl.le, Fl.lt, Fl.beq] at h
        · simp only [hq0, decide_false, Bool.false_eq_true, if_false] at h ⊢
          exact round_le_one (div_nonneg hn hq) (div_le_div_of_nonneg_right hrm hq) h

/-! ### The stream of the player -/

/-- The voice begun by sample `u` of `xs`. -/
def trigAt (s : Sample) (sr : Nat) (xs : List Fl) (u : Nat) : Option Voice :=
  match xs[u]? with
  | none => none
  | some x => if Fl.lt (.fin 0) x then some (u, voiceDur s sr x) else none

/-- The voices begun before `t`. -/
def trigs (s : Sample) (sr : Nat) (xs : List Fl) (t : Nat) : List Voice :=
  (List.range t).filterMap (trigAt s sr xs)

theorem trigAt_spec {s : Sample} {sr : Nat} {xs : List Fl} {u : Nat} {v : Voice}
    (h : trigAt s sr xs u = some v) : v.1 = u ∧ NonNeg v.2 := by
  simp only [trigAt] at h
  split at h
  · cases h
  · split at h
    · next x _ hx =>
      cases h
      exact ⟨rfl, dur_nonneg s sr hx⟩
    · cases h

theorem trigs_spec {s : Sample} {sr : Nat} {xs : List Fl} {t : Nat} {v : Voice} (h : v ∈ trigs s sr xs t) :
    v.1 < t ∧ NonNeg v.2 := by
  obtain ⟨u, hu, huv⟩ := List.mem_filterMap.mp h
  obtain ⟨h1, h2⟩ := trigAt_spec huv
  exact ⟨by rw [h1]; exact List.mem_range.mp hu, h2⟩

/-- What the player puts out at `t`. -/
def outAt (s : Sample) (sr : Nat) (xs : List Fl) (t : Nat) : Fl × Fl :=
  (((trigs s sr xs (t + 1)).filter (alive t)).map (fun v => voiceOut s (standAt t v))).foldl addOut
    (.fin 0, .fin 0)

/-- The voices that are kept after `t` samples. -/
def kept (s : Sample) (sr : Nat) (xs : List Fl) (t : Nat) : List Voice :=
  (trigs s sr xs t).filter (alive (t - 1))

theorem sampler_run {s : Sample} (hs : Playable s) (hd : ∀ x, x ∈ s.data → x.Ok f32) (sr : Nat)
    (order : List Nat) (xs : List Fl) (n : Nat) (hn : n ≤ xs.length) :
    runM samplerStep ⟨[], s, 0, sr, order⟩ (xs.take n) =
      .ok (⟨kept s sr xs n, s, n, sr, order⟩, (List.range n).map (outAt s sr xs)) := by
  induction n with
  | zero => rfl
  | succ n ih =>
    have hn' : n < xs.length := hn
    rw [List.take_succ_eq_append_getElem hn', runM_append, ih (by omega)]
    have hstep : samplerStep ⟨kept s sr xs n, s, n, sr, order⟩ xs[n] =
        .ok (⟨kept s sr xs (n + 1), s, n + 1, sr, order⟩, outAt s sr xs n) := by
      have hvs : (if Fl.lt (.fin 0) xs[n] then kept s sr xs n ++ [(n, voiceDur s sr xs[n])]
          else kept s sr xs n) = kept s sr xs n ++ (trigAt s sr xs n).toList := by
        simp only [trigAt, List.getElem?_eq_getElem hn']
        split <;> simp
      have hfil : (kept s sr xs n ++ (trigAt s sr xs n).toList).filter (alive n) =
          (trigs s sr xs (n + 1)).filter (alive n) := by
        have ht : trigs s sr xs (n + 1) = trigs s sr xs n ++ (trigAt s sr xs n).toList := by
          simp only [trigs, List.range_succ, List.filterMap_append]
          congr 1
        rw [ht, List.filter_append, List.filter_append, kept, List.filter_filter]
        congr 1
        apply List.filter_congr
        intro v hv
        cases ha : alive n v with
        | false => simp
        | true =>
          rw [alive_mono (trigs_spec hv).2 (Nat.sub_le n 1) ha]
          rfl
      have hb : ∀ v, v ∈ kept s sr xs n ++ (trigAt s sr xs n).toList → v.1 ≤ n := by
        intro v hv
        rcases List.mem_append.mp hv with h | h
        · exact (trigs_spec (List.mem_filter.mp h).1).1.le
        · rw [Option.mem_toList] at h
          exact (trigAt_spec h).1.le
      simp only [samplerStep, hvs, playVoices_ok hs hd n _ hb (.fin 0, .fin 0) (fun _ => rfl), bind,
        Except.bind, hfil]
      rfl
    simp only [runM, hstep, List.range_succ, List.map_append, List.map_cons, List.map_nil]

/-- The player on blocks of any size. -/
theorem sampler_blocks (P : Plat) (N : Nat) (env : Env) (sym : Name) (s : Sample)
    (hsym : lookup env.samples sym = some s) (hs : Playable s) (hd : ∀ x, x ∈ s.data → x.Ok f32) (k : Nat)
    (xs : List Buf) (hN : Sized N xs) :
    ∃ outs, play P N env (.sp sym) [.index k] (monoFrom k xs) = .ok outs ∧
      channel 0 outs = some (((List.range xs.flatten.length).map (outAt s env.sr xs.flatten)).map Prod.fst) ∧
      channel 1 outs = some (((List.range xs.flatten.length).map (outAt s env.sr xs.flatten)).map Prod.snd) := by
  have hl : s.data.length ≠ 0 := by simpa using hs.1
  have hnew : Sampler.new s env.sr = .ok ⟨[], s, 0, env.sr, []⟩ := by
    simp [Sampler.new, hl, Nat.ne_of_gt hs.2.1]
  have hr := sampler_run hs hd env.sr [k] xs.flatten _ (le_refl _)
  rw [List.take_length] at hr
  obtain ⟨o, g1, g2, g3⟩ := blocks_stereo (procG P) (fun s : Sampler => .prim (.sampler s)) samplerStep
    (fun x => [(k, [x])]) (Shaped 2 N) xs
    (fun s x out _ hg => by
      obtain ⟨a, b, rfl, _, _⟩ := hg.two
      simp only [procG, procPrim, procSampler, chan, List.getElem?_cons_zero, bind, Except.bind]
      cases runM samplerStep s x <;> rfl)
    (fun s x r hx hr => by
      refine ⟨rfl, fun b hb => ?_⟩
      have := runM_length hr
      have hxN := hN x hx
      simp only [List.mem_cons, List.not_mem_nil, or_false] at hb
      rcases hb with rfl | rfl <;> simp [this, hxN])
    _ _ (shaped_fresh N 2 (GNode.prim (P := P) (.sampler ⟨[], s, 0, env.sr, []⟩))) _ hr
  refine ⟨o, play_ok (d := fresh N 2 (.prim (.sampler ⟨[], s, 0, env.sr, []⟩))) (refs := []) ?_ rfl g1, g2, g3⟩
  simp [makeNode, makePrim, hsym, hnew, liftP, bind, Except.bind, makeRefs]
  rfl

/-! ### Superposition -/

/-- A number that sums of samples can be: representable and not a negative zero. -/
def Plain (a : Fl) : Prop := a.Ok f32 ∧ a ≠ .nz

theorem plain_add {a : Fl} (ha : Plain a) (b : Fl) : Plain (a +. b) := by
  refine ⟨Fl.add_ok _ _, ?_⟩
  have hr : ∀ x, Fl.round f32 false x ≠ .nz := by
    intro x
    simp only [Fl.round]
    split
    · simp
    · split
      · simp
      · split <;> simp
  cases a with
  | nz => exact absurd rfl ha.2
  | nan => simp [Fl.add]
  | inf s =>
    cases b <;> simp [Fl.add]
    split <;> simp
  | fin q => cases b <;> simp only [Fl.add, ne_eq, reduceCtorEq, not_false_eq_true] <;> exact hr _

theorem round_fin {q : ℚ} (h : f32.Fin q) : Fl.round f32 false q = .fin q := by
  have := Fmt.rnd_rep f32_p h.1
  have hM := abs_le.mp h.2
  simp only [Fl.round, this]
  split
  · next h0 => rw [h0]; rfl
  · rw [if_neg (by linarith), if_neg (by linarith)]

theorem plain_add_zero {a : Fl} (ha : Plain a) : a +. .fin 0 = a := by
  cases a with
  | nz => exact absurd rfl ha.2
  | nan => rfl
  | inf s => rfl
  | fin q =>
    show Fl.round f32 false (q + 0) = _
    rw [add_zero]
    exact round_fin ha.1

theorem plain_add_add {a v : Fl} (ha : Plain a) (hv : v.Ok f32) : a +. (.fin 0 +. v) = a +. v := by
  cases v with
  | nan => rfl
  | inf s => rfl
  | nz =>
    have h1 : (Fl.fin 0 +. .nz) = .fin 0 := by
      show Fl.round f32 false (0 + 0) = _
      rw [add_zero]
      exact round_fin ⟨Fmt.rep_zero, by simp [Fmt.maxFin_nonneg]⟩
    rw [h1]
    cases a with
    | nz => exact absurd rfl ha.2
    | nan => rfl
    | inf s => rfl
    | fin q => rfl
  | fin q =>
    have h1 : (Fl.fin 0 +. .fin q) = .fin q := by
      show Fl.round f32 false (0 + q) = _
      rw [zero_add]
      exact round_fin hv
    rw [h1]

/-- What the trigger at `u` adds at `t`. -/
def part (s : Sample) (sr : Nat) (xs : List Fl) (t u : Nat) : Option (Fl × Fl) :=
  match trigAt s sr xs u with
  | none => none
  | some v => if alive t v then voiceOut s (standAt t v) else none

theorem fold_parts (s : Sample) (sr : Nat) (xs : List Fl) (t : Nat) (us : List Nat) (o : Fl × Fl) :
    (((us.filterMap (trigAt s sr xs)).filter (alive t)).map (fun v => voiceOut s (standAt t v))).foldl addOut o =
      us.foldl (fun o u => addOut o (part s sr xs t u)) o := by
  induction us generalizing o with
  | nil => rfl
  | cons u us ih =>
    rw [List.foldl_cons, ← ih]
    simp only [part]
    cases h : trigAt s sr xs u with
    | none => simp [List.filterMap_cons, h, addOut]
    | some v =>
      simp only [List.filterMap_cons, h, List.filter_cons]
      split <;> simp [addOut]

theorem onlyAt_getElem (u : Nat) (xs : List Fl) (i : Nat) :
    (onlyAt u xs)[i]? = (xs[i]?).map (fun x => if i = u then x else .fin 0) := by
  simp [onlyAt, List.getElem?_mapIdx]

theorem part_only (s : Sample) (sr : Nat) (xs : List Fl) (t u w : Nat) :
    part s sr (onlyAt u xs) t w = if w = u then part s sr xs t u else none := by
  have : trigAt s sr (onlyAt u xs) w = if w = u then trigAt s sr xs u else none := by
    simp only [trigAt, onlyAt_getElem]
    by_cases h : w = u
    · subst h; simp
    · simp only [h, if_false]
      cases xs[w]? <;> simp [Fl.lt, Fl.val]
  simp only [part, this]
  by_cases h : w = u <;> simp [h]

theorem fold_only (s : Sample) (sr : Nat) (xs : List Fl) (t u : Nat) (us : List Nat) (hu : us.Nodup)
    (o : Fl × Fl) :
    us.foldl (fun o w => addOut o (part s sr (onlyAt u xs) t w)) o =
      if u ∈ us then addOut o (part s sr xs t u) else o := by
  induction us generalizing o with
  | nil => rfl
  | cons w us ih =>
    rw [List.nodup_cons] at hu
    rw [List.foldl_cons, ih hu.2, part_only]
    by_cases hw : w = u
    · subst hw
      simp [hu.1]
    · simp [hw, addOut, Ne.symm hw]

theorem outAt_only (s : Sample) (sr : Nat) (xs : List Fl) (t u : Nat) (hu : u ≤ t) :
    outAt s sr (onlyAt u xs) t = addOut (.fin 0, .fin 0) (part s sr xs t u) := by
  rw [outAt, trigs, fold_parts, fold_only _ _ _ _ _ _ List.nodup_range,
    if_pos (List.mem_range.mpr (by omega))]

theorem part_ok {s : Sample} (hs : Playable s) (hd : ∀ x, x ∈ s.data → x.Ok f32) (sr : Nat) (xs : List Fl)
    (t u : Nat) : ∀ p, p ∈ part s sr xs t u → p.1.Ok f32 ∧ p.2.Ok f32 := by
  intro p hp
  simp only [part] at hp
  split at hp
  · cases hp
  · split at hp
    · exact (addVoice_ok hs hd _ (stand_ok _ _) (.fin 0, .fin 0) (fun _ => rfl)).choose_spec.2.2.2 p hp
    · cases hp

/-- The addition of pairs, side by side. -/
def addPair (a b : Fl × Fl) : Fl × Fl := (a.1 +. b.1, a.2 +. b.2)

theorem addPair_only {s : Sample} (hs : Playable s) (hd : ∀ x, x ∈ s.data → x.Ok f32) (sr : Nat) (xs : List Fl)
    (t u : Nat) (hu : u ≤ t) (o : Fl × Fl) (h1 : Plain o.1) (h2 : Plain o.2) :
    addPair o (outAt s sr (onlyAt u xs) t) = addOut o (part s sr xs t u) ∧
      Plain (addOut o (part s sr xs t u)).1 ∧ Plain (addOut o (part s sr xs t u)).2 := by
  rw [outAt_only s sr xs t u hu]
  have := part_ok hs hd sr xs t u
  cases h : part s sr xs t u with
  | none => exact ⟨by simp [addPair, addOut, plain_add_zero h1, plain_add_zero h2], h1, h2⟩
  | some v =>
    obtain ⟨v1, v2⟩ := this v (by rw [h]; rfl)
    exact ⟨by simp [addPair, addOut, plain_add_add h1 v1, plain_add_add h2 v2], plain_add h1 _, plain_add h2 _⟩

theorem outAt_sum {s : Sample} (hs : Playable s) (hd : ∀ x, x ∈ s.data → x.Ok f32) (sr : Nat) (xs : List Fl)
    (t : Nat) :
    outAt s sr xs t =
      (List.range (t + 1)).foldl (fun o u => addPair o (outAt s sr (onlyAt u xs) t)) (.fin 0, .fin 0) := by
  rw [outAt, trigs, fold_parts]
  have key : ∀ (us : List Nat) (o : Fl × Fl), (∀ u, u ∈ us → u ≤ t) → Plain o.1 → Plain o.2 →
      us.foldl (fun o u => addOut o (part s sr xs t u)) o =
        us.foldl (fun o u => addPair o (outAt s sr (onlyAt u xs) t)) o := by
    intro us
    induction us with
    | nil => intros; rfl
    | cons u us ih =>
      intro o hu h1 h2
      obtain ⟨g1, g2, g3⟩ := addPair_only hs hd sr xs t u (hu u (by simp)) o h1 h2
      rw [List.foldl_cons, List.foldl_cons, g1]
      exact ih _ (fun w hw => hu w (by simp [hw])) g2 g3
  exact key _ _ (fun u hu => by have := List.mem_range.mp hu; omega) ⟨Fl.zero_ok, by simp⟩ ⟨Fl.zero_ok, by simp⟩

/-- C44. The sounds of several triggers add up: there is one stream function `F` that describes the player
for every block size, and what it gives for a stream of triggers is the sum of what it gives for each
trigger alone. -/
theorem c44_superposition (P : Plat) (env : Env) (sym : Name) (s : Sample)
    (hsym : lookup env.samples sym = some s) (hs : Playable s) (hd : ∀ x, x ∈ s.data → x.Ok f32) (k : Nat) :
    ∃ F : List Fl → List (Fl × Fl),
      (∀ N (xs : List Buf), Sized N xs → ∃ outs, play P N env (.sp sym) [.index k] (monoFrom k xs) = .ok outs ∧
        channel 0 outs = some ((F xs.flatten).map Prod.fst) ∧
        channel 1 outs = some ((F xs.flatten).map Prod.snd)) ∧
      ∀ xs, (F xs).length = xs.length ∧ ∀ t, t < xs.length →
        (F xs)[t]? = some ((List.range (t + 1)).foldl
          (fun o u => (o.1 +. ((F (onlyAt u xs)).getD t (.nan, .nan)).1,
            o.2 +. ((F (onlyAt u xs)).getD t (.nan, .nan)).2)) (.fin 0, .fin 0)) := by
  refine ⟨fun xs => (List.range xs.length).map (outAt s env.sr xs), fun N xs hN =>
    sampler_blocks P N env sym s hsym hs hd k xs hN, fun xs => ⟨by simp, fun t ht => ?_⟩⟩
  rw [List.getElem?_map, List.getElem?_range ht, Option.map_some, outAt_sum hs hd]
  congr 1
  have : ∀ u, (List.map (outAt s env.sr (onlyAt u xs)) (List.range (onlyAt u xs).length)).getD t (.nan, .nan) =
      outAt s env.sr (onlyAt u xs) t := by
    intro u
    have : (onlyAt u xs).length = xs.length := by simp [onlyAt]
    simp [List.getD, this, ht]
  simp only [this]
  rfl

/-- C27 for `sp`, up to stereo samples of one frame (see `c27_short_stereo_counterexample`) and empty ones
(`c27_empty_counterexample`): whatever the input, playing the sample does not fail. Every read of the
model is checked, so this says that only existing values are read. -/
theorem c27_sampler_partial (P : Plat) (N : Nat) (env : Env) (sym : Name) (s : Sample)
    (hsym : lookup env.samples sym = some s) (hs : Playable s) (hd : ∀ x, x ∈ s.data → x.Ok f32) (k : Nat)
    (xs : List Buf) (hN : Sized N xs) :
    ∃ outs, play P N env (.sp sym) [.index k] (monoFrom k xs) = .ok outs := by
  obtain ⟨o, h, _⟩ := sampler_blocks P N env sym s hsym hs hd k xs hN
  exact ⟨o, h⟩

/-- A stereo sample with two frames can be played. -/
example : Playable ⟨[.fin 0, .fin (1 / 2), .fin 1, .nz], 2, 48000⟩ ∧
    ∀ x, x ∈ [Fl.fin 0, .fin (1 / 2), .fin 1, .nz] → x.Ok f32 := by
  refine ⟨⟨by simp, by simp, by simp, by simp⟩, ?_⟩
  have h1 : f32.Fin (1 / 2) := ⟨rephalf, by rw [f32_maxFin]; norm_num⟩
  have h2 : f32.Fin 1 := ⟨rep1, by rw [f32_maxFin]; norm_num⟩
  simp only [List.mem_cons, List.not_mem_nil, or_false]
  rintro x (rfl | rfl | rfl | rfl)
  · exact Fl.zero_ok
  · exact h1
  · exact h2
  · trivial

/-- C27 fails for a stereo sample with one frame: played at half speed it panics (`len - 2`). -/
theorem c27_short_stereo_counterexample (P : Plat) :
    play P 2 ⟨[("a".toList, ⟨[.fin 1, .fin 1], 2, 44100⟩)], 44100, .fin 120, 0⟩ (.sp "a".toList) [.index 0]
      (monoFrom 0 [[.fin (1 / 2), .fin 0]]) = .error (.panic .underflow) := by
  kernel_rfl

/-- C27 fails for samples without data or without channels: the node cannot be built. -/
theorem c27_empty_counterexample (P : Plat) (N : Nat) (msgs : List (Msg Fl)) (ins : List Ins) :
    play P N ⟨[("a".toList, ⟨[], 1, 44100⟩)], 44100, .fin 120, 0⟩ (.sp "a".toList) msgs ins =
      .error (.panic .underflow) ∧
    play P N ⟨[("a".toList, ⟨[.fin 1], 0, 44100⟩)], 44100, .fin 120, 0⟩ (.sp "a".toList) msgs ins =
      .error (.panic .divByZero) := by
  constructor <;> rfl

/-! ### Playback at the original speed -/

/-- C45 fails: at the original speed (trigger 1, equal sample rates) the values of the sample between the
first and the last one are not played back; here the second output is 1/4 in place of 1. -/
theorem c45_original_speed_counterexample (P : Plat) :
    ∃ outs, play P 4 ⟨[("a".toList, ⟨[.fin 0, .fin 1, .fin 0, .fin 0], 1, 44100⟩)], 44100, .fin 120, 0⟩
      (.sp "a".toList) [.index 0] (monoFrom 0 [[.fin 1, .fin 0, .fin 0, .fin 0]]) = .ok outs ∧
      channel 0 outs ≠ some [.fin 0, .fin 1, .fin 0, .fin 0] ∧
      channel 0 outs = some [.fin 0, .fin (1 / 4), .fin (1 / 2), .fin 0] := by
  refine ⟨[[[.fin 0, .fin (1 / 4), .fin (1 / 2), .fin 0], [.fin 0, .fin (1 / 4), .fin (1 / 2), .fin 0]]], ?_, ?_, ?_⟩
  · kernel_rfl
  · decide +kernel
  · decide +kernel

/-- A lone trigger of amplitude 1 at the start, at the original speed. -/
theorem outAt_first {s : Sample} {sr : Nat} (hsr : s.sr = sr) (h1 : 1 ≤ sr) (h2 : sr ≤ 2 ^ 24)
    (hl1 : 1 ≤ s.data.length / s.channels) (hl2 : s.data.length / s.channels ≤ 2 ^ 24) {xs : List Fl}
    (hx : xs[0]? = some (.fin 1)) (hx' : ∀ u x, 0 < u → xs[u]? = some x → ¬ Positive x) (t : Nat) :
    outAt s sr xs t =
      if alive t (0, .fin ((s.data.length / s.channels : Nat) : ℚ)) then
        addOut (.fin 0, .fin 0) (voiceOut s (standAt t (0, .fin ((s.data.length / s.channels : Nat) : ℚ))))
      else (.fin 0, .fin 0) := by
  obtain ⟨a1, a2⟩ := f32_ofNat hl2
  have hdur : voiceDur s sr (.fin 1) = .fin ((s.data.length / s.channels : Nat) : ℚ) := by
    have e : ∀ n : Nat, n ≤ 2 ^ 24 → Fl.ofNat f32 n = .fin n := by
      intro n hn
      rcases ofNat_cases n with ⟨h, _⟩ | ⟨h, _⟩
      · have := (f32_ofNat hn).1
        rw [h] at this
        simp [Fl.isFinite] at this
      · rw [h, Fmt.rnd_rep f32_p]
        have := f32_rep_int (n := (n : Int)) (by rw [abs_of_nonneg (by positivity)]; exact_mod_cast hn)
        exact_mod_cast this
    have d : ∀ q r : ℚ, 0 ≤ q → 0 < r → f32.Fin (q / r) → (Fl.fin q /. .fin r) = .fin (q / r) := by
      intro q r hq hr h
      simp only [Fl.div, Fl.isZero, hr.ne', decide_false, Bool.false_eq_true, if_false, sign_nonneg hq,
        sign_nonneg hr.le, Fl.val_fin, Bool.xor_self]
      exact round_fin h
    have hfin : ∀ n : Nat, n ≤ 2 ^ 24 → f32.Fin n := by
      intro n hn
      have h1 := f32_rep_int (n := (n : Int)) (by rw [abs_of_nonneg (by positivity)]; exact_mod_cast hn)
      have h2 : (n : ℚ) ≤ 2 ^ 24 := by exact_mod_cast hn
      exact ⟨by exact_mod_cast h1, by
        rw [abs_of_nonneg (Nat.cast_nonneg n), f32_maxFin]
        exact h2.trans (by norm_num)⟩
    have hsr0 : (0 : ℚ) < sr := by exact_mod_cast h1
    rw [voiceDur, hsr, e _ hl2, e _ h2, d _ _ hsr0.le hsr0 (by rw [div_self hsr0.ne']; simpa using hfin 1 (by norm_num)),
      div_self hsr0.ne', d _ _ (Nat.cast_nonneg _) one_pos (by rw [div_one]; exact hfin _ hl2), div_one,
      d _ _ (Nat.cast_nonneg _) one_pos (by rw [div_one]; exact hfin _ hl2), div_one]
  have htr : trigs s sr xs (t + 1) = [(0, .fin ((s.data.length / s.channels : Nat) : ℚ))] := by
    rw [trigs, List.range_succ_eq_map, List.filterMap_cons]
    have : trigAt s sr xs 0 = some (0, .fin ((s.data.length / s.channels : Nat) : ℚ)) := by
      simp only [trigAt, hx, hdur]
      rw [if_pos (by decide +kernel)]
    rw [this]
    simp only [List.cons.injEq, true_and]
    rw [List.filterMap_eq_nil_iff]
    intro u hu
    obtain ⟨w, _, rfl⟩ := List.mem_map.mp hu
    simp only [trigAt]
    split
    · rfl
    · next x hxx => exact if_neg (hx' _ x (by simp) hxx)
  rw [outAt, htr, List.filter_cons]
  split <;> rfl

/-- C45 up to the values in between: at the original speed playback starts with the first value of the
sample, ends with the last one after as many samples as the sample has values, and is silent
afterwards. -/
theorem c45_original_speed_partial (P : Plat) (N : Nat) (env : Env) (sym : Name) (s : Sample) (a b : Fl)
    (rest : List Fl) (hsym : lookup env.samples sym = some s) (hmono : s.channels = 1)
    (hdata : s.data = a :: rest ++ [b]) (hlen : s.data.length ≤ 2 ^ 22)
    (hd : ∀ x, x ∈ s.data → x.Ok f32 ∧ x.isFinite = true) (hsr : s.sr = env.sr)
    (h1 : 1 ≤ env.sr) (h2 : env.sr ≤ 2 ^ 24) (k : Nat) (xs : List Buf) (hN : Sized N xs)
    (hx : xs.flatten[0]? = some (.fin 1)) (hx' : ∀ u x, 0 < u → xs.flatten[u]? = some x → ¬ Positive x) :
    ∃ outs ys, play P N env (.sp sym) [.index k] (monoFrom k xs) = .ok outs ∧ channel 0 outs = some ys ∧
      channel 1 outs = some ys ∧ ys.length = xs.flatten.length ∧
      ∀ t, t < ys.length → ∃ y, ys[t]? = some y ∧ (t = 0 → y.isFinite = true ∧ y.val = a.val) ∧
        (t = s.data.length → y.isFinite = true ∧ y.val = b.val) ∧ (s.data.length < t → y = .fin 0) := by
  have hlen1 : 2 ≤ s.data.length := by rw [hdata]; simp
  have hp : Playable s := ⟨by rw [hdata]; simp, by omega, by omega, by omega⟩
  have hd' := fun x hx => (hd x hx).1
  obtain ⟨o, g1, g2, g3⟩ := sampler_blocks P N env sym s hsym hp hd' k xs hN
  have hside : ∀ t, (outAt s env.sr xs.flatten t).1 = (outAt s env.sr xs.flatten t).2 := by
    intro t
    rw [outAt]
    have key : ∀ (l : List (Option (Fl × Fl))) (o : Fl × Fl), o.1 = o.2 → (∀ v, v ∈ l → ∀ p, p ∈ v → p.1 = p.2) →
        (l.foldl addOut o).1 = (l.foldl addOut o).2 := by
      intro l
      induction l with
      | nil => intro o ho _; exact ho
      | cons v l ih =>
        intro o ho hl
        rw [List.foldl_cons]
        apply ih
        · cases v with
          | none => exact ho
          | some p => simp only [addOut, ho, hl (some p) (by simp) p rfl]
        · intro w hw
          exact hl w (by simp [hw])
    refine key _ _ rfl ?_
    intro v hv
    obtain ⟨w, _, rfl⟩ := List.mem_map.mp hv
    intro p hp
    simp only [voiceOut, hmono, if_true] at hp
    cases h : (monoRead s (standAt t w)).toOption with
    | none => rw [h] at hp; cases hp
    | some q => rw [h] at hp; cases hp; rfl
  refine ⟨o, _, g1, g2, ?_, by simp, ?_⟩
  · rw [g3]
    simp only [List.map_map]
    congr 1
    apply List.map_congr_left
    intro t _
    exact (hside t).symm
  intro t ht
  simp only [List.length_map, List.length_range] at ht
  refine ⟨(outAt s env.sr xs.flatten t).1, by
    rw [List.getElem?_map, List.getElem?_map, List.getElem?_range ht]; rfl, ?_⟩
  have hn : s.data.length / s.channels = s.data.length := by rw [hmono, Nat.div_one]
  rw [outAt_first hsr h1 h2 (by omega) (by omega) hx hx', hn]
  have hL0 : (0 : ℚ) < (s.data.length : Nat) := by exact_mod_cast (by omega : 0 < s.data.length)
  have hval : ∀ c : Fl, c.Ok f32 → c.isFinite = true → (Fl.fin 0 +. c).isFinite = true ∧ (Fl.fin 0 +. c).val = c.val := by
    intro c hc hf
    cases c with
    | nan => simp [Fl.isFinite] at hf
    | inf s => simp [Fl.isFinite] at hf
    | nz =>
      have : (Fl.fin 0 +. .nz) = .fin 0 := by decide +kernel
      rw [this]; exact ⟨rfl, rfl⟩
    | fin q =>
      have : (Fl.fin 0 +. .fin q) = .fin q := by
        show Fl.round f32 false (0 + q) = _
        rw [zero_add]; exact round_fin hc
      rw [this]; exact ⟨rfl, rfl⟩
  have hda := hd a (by rw [hdata]; simp)
  have hdb := hd b (by rw [hdata]; simp)
  have hst : ∀ n : Nat, Fl.ofNat f32 n = .fin (f32.rnd n) →
      standAt n (0, .fin ((s.data.length : Nat) : ℚ)) = Fl.round f32 false (f32.rnd n / s.data.length) := by
    intro n hn
    simp only [standAt, Nat.sub_zero, hn, Fl.div, Fl.isZero, hL0.ne', decide_false, Bool.false_eq_true, if_false,
      sign_nonneg (Fmt.rnd_nonneg (f := f32) (Nat.cast_nonneg (α := ℚ) n)), sign_nonneg hL0.le, Fl.val_fin,
      Bool.xor_self]
  refine ⟨?_, ?_, ?_⟩
  · rintro rfl
    have h0 : standAt 0 (0, .fin ((s.data.length : Nat) : ℚ)) = .fin 0 := by
      rw [hst 0 (by decide +kernel)]
      simp only [Nat.cast_zero, Fmt.rnd_zero, zero_div]
      decide +kernel
    have hr : monoRead s (.fin 0) = .ok a := by
      simp only [monoRead]
      rw [if_pos (by decide +kernel)]
      simp [Sample.at, hdata]
    have ha : alive 0 (0, .fin ((s.data.length : Nat) : ℚ)) = true := by
      rw [alive, h0]; decide +kernel
    rw [if_pos ha, h0, voiceOut, if_pos hmono, hr]
    exact hval a hda.1 hda.2
  · rintro rfl
    have hrn : f32.rnd (s.data.length : ℚ) = s.data.length := by
      have := f32_rep_int (n := (s.data.length : Int)) (by
        rw [abs_of_nonneg (by positivity)]; exact_mod_cast (by omega : s.data.length ≤ 2 ^ 24))
      exact Fmt.rnd_rep f32_p (by exact_mod_cast this)
    have hof : Fl.ofNat f32 s.data.length = .fin (f32.rnd s.data.length) := by
      rcases ofNat_cases s.data.length with ⟨h, _⟩ | ⟨h, _⟩
      · have := (f32_ofNat (n := s.data.length) (by omega)).1
        rw [h] at this
        simp [Fl.isFinite] at this
      · exact h
    have h0 : standAt s.data.length (0, .fin ((s.data.length : Nat) : ℚ)) = .fin 1 := by
      rw [hst _ hof, hrn, div_self hL0.ne']
      decide +kernel
    have hr : monoRead s (.fin 1) = .ok b := by
      simp only [monoRead]
      rw [if_neg (by decide +kernel), if_pos (by decide +kernel)]
      have hsub : usizeSub s.data.length 1 = .ok (s.data.length - 1) := if_pos (by omega)
      simp only [hsub, bind, Except.bind, Sample.at]
      rw [hdata]
      simp
    have ha : alive s.data.length (0, .fin ((s.data.length : Nat) : ℚ)) = true := by
      rw [alive, h0]; decide +kernel
    rw [if_pos ha, h0, voiceOut, if_pos hmono, hr]
    exact hval b hdb.1 hdb.2
  · intro hlt
    have hq : ((s.data.length + 1 : Nat) : ℚ) ≤ t := by exact_mod_cast hlt
    have hrn : ((s.data.length + 1 : Nat) : ℚ) ≤ f32.rnd t := by
      have := f32_rep_int (n := (s.data.length + 1 : Nat)) (by
        rw [abs_of_nonneg (by positivity)]; exact_mod_cast (by omega : s.data.length + 1 ≤ 2 ^ 24))
      exact Fmt.le_rnd f32_p (by exact_mod_cast this) hq
    have hna : ¬ alive t (0, .fin ((s.data.length : Nat) : ℚ)) = true := by
      rcases ofNat_cases t with ⟨h, _⟩ | ⟨h, _⟩
      · simp [alive, standAt, h, Fl.div, sign_nonneg hL0.le, Fl.le, Fl.lt, Fl.beq]
      · rw [alive, hst t h]
        have hge : 1 + 1 / 2 ^ 22 ≤ f32.rnd t / s.data.length := by
          rw [le_div_iff₀ hL0]
          have : (s.data.length : ℚ) ≤ 2 ^ 22 := by exact_mod_cast hlen
          push_cast at hrn
          linarith
        have hr1 : (1 : ℚ) + 1 / 2 ^ 22 ≤ f32.rnd (f32.rnd t / s.data.length) := by
          refine Fmt.le_rnd f32_p ⟨2 ^ 22 + 1, -22, by norm_num [f32], by norm_num [f32], ?_⟩ hge
          rw [pow2_eq]; norm_num
        rw [round_eq (by linarith [show (0:ℚ) ≤ 1 + 1 / 2 ^ 22 by norm_num])]
        split
        · simp [Fl.le, Fl.lt, Fl.beq]
        · rw [Fl.le_fin rfl rfl, Fl.val_fin, Fl.val_fin]
          have : (0 : ℚ) < 1 / 2 ^ 22 := by norm_num
          linarith
    rw [if_neg hna]

/-- A trigger followed by silence. -/
example : ([[.fin 1, .fin 0], [.fin (-1), .nan]] : List Buf).flatten[0]? = some (.fin 1) ∧
    ∀ u x, 0 < u → ([[.fin 1, .fin 0], [.fin (-1), .nan]] : List Buf).flatten[u]? = some x → ¬ Positive x := by
  refine ⟨rfl, ?_⟩
  intro u x hu hx
  match u, hu with
  | 1, _ => cases hx; simp [Positive, Fl.lt, Fl.val]
  | 2, _ => cases hx; norm_num [Positive, Fl.lt, Fl.val]
  | 3, _ => cases hx; simp [Positive, Fl.lt]
  | n + 4, _ => simp at hx

/-! ### Patterns of samples -/

theorem addVoice_total {s : Sample} (hs : Playable s) (hd : ∀ x, x ∈ s.data → x.Ok f32) (pos : Fl)
    (hp : pos.Ok f32) (o : Fl × Fl) : ∃ w, addVoice s pos o = .ok w := by
  by_cases h1 : s.channels = 1
  · obtain ⟨v, v1, _⟩ := monoRead_ok hs h1 pos hp hd
    exact ⟨some (o.1 +. v, o.1 +. v), by simp [addVoice, h1, v1, bind, Except.bind]⟩
  · by_cases h2 : s.channels = 2
    · obtain ⟨v, v1, _⟩ := stereoRead_ok hs h2 pos hp hd
      cases v with
      | none => exact ⟨some o, by simp [addVoice, h2, v1, bind, Except.bind]⟩
      | some v => exact ⟨some (o.1 +. v.1, o.2 +. v.2), by simp [addVoice, h2, v1, bind, Except.bind]⟩
    · exact ⟨none, by simp [addVoice, h1, h2]⟩

/-- A sample that can be played, with f32 values. -/
def Fine (s : Sample) : Prop := Playable s ∧ ∀ x, x ∈ s.data → x.Ok f32

theorem psPlay_ok {t : Nat} (vs : List (Sample × Voice)) (hv : ∀ v, v ∈ vs → Fine v.1 ∧ v.2.1 ≤ t)
    (o : Fl × Fl) : ∃ r, psPlay t vs o = .ok r ∧ ∀ v, v ∈ r.2.1 → v ∈ vs := by
  induction vs generalizing o with
  | nil => exact ⟨_, rfl, by simp⟩
  | cons v vs ih =>
    have hv' := fun w hw => hv w (List.mem_cons_of_mem _ hw)
    obtain ⟨hf, hb⟩ := hv v (by simp)
    simp only [psPlay, voicePos_ok hb]
    by_cases ha : Fl.le (standAt t v.2) (.fin 1) = true
    · rw [if_pos ha]
      obtain ⟨w, hw⟩ := addVoice_total hf.1 hf.2 (standAt t v.2) (stand_ok _ _) o
      rw [hw]
      cases w with
      | none => exact ⟨_, rfl, fun w hw => hw⟩
      | some o' =>
        obtain ⟨r, r1, r2⟩ := ih hv' o'
        exact ⟨(r.1, v :: r.2.1, r.2.2), by simp only [r1, bind, Except.bind], by
          intro w hw
          rcases List.mem_cons.mp hw with rfl | hw
          · simp
          · exact List.mem_cons_of_mem _ (r2 w hw)⟩
    · rw [if_neg ha]
      obtain ⟨r, r1, r2⟩ := ih hv' o
      refine ⟨(r.1, if r.1 then v :: r.2.1 else r.2.1, r.2.2), by simp only [r1, bind, Except.bind], ?_⟩
      intro w hw
      simp only at hw
      split at hw
      · rcases List.mem_cons.mp hw with rfl | hw
        · simp
        · exact List.mem_cons_of_mem _ (r2 w hw)
      · exact List.mem_cons_of_mem _ (r2 w hw)

/-- The length of the pattern in samples. -/
def psBar (p : PSampler) : Nat := (p.cycleDur *. p.period *. Fl.ofNat f32 p.sr).toUsize

theorem psTrigger_ok {p : PSampler} (hb : psBar p ≠ 0) (t : Nat) (es : List (Sample × Fl))
    (he : ∀ e, e ∈ es → Fine e.1) :
    ∃ r, psTrigger p t es = .ok r ∧ ∀ v, v ∈ r → Fine v.1 ∧ v.2.1 = t := by
  induction es with
  | nil => exact ⟨[], rfl, by simp⟩
  | cons e es ih =>
    obtain ⟨r, r1, r2⟩ := ih (fun w hw => he w (by simp [hw]))
    have hf := he e (by simp)
    have hb' : ¬ (p.cycleDur *. p.period *. Fl.ofNat f32 p.sr).toUsize = 0 := hb
    have hc : ¬ e.1.channels = 0 := by have := hf.1.2.1; omega
    simp only [psTrigger]
    rw [if_neg hb']
    by_cases hm : t % (p.cycleDur *. p.period *. Fl.ofNat f32 p.sr).toUsize =
        (e.2 *. p.cycleDur *. Fl.ofNat f32 p.sr).toUsize
    · rw [if_pos hm, if_neg hc]
      refine ⟨(e.1, (t, voiceDur e.1 p.sr (.fin 1))) :: r, by simp only [r1, bind, Except.bind], ?_⟩
      intro v hv
      rcases List.mem_cons.mp hv with rfl | hv
      · exact ⟨hf, rfl⟩
      · exact r2 v hv
    · rw [if_neg hm]
      exact ⟨r, r1, r2⟩

/-- All samples of the player are fine and its voices have begun. -/
def PsInv (bar : Nat) (p : PSampler) : Prop :=
  psBar p = bar ∧ (∀ e, e ∈ p.pattern → Fine e.1) ∧ ∀ v, v ∈ p.voices → Fine v.1 ∧ v.2.1 ≤ p.step

theorem psRun_ok {bar : Nat} (hb : bar ≠ 0) (n : Nat) (p : PSampler) (hp : PsInv bar p) :
    ∃ r, psRun n p = .ok r ∧ PsInv bar r.1 ∧ r.2.length = n := by
  induction n generalizing p with
  | zero => exact ⟨_, rfl, hp, rfl⟩
  | succ n ih =>
    obtain ⟨new, n1, n2⟩ := psTrigger_ok (p := p) (by rw [hp.1]; exact hb) p.step p.pattern hp.2.1
    have hv : ∀ v, v ∈ p.voices ++ new → Fine v.1 ∧ v.2.1 ≤ p.step := by
      intro v hv
      rcases List.mem_append.mp hv with h | h
      · exact hp.2.2 v h
      · exact ⟨(n2 v h).1, (n2 v h).2.le⟩
    obtain ⟨r, r1, r2⟩ := psPlay_ok (p.voices ++ new) hv (.fin 0, .fin 0)
    obtain ⟨b, rv, o⟩ := r
    simp only [psRun, n1, r1, bind, Except.bind]
    cases b with
    | true =>
      exact ⟨({ p with voices := rv }, o :: List.replicate n (.fin 0, .fin 0)), rfl,
        ⟨hp.1, hp.2.1, fun v hvv => hv v (r2 v hvv)⟩, by simp⟩
    | false =>
      obtain ⟨q, q1, q2, q3⟩ := ih { p with voices := rv, step := p.step + 1 }
        ⟨hp.1, hp.2.1, fun v hvv => ⟨(hv v (r2 v hvv)).1, by have := (hv v (r2 v hvv)).2; simp only; omega⟩⟩
      simp only [Bool.false_eq_true, if_false, q1]
      exact ⟨(q.1, o :: q.2), rfl, q2, by simp [q3]⟩

theorem psampler_blocks_ok (P : Plat) (N bar : Nat) (hb : bar ≠ 0) (ins : List Ins) (p : PSampler)
    (hp : PsInv bar p) (out : List Buf) (ho : Shaped 2 N out) :
    ∃ outs, runBlocks (procG P) (.prim (.psampler p)) out ins = .ok outs := by
  induction ins generalizing p out with
  | nil => exact ⟨_, rfl⟩
  | cons i ins ih =>
    obtain ⟨a, b, rfl, ha, _⟩ := ho.two
    obtain ⟨r, r1, r2, r3⟩ := psRun_ok hb a.length p hp
    obtain ⟨o, ho⟩ := ih r.1 r2 [r.2.map Prod.fst, r.2.map Prod.snd] ⟨rfl, by
      intro c hc
      simp only [List.mem_cons, List.not_mem_nil, or_false] at hc
      rcases hc with rfl | rfl <;> simp [r3, ha]⟩
    refine ⟨[r.2.map Prod.fst, r.2.map Prod.snd] :: o, ?_⟩
    simp only [runBlocks, procG, procPrim, procPSampler, r1, bind, Except.bind, reState]
    simp [ho]

theorem selectSamples_ok {samples : List (Name × Sample)} {e : Events} {l : List (Sample × Fl)}
    (h : selectSamples samples e = .ok l) : ∀ x, x ∈ l → ∃ n, lookup samples n = some x.1 := by
  induction e generalizing l with
  | nil => cases h; simp
  | cons a es ih =>
    obtain ⟨v, t⟩ := a
    simp only [selectSamples] at h
    split at h
    · cases h
    · next s hs =>
      cases hr : selectSamples samples es with
      | error e => simp [hr, bind, Except.bind] at h
      | ok r =>
        simp only [hr, bind, Except.bind, Except.ok.injEq] at h
        subst h
        intro x hx
        rcases List.mem_cons.mp hx with rfl | hx
        · exact ⟨_, hs⟩
        · exact ih hr x hx

/-- C27 for `psampler`: if all registered samples can be played, all names of the pattern are registered
and the pattern lasts at least one sample, playing never fails, whatever the inputs. -/
theorem c27_psampler_partial (P : Plat) (N : Nat) (env : Env) (e : Events) (span : Fl)
    (hsamples : ∀ n s, lookup env.samples n = some s → Playable s ∧ ∀ x, x ∈ s.data → x.Ok f32)
    (hreg : ∀ v, v ∈ e → ∃ n s, v.1 = .sym n ∧ lookup env.samples n = some s)
    (hbar : 1 ≤ ((.fin 60 /. env.bpm *. .fin 4) *. span *. Fl.ofNat f32 env.sr).toUsize) (ins : List Ins) :
    ∃ outs, play P N env (.psampler e (some span)) [] ins = .ok outs := by
  have hsel : ∃ l, selectSamples env.samples e = .ok l := by
    clear hbar
    induction e with
    | nil => exact ⟨[], rfl⟩
    | cons v es ih =>
      obtain ⟨l, hl⟩ := ih (fun w hw => hreg w (by simp [hw]))
      obtain ⟨n, s, h1, h2⟩ := hreg v (by simp)
      obtain ⟨v1, t⟩ := v
      simp only at h1
      subst h1
      exact ⟨(s, t) :: l, by simp only [selectSamples, h2, hl, bind, Except.bind]⟩
  obtain ⟨l, hl⟩ := hsel
  obtain ⟨o, ho⟩ := psampler_blocks_ok P N _ (Nat.ne_of_gt hbar) ins (PSampler.new l span env.sr env.bpm)
    ⟨rfl, fun x hx => by
      obtain ⟨n, hn⟩ := selectSamples_ok hl x hx
      exact hsamples n x.1 hn, by simp [PSampler.new]⟩ _
    (shaped_fresh N 2 (GNode.prim (P := P) (.psampler (PSampler.new l span env.sr env.bpm))))
  refine ⟨o, play_ok (d := fresh N 2 (.prim (.psampler (PSampler.new l span env.sr env.bpm)))) (refs := []) ?_ rfl ho⟩
  simp [makeNode, makePrim, hl, bind, Except.bind, makeRefs]
  rfl

/-- The usual tempo and sample rate give a pattern of 88200 samples. -/
example : 1 ≤ ((.fin 60 /. .fin 120 *. .fin 4) *. .fin 1 *. Fl.ofNat f32 44100).toUsize := by
  decide +kernel

/-- C27 fails for a pattern shorter than a sample: the first block panics (remainder by zero). -/
theorem c27_short_pattern_counterexample (P : Plat) (s : Sample) :
    play P 1 ⟨[("a".toList, s)], 44100, .fin 120, 0⟩ (.psampler [(.sym "a".toList, .fin 0)] (some (.fin 0))) []
      [[]] = .error (.panic .divByZero) := by
  kernel_rfl

/-- C46 fails: in a pattern a mono sample that follows a stereo sample replaces what the right channel had
so far by the left channel. Here the stereo sample plays 0 on the left and 1 on the right, the mono
sample 1/2: the right channel gets 1/2 in place of 3/2. -/
theorem c46_pattern_mix_counterexample (P : Plat) :
    play P 1 ⟨[("s".toList, ⟨[.fin 0, .fin 0, .fin 1, .fin 1], 2, 44100⟩), ("m".toList, ⟨[.fin (1 / 2)], 1, 44100⟩)],
        44100, .fin 120, 0⟩
      (.psampler [(.sym "s".toList, .fin 0)] (some (.fin 1))) [] [[]] = .ok [[[.fin 0], [.fin 1]]] ∧
    play P 1 ⟨[("s".toList, ⟨[.fin 0, .fin 0, .fin 1, .fin 1], 2, 44100⟩), ("m".toList, ⟨[.fin (1 / 2)], 1, 44100⟩)],
        44100, .fin 120, 0⟩
      (.psampler [(.sym "m".toList, .fin 0)] (some (.fin 1))) [] [[]] =
        .ok [[[.fin (1 / 2)], [.fin (1 / 2)]]] ∧
    play P 1 ⟨[("s".toList, ⟨[.fin 0, .fin 0, .fin 1, .fin 1], 2, 44100⟩), ("m".toList, ⟨[.fin (1 / 2)], 1, 44100⟩)],
        44100, .fin 120, 0⟩
      (.psampler [(.sym "s".toList, .fin 0), (.sym "m".toList, .fin 0)] (some (.fin 1))) [] [[]] =
        .ok [[[.fin (1 / 2)], [.fin (1 / 2)]]] := by
  refine ⟨?_, ?_, ?_⟩ <;> kernel_rfl

/-- All samples of the pattern have `c` channels. -/
def Uniform (c : Nat) (vs : List Sample) : Prop := ∀ v, v ∈ vs → v.channels = c

theorem psPlay_sum {c t : Nat} (hc : c = 1 ∨ c = 2) (vs : List (Sample × Voice))
    (hv : ∀ v, v ∈ vs → Fine v.1 ∧ v.2.1 ≤ t ∧ v.1.channels = c) (o : Fl × Fl) (ho : c = 1 → o.1 = o.2) :
    psPlay t vs o = .ok (false, vs.filter (fun v => alive t v.2),
      ((vs.filter (fun v => alive t v.2)).map (fun v => voiceOut v.1 (standAt t v.2))).foldl addOut o) := by
  induction vs generalizing o with
  | nil => rfl
  | cons v vs ih =>
    have hv' := fun w hw => hv w (List.mem_cons_of_mem _ hw)
    obtain ⟨hf, hb, hch⟩ := hv v (by simp)
    simp only [psPlay, voicePos_ok hb]
    by_cases ha : Fl.le (standAt t v.2) (.fin 1) = true
    · obtain ⟨w, w1, w2, w3, _⟩ := addVoice_ok hf.1 hf.2 (standAt t v.2) (stand_ok t v.2) o
        (fun h => ho (by rw [← hch]; exact h))
      have hne : ∃ o', w = some o' := by
        rcases hc with rfl | rfl
        · simp only [addVoice, hch, if_true, bind, Except.bind] at w1
          split at w1
          · cases w1
          · cases w1; exact ⟨_, rfl⟩
        · simp only [addVoice, hch, if_true, bind, Except.bind, show ¬ (2 = 1) by decide, if_false] at w1
          split at w1
          · cases w1
          · split at w1 <;> (cases w1; exact ⟨_, rfl⟩)
      obtain ⟨o', rfl⟩ := hne
      have hf' : alive t v.2 = true := ha
      simp only [Option.getD_some] at w2
      subst w2
      rw [if_pos ha, w1]
      simp only [ih hv' _ (fun h => w3 (by rw [hch]; exact h)), bind, Except.bind, List.filter_cons, hf', if_true,
        List.map_cons, List.foldl_cons]
    · have hf' : ¬ alive t v.2 = true := ha
      rw [if_neg ha]
      simp only [ih hv' _ ho, bind, Except.bind, List.filter_cons, if_neg hf', Bool.false_eq_true, if_false]

/-- The voices begun at `u`. -/
def psAt (p : PSampler) (u : Nat) : List (Sample × Voice) :=
  (p.pattern.filter (fun e => decide (u % psBar p = (e.2 *. p.cycleDur *. Fl.ofNat f32 p.sr).toUsize))).map
    (fun e => (e.1, (u, voiceDur e.1 p.sr (.fin 1))))

theorem psTrigger_eq {p : PSampler} (hb : psBar p ≠ 0) (t : Nat) (es : List (Sample × Fl))
    (he : ∀ e, e ∈ es → Fine e.1) :
    psTrigger p t es = .ok
      ((es.filter (fun e => decide (t % psBar p = (e.2 *. p.cycleDur *. Fl.ofNat f32 p.sr).toUsize))).map
        (fun e => (e.1, (t, voiceDur e.1 p.sr (.fin 1))))) := by
  induction es with
  | nil => rfl
  | cons e es ih =>
    have ih' := ih (fun w hw => he w (by simp [hw]))
    have hf := he e (by simp)
    have hb' : ¬ (p.cycleDur *. p.period *. Fl.ofNat f32 p.sr).toUsize = 0 := hb
    have hc : ¬ e.1.channels = 0 := by have := hf.1.2.1; omega
    simp only [psTrigger]
    rw [if_neg hb']
    by_cases hm : t % psBar p = (e.2 *. p.cycleDur *. Fl.ofNat f32 p.sr).toUsize
    · rw [if_pos (show t % (p.cycleDur *. p.period *. Fl.ofNat f32 p.sr).toUsize = _ from hm), if_neg hc]
      simp only [ih', bind, Except.bind, List.filter_cons, hm, decide_true, if_true, List.map_cons]
    · rw [if_neg (show ¬ t % (p.cycleDur *. p.period *. Fl.ofNat f32 p.sr).toUsize = _ from hm)]
      simp only [ih', List.filter_cons, hm, decide_false, Bool.false_eq_true, if_false]

theorem dur_one (s : Sample) (sr : Nat) : NonNeg (voiceDur s sr (.fin 1)) := dur_nonneg s sr (by simp [Positive, Fl.lt, Fl.val])

/-- The voices begun before `t`. -/
def psTrigs (p : PSampler) (t : Nat) : List (Sample × Voice) := (List.range t).flatMap (psAt p)

theorem psTrigs_spec {p : PSampler} {c : Nat} (hp : ∀ e, e ∈ p.pattern → Fine e.1 ∧ e.1.channels = c) {t : Nat}
    {v : Sample × Voice} (hv : v ∈ psTrigs p t) :
    Fine v.1 ∧ v.2.1 < t ∧ v.1.channels = c ∧ NonNeg v.2.2 := by
  obtain ⟨u, hu, hv⟩ := List.mem_flatMap.mp hv
  obtain ⟨e, he, rfl⟩ := List.mem_map.mp hv
  have he' := (List.mem_filter.mp he).1
  exact ⟨(hp e he').1, List.mem_range.mp hu, (hp e he').2, dur_one _ _⟩

/-- What the pattern puts out at `t`. -/
def psOut (p : PSampler) (t : Nat) : Fl × Fl :=
  (((psTrigs p (t + 1)).filter (fun v => alive t v.2)).map (fun v => voiceOut v.1 (standAt t v.2))).foldl addOut
    (.fin 0, .fin 0)

/-- The node after `t` samples. -/
def psState (p : PSampler) (t : Nat) : PSampler :=
  { p with voices := (psTrigs p t).filter (fun v => alive (t - 1) v.2), step := t }

theorem psRun_sum {p : PSampler} {c : Nat} (hc : c = 1 ∨ c = 2)
    (hp : ∀ e, e ∈ p.pattern → Fine e.1 ∧ e.1.channels = c) (hb : psBar p ≠ 0) (n t : Nat) :
    psRun n (psState p t) = .ok (psState p (t + n), (List.range' t n).map (psOut p)) := by
  induction n generalizing t with
  | zero => rfl
  | succ n ih =>
    have htr : psTrigger (psState p t) t p.pattern = .ok (psAt p t) :=
      psTrigger_eq (p := psState p t) hb t p.pattern (fun e he => (hp e he).1)
    have hsucc : psTrigs p (t + 1) = psTrigs p t ++ psAt p t := by
      simp [psTrigs, List.range_succ]
    have hvs : ∀ v, v ∈ (psState p t).voices ++ psAt p t → Fine v.1 ∧ v.2.1 ≤ t ∧ v.1.channels = c := by
      intro v hv
      have hv' : v ∈ psTrigs p (t + 1) := by
        rw [hsucc]
        rcases List.mem_append.mp hv with h | h
        · exact List.mem_append_left _ (List.mem_filter.mp h).1
        · exact List.mem_append_right _ h
      obtain ⟨a, b, d, _⟩ := psTrigs_spec hp hv'
      exact ⟨a, by omega, d⟩
    have hfil : ((psState p t).voices ++ psAt p t).filter (fun v => alive t v.2) =
        (psTrigs p (t + 1)).filter (fun v => alive t v.2) := by
      rw [hsucc, List.filter_append, List.filter_append]
      congr 1
      simp only [psState, List.filter_filter]
      apply List.filter_congr
      intro v hv
      cases ha : alive t v.2 with
      | false => simp
      | true =>
        rw [alive_mono (psTrigs_spec hp hv).2.2.2 (Nat.sub_le t 1) ha]
        rfl
    have hplay := psPlay_sum hc _ hvs (.fin 0, .fin 0) (fun _ => rfl)
    rw [hfil] at hplay
    have hst : (psState p t).step = t := rfl
    have hpat : (psState p t).pattern = p.pattern := rfl
    simp only [psRun, hst, hpat, htr, bind, Except.bind, hplay, Bool.false_eq_true, if_false]
    have hih := ih (t + 1)
    simp only [psState, Nat.add_sub_cancel] at hih ⊢
    rw [hih]
    simp only [List.range'_succ, List.map_cons]
    rw [show t + 1 + n = t + (n + 1) by omega]
    rfl

theorem psampler_blocks (P : Plat) (N : Nat) {p : PSampler} {c : Nat} (hc : c = 1 ∨ c = 2)
    (hp : ∀ e, e ∈ p.pattern → Fine e.1 ∧ e.1.channels = c) (hb : psBar p ≠ 0) (ins : List Ins) (t : Nat)
    (out : List Buf) (ho : Shaped 2 N out) :
    ∃ outs, runBlocks (procG P) (.prim (.psampler (psState p t))) out ins = .ok outs ∧
      channel 0 outs = some ((List.range' t (ins.length * N)).map (fun u => (psOut p u).1)) ∧
      channel 1 outs = some ((List.range' t (ins.length * N)).map (fun u => (psOut p u).2)) := by
  induction ins generalizing t out with
  | nil => exact ⟨[], rfl, by simp [channel], by simp [channel]⟩
  | cons i ins ih =>
    obtain ⟨a, b, rfl, ha, _⟩ := ho.two
    obtain ⟨o, o1, o2, o3⟩ := ih (t + N) [((List.range' t N).map (psOut p)).map Prod.fst,
      ((List.range' t N).map (psOut p)).map Prod.snd] ⟨rfl, by
      intro d hd
      simp only [List.mem_cons, List.not_mem_nil, or_false] at hd
      rcases hd with rfl | rfl <;> simp⟩
    refine ⟨[((List.range' t N).map (psOut p)).map Prod.fst, ((List.range' t N).map (psOut p)).map Prod.snd] :: o,
      ?_, ?_, ?_⟩
    · have hpr : procG P (.prim (.psampler (psState p t))) i [a, b] =
          .ok (.prim (.psampler (psState p (t + N))), [((List.range' t N).map (psOut p)).map Prod.fst,
            ((List.range' t N).map (psOut p)).map Prod.snd]) := by
        simp only [procG, procPrim, procPSampler, ha, psRun_sum hc hp hb N t, bind, Except.bind, reState]
      simp only [runBlocks, hpr, o1]
    · simp only [channel, o2, List.getElem?_cons_zero, List.length_cons]
      rw [show (ins.length + 1) * N = N + ins.length * N by ring, ← List.range'_append_1, List.map_append]
      simp [List.map_map, Function.comp_def]
    · simp only [channel, o3, List.getElem?_cons_succ, List.getElem?_cons_zero, List.length_cons]
      rw [show (ins.length + 1) * N = N + ins.length * N by ring, ← List.range'_append_1, List.map_append]
      simp [List.map_map, Function.comp_def]

/-- What a sample triggered once with 1 sounds like. -/
def loneOut (s : Sample) (sr t : Nat) : Fl × Fl :=
  if alive t (0, voiceDur s sr (.fin 1)) then
    addOut (.fin 0, .fin 0) (voiceOut s (standAt t (0, voiceDur s sr (.fin 1))))
  else (.fin 0, .fin 0)

theorem outAt_lone {s : Sample} {sr : Nat} {xs : List Fl} (hx : xs[0]? = some (.fin 1))
    (hx' : ∀ u x, 0 < u → xs[u]? = some x → ¬ Positive x) (t : Nat) : outAt s sr xs t = loneOut s sr t := by
  have htr : trigs s sr xs (t + 1) = [(0, voiceDur s sr (.fin 1))] := by
    rw [trigs, List.range_succ_eq_map, List.filterMap_cons]
    have : trigAt s sr xs 0 = some (0, voiceDur s sr (.fin 1)) := by
      simp only [trigAt, hx]
      rw [if_pos (by decide +kernel)]
    rw [this]
    simp only [List.cons.injEq, true_and]
    rw [List.filterMap_eq_nil_iff]
    intro u hu
    obtain ⟨w, _, rfl⟩ := List.mem_map.mp hu
    simp only [trigAt]
    split
    · rfl
    · next x hxx => exact if_neg (hx' _ x (by simp) hxx)
  rw [outAt, htr, List.filter_cons, loneOut]
  split <;> rfl

/-- What a voice adds equals the lone sound, shifted. -/
theorem addPair_lone {s : Sample} (hs : Fine s) (sr t u : Nat) (o : Fl × Fl) (h1 : Plain o.1) (h2 : Plain o.2) :
    let d := if alive t (u, voiceDur s sr (.fin 1)) then
      addOut o (voiceOut s (standAt t (u, voiceDur s sr (.fin 1)))) else o
    addPair o (loneOut s sr (t - u)) = d ∧ Plain d.1 ∧ Plain d.2 := by
  have e1 : standAt t (u, voiceDur s sr (.fin 1)) = standAt (t - u) (0, voiceDur s sr (.fin 1)) := by
    simp [standAt]
  have e2 : alive t (u, voiceDur s sr (.fin 1)) = alive (t - u) (0, voiceDur s sr (.fin 1)) := by
    simp [alive, e1]
  simp only [e1, e2, loneOut]
  split
  · have hv := (addVoice_ok hs.1 hs.2 (standAt (t - u) (0, voiceDur s sr (.fin 1))) (stand_ok _ _)
      (.fin 0, .fin 0) (fun _ => rfl)).choose_spec.2.2.2
    cases h : voiceOut s (standAt (t - u) (0, voiceDur s sr (.fin 1))) with
    | none => exact ⟨by simp [addPair, addOut, plain_add_zero h1, plain_add_zero h2], h1, h2⟩
    | some v =>
      obtain ⟨v1, v2⟩ := hv v (by rw [h]; rfl)
      exact ⟨by simp [addPair, addOut, plain_add_add h1 v1, plain_add_add h2 v2], plain_add h1 _, plain_add h2 _⟩
  · exact ⟨by simp [addPair, plain_add_zero h1, plain_add_zero h2], h1, h2⟩

theorem fold_lone (sr t : Nat) (vs : List (Sample × Voice))
    (hv : ∀ v, v ∈ vs → Fine v.1 ∧ v.2.2 = voiceDur v.1 sr (.fin 1)) (o : Fl × Fl) (h1 : Plain o.1)
    (h2 : Plain o.2) :
    ((vs.filter (fun v => alive t v.2)).map (fun v => voiceOut v.1 (standAt t v.2))).foldl addOut o =
      vs.foldl (fun o v => addPair o (loneOut v.1 sr (t - v.2.1))) o := by
  induction vs generalizing o with
  | nil => rfl
  | cons v vs ih =>
    obtain ⟨s, u, d⟩ := v
    obtain ⟨hf, hd⟩ := hv (s, u, d) (by simp)
    simp only at hd hf
    subst hd
    obtain ⟨g1, g2, g3⟩ := addPair_lone hf sr t u o h1 h2
    have ih' := ih (fun w hw => hv w (by simp [hw])) _ g2 g3
    rw [List.foldl_cons, g1, ← ih', List.filter_cons]
    split <;> simp

/-- C46 for patterns of samples with equal numbers of channels (1 or 2; otherwise see
`c46_pattern_mix_counterexample`): there are sounds `V s`, namely what `sp` plays when it is triggered once
with 1, such that the output of the pattern is the sum of these sounds, each begun whenever the time within
the bar is the time of its event. -/
theorem c46_pattern_partial (P : Plat) (N : Nat) (env : Env) (e : List (Name × Fl)) (span : Fl) (c : Nat)
    (hc : c = 1 ∨ c = 2) (get : Name → Sample)
    (hget : ∀ v, v ∈ e → lookup env.samples v.1 = some (get v.1) ∧ Playable (get v.1) ∧
      (∀ x, x ∈ (get v.1).data → x.Ok f32) ∧ (get v.1).channels = c)
    (bar : Nat) (hbar : bar = ((.fin 60 /. env.bpm *. .fin 4) *. span *. Fl.ofNat f32 env.sr).toUsize)
    (h1 : 1 ≤ bar) (ins : List Ins) :
    ∃ V : Name → Nat → Fl × Fl,
      (∀ v, v ∈ e → ∀ M k (xs : List Buf), Sized M xs → xs.flatten[0]? = some (.fin 1) →
        (∀ u x, 0 < u → xs.flatten[u]? = some x → ¬ Positive x) →
        ∃ outs, play P M env (.sp v.1) [.index k] (monoFrom k xs) = .ok outs ∧
          channel 0 outs = some ((List.range xs.flatten.length).map (fun t => (V v.1 t).1)) ∧
          channel 1 outs = some ((List.range xs.flatten.length).map (fun t => (V v.1 t).2))) ∧
      ∃ outs, play P N env (.psampler (e.map (fun v => (.sym v.1, v.2))) (some span)) [] ins = .ok outs ∧
        ∀ side : Fin 2, channel side outs = some ((List.range (ins.length * N)).map (fun t =>
          let started := (List.range (t + 1)).flatMap (fun u =>
            (e.filter (fun v => u % bar = (v.2 *. (.fin 60 /. env.bpm *. .fin 4) *. Fl.ofNat f32 env.sr).toUsize)).map
              (fun v => (v.1, u)))
          flSum (started.map (fun v => if side = 0 then (V v.1 (t - v.2)).1 else (V v.1 (t - v.2)).2)))) := by
  refine ⟨fun n t => loneOut (get n) env.sr t, ?_, ?_⟩
  · intro v hv M k xs hM hx hx'
    obtain ⟨g1, g2, g3, _⟩ := hget v hv
    obtain ⟨o, o1, o2, o3⟩ := sampler_blocks P M env v.1 _ g1 g2 g3 k xs hM
    refine ⟨o, o1, ?_, ?_⟩
    · rw [o2, List.map_map]; congr 1
      apply List.map_congr_left
      intro t _
      rw [Function.comp_apply, outAt_lone hx hx']
    · rw [o3, List.map_map]; congr 1
      apply List.map_congr_left
      intro t _
      rw [Function.comp_apply, outAt_lone hx hx']
  · have hsel : selectSamples env.samples (e.map (fun v => (.sym v.1, v.2))) = .ok (e.map (fun v => (get v.1, v.2))) := by
      clear hbar
      induction e with
      | nil => rfl
      | cons v es ih =>
        simp only [List.map_cons, selectSamples, (hget v (by simp)).1, ih (fun w hw => hget w (by simp [hw])), bind,
          Except.bind]
    let p := PSampler.new (e.map (fun v => (get v.1, v.2))) span env.sr env.bpm
    have hpb : psBar p = bar := hbar.symm
    have hp : ∀ x, x ∈ p.pattern → Fine x.1 ∧ x.1.channels = c := by
      intro x hx
      obtain ⟨v, hv, rfl⟩ := List.mem_map.mp hx
      obtain ⟨_, g2, g3, g4⟩ := hget v hv
      exact ⟨⟨g2, g3⟩, g4⟩
    obtain ⟨o, o1, o2, o3⟩ := psampler_blocks P N (p := p) hc hp (by omega) ins 0 _
      (shaped_fresh N 2 (GNode.prim (P := P) (.psampler p)))
    have hst : psState p 0 = p := rfl
    rw [hst] at o1
    refine ⟨o, play_ok (d := fresh N 2 (.prim (.psampler p))) (refs := []) ?_ rfl o1, ?_⟩
    · simp [makeNode, makePrim, hsel, bind, Except.bind, makeRefs]
      exact ⟨rfl, rfl⟩
    · have hsum : ∀ t, psOut p t = ((List.range (t + 1)).flatMap (fun u =>
            (e.filter (fun v => u % bar = (v.2 *. (.fin 60 /. env.bpm *. .fin 4) *. Fl.ofNat f32 env.sr).toUsize)).map
              (fun v => (v.1, u)))).foldl (fun o v => addPair o (loneOut (get v.1) env.sr (t - v.2))) (.fin 0, .fin 0) := by
        intro t
        rw [psOut, fold_lone env.sr t _ (fun v hv => ?_) _ ⟨Fl.zero_ok, by simp⟩ ⟨Fl.zero_ok, by simp⟩]
        · have : psTrigs p (t + 1) = ((List.range (t + 1)).flatMap (fun u =>
            (e.filter (fun v => u % bar = (v.2 *. (.fin 60 /. env.bpm *. .fin 4) *. Fl.ofNat f32 env.sr).toUsize)).map
              (fun v => (v.1, u)))).map (fun v => (get v.1, (v.2, voiceDur (get v.1) env.sr (.fin 1)))) := by
            rw [psTrigs, List.map_flatMap]
            congr 1
            funext u
            simp only [psAt, hpb]
            simp only [p, PSampler.new, List.filter_map, List.map_map, Function.comp_def]
          rw [this, List.foldl_map]
        · refine ⟨(psTrigs_spec hp hv).1, ?_⟩
          obtain ⟨u, _, hv⟩ := List.mem_flatMap.mp hv
          obtain ⟨x, _, rfl⟩ := List.mem_map.mp hv
          rfl
      have hproj : ∀ (l : List (Name × Nat)) (g : Name × Nat → Fl × Fl) (o : Fl × Fl),
          (l.foldl (fun o v => addPair o (g v)) o).1 = (l.map (fun v => (g v).1)).foldl (· +. ·) o.1 ∧
          (l.foldl (fun o v => addPair o (g v)) o).2 = (l.map (fun v => (g v).2)).foldl (· +. ·) o.2 := by
        intro l g
        induction l with
        | nil => intro o; exact ⟨rfl, rfl⟩
        | cons v l ih => intro o; exact ih _
      intro side
      match side with
      | 0 =>
        refine o2.trans ?_
        congr 1
        rw [← List.range_eq_range']
        apply List.map_congr_left
        intro t _
        rw [hsum, (hproj _ _ _).1]
        rfl
      | 1 =>
        refine o3.trans ?_
        congr 1
        rw [← List.range_eq_range']
        apply List.map_congr_left
        intro t _
        rw [hsum, (hproj _ _ _).2]
        rfl

/-- A pattern of two mono samples meets the hypotheses. -/
example : ∃ (env : Env) (e : List (Name × Fl)) (get : Name → Sample), 2 ≤ e.length ∧
    (∀ v, v ∈ e → lookup env.samples v.1 = some (get v.1) ∧ Playable (get v.1) ∧
      (∀ x, x ∈ (get v.1).data → x.Ok f32) ∧ (get v.1).channels = 1) ∧
    1 ≤ ((.fin 60 /. env.bpm *. .fin 4) *. .fin 1 *. Fl.ofNat f32 env.sr).toUsize := by
  refine ⟨⟨[("a".toList, ⟨[.fin 0], 1, 44100⟩), ("b".toList, ⟨[.nz, .fin 0], 1, 48000⟩)], 44100, .fin 120, 0⟩,
    [("a".toList, .fin 0), ("b".toList, .fin (1 / 2))],
    fun n => if n = "a".toList then ⟨[.fin 0], 1, 44100⟩ else ⟨[.nz, .fin 0], 1, 48000⟩, by simp, ?_, by decide +kernel⟩
  intro v hv
  simp only [List.mem_cons, List.not_mem_nil, or_false] at hv
  rcases hv with rfl | rfl
  · refine ⟨rfl, ⟨by simp, by simp, by simp, by simp⟩, ?_, by simp⟩
    simp only [if_true, List.mem_cons, List.not_mem_nil, or_false]
    rintro x rfl
    exact Fl.zero_ok
  · have hne : ¬ "b".toList = "a".toList := by decide
    simp only [if_neg hne]
    refine ⟨rfl, ⟨by simp, by simp, by simp, by simp⟩, ?_, by simp⟩
    simp only [List.mem_cons, List.not_mem_nil, or_false]
    rintro x (rfl | rfl)
    · trivial
    · exact Fl.zero_ok

end Verif.Props
