import Verif.Props.Sampler
import Verif.Lemmas.Table
import Verif.Lemmas.KernelRfl

/-! # Stereo samples (C64) -/

namespace Verif.Props
open Verif Spec

/-- A stereo sample with the given sides, laid out as the engine expects it: the left side, then the right side. -/
def sides (l r : List Fl) (sr : Nat) : Sample := ⟨l ++ r, 2, sr⟩

theorem sides_half {l r : List Fl} (h : l.length = r.length) : (l ++ r).length / 2 = l.length := by
  rw [List.length_append]
  omega

theorem sides_playable {l r : List Fl} {sr : Nat} (h : l.length = r.length) (h2 : 2 ≤ l.length)
    (h3 : l.length ≤ 2 ^ 62) : Playable (sides l r sr) := by
  refine ⟨?_, by simp [sides], ?_, fun _ => ?_⟩
  · intro h0
    have := congrArg List.length h0
    rw [sides, List.length_append] at this
    simp only [List.length_nil] at this
    omega
  · simp only [sides, List.length_append]
    omega
  · rw [sides, sides_half h]
    exact h2

theorem at_left {l r r' : List Fl} {sr i : Nat} (hi : i < l.length) : (sides l r sr).at i = (sides l r' sr).at i := by
  simp [Sample.at, sides, List.getElem?_append_left hi]

theorem at_right {l l' r : List Fl} {sr i : Nat} (h : l.length = l'.length) (hi : l.length ≤ i) :
    (sides l r sr).at i = (sides l' r sr).at i := by
  simp [Sample.at, sides, List.getElem?_append_right hi, List.getElem?_append_right (h ▸ hi), h]

theorem lerp_left {l r r' : List Fl} {sr : Nat} {x : Fl} (h1 : x.floor.toUsize < l.length)
    (h2 : x.ceil.toUsize < l.length) : sampleLerp (sides l r sr) x 0 = sampleLerp (sides l r' sr) x 0 := by
  simp only [sampleLerp, Nat.add_zero, at_left (r' := r') h1, at_left (r' := r') h2]

theorem lerp_right {l l' r : List Fl} {sr off : Nat} {x : Fl} (h : l.length = l'.length) (ho : l.length ≤ off) :
    sampleLerp (sides l r sr) x off = sampleLerp (sides l' r sr) x off := by
  simp only [sampleLerp, at_right (l' := l') h (show l.length ≤ x.floor.toUsize + off by omega),
    at_right (l' := l') h (show l.length ≤ x.ceil.toUsize + off by omega)]

/-- What a voice adds on the left does not depend on the right side of the sample. -/
theorem voice_left {l r r' : List Fl} {sr : Nat} (h : l.length = r.length) (h' : l.length = r'.length)
    (h2 : 2 ≤ l.length) (h3 : l.length ≤ 2 ^ 62) (hd : ∀ x, x ∈ l ++ r → x.Ok f32) (hd' : ∀ x, x ∈ l ++ r' → x.Ok f32)
    (pos : Fl) (hp : pos.Ok f32) :
    (voiceOut (sides l r sr) pos).map Prod.fst = (voiceOut (sides l r' sr) pos).map Prod.fst := by
  obtain ⟨v, v1, _⟩ := stereoRead_ok (sides_playable (sr := sr) h h2 h3) rfl pos hp hd
  obtain ⟨w, w1, _⟩ := stereoRead_ok (sides_playable (sr := sr) h' h2 h3) rfl pos hp hd'
  have e1 : voiceOut (sides l r sr) pos = v := by simp [voiceOut, sides] at v1 ⊢; simp [v1, Except.toOption]
  have e2 : voiceOut (sides l r' sr) pos = w := by simp [voiceOut, sides] at w1 ⊢; simp [w1, Except.toOption]
  rw [e1, e2]
  clear e1 e2
  have hl : (sides l r sr).data.length / (sides l r sr).channels = l.length := sides_half h
  have hl' : (sides l r' sr).data.length / (sides l r' sr).channels = l.length := sides_half h'
  simp only [stereoRead, hl, hl'] at v1 w1
  split at v1
  · next h0 =>
    rw [if_pos h0] at w1
    simp only [except_bind_ok] at v1 w1
    obtain ⟨a, a1, b, _, hv⟩ := v1
    obtain ⟨a', a1', b', _, hw⟩ := w1
    rw [at_left (r' := r') (by omega), a1'] at a1
    cases a1; cases hv; cases hw
    rfl
  · next h0 =>
    rw [if_neg h0] at w1
    split at v1
    · next h1 =>
      rw [if_pos h1] at w1
      simp only [except_bind_ok, usizeSub, if_pos (show 1 ≤ l.length by omega)] at v1 w1
      obtain ⟨_, ⟨⟩, a, a1, _, _, b, _, hv⟩ := v1
      obtain ⟨_, ⟨⟩, a', a1', _, _, b', _, hw⟩ := w1
      rw [at_left (r' := r') (by omega), a1'] at a1
      cases a1; cases hv; cases hw
      rfl
    · next h1 =>
      rw [if_neg h1] at w1
      split at v1
      · next hc =>
        rw [if_pos hc] at w1
        simp only [Bool.and_eq_true] at hc
        obtain ⟨i1, i2⟩ := index_le hp hc.1 hc.2 (e := l.length - 2) (by omega)
        simp only [except_bind_ok, usizeSub, if_pos h2] at v1 w1
        obtain ⟨_, ⟨⟩, a, a1, b, _, hv⟩ := v1
        obtain ⟨_, ⟨⟩, a', a1', b', _, hw⟩ := w1
        rw [lerp_left (r' := r') (by omega) (by omega), a1'] at a1
        cases a1; cases hv; cases hw
        rfl
      · next hc =>
        rw [if_neg hc] at w1
        cases v1; cases w1
        rfl

/-- What a voice adds on the right does not depend on the left side of the sample. -/
theorem voice_right {l l' r : List Fl} {sr : Nat} (h : l.length = r.length) (h' : l'.length = r.length)
    (h2 : 2 ≤ r.length) (h3 : r.length ≤ 2 ^ 62) (hd : ∀ x, x ∈ l ++ r → x.Ok f32) (hd' : ∀ x, x ∈ l' ++ r → x.Ok f32)
    (pos : Fl) (hp : pos.Ok f32) :
    (voiceOut (sides l r sr) pos).map Prod.snd = (voiceOut (sides l' r sr) pos).map Prod.snd := by
  obtain ⟨v, v1, _⟩ := stereoRead_ok (sides_playable (sr := sr) h (h ▸ h2) (h ▸ h3)) rfl pos hp hd
  obtain ⟨w, w1, _⟩ := stereoRead_ok (sides_playable (sr := sr) h' (h' ▸ h2) (h' ▸ h3)) rfl pos hp hd'
  have e1 : voiceOut (sides l r sr) pos = v := by simp [voiceOut, sides] at v1 ⊢; simp [v1, Except.toOption]
  have e2 : voiceOut (sides l' r sr) pos = w := by simp [voiceOut, sides] at w1 ⊢; simp [w1, Except.toOption]
  rw [e1, e2]
  clear e1 e2
  have hll : l.length = l'.length := h.trans h'.symm
  have hl : (sides l r sr).data.length / (sides l r sr).channels = l.length := sides_half h
  have hl' : (sides l' r sr).data.length / (sides l' r sr).channels = l.length := (sides_half h').trans hll.symm
  have hd1 : (sides l r sr).data.length = 2 * l.length := by simp [sides]; omega
  have hd2 : (sides l' r sr).data.length = 2 * l.length := by simp [sides]; omega
  simp only [stereoRead, hl, hl'] at v1 w1
  split at v1
  · next h0 =>
    rw [if_pos h0] at w1
    simp only [except_bind_ok] at v1 w1
    obtain ⟨a, _, b, b1, hv⟩ := v1
    obtain ⟨a', _, b', b1', hw⟩ := w1
    rw [at_right hll (le_refl _), b1'] at b1
    cases b1; cases hv; cases hw
    rfl
  · next h0 =>
    rw [if_neg h0] at w1
    split at v1
    · next h1 =>
      rw [if_pos h1] at w1
      simp only [except_bind_ok, usizeSub, hd1, hd2, if_pos (show 1 ≤ l.length by omega),
        if_pos (show 1 ≤ 2 * l.length by omega)] at v1 w1
      obtain ⟨_, ⟨⟩, a, _, _, ⟨⟩, b, b1, hv⟩ := v1
      obtain ⟨_, ⟨⟩, a', _, _, ⟨⟩, b', b1', hw⟩ := w1
      rw [at_right hll (by omega), b1'] at b1
      cases b1; cases hv; cases hw
      rfl
    · next h1 =>
      rw [if_neg h1] at w1
      split at v1
      · next hc =>
        rw [if_pos hc] at w1
        simp only [except_bind_ok, usizeSub, if_pos (h ▸ h2 : 2 ≤ l.length)] at v1 w1
        obtain ⟨_, ⟨⟩, a, _, b, b1, hv⟩ := v1
        obtain ⟨_, ⟨⟩, a', _, b', b1', hw⟩ := w1
        rw [lerp_right hll (by omega), b1'] at b1
        cases b1; cases hv; cases hw
        rfl
      · next hc =>
        rw [if_neg hc] at w1
        cases v1; cases w1
        rfl

theorem addOut_side {f : Fl × Fl → Fl} (hf : f = Prod.fst ∨ f = Prod.snd) {o o' : Fl × Fl} (h : f o = f o') {v v' : Option (Fl × Fl)}
    (hv : v.map f = v'.map f) : f (addOut o v) = f (addOut o' v') := by
  rcases hf with rfl | rfl <;> cases v <;> cases v' <;> simp_all [addOut]

theorem foldl_side {f : Fl × Fl → Fl} (hf : f = Prod.fst ∨ f = Prod.snd) {α : Type} {g g' : α → Option (Fl × Fl)} (vs : List α)
    (h : ∀ v, v ∈ vs → (g v).map f = (g' v).map f) : ∀ {o o' : Fl × Fl}, f o = f o' →
    f ((vs.map g).foldl addOut o) = f ((vs.map g').foldl addOut o') := by
  induction vs with
  | nil => intro o o' h; exact h
  | cons v vs ih =>
    intro o o' ho
    simp only [List.map_cons, List.foldl_cons]
    exact ih (fun w hw => h w (by simp [hw])) (addOut_side hf ho (h v (by simp)))

theorem trigs_len {s s' : Sample} (h : s.data.length / s.channels = s'.data.length / s'.channels) (hs : s.sr = s'.sr)
    (sr : Nat) (xs : List Fl) (t : Nat) : trigs s sr xs t = trigs s' sr xs t := by
  have : trigAt s sr xs = trigAt s' sr xs := by
    funext u
    simp only [trigAt, voiceDur, h, hs]
  rw [trigs, trigs, this]

theorem out_left {l r r' : List Fl} {sr : Nat} (h : l.length = r.length) (h' : l.length = r'.length)
    (h2 : 2 ≤ l.length) (h3 : l.length ≤ 2 ^ 62) (hd : ∀ x, x ∈ l ++ r → x.Ok f32) (hd' : ∀ x, x ∈ l ++ r' → x.Ok f32)
    (esr : Nat) (xs : List Fl) (t : Nat) :
    (outAt (sides l r sr) esr xs t).1 = (outAt (sides l r' sr) esr xs t).1 := by
  simp only [outAt]
  rw [trigs_len (s := sides l r sr) (s' := sides l r' sr) ((sides_half h).trans (sides_half h').symm) rfl]
  exact foldl_side (.inl rfl) _ (fun v _ => voice_left h h' h2 h3 hd hd' _ (stand_ok _ _)) rfl

theorem out_right {l l' r : List Fl} {sr : Nat} (h : l.length = r.length) (h' : l'.length = r.length)
    (h2 : 2 ≤ r.length) (h3 : r.length ≤ 2 ^ 62) (hd : ∀ x, x ∈ l ++ r → x.Ok f32) (hd' : ∀ x, x ∈ l' ++ r → x.Ok f32)
    (esr : Nat) (xs : List Fl) (t : Nat) :
    (outAt (sides l r sr) esr xs t).2 = (outAt (sides l' r sr) esr xs t).2 := by
  simp only [outAt]
  rw [trigs_len (s := sides l r sr) (s' := sides l' r sr)
    ((sides_half h).trans ((h.trans h'.symm).trans (sides_half h').symm)) rfl]
  exact foldl_side (.inr rfl) _ (fun v _ => voice_right h h' h2 h3 hd hd' _ (stand_ok _ _)) rfl

/-- **C64 (part).** The sides of a stereo sample are kept apart: whatever the triggers and the blocks, what is
heard on the left depends only on the left side of the sample, and what is heard on the right only on the right
side. Missing: that the two sides are read at the same places; see `c64_sides_alike_counterexample`. -/
theorem c64_sides_partial (P : Plat) (N : Nat) (env env' : Env) (sym : Name) (l r l' r' : List Fl) (sr : Nat)
    (hsym : lookup env.samples sym = some ⟨l ++ r, 2, sr⟩) (hsym' : lookup env'.samples sym = some ⟨l' ++ r', 2, sr⟩)
    (hsr : env.sr = env'.sr) (h1 : l.length = r.length) (h2 : l'.length = r'.length) (h3 : l.length = l'.length)
    (hlen : 2 ≤ l.length) (hmax : l.length ≤ 2 ^ 62) (hd : ∀ x, x ∈ l ++ r → x.Ok f32)
    (hd' : ∀ x, x ∈ l' ++ r' → x.Ok f32) (k : Nat) (xs : List Buf) (hN : Sized N xs) :
    ∃ outs outs' ys zs ys' zs', play P N env (.sp sym) [.index k] (monoFrom k xs) = .ok outs ∧
      play P N env' (.sp sym) [.index k] (monoFrom k xs) = .ok outs' ∧
      channel 0 outs = some ys ∧ channel 1 outs = some zs ∧ channel 0 outs' = some ys' ∧ channel 1 outs' = some zs' ∧
      (l = l' → ys = ys') ∧ (r = r' → zs = zs') := by
  obtain ⟨o, a1, a2, a3⟩ := sampler_blocks P N env sym _ hsym (sides_playable h1 hlen hmax) hd k xs hN
  obtain ⟨o', b1, b2, b3⟩ := sampler_blocks P N env' sym _ hsym'
    (sides_playable h2 (h3 ▸ hlen) (h3 ▸ hmax)) hd' k xs hN
  refine ⟨o, o', _, _, _, _, a1, b1, a2, a3, b2, b3, ?_, ?_⟩
  · rintro rfl
    rw [← hsr]
    simp only [List.map_map]
    exact List.map_congr_left fun t _ => out_left h1 h2 hlen hmax hd hd' env.sr _ t
  · rintro rfl
    rw [← hsr]
    simp only [List.map_map]
    exact List.map_congr_left fun t _ => out_right h1 h2 (h1 ▸ hlen) (h1 ▸ hmax) hd hd' env.sr _ t

/-- Two samples with the same left side and different right sides: the left outputs agree, the right ones do not. -/
example (P : Plat) :
    (play P 2 ⟨[("a".toList, ⟨[.fin 1, .fin 2] ++ [.fin 3, .fin 4], 2, 44100⟩)], 44100, .fin 120, 0⟩ (.sp "a".toList) [.index 0]
      (monoFrom 0 [[.fin 1, .fin 0]])) = .ok [[[.fin 1, .fin 1], [.fin 3, .fin 4]]] ∧
    (play P 2 ⟨[("a".toList, ⟨[.fin 1, .fin 2] ++ [.fin 5, .fin 6], 2, 44100⟩)], 44100, .fin 120, 0⟩ (.sp "a".toList) [.index 0]
      (monoFrom 0 [[.fin 1, .fin 0]])) = .ok [[[.fin 1, .fin 1], [.fin 5, .fin 6]]] := by
  constructor <;> kernel_rfl

/-- C64 fails: a sample with the same left and right side does not sound the same on both sides. Between its two
ends the right side is read one value further on than the left side. -/
theorem c64_sides_alike_counterexample (P : Plat) :
    play P 4 ⟨[("a".toList, ⟨[.fin 0, .fin 1, .fin 0, .fin 0] ++ [.fin 0, .fin 1, .fin 0, .fin 0], 2, 44100⟩)], 44100,
        .fin 120, 0⟩ (.sp "a".toList) [.index 0] (monoFrom 0 [[.fin 1, .fin 0, .fin 0, .fin 0]]) =
      .ok [[[.fin 0, .fin (1 / 2), .fin 1, .fin (1 / 2)], [.fin 0, .fin (1 / 2), .fin 0, .fin 0]]] := by
  kernel_rfl

/-! ### The ends of the sample -/

/-- A voice that lasts `n` samples stands at 0 in the beginning, at 1 after `n` samples, and is over then. -/
theorem stand_ends {n : Nat} (h1 : 1 ≤ n) (h2 : n ≤ 2 ^ 22) :
    standAt 0 (0, .fin (n : ℚ)) = .fin 0 ∧ standAt n (0, .fin (n : ℚ)) = .fin 1 ∧
      ∀ t, n < t → alive t (0, .fin (n : ℚ)) = false := by
  have hL0 : (0 : ℚ) < n := by exact_mod_cast (by omega : 0 < n)
  have hst : ∀ m : Nat, Fl.ofNat f32 m = .fin (f32.rnd m) →
      standAt m (0, .fin (n : ℚ)) = Fl.round f32 false (f32.rnd m / n) := by
    intro m hm
    simp only [standAt, Nat.sub_zero, hm, Fl.div, Fl.isZero, hL0.ne', decide_false, Bool.false_eq_true, if_false,
      sign_nonneg (Fmt.rnd_nonneg (f := f32) (Nat.cast_nonneg (α := ℚ) m)), sign_nonneg hL0.le, Fl.val_fin,
      Bool.xor_self]
  refine ⟨?_, ?_, fun t hlt => ?_⟩
  · rw [hst 0 (by decide +kernel)]
    simp only [Nat.cast_zero, Fmt.rnd_zero, zero_div]
    decide +kernel
  · have hrn : f32.rnd (n : ℚ) = n := by
      have := f32_rep_int (n := (n : Int)) (by
        rw [abs_of_nonneg (by positivity)]; exact_mod_cast (by omega : n ≤ 2 ^ 24))
      exact Fmt.rnd_rep f32_p (by exact_mod_cast this)
    have hof : Fl.ofNat f32 n = .fin (f32.rnd n) := by
      rcases ofNat_cases n with ⟨h, _⟩ | ⟨h, _⟩
      · have := (f32_ofNat (n := n) (by omega)).1
        rw [h] at this
        simp [Fl.isFinite] at this
      · exact h
    rw [hst _ hof, hrn, div_self hL0.ne']
    decide +kernel
  · have hq : ((n + 1 : Nat) : ℚ) ≤ t := by exact_mod_cast hlt
    have hrn : ((n + 1 : Nat) : ℚ) ≤ f32.rnd t := by
      have := f32_rep_int (n := (n + 1 : Nat)) (by
        rw [abs_of_nonneg (by positivity)]; exact_mod_cast (by omega : n + 1 ≤ 2 ^ 24))
      exact Fmt.le_rnd f32_p (by exact_mod_cast this) hq
    rw [← Bool.not_eq_true]
    rcases ofNat_cases t with ⟨h, _⟩ | ⟨h, _⟩
    · simp [alive, standAt, h, Fl.div, sign_nonneg hL0.le, Fl.le, Fl.lt, Fl.beq]
    · rw [alive, hst t h]
      have hge : 1 + 1 / 2 ^ 22 ≤ f32.rnd t / n := by
        rw [le_div_iff₀ hL0]
        have : (n : ℚ) ≤ 2 ^ 22 := by exact_mod_cast h2
        push_cast at hrn
        linarith
      have hr1 : (1 : ℚ) + 1 / 2 ^ 22 ≤ f32.rnd (f32.rnd t / n) := by
        refine Fmt.le_rnd f32_p ⟨2 ^ 22 + 1, -22, by norm_num [f32], by norm_num [f32], ?_⟩ hge
        rw [pow2_eq]; norm_num
      rw [round_eq (by linarith [show (0:ℚ) ≤ 1 + 1 / 2 ^ 22 by norm_num])]
      split
      · simp [Fl.le, Fl.lt, Fl.beq]
      · rw [Fl.le_fin rfl rfl, Fl.val_fin, Fl.val_fin]
        have : (0 : ℚ) < 1 / 2 ^ 22 := by norm_num
        linarith

/-- A finite value added to silence. -/
theorem zero_add_val {c : Fl} (hc : c.Ok f32) (hf : c.isFinite = true) :
    (Fl.fin 0 +. c).isFinite = true ∧ (Fl.fin 0 +. c).val = c.val := by
  cases c with
  | nan => simp [Fl.isFinite] at hf
  | inf s => simp [Fl.isFinite] at hf
  | nz =>
    have : (Fl.fin 0 +. .nz) = .fin 0 := by decide +kernel
    rw [this]; exact ⟨rfl, rfl⟩
  | fin q =>
    have : (Fl.fin 0 +. .fin q) = .fin q := by
      show Fl.round f32 false (0 + q) = _
      rw [zero_add]; exact round_fin hc
    rw [this]; exact ⟨rfl, rfl⟩

/-- **C64 (part).** At the original speed both sides begin with the first frame of the sample, reach its last
frame together after as many samples as there are frames, and are silent afterwards. -/
theorem c64_ends_partial (P : Plat) (N : Nat) (env : Env) (sym : Name) (a b c d : Fl) (ls rs : List Fl)
    (hsym : lookup env.samples sym = some ⟨(a :: ls ++ [b]) ++ (c :: rs ++ [d]), 2, env.sr⟩)
    (hlr : ls.length = rs.length) (hlen : ls.length + 2 ≤ 2 ^ 22)
    (hd : ∀ x, x ∈ (a :: ls ++ [b]) ++ (c :: rs ++ [d]) → x.Ok f32 ∧ x.isFinite = true)
    (h1 : 1 ≤ env.sr) (h2 : env.sr ≤ 2 ^ 24) (k : Nat) (xs : List Buf) (hN : Sized N xs)
    (hx : xs.flatten[0]? = some (.fin 1)) (hx' : ∀ u x, 0 < u → xs.flatten[u]? = some x → ¬ Positive x) :
    ∃ outs ys zs, play P N env (.sp sym) [.index k] (monoFrom k xs) = .ok outs ∧ channel 0 outs = some ys ∧
      channel 1 outs = some zs ∧ ys.length = xs.flatten.length ∧ zs.length = xs.flatten.length ∧
      ∀ t, t < xs.flatten.length → ∃ y z, ys[t]? = some y ∧ zs[t]? = some z ∧
        (t = 0 → (y.isFinite = true ∧ y.val = a.val) ∧ z.isFinite = true ∧ z.val = c.val) ∧
        (t = ls.length + 2 → (y.isFinite = true ∧ y.val = b.val) ∧ z.isFinite = true ∧ z.val = d.val) ∧
        (ls.length + 2 < t → y = .fin 0 ∧ z = .fin 0) := by
  have hl : (a :: ls ++ [b]).length = (c :: rs ++ [d]).length := by simp [hlr]
  have hn : (a :: ls ++ [b]).length = ls.length + 2 := by simp
  have hp : Playable (sides (a :: ls ++ [b]) (c :: rs ++ [d]) env.sr) :=
    sides_playable hl (by omega) (by omega)
  obtain ⟨o, g1, g2, g3⟩ := sampler_blocks P N env sym _ hsym hp (fun x hx => (hd x hx).1) k xs hN
  refine ⟨o, _, _, g1, g2, g3, by simp, by simp, fun t ht => ?_⟩
  refine ⟨(outAt (sides (a :: ls ++ [b]) (c :: rs ++ [d]) env.sr) env.sr xs.flatten t).1,
    (outAt (sides (a :: ls ++ [b]) (c :: rs ++ [d]) env.sr) env.sr xs.flatten t).2,
    by rw [List.getElem?_map, List.getElem?_map, List.getElem?_range ht]; rfl,
    by rw [List.getElem?_map, List.getElem?_map, List.getElem?_range ht]; rfl, ?_⟩
  have hlen' : (sides (a :: ls ++ [b]) (c :: rs ++ [d]) env.sr).data.length /
      (sides (a :: ls ++ [b]) (c :: rs ++ [d]) env.sr).channels = ls.length + 2 := (sides_half hl).trans hn
  obtain ⟨s0, s1, s2⟩ := stand_ends (n := ls.length + 2) (by omega) hlen
  rw [outAt_first (s := sides (a :: ls ++ [b]) (c :: rs ++ [d]) env.sr) (sr := env.sr) rfl h1 h2 (by omega)
    (by omega) hx hx', hlen']
  have hval := fun x hx => zero_add_val (hd x hx).1 (hd x hx).2
  refine ⟨?_, ?_, ?_⟩
  · rintro rfl
    have ha : alive 0 (0, .fin ((ls.length + 2 : Nat) : ℚ)) = true := by
      rw [alive, s0]; decide +kernel
    have hr : voiceOut (sides (a :: ls ++ [b]) (c :: rs ++ [d]) env.sr) (.fin 0) = some (a, c) := by
      have e1 : (sides (a :: ls ++ [b]) (c :: rs ++ [d]) env.sr).at 0 = .ok a := by simp [Sample.at, sides]
      have e2 : (sides (a :: ls ++ [b]) (c :: rs ++ [d]) env.sr).at (ls.length + 2) = .ok c := by
        simp [Sample.at, sides]
      rw [voiceOut, if_neg (by simp [sides]), if_pos (by simp [sides]), stereoRead, if_pos (by decide +kernel), hlen']
      simp only [e1, e2, bind, Except.bind, Except.toOption, Option.getD]
    rw [if_pos ha, s0, hr]
    exact ⟨hval a (by simp), hval c (by simp)⟩
  · rintro rfl
    have ha : alive (ls.length + 2) (0, .fin ((ls.length + 2 : Nat) : ℚ)) = true := by
      rw [alive, s1]; decide +kernel
    have hr : voiceOut (sides (a :: ls ++ [b]) (c :: rs ++ [d]) env.sr) (.fin 1) = some (b, d) := by
      have e1 : (sides (a :: ls ++ [b]) (c :: rs ++ [d]) env.sr).at (ls.length + 1) = .ok b := by
        simp [Sample.at, sides]
      have e2 : (sides (a :: ls ++ [b]) (c :: rs ++ [d]) env.sr).at (2 * ls.length + 3) = .ok d := by
        have : (a :: ls ++ [b]) ++ (c :: rs ++ [d]) = ((a :: ls ++ [b]) ++ c :: rs) ++ [d] := by simp
        simp only [Sample.at, sides, this]
        have hlast : 2 * ls.length + 3 = ((a :: ls ++ [b]) ++ c :: rs).length := by simp; omega
        rw [hlast, List.getElem?_concat_length]
      have e3 : (sides (a :: ls ++ [b]) (c :: rs ++ [d]) env.sr).data.length = 2 * ls.length + 4 := by
        simp [sides]; omega
      have e4 : usizeSub (ls.length + 2) 1 = .ok (ls.length + 1) := if_pos (by omega)
      have e5 : usizeSub (2 * ls.length + 4) 1 = .ok (2 * ls.length + 3) := if_pos (by omega)
      rw [voiceOut, if_neg (by simp [sides]), if_pos (by simp [sides]), stereoRead, if_neg (by decide +kernel),
        if_pos (by decide +kernel), hlen', e3, e4, e5]
      simp only [e1, e2, bind, Except.bind, Except.toOption, Option.getD]
    rw [if_pos ha, s1, hr]
    exact ⟨hval b (by simp), hval d (by simp)⟩
  · intro hlt
    rw [if_neg (by rw [s2 t hlt]; simp)]
    exact ⟨rfl, rfl⟩

/-- A sample of two frames, triggered once and then left alone: it ends with its last frame after two samples. -/
example (P : Plat) :
    (∀ x, x ∈ (Fl.fin 1 :: [] ++ [.fin 2]) ++ (.fin 3 :: [] ++ [.fin 4]) → x.Ok f32 ∧ x.isFinite = true) ∧
    (play P 4 ⟨[("a".toList, ⟨(.fin 1 :: [] ++ [.fin 2]) ++ (.fin 3 :: [] ++ [.fin 4]), 2, 44100⟩)], 44100, .fin 120, 0⟩
      (.sp "a".toList) [.index 0] (monoFrom 0 [[.fin 1, .fin 0, .fin 0, .fin 0]])) =
      .ok [[[.fin 1, .fin 1, .fin 2, .fin 0], [.fin 3, .fin 4, .fin 4, .fin 0]]] := by
  refine ⟨?_, by kernel_rfl⟩
  intro x hx
  have h : ∀ n : Nat, n ≤ 4 → (Fl.fin (n : ℚ)).Ok f32 := fun n hn => by
    have h1 := f32_rep_int (n := (n : Int)) (by rw [abs_of_nonneg (by positivity)]; exact_mod_cast (by omega : n ≤ 2 ^ 24))
    have h2 : (n : ℚ) ≤ 2 ^ 24 := by exact_mod_cast (by omega : n ≤ 2 ^ 24)
    exact ⟨by exact_mod_cast h1, by
      rw [abs_of_nonneg (Nat.cast_nonneg n), f32_maxFin]
      exact h2.trans (by norm_num)⟩
  simp only [List.cons_append, List.nil_append, List.mem_cons, List.not_mem_nil, or_false] at hx
  rcases hx with rfl | rfl | rfl | rfl
  · exact ⟨by simpa using h 1 (by omega), rfl⟩
  · exact ⟨by simpa using h 2 (by omega), rfl⟩
  · exact ⟨by simpa using h 3 (by omega), rfl⟩
  · exact ⟨by simpa using h 4 (by omega), rfl⟩

end Verif.Props
