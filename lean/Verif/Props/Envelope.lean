import Verif.Lemmas.Loop
import Verif.Spec.Signal

/-! # Envelopes (C22, C23) -/

namespace Verif.Props
open Spec

/-! ### envperc -/

/-- A quotient of counters. -/
theorem ratio_within {p a : Nat} (h : p ≤ a) (ha : 1 ≤ a) (hb : a ≤ 2 ^ 64) :
    Within 0 1 (Fl.ofNat f32 p /. Fl.ofNat f32 a) ∧
    (p = a → (Fl.ofNat f32 p /. Fl.ofNat f32 a).val = 1) ∧
    (p = 0 → (Fl.ofNat f32 p /. Fl.ofNat f32 a).val = 0) ∧
    (a ≤ 2 ^ 24 → (Fl.ofNat f32 p /. Fl.ofNat f32 a).val = f32.rnd (p / a)) := by
  obtain ⟨p1, p2⟩ := f32_ofNat_big (le_trans h hb)
  obtain ⟨a1, a2⟩ := f32_ofNat_big hb
  have hp0 : (0 : ℚ) ≤ f32.rnd p := Fmt.rnd_nonneg (by positivity)
  have ha1 : (1 : ℚ) ≤ f32.rnd a := Fmt.le_rnd f32_p rep1 (by exact_mod_cast ha)
  have hpa : f32.rnd (p : ℚ) ≤ f32.rnd a := Fmt.rnd_mono f32_p (by exact_mod_cast h)
  have hne : (Fl.ofNat f32 a).val ≠ 0 := by rw [a2]; linarith
  have h0 : 0 ≤ (Fl.ofNat f32 p).val / (Fl.ofNat f32 a).val := by
    rw [p2, a2]; exact div_nonneg hp0 (by linarith)
  have h1 : (Fl.ofNat f32 p).val / (Fl.ofNat f32 a).val ≤ 1 := by
    rw [p2, a2, div_le_one (by linarith)]; exact hpa
  have hd := Fl.div_fin (f := f32) p1 a1 hne (inRange_of h0 h1 (by norm_num) (by norm_num))
  refine ⟨within_of_fin hd rep0 rep1 h0 h1, ?_, ?_, ?_⟩
  · intro he
    subst he
    rw [hd.2, div_self hne]
    exact Fmt.rnd_rep f32_p rep1
  · intro he
    subst he
    rw [hd.2, p2]
    simp [Fmt.rnd_zero]
  · intro hs
    rw [hd.2, (f32_ofNat hs).2, (f32_ofNat (le_trans h hs)).2]

/-- The shape is between 0 and 1, 1 after the attack, 0 after the decay, and linear between. -/
theorem percShape_spec {a d p : Nat} (ha : a ≤ 2 ^ 54) (hd : d ≤ 2 ^ 54) :
    Within 0 1 (percShape a d p) ∧ (p = a → 1 ≤ a → (percShape a d p).val = 1) ∧
    (a + d < p → (percShape a d p).val = 0) ∧
    (a ≤ 2 ^ 24 → d ≤ 2 ^ 24 → (percShape a d p).val = f32.rnd (percRamp a d p)) := by
  have w0 : Within 0 1 (Fl.fin 0) := ⟨rfl, le_refl _, by simp [Fl.val]⟩
  have r0 : (Fl.fin 0).val = f32.rnd 0 := by rw [Fmt.rnd_zero]; rfl
  unfold percShape percRamp
  by_cases h1 : p ≤ a
  · rw [if_pos h1, if_pos h1]
    by_cases h0 : a = 0
    · rw [if_pos h0, if_pos h0]
      exact ⟨w0, fun _ h => by omega, fun _ => rfl, fun _ _ => r0⟩
    · rw [if_neg h0, if_neg h0]
      obtain ⟨q1, q2, q3, q4⟩ := ratio_within h1 (by omega) (le_trans ha (by norm_num))
      exact ⟨q1, fun h _ => q2 h, fun h => by omega, fun h _ => q4 h⟩
  · rw [if_neg h1, if_neg h1]
    by_cases h2 : p ≤ a + d
    · rw [if_pos h2, if_pos h2, if_neg (by omega : ¬ d = 0)]
      obtain ⟨q1, q2, q3, q4⟩ := ratio_within (p := a + d - p) (a := d) (by omega) (by omega)
        (le_trans hd (by norm_num))
      refine ⟨q1, fun h => by omega, fun h => by omega, fun _ h => ?_⟩
      rw [q4 h, Nat.cast_sub h2]
    · rw [if_neg h2, if_neg h2]
      exact ⟨w0, fun h => by omega, fun _ => rfl, fun _ _ => r0⟩

theorem positive_fin {x : Fl} (hx : x.isFinite = true) : Positive x ↔ 0 < x.val :=
  Fl.lt_fin (a := .fin 0) rfl hx

theorem ok_rep {x : Fl} (h : x.Ok f32) : f32.Rep x.val ∧ |x.val| ≤ f32.maxFin := by
  cases x with
  | nan => exact ⟨rep0, by simpa [Fl.val] using Fmt.maxFin_nonneg⟩
  | inf s => exact ⟨rep0, by simpa [Fl.val] using Fmt.maxFin_nonneg⟩
  | nz => exact ⟨rep0, by simpa [Fl.val] using Fmt.maxFin_nonneg⟩
  | fin q => exact h

/-- A factor between 0 and 1. -/
theorem scale_within {s x : Fl} (hs : Within 0 1 s) (hx : x.isFinite = true) (ho : x.Ok f32)
    (h0 : 0 ≤ x.val) : Within 0 x.val (s *. x) ∧ (s *. x).val = f32.rnd (s.val * x.val) := by
  obtain ⟨r1, r2⟩ := ok_rep ho
  have h1 : s.val * x.val ≤ x.val := by
    have := mul_le_mul_of_nonneg_right hs.2.2 h0; linarith
  have h2 : 0 ≤ s.val * x.val := mul_nonneg hs.2.1 h0
  rw [abs_of_nonneg h0] at r2
  have hm := Fl.mul_fin (f := f32) hs.1 hx (by
    unfold InRange
    rw [abs_of_nonneg (Fmt.rnd_nonneg h2)]
    exact le_trans (Fmt.rnd_le f32_p r1 h1) r2)
  exact ⟨within_of_fin hm rep0 r1 h2 h1, hm.2⟩

/-- The output of the envelope after a trigger. -/
theorem perc_at {a d p : Nat} (ha : a ≤ 2 ^ 54) (hd : d ≤ 2 ^ 54) {x : Fl} (hx : x.isFinite = true)
    (ho : x.Ok f32) (h0 : 0 ≤ x.val) : PercAt a d p x (percShape a d p *. x) := by
  obtain ⟨s1, s2, s3, s4⟩ := percShape_spec (p := p) ha hd
  obtain ⟨m1, m2⟩ := scale_within s1 hx ho h0
  refine ⟨m1, fun h1 h2 => ?_, fun h => ?_, fun h1 h2 => ?_⟩
  · rw [m2, s2 h1 h2, one_mul]; exact Fmt.rnd_rep f32_p (ok_rep ho).1
  · rw [m2, s3 h, zero_mul, Fmt.rnd_zero]
  · have hr0 : 0 ≤ percRamp a d p := by
      unfold percRamp
      split
      · split
        · exact le_refl _
        · positivity
      · split
        · next h =>
          apply div_nonneg _ (by positivity)
          have : (p : ℚ) ≤ ((a + d : Nat) : ℚ) := by exact_mod_cast h
          linarith
        · exact le_refl _
    have hr1 : percRamp a d p ≤ 1 := by
      unfold percRamp
      split
      · next h =>
        split
        · norm_num
        · next h0 =>
          rw [div_le_one (by exact_mod_cast Nat.pos_of_ne_zero h0)]
          exact_mod_cast h
      · split
        · next h h' =>
          have hd0 : (0 : ℚ) < d := by exact_mod_cast (by omega : 0 < d)
          rw [div_le_one hd0]
          have : (a : ℚ) ≤ (p : ℚ) := by exact_mod_cast (not_le.mp h).le
          push_cast; linarith
        · norm_num
    have e1 := f32_err (percRamp a d p)
    rw [← s4 h1 h2, abs_of_nonneg hr0] at e1
    have e2 := f32_err ((percShape a d p).val * x.val)
    rw [← m2, abs_of_nonneg (mul_nonneg s1.2.1 h0)] at e2
    have e3 : |(percShape a d p).val * x.val - percRamp a d p * x.val| ≤
        (1 / 2 ^ 24 + 1 / 2 ^ 150) * x.val := by
      rw [← sub_mul, abs_mul, abs_of_nonneg h0]
      apply mul_le_mul_of_nonneg_right _ h0
      have : percRamp a d p / 2 ^ 24 ≤ 1 / 2 ^ 24 :=
        div_le_div_of_nonneg_right hr1 (by positivity)
      linarith
    have e4 : (percShape a d p).val * x.val / 2 ^ 24 ≤ x.val / 2 ^ 24 := by
      apply div_le_div_of_nonneg_right _ (by positivity)
      have := mul_le_mul_of_nonneg_right s1.2.2 h0; linarith
    have e5 : ((1 : ℚ) / 2 ^ 24 + 1 / 2 ^ 150) * x.val + x.val / 2 ^ 24 ≤ x.val / 2 ^ 22 := by
      have : ((1 : ℚ) / 2 ^ 24 + 1 / 2 ^ 150) * x.val + x.val / 2 ^ 24
        = x.val * (1 / 2 ^ 24 + 1 / 2 ^ 150 + 1 / 2 ^ 24) := by ring
      rw [this, show x.val / 2 ^ 22 = x.val * (1 / 2 ^ 22) by ring]
      exact mul_le_mul_of_nonneg_left (by norm_num) h0
    rw [abs_le] at e2 e3 ⊢
    constructor <;> linarith

/-- Without a trigger the envelope made at the start runs on. -/
theorem perc_untriggered {a d : Nat} {sc : Fl} {xs : List Fl} {t : Nat} (ht : t < xs.length)
    (h : Untriggered xs t) :
    (run (percStep a d) (0, sc) xs).2[t]? = some (percShape a d t *. sc) := by
  obtain ⟨st, h0, _, h2⟩ := run_states (percStep a d) (0, sc) xs
  have key : ∀ u, u ≤ t → st u = (u, sc) := by
    intro u hu
    induction u with
    | zero => exact h0
    | succ u ih =>
      have hu' : u < xs.length := by omega
      have := (h2 u xs[u] (by simp [hu'])).2
      rw [this, ih (by omega)]
      have hn := h u xs[u] (by omega) (by simp [hu'])
      unfold Positive at hn
      simp [percStep, hn]
  obtain ⟨g1, _⟩ := h2 t xs[t] (by simp [ht])
  rw [g1, key t (le_refl _)]
  have hn := h t xs[t] (le_refl _) (by simp [ht])
  unfold Positive at hn
  simp [percStep, hn]

/-- After a trigger the envelope starts anew. -/
theorem perc_triggered {a d : Nat} {s0 : Nat × Fl} {xs : List Fl} {t s : Nat} {x : Fl}
    (ht : t < xs.length) (h : LastTrigger xs t s x) :
    (run (percStep a d) s0 xs).2[t]? = some (percShape a d (t - s) *. x) := by
  obtain ⟨st, h0, _, h2⟩ := run_states (percStep a d) s0 xs
  obtain ⟨hs, hx, hp, hn⟩ := h
  have key : ∀ j, s + j ≤ t → (run (percStep a d) s0 xs).2[s + j]? = some (percShape a d j *. x) ∧
      st (s + j + 1) = (j + 1, x) := by
    intro j hj
    induction j with
    | zero =>
      obtain ⟨g1, g2⟩ := h2 s x hx
      unfold Positive at hp
      rw [Nat.add_zero, g1, g2]
      simp [percStep, hp]
    | succ j ih =>
      have hu' : s + (j + 1) < xs.length := by omega
      obtain ⟨g1, g2⟩ := h2 (s + (j + 1)) xs[s + (j + 1)] (by simp [hu'])
      have hq := hn (s + (j + 1)) xs[s + (j + 1)] (by omega) hj (by simp [hu'])
      unfold Positive at hq
      have hst : st (s + (j + 1)) = (j + 1, x) := (ih (by omega)).2
      rw [g1, g2, hst]
      simp [percStep, hq]
  have := (key (t - s) (by omega)).1
  rwa [Nat.add_sub_cancel' hs] at this

theorem envperc_make (P : Plat) (N : Nat) (env : Env) (a d : Fl) (k : Nat) :
    makeNode P N env.samples env.sr env.bpm env.seed (.envperc a d) =
      .ok (fresh N 2 (.prim (.envperc (EnvPerc.new a d env.sr))), []) ∧
    sendMsgs (fresh N 2 (GNode.prim (P := P) (.envperc (EnvPerc.new a d env.sr)))).node [.index k] =
      .ok (.prim (.envperc ⟨a, d, 0, .fin 1, env.sr, [k]⟩)) := ⟨rfl, rfl⟩

/-- The output of the node over any number of blocks. -/
theorem envperc_blocks (P : Plat) (N : Nat) (env : Env) (a d : Fl) (k : Nat) (xs : List Buf)
    (hN : Sized N xs) (ho : secToSamples env.sr a + secToSamples env.sr d < 2 ^ 64) :
    ∃ outs, play P N env (.envperc a d) [.index k] (monoFrom k xs) = .ok outs ∧
      channel 0 outs = some
        (run (percStep (secToSamples env.sr a) (secToSamples env.sr d)) (0, .fin 1) xs.flatten).2 ∧
      channel 1 outs = some (List.replicate xs.flatten.length (.fin 0)) := by
  obtain ⟨o, g1, g2, g3⟩ := blocks_left (procG P)
    (fun s : Nat × Fl => .prim (.envperc ⟨a, d, s.1, s.2, env.sr, [k]⟩))
    (fun s x => .ok (percStep (secToSamples env.sr a) (secToSamples env.sr d) s x))
    (fun x => [(k, [x])]) N xs hN
    (fun s x p q _ _ => by
      have hadd : usizeAdd (secToSamples env.sr a) (secToSamples env.sr d) = .ok _ := if_pos ho
      rw [runM_pure]
      simp [procG, procPrim, procEnvPerc, hadd, inputAt, chan, bind, Except.bind, reState,
        blockOf])
    (0, .fin 1) _ (leftOnly_fresh N (GNode.prim (P := P) (.envperc (EnvPerc.new a d env.sr)))) _
    (runM_pure _ _ _)
  exact ⟨o, play_ok (envperc_make P N env a d k).1 (envperc_make P N env a d k).2 g1, g2, g3⟩

/-- C22 up to the envelope that a new node plays without being triggered (see
`c22_creation_counterexample`): there are numbers of samples `a` and `d` for attack and decay such that after
every trigger the output rises from 0 to the amplitude of the trigger in `a` samples, falls to 0 in
`d` samples, and stays 0. A node that has not been triggered yet acts as if it had been triggered
with amplitude 1 before its first sample. Only the left channel gets this output. -/
theorem c22_envperc_partial (P : Plat) (N : Nat) (env : Env) (attack decay : Fl) (k : Nat) (xs : List Buf)
    (hN : Sized N xs) (hsr : env.sr ≤ 2 ^ 24)
    (ha : Within 0 (2 ^ 30) attack) (hd : Within 0 (2 ^ 30) decay)
    (hx : ∀ x, x ∈ xs.flatten → Positive x → x.isFinite = true ∧ x.Ok f32) :
    ∃ outs ys a d, play P N env (.envperc attack decay) [.index k] (monoFrom k xs) = .ok outs ∧
      channel 0 outs = some ys ∧ ys.length = xs.flatten.length ∧
      channel 1 outs = some (List.replicate ys.length (.fin 0)) ∧
      InSamples env.sr attack a ∧ InSamples env.sr decay d ∧
      ∀ t y, ys[t]? = some y →
        (∀ s x, LastTrigger xs.flatten t s x → PercAt a d (t - s) x y) ∧
        (Untriggered xs.flatten t → PercAt a d t (.fin 1) y) := by
  obtain ⟨a1, a2⟩ := secToSamples_close hsr ha.1 ha.2.1 ha.2.2
  obtain ⟨d1, d2⟩ := secToSamples_close hsr hd.1 hd.2.1 hd.2.2
  obtain ⟨o, g1, g2, g3⟩ := envperc_blocks P N env attack decay k xs hN (by omega)
  have hl : (run (percStep (secToSamples env.sr attack) (secToSamples env.sr decay)) (0, .fin 1)
    xs.flatten).2.length = xs.flatten.length := run_length _ _ _
  refine ⟨o, _, _, _, g1, g2, hl, by rw [hl]; exact g3, a1, d1, fun t y hy => ?_⟩
  have ht : t < xs.flatten.length := by
    rw [← hl]; exact (List.getElem?_eq_some_iff.mp hy).1
  constructor
  · intro s x hs
    rw [perc_triggered ht hs, Option.some.injEq] at hy
    obtain ⟨_, h2, h3, _⟩ := hs
    obtain ⟨x1, x2⟩ := hx x (List.mem_of_getElem? h2) h3
    rw [← hy]
    exact perc_at a2 d2 x1 x2 ((positive_fin x1).mp h3).le
  · intro hs
    rw [perc_untriggered ht hs, Option.some.injEq] at hy
    rw [← hy]
    refine perc_at a2 d2 rfl ⟨rep1, ?_⟩ (by norm_num [Fl.val])
    rw [f32_maxFin]; norm_num

/-- A trigger of amplitude 1/2 in the second block. -/
example : ∃ (env : Env) (attack decay : Fl) (xs : List Buf), Sized 2 xs ∧ env.sr ≤ 2 ^ 24 ∧
    Within 0 (2 ^ 30) attack ∧ Within 0 (2 ^ 30) decay ∧
    (∀ x, x ∈ xs.flatten → Positive x → x.isFinite = true ∧ x.Ok f32) ∧
    LastTrigger xs.flatten 3 2 (.fin (1 / 2)) ∧ Untriggered xs.flatten 1 := by
  refine ⟨⟨[], 44100, .fin 120, 0⟩, .fin (1 / 8), .fin (1 / 4),
    [[.fin 0, .fin 0], [.fin (1 / 2), .fin 0]], ?_, by decide, ⟨rfl, ?_, ?_⟩, ⟨rfl, ?_, ?_⟩, ?_, ?_, ?_⟩
  · intro x hx; simp only [List.mem_cons, List.not_mem_nil, or_false] at hx
    rcases hx with rfl | rfl <;> rfl
  · norm_num [Fl.val]
  · norm_num [Fl.val]
  · norm_num [Fl.val]
  · norm_num [Fl.val]
  · intro x hx hp
    simp only [List.flatten_cons, List.flatten_nil, List.append_nil, List.cons_append, List.nil_append,
      List.mem_cons, List.not_mem_nil, or_false] at hx
    rcases hx with rfl | rfl | rfl | rfl
    · simp [Positive, Fl.lt, Fl.val] at hp
    · simp [Positive, Fl.lt, Fl.val] at hp
    · exact ⟨rfl, rephalf, by rw [f32_maxFin, abs_of_pos] <;> norm_num⟩
    · simp [Positive, Fl.lt, Fl.val] at hp
  · refine ⟨by decide, rfl, by norm_num [Positive, Fl.lt, Fl.val], ?_⟩
    intro u z h1 h2 hz
    have : u = 3 := by omega
    subst this
    cases hz
    simp [Positive, Fl.lt, Fl.val]
  · intro u z h1 hz
    have : u = 0 ∨ u = 1 := by omega
    rcases this with rfl | rfl <;> cases hz <;> simp [Positive, Fl.lt, Fl.val]

/-- C22 fails for a node that has not been triggered: fed with silence it is not silent. -/
theorem c22_creation_counterexample (P : Plat) (N : Nat) (env : Env) (k : Nat) (hN : 2 ≤ N)
    (hsr : env.sr = 44100) :
    ∃ attack decay : Fl, Within 0 1 attack ∧ Within 0 1 decay ∧
      ¬ ∀ (xs : List Buf), Sized N xs → ∃ outs ys,
        play P N env (.envperc attack decay) [.index k] (monoFrom k xs) = .ok outs ∧
        channel 0 outs = some ys ∧ ∀ t y, ys[t]? = some y → Untriggered xs.flatten t → y.val = 0 := by
  have hw : ∀ q : ℚ, 0 ≤ q → q ≤ 1 → Within 0 1 (.fin q) := fun q h1 h2 => ⟨rfl, h1, h2⟩
  refine ⟨.fin (1 / 2), .fin (1 / 2), hw _ (by norm_num) (by norm_num), hw _ (by norm_num) (by norm_num), ?_⟩
  intro h
  have hs : Sized N [List.replicate N (Fl.fin 0)] := by
    intro x hx; simp only [List.mem_singleton] at hx; simp [hx]
  obtain ⟨outs, ys, p1, p2, p3⟩ := h _ hs
  have hv : secToSamples env.sr (.fin (1 / 2)) = 22050 := by rw [hsr]; decide +kernel
  obtain ⟨o, g1, g2, _⟩ := envperc_blocks P N env (.fin (1 / 2)) (.fin (1 / 2)) k _ hs (by rw [hv]; decide)
  rw [p1] at g1; cases g1
  rw [p2, hv, Option.some.injEq] at g2
  have hu : Untriggered [List.replicate N (Fl.fin 0)].flatten 1 := by
    intro u z _ hz
    have := List.mem_of_getElem? hz
    simp only [List.flatten_cons, List.flatten_nil, List.append_nil, List.mem_replicate] at this
    rw [this.2]; simp [Positive, Fl.lt, Fl.val]
  have ht : 1 < [List.replicate N (Fl.fin 0)].flatten.length := by simp; omega
  have hg := perc_untriggered (a := 22050) (d := 22050) (sc := .fin 1) ht hu
  rw [← g2] at hg
  have := p3 1 _ hg hu
  revert this
  decide +kernel

/-! ### adsr -/

/-- Parameters of an envelope in samples. -/
structure AdsrOk (a d : Nat) (sus : Fl) : Prop where
  ha : a ≤ 2 ^ 54
  hd : d ≤ 2 ^ 54
  hs : Within 0 1 sus
  ho : sus.Ok f32

theorem w01_err {x : ℚ} (h0 : 0 ≤ x) (h1 : x ≤ 1) : |f32.rnd x - x| ≤ 1 / 2 ^ 23 := by
  have := f32_err x
  rw [abs_of_nonneg h0] at this
  have h2 : x / 2 ^ 24 ≤ 1 / 2 ^ 24 := div_le_div_of_nonneg_right h1 (by positivity)
  have h3 : (1 : ℚ) / 2 ^ 24 + 1 / 2 ^ 150 ≤ 1 / 2 ^ 23 := by norm_num
  linarith

theorem one_sub_within {x : Fl} (h : Within 0 1 x) :
    Within 0 1 (.fin 1 -. x) ∧ (Fl.fin 1 -. x).val = f32.rnd (1 - x.val) := by
  have h0 : 0 ≤ (Fl.fin 1).val - x.val := by have := h.2.2; simp only [Fl.val_fin]; linarith
  have h1 : (Fl.fin 1).val - x.val ≤ 1 := by have := h.2.1; simp only [Fl.val_fin]; linarith
  have hs := Fl.sub_fin (f := f32) (a := .fin 1) rfl h.1
    (inRange_of h0 h1 (by norm_num) (by norm_num))
  exact ⟨within_of_fin hs rep0 rep1 h0 h1, hs.2⟩

theorem mul01_within {x y : Fl} (hx : Within 0 1 x) (hy : Within 0 1 y) :
    Within 0 1 (x *. y) ∧ (x *. y).val = f32.rnd (x.val * y.val) ∧ (x *. y).val ≤ y.val + 1 / 2 ^ 23 := by
  have h0 : 0 ≤ x.val * y.val := mul_nonneg hx.2.1 hy.2.1
  have h1 : x.val * y.val ≤ 1 := mul_le_one₀ hx.2.2 hy.2.1 hy.2.2
  have hm := Fl.mul_fin (f := f32) hx.1 hy.1 (inRange_of h0 h1 (by norm_num) (by norm_num))
  refine ⟨within_of_fin hm rep0 rep1 h0 h1, hm.2, ?_⟩
  have := w01_err h0 h1
  rw [hm.2]
  rw [abs_le] at this
  have : x.val * y.val ≤ 1 * y.val := mul_le_mul_of_nonneg_right hx.2.2 hy.2.1
  linarith

/-- A number just above 1 is rounded to 1. -/
theorem rnd_one {x : ℚ} (h : x ≤ 1 + 1 / 2 ^ 24) : f32.rnd x ≤ 1 := by
  have h1 : f32.rnd (1 + 1 / 2 ^ 24) = 1 := by decide +kernel
  rw [← h1]
  exact Fmt.rnd_mono f32_p h

/-- The half unit in the last place of numbers up to 1. -/
theorem w01_err' {x : ℚ} (h0 : 0 ≤ x) (h1 : x ≤ 1) : f32.rnd x ≤ x + 1 / 2 ^ 24 := by
  by_cases h : x = 0
  · subst h; rw [Fmt.rnd_zero]; norm_num
  have he := Fmt.rnd_err (f := f32) x
  have hx : 0 < |x| := abs_pos.mpr h
  have hl : ilog2 |x| ≤ 0 := by
    have h3 : pow2 0 = 1 := rfl
    have h4 : pow2 (ilog2 |x|) < pow2 1 := by
      refine lt_of_le_of_lt (ilog2_spec hx).1 ?_
      rw [abs_of_nonneg h0]
      exact lt_of_le_of_lt h1 (by rw [← h3]; exact pow2_lt (by norm_num))
    have := pow2_lt_iff.mp h4
    omega
  have hq : f32.quantum x ≤ -23 := by
    rw [Fmt.quantum]
    have : (f32.p : Int) = 24 := rfl
    have : f32.emin = -149 := rfl
    omega
  have h2 : pow2 (f32.quantum x) ≤ 1 / 2 ^ 23 := by
    refine le_trans (pow2_le hq) ?_
    rw [pow2_eq]; norm_num
  rw [abs_le] at he
  have : (1 : ℚ) / 2 ^ 23 / 2 = 1 / 2 ^ 24 := by norm_num
  linarith [he.2]

/-- The value while the gate is up. -/
theorem held_within {a d : Nat} {sus c : Fl} (hp : AdsrOk a d sus) (hc : Within 0 1 c) (p : Nat) :
    ∃ y, adsrHeld a d sus c p = .ok y ∧ Within 0 1 y ∧ y.Ok f32 ∧ (c.val = 0 → HeldAt a d sus p y) := by
  have hdec : ∀ r : Fl, Within 0 1 r → Within sus.val 1 (r *. (.fin 1 -. sus) +. sus) ∧
      |(r *. (.fin 1 -. sus) +. sus).val - (sus.val + r.val * (1 - sus.val))| ≤ 4 / 2 ^ 23 := by
    intro r hr
    obtain ⟨q1, q2⟩ := one_sub_within hp.hs
    obtain ⟨m1, m2, _⟩ := mul01_within hr q1
    have hrep := (ok_rep hp.ho).1
    have hs0 := hp.hs.2.1
    have hs1 := hp.hs.2.2
    have e1 := w01_err' (x := 1 - sus.val) (by linarith) (by linarith)
    rw [← q2] at e1
    have hmle : (r *. (.fin 1 -. sus)).val ≤ (Fl.fin 1 -. sus).val := by
      rw [m2]
      have hr' : f32.Rep (Fl.fin 1 -. sus).val := by rw [q2]; exact Fmt.rep_rnd _
      apply Fmt.rnd_le f32_p hr'
      have := mul_le_mul_of_nonneg_right hr.2.2 q1.2.1
      linarith
    have hle : (r *. (.fin 1 -. sus)).val + sus.val ≤ 1 + 1 / 2 ^ 24 := by linarith
    have hge : sus.val ≤ (r *. (.fin 1 -. sus)).val + sus.val := by linarith [m1.2.1]
    have ha := Fl.add_fin (f := f32) m1.1 hp.hs.1
      (inRange_of (lo := 0) (hi := 2) (by linarith) (by
        refine le_trans hle ?_; norm_num) (by norm_num) (by norm_num))
    refine ⟨⟨ha.1, ?_, ?_⟩, ?_⟩
    · rw [ha.2]; exact Fmt.le_rnd f32_p hrep hge
    · rw [ha.2]; exact rnd_one hle
    · have e2 := w01_err (x := 1 - sus.val) (by linarith) (by linarith)
      rw [← q2] at e2
      have e3 := w01_err (mul_nonneg hr.2.1 q1.2.1) (mul_le_one₀ hr.2.2 q1.2.1 q1.2.2)
      rw [← m2] at e3
      have e4 := f32_err ((r *. (.fin 1 -. sus)).val + sus.val)
      rw [← ha.2, abs_of_nonneg (show 0 ≤ (r *. (.fin 1 -. sus)).val + sus.val by
        linarith [m1.2.1])] at e4
      have e5 : ((r *. (.fin 1 -. sus)).val + sus.val) / 2 ^ 24 ≤ (1 + 1 / 2 ^ 24) / 2 ^ 24 :=
        div_le_div_of_nonneg_right hle (by positivity)
      have e6 : |r.val * (Fl.fin 1 -. sus).val - r.val * (1 - sus.val)| ≤ 1 / 2 ^ 23 := by
        rw [← mul_sub, abs_mul, abs_of_nonneg hr.2.1]
        calc r.val * |(Fl.fin 1 -. sus).val - (1 - sus.val)| ≤ 1 * (1 / 2 ^ 23) :=
              mul_le_mul hr.2.2 e2 (abs_nonneg _) (by norm_num)
          _ = 1 / 2 ^ 23 := one_mul _
      have e7 : ((1 : ℚ) + 1 / 2 ^ 24) / 2 ^ 24 + 1 / 2 ^ 150 ≤ 2 / 2 ^ 23 := by norm_num
      have e8 : (4 : ℚ) / 2 ^ 23 = 1 / 2 ^ 23 + 1 / 2 ^ 23 + 2 / 2 ^ 23 := by norm_num
      rw [abs_le] at e3 e4 e6 ⊢
      constructor <;> linarith
  unfold adsrHeld
  by_cases h1 : p ≤ a
  · rw [if_pos h1]
    by_cases h0 : a = 0
    · rw [if_pos h0]
      refine ⟨_, rfl, ⟨rfl, le_refl _, by simp [Fl.val]⟩, Fl.zero_ok, fun _ => ⟨?_, ?_, ?_, ?_, ?_⟩⟩ <;> intros <;> omega
    · rw [if_neg h0]
      obtain ⟨r1, r2, r3, r4⟩ := ratio_within h1 (by omega) (le_trans hp.ha (by norm_num))
      obtain ⟨q1, q2⟩ := one_sub_within hc
      obtain ⟨m1, m2, _⟩ := mul01_within r1 q1
      refine ⟨_, rfl, m1, Fl.mul_ok _ _, fun hz => ?_⟩
      have hq : (Fl.fin 1 -. c).val = 1 := by rw [q2, hz, sub_zero]; exact Fmt.rnd_rep f32_p rep1
      rw [hq, mul_one] at m2
      have hval : (Fl.ofNat f32 p /. Fl.ofNat f32 a *. (.fin 1 -. c)).val =
          (Fl.ofNat f32 p /. Fl.ofNat f32 a).val := by
        rw [m2]
        apply Fmt.rnd_rep f32_p
        obtain ⟨p1, p2⟩ := f32_ofNat_big (le_trans h1 (le_trans hp.ha (by norm_num)))
        obtain ⟨a1, a2⟩ := f32_ofNat_big (n := a) (le_trans hp.ha (by norm_num))
        have hdv : Fl.ofNat f32 p /. Fl.ofNat f32 a = _ := rfl
        have hne : (Fl.ofNat f32 a).val ≠ 0 := by
          rw [a2]
          have := Fmt.le_rnd f32_p rep1 (show (1 : ℚ) ≤ a by exact_mod_cast (by omega : 1 ≤ a))
          linarith
        have hr0 : (0 : ℚ) ≤ f32.rnd p := Fmt.rnd_nonneg (by positivity)
        have hr1 : (1 : ℚ) ≤ f32.rnd a :=
          Fmt.le_rnd f32_p rep1 (by exact_mod_cast (by omega : 1 ≤ a))
        have hr2 : f32.rnd (p : ℚ) ≤ f32.rnd a := Fmt.rnd_mono f32_p (by exact_mod_cast h1)
        rw [(Fl.div_fin (f := f32) p1 a1 hne (inRange_of (lo := 0) (hi := 1)
          (by rw [p2, a2]; exact div_nonneg hr0 (by linarith))
          (by rw [p2, a2, div_le_one (by linarith)]; exact hr2) (by norm_num) (by norm_num))).2]
        exact Fmt.rep_rnd _
      refine ⟨fun h _ => by rw [hval]; exact r2 h, fun _ _ hs => ?_, fun h _ => ?_,
        fun h => by omega, fun h => by omega⟩
      · rw [hval, r4 hs]
        have hpa : (p : ℚ) / a ≤ 1 := by
          rw [div_le_one (by exact_mod_cast (by omega : 0 < a))]; exact_mod_cast h1
        refine le_trans (w01_err (by positivity) hpa) (by norm_num)
      · rw [hval, r2 (by omega)]; exact hp.hs.2.2
  · rw [if_neg h1]
    have hadd : usizeAdd a d = .ok (a + d) := if_pos (by have := hp.ha; have := hp.hd; omega)
    simp only [hadd, bind, Except.bind]
    by_cases h2 : p ≤ a + d
    · rw [if_pos h2, if_neg (by omega : ¬ d = 0)]
      obtain ⟨r1, r2, r3, r4⟩ := ratio_within (p := a + d - p) (a := d) (by omega) (by omega)
        (le_trans hp.hd (by norm_num))
      obtain ⟨g1, g2⟩ := hdec _ r1
      refine ⟨_, rfl, ⟨g1.1, le_trans hp.hs.2.1 g1.2.1, g1.2.2⟩, Fl.add_ok _ _,
        fun _ => ⟨fun h => by omega,
        fun h => by omega, fun _ _ => g1.2.1, fun _ _ hd24 => ?_, fun h => by omega⟩⟩
      rw [r4 hd24] at g2
      have hs0 := hp.hs.2.1
      have hs1 := hp.hs.2.2
      have hd0 : (0 : ℚ) < d := by exact_mod_cast (by omega : 0 < d)
      have hle : ((a + d - p : Nat) : ℚ) / d ≤ 1 := by
        rw [div_le_one hd0]; exact_mod_cast (by omega : a + d - p ≤ d)
      have e1 := w01_err (x := ((a + d - p : Nat) : ℚ) / d) (by positivity) hle
      have e2 : |f32.rnd (((a + d - p : Nat) : ℚ) / d) * (1 - sus.val) -
          ((a + d - p : Nat) : ℚ) / d * (1 - sus.val)| ≤ 1 / 2 ^ 23 := by
        rw [← sub_mul, abs_mul, abs_of_nonneg (by linarith : 0 ≤ 1 - sus.val)]
        calc _ ≤ 1 / 2 ^ 23 * 1 := mul_le_mul e1 (by linarith) (by linarith) (by positivity)
          _ = _ := mul_one _
      rw [← Nat.cast_sub h2]
      have e8 : (4 : ℚ) / 2 ^ 23 + 1 / 2 ^ 23 ≤ 1 / 2 ^ 20 := by norm_num
      rw [abs_le] at g2 e2 ⊢
      constructor <;> linarith
    · rw [if_neg h2]
      exact ⟨_, rfl, hp.hs, hp.ho, fun _ => ⟨fun h => by omega, fun h => by omega, fun _ _ => le_refl _,
        fun _ h => by omega, fun _ => rfl⟩⟩

/-- The value after the gate went down. -/
theorem release_within {r : Nat} {c : Fl} (hr : r ≤ 2 ^ 54) (hc : Within 0 1 c) (ho : c.Ok f32)
    (p : Nat) : Within 0 1 (adsrRelease r c p) ∧ (adsrRelease r c p).Ok f32 ∧
      ReleasedAt r c p (adsrRelease r c p) := by
  unfold adsrRelease
  by_cases h : r ≤ p
  · rw [if_pos h]
    refine ⟨⟨rfl, le_refl _, by simp [Fl.val]⟩, Fl.zero_ok,
      hc.2.1, fun _ _ => by omega, fun _ => rfl, fun _ => by omega⟩
  · rw [if_neg h]
    obtain ⟨r1, r2, r3, r4⟩ := ratio_within (p := r - p) (a := r) (by omega) (by omega)
      (le_trans hr (by norm_num))
    obtain ⟨m1, m2, _⟩ := mul01_within r1 hc
    obtain ⟨s1, s2⟩ := scale_within r1 hc.1 ho hc.2.1
    refine ⟨m1, ?_, s1.2.2, fun h0 _ => ?_, fun _ => by omega, fun _ hs => ?_⟩
    · exact Fl.mul_ok _ _
    · rw [m2, r2 (by omega), one_mul]
      exact Fmt.rnd_rep f32_p (ok_rep ho).1
    · have hr0 : (0 : ℚ) < r := by exact_mod_cast (by omega : 0 < r)
      have hle : ((r - p : Nat) : ℚ) / r ≤ 1 := by
        rw [div_le_one hr0]; exact_mod_cast (by omega : r - p ≤ r)
      have e1 := w01_err (x := ((r - p : Nat) : ℚ) / r) (by positivity) hle
      rw [← r4 hs] at e1
      have e2 : |(Fl.ofNat f32 (r - p) /. Fl.ofNat f32 r).val * c.val -
          ((r - p : Nat) : ℚ) / r * c.val| ≤ 1 / 2 ^ 23 := by
        rw [← sub_mul, abs_mul, abs_of_nonneg hc.2.1]
        calc _ ≤ 1 / 2 ^ 23 * 1 := mul_le_mul e1 hc.2.2 hc.2.1 (by positivity)
          _ = _ := mul_one _
      have e3 := w01_err (mul_nonneg r1.2.1 hc.2.1) (mul_le_one₀ r1.2.2 hc.2.1 hc.2.2)
      rw [← m2] at e3
      rw [← Nat.cast_sub (by omega : p ≤ r)]
      have e8 : (1 : ℚ) / 2 ^ 23 + 1 / 2 ^ 23 ≤ 1 / 2 ^ 20 := by norm_num
      rw [abs_le] at e2 e3 ⊢
      constructor <;> linarith

theorem positive_not_zero {x : Fl} (h : Positive x) : Fl.beq x (.fin 0) = false := by
  unfold Positive at h
  cases x with
  | nan => rfl
  | inf s => rfl
  | nz => simp [Fl.lt, Fl.val] at h
  | fin q =>
    have h1 : (0 : ℚ) < q := of_decide_eq_true h
    exact decide_eq_false h1.ne'

theorem zero_not_positive {x : Fl} (h : IsZero x) : Fl.lt (.fin 0) x = false := by
  cases hx : Fl.lt (.fin 0) x with
  | false => rfl
  | true => rw [IsZero, positive_not_zero hx] at h; cases h

/-- What holds of the state between samples. -/
def AdsrInv (s : AdsrState) : Prop :=
  Within 0 1 s.lasty ∧ s.lasty.Ok f32 ∧ Within 0 1 s.changeY ∧ s.changeY.Ok f32

theorem adsrInv_gate {s : AdsrState} (h : AdsrInv s) (x : Fl) : AdsrInv (adsrGate s x) := by
  unfold adsrGate
  obtain ⟨h1, h2, h3, h4⟩ := h
  split
  · exact ⟨h1, h2, h1, h2⟩
  · split
    · exact ⟨h1, h2, h1, h2⟩
    · exact ⟨h1, h2, h3, h4⟩

theorem adsrInv_new : AdsrInv ⟨0, .fin 0, .fin 0, .fin 0, 0⟩ :=
  have w : Within 0 1 (Fl.fin 0) := ⟨rfl, le_refl _, by simp [Fl.val]⟩
  ⟨w, Fl.zero_ok, w, Fl.zero_ok⟩

theorem adsr_step {a d r : Nat} {sus : Fl} (hp : AdsrOk a d sus) (hr : r ≤ 2 ^ 54) {s : AdsrState}
    (h : AdsrInv s) (x : Fl) : ∃ q, adsrStep a d r sus s x = .ok q ∧ AdsrInv q.1 ∧ Within 0 1 q.2 := by
  have hg := adsrInv_gate h x
  have hv : ∃ y, adsrValue a d r sus (adsrGate s x) = .ok y ∧ Within 0 1 y ∧ y.Ok f32 := by
    unfold adsrValue
    split
    · obtain ⟨y, y1, y2, y3, _⟩ := held_within hp hg.2.2.1 (adsrGate s x).pos
      exact ⟨y, y1, y2, y3⟩
    · split
      · obtain ⟨y1, y2, _⟩ := release_within hr hg.2.2.1 hg.2.2.2 (adsrGate s x).pos
        exact ⟨_, rfl, y1, y2⟩
      · exact ⟨_, rfl, ⟨rfl, le_refl _, by simp [Fl.val]⟩, Fl.zero_ok⟩
  obtain ⟨y, y1, y2, y3⟩ := hv
  exact ⟨({ adsrGate s x with lasty := y, lastx := x, pos := (adsrGate s x).pos + 1 }, y),
    by simp only [adsrStep, y1, bind, Except.bind], ⟨y2, y3, hg.2.2⟩, y2⟩

theorem adsr_make (P : Plat) (N : Nat) (env : Env) (a d s r : Fl) (k : Nat) :
    makeNode P N env.samples env.sr env.bpm env.seed (.adsr a d s r) =
      .ok (fresh N 2 (.prim (.adsr (Adsr.new a d s r env.sr))), []) ∧
    sendMsgs (fresh N 2 (GNode.prim (P := P) (.adsr (Adsr.new a d s r env.sr)))).node [.index k] =
      .ok (.prim (.adsr ⟨a, d, s, r, ⟨0, .fin 0, .fin 0, .fin 0, 0⟩, env.sr, [k]⟩)) := ⟨rfl, rfl⟩

/-- The step with the output on both channels. -/
def adsrStep2 (a d r : Nat) (sus : Fl) : AdsrState → Fl → Except Panic (AdsrState × (Fl × Fl)) :=
  reStep id (fun y => (y, y)) (adsrStep a d r sus)

/-- The output of the node over any number of blocks. -/
theorem adsr_blocks (P : Plat) (N : Nat) (env : Env) (a d s r : Fl) (k : Nat) (xs : List Buf)
    (q : AdsrState × List Fl)
    (hq : runM (adsrStep (secToSamples env.sr a) (secToSamples env.sr d) (secToSamples env.sr r) s)
      ⟨0, .fin 0, .fin 0, .fin 0, 0⟩ xs.flatten = .ok q) :
    ∃ outs, play P N env (.adsr a d s r) [.index k] (monoFrom k xs) = .ok outs ∧
      channel 0 outs = some q.2 ∧ channel 1 outs = some q.2 := by
  obtain ⟨o, g1, g2, g3⟩ := blocks_stereo (procG P)
    (fun st => .prim (.adsr ⟨a, d, s, r, st, env.sr, [k]⟩))
    (adsrStep2 (secToSamples env.sr a) (secToSamples env.sr d) (secToSamples env.sr r) s)
    (fun x => [(k, [x])]) (fun o => o.length = 2) xs
    (fun st x out _ ho => by
      obtain ⟨b, c, rfl⟩ := List.length_eq_two.mp ho
      rw [adsrStep2, runM_map]
      simp only [procG, procPrim, procAdsr, inputAt, chan, bind, Except.bind, List.getElem?_cons_zero,
        List.find?_cons, beq_self_eq_true, List.map_id, id]
      cases runM (adsrStep (secToSamples env.sr a) (secToSamples env.sr d) (secToSamples env.sr r) s)
        st x with
      | error e => rfl
      | ok w => simp [reState, Except.map, blockOf, List.map_map, Function.comp_def])
    (fun _ _ _ _ _ => rfl) ⟨0, .fin 0, .fin 0, .fin 0, 0⟩ _
    (shaped_fresh N 2 (GNode.prim (P := P) (.adsr (Adsr.new a d s r env.sr)))).1
    (q.1, q.2.map (fun y => (y, y))) (by rw [adsrStep2, runM_map]; simp [hq, Except.map])
  refine ⟨o, play_ok (adsr_make P N env a d s r k).1 (adsr_make P N env a d s r k).2 g1, ?_, ?_⟩
  · rw [g2]; simp [List.map_map, Function.comp_def]
  · rw [g3]; simp [List.map_map, Function.comp_def]

theorem adsrGate_keep {s : AdsrState} {x : Fl}
    (h1 : ¬ (Positive x ∧ IsZero s.lastx)) (h2 : ¬ (IsZero x ∧ Positive s.lastx)) :
    adsrGate s x = s := by
  unfold Positive IsZero at h1 h2
  unfold adsrGate
  rw [if_neg (by rw [Bool.and_eq_true]; exact h1), if_neg (by rw [Bool.and_eq_true]; exact h2)]

theorem adsrGate_up {s : AdsrState} {x : Fl} (h1 : Positive x) (h2 : IsZero s.lastx) :
    adsrGate s x = { s with phase := 1, pos := 0, changeY := s.lasty } := by
  unfold Positive at h1
  unfold IsZero at h2
  unfold adsrGate
  rw [if_pos (by rw [h1, h2]; rfl)]

theorem adsrGate_down {s : AdsrState} {x : Fl} (h1 : IsZero x) (h2 : Positive s.lastx) :
    adsrGate s x = { s with phase := 2, pos := 0, changeY := s.lasty } := by
  have h3 := zero_not_positive h1
  unfold Positive at h2
  unfold IsZero at h1
  unfold adsrGate
  rw [if_neg (by rw [h3]; simp), if_pos (by rw [h1, h2]; rfl)]

/-- The states of the loop and what they remember. -/
theorem adsr_states {a d r : Nat} {sus : Fl} (hp : AdsrOk a d sus) (hr : r ≤ 2 ^ 54) {xs ys : List Fl}
    {e : AdsrState} (h : runM (adsrStep a d r sus) ⟨0, .fin 0, .fin 0, .fin 0, 0⟩ xs = .ok (e, ys)) :
    ∃ st : Nat → AdsrState, st 0 = ⟨0, .fin 0, .fin 0, .fin 0, 0⟩ ∧
      (∀ t, t ≤ xs.length → AdsrInv (st t)) ∧
      ∀ t x, xs[t]? = some x → ∃ y, ys[t]? = some y ∧
        adsrValue a d r sus (adsrGate (st t) x) = .ok y ∧ Within 0 1 y ∧
        st (t + 1) = { adsrGate (st t) x with lasty := y, lastx := x, pos := (adsrGate (st t) x).pos + 1 } := by
  obtain ⟨st, h0, _, h2⟩ := runM_states h
  have hinv : ∀ t, t ≤ xs.length → AdsrInv (st t) := by
    intro t ht
    induction t with
    | zero => rw [h0]; exact adsrInv_new
    | succ t ih =>
      obtain ⟨q, q1, q2, _⟩ := adsr_step hp hr (ih (by omega)) xs[t]
      obtain ⟨y, _, y2⟩ := h2 t xs[t] (by simp [show t < xs.length by omega])
      rw [q1, Except.ok.injEq] at y2
      rw [y2] at q2
      exact q2
  refine ⟨st, h0, hinv, fun t x hx => ?_⟩
  have ht := (List.getElem?_eq_some_iff.mp hx).1
  obtain ⟨y, y1, y2⟩ := h2 t x hx
  obtain ⟨q, q1, _, q3⟩ := adsr_step hp hr (hinv t ht.le) x
  rw [q1, Except.ok.injEq] at y2
  rw [y2] at q1 q3
  unfold adsrStep at q1
  cases hv : adsrValue a d r sus (adsrGate (st t) x) with
  | error e => simp [hv, bind, Except.bind] at q1
  | ok v =>
    simp only [hv, bind, Except.bind, Except.ok.injEq, Prod.mk.injEq] at q1
    refine ⟨y, y1, by rw [q1.2], q3, ?_⟩
    rw [← q1.1, q1.2]

/-- C23: with a sustain level between 0 and 1 the output is between 0 and 1, whatever the input. It does
not panic and is the same on both channels. -/
theorem c23_range (P : Plat) (N : Nat) (env : Env) (attack decay sus release : Fl) (k : Nat)
    (xs : List Buf) (hsr : env.sr ≤ 2 ^ 24) (ha : Within 0 (2 ^ 30) attack)
    (hd : Within 0 (2 ^ 30) decay) (hr : Within 0 (2 ^ 30) release) (hs : Within 0 1 sus)
    (ho : sus.Ok f32) :
    ∃ outs ys, play P N env (.adsr attack decay sus release) [.index k] (monoFrom k xs) = .ok outs ∧
      channel 0 outs = some ys ∧ channel 1 outs = some ys ∧ ys.length = xs.flatten.length ∧
      ∀ y, y ∈ ys → Within 0 1 y := by
  obtain ⟨a1, a2⟩ := secToSamples_close hsr ha.1 ha.2.1 ha.2.2
  obtain ⟨d1, d2⟩ := secToSamples_close hsr hd.1 hd.2.1 hd.2.2
  obtain ⟨r1, r2⟩ := secToSamples_close hsr hr.1 hr.2.1 hr.2.2
  have hp : AdsrOk _ _ sus := ⟨a2, d2, hs, ho⟩
  obtain ⟨q, q1, _⟩ := runM_total (I := AdsrInv) (J := fun _ => True) (adsrStep (secToSamples env.sr attack)
    (secToSamples env.sr decay) (secToSamples env.sr release) sus)
    (fun s x h _ => by
      obtain ⟨q, q1, q2, _⟩ := adsr_step hp r2 h x
      exact ⟨q, q1, q2⟩) _ adsrInv_new xs.flatten (fun _ _ => trivial)
  obtain ⟨o, g1, g2, g3⟩ := adsr_blocks P N env attack decay sus release k xs q q1
  refine ⟨o, _, g1, g2, g3, runM_length q1, fun y hy => ?_⟩
  obtain ⟨st, _, _, h3⟩ := adsr_states hp r2 q1
  obtain ⟨t, ht, hty⟩ := List.mem_iff_getElem.mp hy
  have hl := runM_length q1
  obtain ⟨z, z1, _, z3, _⟩ := h3 t xs.flatten[t] (by simp [show t < xs.flatten.length by omega])
  rw [List.getElem?_eq_getElem ht, hty, Option.some.injEq] at z1
  rw [z1]; exact z3

/-- C23 except for gates that go up while the envelope still sounds (see `c23_retrigger_counterexample`)
and attack times below one sample: there are numbers of samples `a`, `d`, `r` for attack, decay and
release such that the output is 0 before the first gate; after a gate that goes up while the output
is 0, it rises to 1 in `a` samples, falls to the sustain level in `d` samples and stays there as
long as the gate is up; after the gate went down it falls from where it was to 0 in `r` samples and stays 0. -/
theorem c23_shape_partial (P : Plat) (N : Nat) (env : Env) (attack decay sus release : Fl) (k : Nat)
    (xs : List Buf) (hsr : env.sr ≤ 2 ^ 24) (ha : Within 0 (2 ^ 30) attack)
    (hd : Within 0 (2 ^ 30) decay) (hr : Within 0 (2 ^ 30) release) (hs : Within 0 1 sus)
    (ho : sus.Ok f32) :
    ∃ outs ys a d r,
      play P N env (.adsr attack decay sus release) [.index k] (monoFrom k xs) = .ok outs ∧
      channel 0 outs = some ys ∧ InSamples env.sr attack a ∧ InSamples env.sr decay d ∧
      InSamples env.sr release r ∧
      ∀ t y, ys[t]? = some y →
        (Untriggered xs.flatten t → y.val = 0) ∧
        (∀ s, HeldSince xs.flatten t s →
          (a + d < t - s → y = sus) ∧
          ((∀ z, 1 ≤ s → ys[s - 1]? = some z → z.val = 0) → HeldAt a d sus (t - s) y)) ∧
        (∀ s c, ReleasedSince xs.flatten t s → ys[s - 1]? = some c → ReleasedAt r c (t - s) y) := by
  obtain ⟨a1, a2⟩ := secToSamples_close hsr ha.1 ha.2.1 ha.2.2
  obtain ⟨d1, d2⟩ := secToSamples_close hsr hd.1 hd.2.1 hd.2.2
  obtain ⟨r1, r2⟩ := secToSamples_close hsr hr.1 hr.2.1 hr.2.2
  have hp : AdsrOk _ _ sus := ⟨a2, d2, hs, ho⟩
  obtain ⟨q, q1, _⟩ := runM_total (I := AdsrInv) (J := fun _ => True) (adsrStep (secToSamples env.sr attack)
    (secToSamples env.sr decay) (secToSamples env.sr release) sus)
    (fun s x h _ => by
      obtain ⟨q, q1, q2, _⟩ := adsr_step hp r2 h x
      exact ⟨q, q1, q2⟩) _ adsrInv_new xs.flatten (fun _ _ => trivial)
  obtain ⟨o, g1, g2, g3⟩ := adsr_blocks P N env attack decay sus release k xs q q1
  refine ⟨o, _, _, _, _, g1, g2, a1, d1, r1, fun t y hy => ?_⟩
  obtain ⟨st, h0, hinv, hstep⟩ := adsr_states hp r2 q1
  generalize xs.flatten = xs at *
  have hlen := runM_length q1
  have ht : t < xs.length := by rw [← hlen]; exact (List.getElem?_eq_some_iff.mp hy).1
  -- what the state remembers
  have hmem : ∀ u, u < xs.length → ∃ x z, xs[u]? = some x ∧ q.2[u]? = some z ∧
      (st (u + 1)).lastx = x ∧ (st (u + 1)).lasty = z := by
    intro u hu
    obtain ⟨z, z1, _, _, z4⟩ := hstep u xs[u] (by simp [hu])
    exact ⟨xs[u], z, by simp [hu], z1, by rw [z4], by rw [z4]⟩
  refine ⟨fun hu => ?_, fun s hh => ?_, fun s c hh hc => ?_⟩
  · have key : ∀ u, u ≤ t → (st u).phase = 0 ∧ Fl.lt (.fin 0) (st u).lastx = false := by
      intro u hut
      induction u with
      | zero => rw [h0]; exact ⟨rfl, by simp [Fl.lt, Fl.val]⟩
      | succ u ih =>
        obtain ⟨i1, i2⟩ := ih (by omega)
        have hn := hu u xs[u] (by omega) (by simp [show u < xs.length by omega])
        obtain ⟨z, _, _, _, z4⟩ := hstep u xs[u] (by simp [show u < xs.length by omega])
        rw [adsrGate_keep (fun h => hn h.1) (fun h => by rw [Positive, i2] at h; cases h.2)] at z4
        rw [z4]
        exact ⟨i1, by unfold Positive at hn; simpa using hn⟩
    obtain ⟨i1, i2⟩ := key t (le_refl _)
    have hn := hu t xs[t] (le_refl _) (by simp [ht])
    obtain ⟨z, z1, z2, _, _⟩ := hstep t xs[t] (by simp [ht])
    rw [adsrGate_keep (fun h => hn h.1) (fun h => by rw [Positive, i2] at h; cases h.2)] at z2
    rw [hy, Option.some.injEq] at z1
    simp only [adsrValue, i1, Except.ok.injEq] at z2
    rw [z1, ← show Fl.fin 0 = z by simpa using z2]
    rfl
  · obtain ⟨e1, e2, e3⟩ := hh
    have hz : IsZero (st s).lastx := by
      cases s with
      | zero => rw [h0]; rfl
      | succ s =>
        obtain ⟨x, _, m1, _, m3, _⟩ := hmem s (by omega)
        rw [m3]; exact e2 x (by omega) m1
    have key : ∀ j, s + j ≤ t → ∃ x z, xs[s + j]? = some x ∧ q.2[s + j]? = some z ∧
        adsrHeld (secToSamples env.sr attack) (secToSamples env.sr decay) sus (st s).lasty j = .ok z ∧
        st (s + j + 1) = ⟨j + 1, x, z, (st s).lasty, 1⟩ := by
      intro j hj
      induction j with
      | zero =>
        obtain ⟨z, z1, z2, _, z4⟩ := hstep s xs[s] (by simp [show s < xs.length by omega])
        rw [adsrGate_up (e3 s _ (le_refl _) (by omega) (by simp [show s < xs.length by omega])) hz] at z2 z4
        refine ⟨xs[s], z, by simp [show s < xs.length by omega], z1, ?_, ?_⟩
        · simpa [adsrValue] using z2
        · rw [Nat.add_zero, z4]
      | succ j ih =>
        obtain ⟨x, z, i1, _, _, i4⟩ := ih (by omega)
        have hb : s + (j + 1) < xs.length := by omega
        obtain ⟨w, w1, w2, _, w4⟩ := hstep (s + (j + 1)) xs[s + (j + 1)] (by simp [hb])
        have hst : st (s + (j + 1)) = ⟨j + 1, x, z, (st s).lasty, 1⟩ := i4
        have hx := e3 (s + j) x (by omega) (by omega) i1
        have hx' := e3 (s + (j + 1)) xs[s + (j + 1)] (by omega) hj (by simp [hb])
        rw [adsrGate_keep (fun h => by
            rw [hst, IsZero, positive_not_zero hx] at h; cases h.2)
          (fun h => by rw [IsZero, positive_not_zero hx'] at h; cases h.1), hst] at w2 w4
        exact ⟨xs[s + (j + 1)], w, by simp [hb], w1, by simpa [adsrValue] using w2, w4⟩
    obtain ⟨_, z, _, k2, k3, _⟩ := key (t - s) (by omega)
    rw [Nat.add_sub_cancel' e1, hy, Option.some.injEq] at k2
    obtain ⟨w, w1, _, _, w4⟩ := held_within hp (hinv s (by omega)).1 (t - s)
    rw [k3, Except.ok.injEq] at w1
    rw [k2]
    refine ⟨fun hlt => ?_, fun hq => ?_⟩
    · rw [adsrHeld, if_neg (by omega)] at k3
      have hadd : usizeAdd (secToSamples env.sr attack) (secToSamples env.sr decay) = .ok _ :=
        if_pos (by omega)
      simp only [hadd, bind, Except.bind] at k3
      rw [if_neg (by omega), Except.ok.injEq] at k3
      exact k3.symm
    · rw [w1]
      apply w4
      cases s with
      | zero => rw [h0]; rfl
      | succ s =>
        obtain ⟨_, v, _, m2, _, m4⟩ := hmem s (by omega)
        rw [m4]; exact hq v (by omega) m2
  · obtain ⟨e0, e1, e2, e3⟩ := hh
    obtain ⟨s, rfl⟩ : ∃ s', s = s' + 1 := ⟨s - 1, by omega⟩
    obtain ⟨x0, v, m1, m2, m3, m4⟩ := hmem s (by omega)
    have hpos : Positive (st (s + 1)).lastx := by rw [m3]; exact e2 x0 m1
    rw [Nat.add_sub_cancel] at hc
    rw [hc, Option.some.injEq] at m2
    have hcv : (st (s + 1)).lasty = c := by rw [m4, m2]
    have key : ∀ j, s + 1 + j ≤ t → ∃ x, xs[s + 1 + j]? = some x ∧
        q.2[s + 1 + j]? = some (adsrRelease (secToSamples env.sr release) c j) ∧
        st (s + 1 + j + 1) = ⟨j + 1, x, adsrRelease (secToSamples env.sr release) c j, c, 2⟩ := by
      intro j hj
      induction j with
      | zero =>
        have hb : s + 1 < xs.length := by omega
        obtain ⟨z, z1, z2, _, z4⟩ := hstep (s + 1) xs[s + 1] (by simp [hb])
        rw [adsrGate_down (e3 (s + 1) _ (le_refl _) (by omega) (by simp [hb])) hpos] at z2 z4
        have hzv : adsrRelease (secToSamples env.sr release) c 0 = z := by
          simpa [adsrValue, hcv] using z2
        refine ⟨xs[s + 1], by simp [hb], by rw [hzv]; exact z1, ?_⟩
        rw [Nat.add_zero, z4, hzv, hcv]
      | succ j ih =>
        obtain ⟨x, i1, _, i4⟩ := ih (by omega)
        have hb : s + 1 + (j + 1) < xs.length := by omega
        obtain ⟨w, w1, w2, _, w4⟩ := hstep (s + 1 + (j + 1)) xs[s + 1 + (j + 1)] (by simp [hb])
        have hst : st (s + 1 + (j + 1)) = ⟨j + 1, x, adsrRelease (secToSamples env.sr release) c j, c, 2⟩ := i4
        have hx := e3 (s + 1 + j) x (by omega) (by omega) i1
        have hx' := e3 (s + 1 + (j + 1)) xs[s + 1 + (j + 1)] (by omega) hj (by simp [hb])
        rw [adsrGate_keep (fun h => by rw [Positive, zero_not_positive hx'] at h; cases h.1)
          (fun h => by rw [hst, Positive, zero_not_positive hx] at h; cases h.2), hst] at w2 w4
        have hzv : adsrRelease (secToSamples env.sr release) c (j + 1) = w := by
          simpa [adsrValue] using w2
        refine ⟨xs[s + 1 + (j + 1)], by simp [hb], by rw [hzv]; exact w1, ?_⟩
        rw [w4, hzv]
    obtain ⟨_, _, k2, _⟩ := key (t - (s + 1)) (by omega)
    rw [Nat.add_sub_cancel' e1, hy, Option.some.injEq] at k2
    have hi := hinv (s + 1) (by omega)
    rw [k2]
    refine (release_within r2 ?_ ?_ _).2.2
    · rw [← hcv]; exact hi.1
    · rw [← hcv]; exact hi.2.1

/-- A gate of two samples, followed by silence, at 44.1 kHz. -/
example : ∃ (env : Env) (attack decay sus release : Fl) (xs : List Buf), env.sr ≤ 2 ^ 24 ∧
    Within 0 (2 ^ 30) attack ∧ Within 0 (2 ^ 30) decay ∧ Within 0 (2 ^ 30) release ∧ Within 0 1 sus ∧
    sus.Ok f32 ∧ Untriggered xs.flatten 0 ∧ HeldSince xs.flatten 2 1 ∧ ReleasedSince xs.flatten 3 3 := by
  have w : Within 0 (2 ^ 30) (Fl.fin (1 / 2)) := ⟨rfl, by norm_num [Fl.val], by norm_num [Fl.val]⟩
  refine ⟨⟨[], 44100, .fin 120, 0⟩, .fin (1 / 2), .fin (1 / 2), .fin (1 / 2), .fin (1 / 2),
    [[.fin 0, .fin 1], [.fin 1, .fin 0]], by decide, w, w, w, ⟨rfl, by norm_num [Fl.val], by norm_num [Fl.val]⟩,
    ⟨rephalf, by rw [f32_maxFin, abs_of_pos] <;> norm_num⟩, ?_, ⟨by decide, ?_, ?_⟩, ⟨by decide, by decide, ?_, ?_⟩⟩
  · intro u z h hz
    obtain rfl : u = 0 := by omega
    cases hz; simp [Positive, Fl.lt, Fl.val]
  · intro z _ hz; cases hz; rfl
  · intro u z h1 h2 hz
    have : u = 1 ∨ u = 2 := by omega
    rcases this with rfl | rfl <;> cases hz <;> simp [Positive, Fl.lt, Fl.val]
  · intro z hz; cases hz; simp [Positive, Fl.lt, Fl.val]
  · intro u z h1 h2 hz
    obtain rfl : u = 3 := by omega
    cases hz; rfl

/-- C23 fails for a gate that goes up during the release: at the end of the attack of one second the
output is 1/2 instead of 1 (the gate goes up at sample 7, the attack has 4 samples). -/
theorem c23_retrigger_counterexample (P : Plat) (env : Env) (k : Nat) (hsr : env.sr = 4) :
    ∃ (x : Buf) (outs : List (List Buf)) (ys : List Fl),
      play P 12 env (.adsr (.fin 1) (.fin 0) (.fin (1 / 2)) (.fin 1)) [.index k] (monoFrom k [x]) = .ok outs ∧
      channel 0 outs = some ys ∧ HeldSince x 11 7 ∧ (11 - 7 : ℚ) = 1 * env.sr ∧
      ys[11]? = some (.fin (1 / 2)) ∧ ys[6]? = some (.fin (1 / 2)) ∧ ys[7]? = some (.fin 0) := by
  have hv : secToSamples env.sr (.fin 1) = 4 := by rw [hsr]; decide +kernel
  have hv0 : secToSamples env.sr (.fin 0) = 0 := by rw [hsr]; decide +kernel
  obtain ⟨q, hq, h11, h6, h7⟩ : ∃ q, runM (adsrStep 4 0 4 (.fin (1 / 2))) ⟨0, .fin 0, .fin 0, .fin 0, 0⟩
      (List.replicate 6 (Fl.fin 1) ++ [.fin 0] ++ List.replicate 5 (Fl.fin 1)) = .ok q ∧
      q.2[11]? = some (.fin (1 / 2)) ∧ q.2[6]? = some (.fin (1 / 2)) ∧ q.2[7]? = some (.fin 0) := by
    refine ⟨(⟨5, .fin 1, .fin (1 / 2), .fin (1 / 2), 1⟩, [.fin 0, .fin (1 / 4), .fin (1 / 2), .fin (3 / 4),
      .fin 1, .fin (1 / 2), .fin (1 / 2), .fin 0, .fin (1 / 8), .fin (1 / 4), .fin (3 / 8), .fin (1 / 2)]), ?_⟩
    decide +kernel
  obtain ⟨o, g1, g2, _⟩ := adsr_blocks P 12 env (.fin 1) (.fin 0) (.fin (1 / 2)) (.fin 1) k
    [List.replicate 6 (Fl.fin 1) ++ [.fin 0] ++ List.replicate 5 (Fl.fin 1)] q (by
      rw [hv, hv0, List.flatten_singleton]; exact hq)
  refine ⟨_, o, _, g1, g2, ⟨by decide, ?_, ?_⟩, by rw [hsr]; norm_num, h11, h6, h7⟩
  · intro z _ hz; cases hz; rfl
  · intro u z h1 h2 hz
    have : u = 7 ∨ u = 8 ∨ u = 9 ∨ u = 10 ∨ u = 11 := by omega
    rcases this with rfl | rfl | rfl | rfl | rfl <;> cases hz <;> simp [Positive, Fl.lt, Fl.val]

end Verif.Props
