import Verif.Lemmas.Count
import Verif.Lemmas.KernelRfl
import Verif.Spec.Signal

/-! # Sequencers (C21) -/

namespace Verif.Props
open Spec

/-- What a sequencer without inputs puts out at sample `k`. -/
def seqAt (m : Libm) (events : List (Fl × NatRef)) (bpm : Fl) (sr : Nat) (k : Nat) : Except Panic Fl :=
  seqSample m (barLength bpm sr (.fin 1)) k seqValue0 events (.fin 0)

theorem seq_make (P : Plat) (N : Nat) (env : Env) (events : List (Fl × NatRef)) :
    ∃ refs, makeNode P N env.samples env.sr env.bpm env.seed (.seq events) =
      .ok (fresh N 2 (.prim (.seq (Sequencer.new events env.sr env.bpm))), refs) := ⟨_, rfl⟩

theorem seq_blocks (P : Plat) (N : Nat) (env : Env) (events : List (Fl × NatRef)) (n : Nat) (v : Nat → Fl)
    (hv : ∀ j, j < n * N → seqAt P.libm events env.bpm env.sr j = .ok (v j)) :
    ∃ outs, play P N env (.seq events) [] (noInput n) = .ok outs ∧
      channel 0 outs = some ((List.range (n * N)).map v) := by
  have hr := runM_count (seqAt P.libm events env.bpm env.sr) v 0 (n * N) (fun j _ hj => hv j (by omega))
  have hfl : (List.replicate n (List.replicate N ())).flatten = List.replicate (n * N) () :=
    List.flatten_replicate_replicate
  obtain ⟨o, g1, g2, g3⟩ := blocks_left (procG P)
    (fun k : Nat => .prim (.seq { Sequencer.new events env.sr env.bpm with step := k }))
    (countStep (seqAt P.libm events env.bpm env.sr)) (fun _ => []) N
    (List.replicate n (List.replicate N ()))
    (fun x hx => by rw [List.eq_of_mem_replicate hx]; simp)
    (fun s x a b hx ha => by
      have hf : runM (fun (k : Nat) (_ : Fl) => do
            let v ← seqSample P.libm (barLength env.bpm env.sr (.fin 1)) k seqValue0 events (.fin 0)
            .ok (k + 1, v)) s a =
          runM (countStep (seqAt P.libm events env.bpm env.sr)) s x := by
        apply runM_const
        · intro k x y
          unfold countStep seqAt
          cases seqSample P.libm (barLength env.bpm env.sr (.fin 1)) k seqValue0 events (.fin 0) <;> rfl
        · rw [List.eq_of_mem_replicate hx, ha]; simp
      simp only [procG, procPrim, procSeq, Sequencer.new, bind, Except.bind] at hf ⊢
      rw [hf]
      cases runM (countStep (seqAt P.libm events env.bpm env.sr)) s x <;> rfl)
    0 _ (leftOnly_fresh N (GNode.prim (P := P) (.seq (Sequencer.new events env.sr env.bpm)))) _
    (hfl ▸ hr)
  obtain ⟨refs, hm⟩ := seq_make P N env events
  refine ⟨o, play_ok hm rfl ?_, by simpa using g2⟩
  rw [List.map_replicate] at g1
  exact g1

/-- The sample of the bar at which an event plays. -/
def eventPlace (bar : Fl) (e : Fl × NatRef) : Nat := (Fl.mul f64 e.1 bar).toUsize

theorem seqSample_keep (m : Libm) {bar : Fl} (hb : bar.toUsize ≠ 0) (k : Nat) (val : NatRef → Except Panic Fl)
    (es : List (Fl × NatRef)) (out : Fl) (h : ∀ e ∈ es, k % bar.toUsize ≠ eventPlace bar e) :
    seqSample m bar k val es out = .ok out := by
  induction es generalizing out with
  | nil => rfl
  | cons e es ih =>
    have he := h e (by simp)
    unfold eventPlace at he
    rw [seqSample, if_neg hb, if_neg he]
    exact ih out (fun x hx => h x (by simp [hx]))

theorem seqSample_append (m : Libm) {bar : Fl} (k : Nat) (val : NatRef → Except Panic Fl)
    (es fs : List (Fl × NatRef)) (out v : Fl) (h : seqSample m bar k val es out = .ok v) :
    seqSample m bar k val (es ++ fs) out = seqSample m bar k val fs v := by
  induction es generalizing out with
  | nil => cases h; rfl
  | cons e es ih =>
    rw [List.cons_append]
    rw [seqSample] at h ⊢
    split
    · next hb => rw [if_pos hb] at h; cases h
    · next hb =>
      rw [if_neg hb] at h
      split
      · next hk =>
        rw [if_pos hk] at h
        cases hv : val e.2 with
        | error e => rw [hv] at h; cases h
        | ok w =>
          rw [hv] at h
          exact ih _ h
      · next hk =>
        rw [if_neg hk] at h
        exact ih _ h

theorem ofNat_pos {k : Nat} (h : k ≠ 0) : Fl.beq (Fl.ofNat f32 k) (.fin 0) = false := by
  unfold Fl.ofNat
  by_cases hr : InRange f32 (k : ℚ)
  · have hv := Fl.round_val (s := false) hr
    have h1 : (1 : ℚ) ≤ k := by exact_mod_cast Nat.one_le_iff_ne_zero.mpr h
    have h2 : 1 ≤ f32.rnd (k : ℚ) := Fmt.le_rnd f32_p rep1 h1
    rw [Bool.eq_false_iff]
    intro hb
    have := (Fl.beq_fin (b := .fin 0) hv.1 rfl).mp hb
    rw [hv.2] at this
    simp only [Fl.val_fin] at this
    linarith
  · have h1 : (1 : ℚ) ≤ k := by exact_mod_cast Nat.one_le_iff_ne_zero.mpr h
    have h2 : 1 ≤ f32.rnd (k : ℚ) := Fmt.le_rnd f32_p rep1 h1
    have h3 : ¬ f32.rnd (k : ℚ) = 0 := by linarith
    have h4 : f32.maxFin < f32.rnd (k : ℚ) := by
      unfold InRange at hr
      rw [abs_of_nonneg (by linarith)] at hr
      exact not_le.mp hr
    unfold Fl.round
    simp only [h3, if_false, h4, if_true]
    rfl

theorem seqPitch_note (m : Libm) (k : Nat) : seqPitch m (Fl.ofNat f32 k) = noteOut m (.note k) := by
  cases k with
  | zero =>
    have : Fl.ofNat f32 0 = .fin 0 := by decide +kernel
    rw [this]; rfl
  | succ k =>
    unfold seqPitch
    rw [ofNat_pos (by omega)]
    rfl

/-- The elements of one group. -/
theorem seqSample_group (m : Libm) {bar : Fl} (hb : bar.toUsize ≠ 0) (k i n : Nat) (g : List SeqElem) (j : Nat)
    (hinj : ∀ a c, j ≤ a → a < c → c < j + g.length →
      eventPlace bar (seqTime i a n, .nat 0) ≠ eventPlace bar (seqTime i c n, .nat 0)) :
    (∀ a e, g[a]? = some e → k % bar.toUsize = eventPlace bar (seqTime i (j + a) n, .nat 0) →
      seqSample m bar k seqValue0 (groupEvents i n j g) (.fin 0) = .ok (noteOut m e)) ∧
    ((∀ a, a < g.length → k % bar.toUsize ≠ eventPlace bar (seqTime i (j + a) n, .nat 0)) →
      ∀ out, seqSample m bar k seqValue0 (groupEvents i n j g) out = .ok out) := by
  induction g generalizing j with
  | nil => exact ⟨by simp, fun _ _ => rfl⟩
  | cons e es ih =>
    have ih' := ih (j + 1) (fun a c h1 h2 h3 => hinj a c (by omega) h2 (by simp only [List.length_cons]; omega))
    have tail : (∀ a, a < es.length → k % bar.toUsize ≠ eventPlace bar (seqTime i (j + 1 + a) n, .nat 0)) →
        ∀ out, seqSample m bar k seqValue0 (groupEvents i n (j + 1) es) out = .ok out := ih'.2
    constructor
    · intro a x hx hk
      cases a with
      | zero =>
        simp only [List.getElem?_cons_zero, Option.some.injEq] at hx
        subst hx
        rw [Nat.add_zero] at hk
        have ht := tail (fun a ha => by
          rw [hk]
          exact hinj j (j + 1 + a) (le_refl _) (by omega) (by simp only [List.length_cons]; omega))
        unfold eventPlace at hk
        cases e with
        | note q =>
          rw [groupEvents, seqSample, if_neg hb, if_pos hk]
          simp only [seqValue0, bind, Except.bind]
          rw [ht, seqPitch_note]
        | rest =>
          rw [groupEvents, ht]; rfl
        | ref r =>
          rw [groupEvents, seqSample, if_neg hb, if_pos hk]
          simp only [seqValue0, bind, Except.bind]
          rw [ht]; rfl
      | succ a =>
        rw [List.getElem?_cons_succ] at hx
        have hk' : k % bar.toUsize = eventPlace bar (seqTime i (j + 1 + a) n, .nat 0) := by
          rw [hk]; congr 3; omega
        have hlt : a < es.length := (List.getElem?_eq_some_iff.mp hx).1
        have hr := ih'.1 a x hx hk'
        have hne : ¬ k % bar.toUsize = (Fl.mul f64 (seqTime i j n) bar).toUsize := by
          rw [hk']
          exact (hinj j (j + 1 + a) (le_refl _) (by omega) (by simp only [List.length_cons]; omega)).symm
        cases e with
        | note q => rw [groupEvents, seqSample, if_neg hb, if_neg hne, hr]
        | rest => rw [groupEvents, hr]
        | ref r => rw [groupEvents, seqSample, if_neg hb, if_neg hne, hr]
    · intro hno out
      have hne : ¬ k % bar.toUsize = (Fl.mul f64 (seqTime i j n) bar).toUsize := hno 0 (by simp)
      have hr := tail (fun a ha => by
        have := hno (a + 1) (by simp only [List.length_cons]; omega)
        intro h
        apply this
        rw [h]; congr 3; omega)
      cases e with
      | note q => rw [groupEvents, seqSample, if_neg hb, if_neg hne, hr]
      | rest => rw [groupEvents, hr]
      | ref r => rw [groupEvents, seqSample, if_neg hb, if_neg hne, hr]

theorem groupEvents_time {i n j : Nat} {g : List SeqElem} {e : Fl × NatRef} (h : e ∈ groupEvents i n j g) :
    ∃ a, j ≤ a ∧ a < j + g.length ∧ e.1 = seqTime i a n := by
  induction g generalizing j with
  | nil => cases h
  | cons x es ih =>
    have step : e ∈ groupEvents i n (j + 1) es → ∃ a, j ≤ a ∧
        a < j + (x :: es).length ∧ e.1 = seqTime i a n := fun h => by
      obtain ⟨a, h1, h2, h3⟩ := ih h
      exact ⟨a, by omega, by simp only [List.length_cons]; omega, h3⟩
    cases x with
    | note q =>
      rcases List.mem_cons.mp h with rfl | h
      · exact ⟨j, le_refl _, by simp, rfl⟩
      · exact step h
    | rest => exact step h
    | ref r =>
      rcases List.mem_cons.mp h with rfl | h
      · exact ⟨j, le_refl _, by simp, rfl⟩
      · exact step h

theorem patternEvents_time {i : Nat} {gs : List (List SeqElem)} {e : Fl × NatRef}
    (h : e ∈ patternEvents i gs) :
    ∃ p g a, i ≤ p ∧ p < i + gs.length ∧ g ∈ gs ∧ a < g.length ∧ e.1 = seqTime p a g.length := by
  induction gs generalizing i with
  | nil => cases h
  | cons g gs ih =>
    rw [patternEvents] at h
    rcases List.mem_append.mp h with h | h
    · obtain ⟨a, h1, h2, h3⟩ := groupEvents_time h
      exact ⟨i, g, a, le_refl _, by simp, by simp, by omega, h3⟩
    · obtain ⟨p, g', a, h1, h2, h3, h4, h5⟩ := ih h
      exact ⟨p, g', a, by omega, by simp only [List.length_cons]; omega, by simp [h3], h4, h5⟩

theorem f64_ofNat {n : Nat} (h : n ≤ 2 ^ 24) :
    (Fl.ofNat f64 n).isFinite = true ∧ (Fl.ofNat f64 n).val = n := by
  have h1 : f64.Rep ((n : Int) : ℚ) := Fmt.rep_int (by
    rw [abs_of_nonneg (by omega)]
    have : (n : Int) ≤ 2 ^ 24 := by exact_mod_cast h
    exact le_trans this (by decide)) (by decide)
  have h2 : f64.rnd (n : ℚ) = n := by exact_mod_cast Fmt.rnd_rep f64_p h1
  have h3 : InRange f64 (n : ℚ) := f64_inRange (by
    rw [abs_of_nonneg (by positivity)]
    have : (n : ℚ) ≤ 2 ^ 24 := by exact_mod_cast h
    exact le_trans this (by norm_num))
  have := Fl.round_val (s := false) h3
  rw [h2] at this
  exact this

theorem Fl.div_ok {f : Fmt} (a b : Fl) : (Fl.div f a b).Ok f := by
  cases a <;> cases b <;> simp only [Fl.div] <;> (try split) <;> (try split) <;>
    first | exact Fl.round_ok | trivial | exact Fl.zero_ok

theorem bar_rel {bpm : Fl} {sr : Nat} (hb : Within 1 (2 ^ 10) bpm) (h1 : 1 ≤ sr) (h2 : sr ≤ 2 ^ 24) :
    Rel 3 (barLength bpm sr (.fin 1)) (barSamples sr bpm.val) := by
  obtain ⟨f1, f2⟩ := f64_ofNat h2
  have hsr1 : (1 : ℚ) ≤ sr := by exact_mod_cast h1
  have hsr2 : (sr : ℚ) ≤ 2 ^ 24 := by exact_mod_cast h2
  obtain ⟨b0, b1, b2⟩ := hb
  have hbp : 0 < bpm.val := by linarith
  have d1 : 240 / bpm.val ≤ 240 := by
    rw [div_le_iff₀ hbp]; linarith
  have d2 : 1 / 2 ^ 10 ≤ 240 / bpm.val := by
    rw [le_div_iff₀ hbp]
    have : (1 : ℚ) / 2 ^ 10 * 2 ^ 10 = 1 := by norm_num
    nlinarith
  have c1 := Rel.div (f := f64) (Rel.of_eq (x := .fin 240) (X := 240) rfl (by norm_num) rfl)
    (Rel.of_eq (x := bpm) b0 hbp.le rfl) (by norm_num) hbp
    (Or.inr (le_trans (by norm_num) d2)) (le_trans d1 (by norm_num))
  have e1 : (1 : ℚ) / 2 ^ 10 ≤ 240 / bpm.val * sr := by
    have : 240 / bpm.val * 1 ≤ 240 / bpm.val * sr :=
      mul_le_mul_of_nonneg_left hsr1 (le_trans (by norm_num) d2)
    linarith
  have e2 : 240 / bpm.val * sr ≤ 2 ^ 32 := by
    calc 240 / bpm.val * sr ≤ 240 * 2 ^ 24 := mul_le_mul d1 hsr2 (by positivity) (by norm_num)
      _ ≤ 2 ^ 32 := by norm_num
  have c2 := c1.mul (f := f64) (Rel.of_eq (x := Fl.ofNat f64 sr) f1 (by positivity) f2) (by norm_num)
    (Or.inr (le_trans (by norm_num) e1)) (le_trans e2 (by norm_num))
  have c3 := c2.div (f := f64) (Rel.of_eq (x := .fin 1) (X := 1) rfl (by norm_num) rfl) (by norm_num)
    (by norm_num) (Or.inr (by rw [div_one]; exact le_trans (by norm_num) e1))
    (by rw [div_one]; exact le_trans e2 (by norm_num))
  rw [div_one] at c3
  exact c3

theorem time_rel {j n : Nat} (hj : j < n) (hn : n ≤ 2 ^ 24) : Rel 2 (seqTime 0 j n) (j / n) := by
  obtain ⟨j1, j2⟩ := f32_ofNat (le_trans hj.le hn)
  obtain ⟨n1, n2⟩ := f32_ofNat hn
  have q1 : (0 : ℚ) < n := by exact_mod_cast (by omega : 0 < n)
  have q2 : (n : ℚ) ≤ 2 ^ 24 := by exact_mod_cast hn
  have q3 : (j : ℚ) ≤ n := by exact_mod_cast hj.le
  have hz : (j / n : ℚ) = 0 ∨ 1 / 2 ^ 100 ≤ (j / n : ℚ) := by
    rcases Nat.eq_zero_or_pos j with h | h
    · left; rw [h]; simp
    · right
      have : (1 : ℚ) ≤ j := by exact_mod_cast h
      rw [le_div_iff₀ q1]
      calc (1 : ℚ) / 2 ^ 100 * n ≤ 1 / 2 ^ 100 * 2 ^ 24 := mul_le_mul_of_nonneg_left q2 (by norm_num)
        _ ≤ 1 := by norm_num
        _ ≤ j := this
  have hle : (j / n : ℚ) ≤ 1 := by rw [div_le_one q1]; exact q3
  have c1 := Rel.div (f := f32) (Rel.of_eq (x := Fl.ofNat f32 j) (X := j) j1 (by positivity) j2)
    (Rel.of_eq (x := Fl.ofNat f32 n) n1 q1.le n2) (by norm_num) q1 hz (le_trans hle (by norm_num))
  have c0 : Rel 0 (Fl.ofNat f32 0) 0 := by
    obtain ⟨z1, z2⟩ := f32_ofNat (n := 0) (by norm_num)
    exact Rel.of_eq z1 (le_refl _) (by rw [z2]; simp)
  have c2 := c1.add (f := f32) (c0.weaken (l := 0 + 1) (by norm_num)) (by norm_num) (by rw [add_zero]; exact hz)
    (by rw [add_zero]; exact le_trans hle (by norm_num))
  rw [add_zero] at c2
  exact c2

theorem place_close {bpm : Fl} {sr : Nat} (hb : Within 1 (2 ^ 10) bpm) (h1 : 1 ≤ sr) (h2 : sr ≤ 2 ^ 24)
    (hX : barSamples sr bpm.val ≤ 2 ^ 20) {j n : Nat} (hj : j < n) (hn : 8 * n ≤ barSamples sr bpm.val)
    (v : NatRef) :
    |(eventPlace (barLength bpm sr (.fin 1)) (seqTime 0 j n, v) : ℚ) - j / n * barSamples sr bpm.val| ≤ 2 := by
  have q1 : (1 : ℚ) ≤ n := by exact_mod_cast (by omega : 1 ≤ n)
  have q3 : (j : ℚ) ≤ n := by exact_mod_cast hj.le
  have hn24 : n ≤ 2 ^ 24 := by
    have : (n : ℚ) ≤ 2 ^ 24 := by linarith
    exact_mod_cast this
  have hX1 : 8 ≤ barSamples sr bpm.val := by linarith
  have hle : (j / n : ℚ) ≤ 1 := by rw [div_le_one (by linarith)]; exact q3
  have h0 : (0 : ℚ) ≤ j / n := by positivity
  have hz : (j / n * barSamples sr bpm.val : ℚ) = 0 ∨ 1 / 2 ^ 100 ≤ (j / n * barSamples sr bpm.val : ℚ) := by
    rcases Nat.eq_zero_or_pos j with h | h
    · left; rw [h]; simp
    · right
      have : (1 : ℚ) ≤ j := by exact_mod_cast h
      have h3 : (1 : ℚ) / 2 ^ 24 ≤ j / n := by
        rw [le_div_iff₀ (by linarith)]
        have : (n : ℚ) ≤ 2 ^ 24 := by exact_mod_cast hn24
        have : (1 : ℚ) / 2 ^ 24 * n ≤ 1 / 2 ^ 24 * 2 ^ 24 := mul_le_mul_of_nonneg_left this (by norm_num)
        have e : (1 : ℚ) / 2 ^ 24 * 2 ^ 24 = 1 := by norm_num
        linarith
      calc (1 : ℚ) / 2 ^ 100 ≤ 1 / 2 ^ 24 * 8 := by norm_num
        _ ≤ _ := mul_le_mul h3 hX1 (by norm_num) h0
  have hb2 : (j / n * barSamples sr bpm.val : ℚ) ≤ 2 ^ 20 := by
    calc (j / n * barSamples sr bpm.val : ℚ) ≤ 1 * barSamples sr bpm.val :=
          mul_le_mul_of_nonneg_right hle (by linarith)
      _ ≤ 2 ^ 20 := by linarith
  have c := (time_rel hj hn24).mul (f := f64) (bar_rel hb h1 h2) (by norm_num) hz (le_trans hb2 (by norm_num))
  refine le_trans (c.toUsize (by norm_num) (le_trans hb2 (by norm_num))) ?_
  linarith

/-- An event of a later group lies after the end of the bar. -/
theorem place_late {bpm : Fl} {sr : Nat} (hb : Within 1 (2 ^ 10) bpm) (h1 : 1 ≤ sr) (h2 : sr ≤ 2 ^ 24)
    (hX : barSamples sr bpm.val ≤ 2 ^ 20) {i j n : Nat} (hi : 1 ≤ i) (hi2 : i ≤ 2 ^ 24) (hj : j < n)
    (hn : n ≤ 2 ^ 24) (v : NatRef) :
    (barLength bpm sr (.fin 1)).toUsize ≤ eventPlace (barLength bpm sr (.fin 1)) (seqTime i j n, v) := by
  obtain ⟨j1, j2⟩ := f32_ofNat (le_trans hj.le hn)
  obtain ⟨n1, n2⟩ := f32_ofNat hn
  obtain ⟨i1, i2⟩ := f32_ofNat hi2
  have q1 : (0 : ℚ) < n := by exact_mod_cast (by omega : 0 < n)
  have q3 : (j : ℚ) ≤ n := by exact_mod_cast hj.le
  have qi : (1 : ℚ) ≤ i := by exact_mod_cast hi
  have qi2 : (i : ℚ) ≤ 2 ^ 24 := by exact_mod_cast hi2
  have hle : (j / n : ℚ) ≤ 1 := by rw [div_le_one q1]; exact q3
  have h0 : (0 : ℚ) ≤ j / n := by positivity
  have w1 := within_div (x := Fl.ofNat f32 j) (y := Fl.ofNat f32 n) j1 n1 rep0 rep1 (by norm_num) (by norm_num)
    (by rw [n2]; exact q1.ne') (by rw [j2, n2]; exact h0) (by rw [j2, n2]; exact hle)
  have rbig : f32.Rep ((2 : ℚ) ^ 25) := ⟨1, 25, by decide, by decide, by rw [pow2_eq]; norm_num⟩
  have w2 : Within 1 (2 ^ 25) (seqTime i j n) := within_add w1.1 i1 rep1 rbig (by norm_num) (by norm_num)
    (by rw [i2]; have := w1.2.1; linarith) (by rw [i2]; have := w1.2.2; linarith)
  have hr := bar_rel hb h1 h2
  have hv0 := hr.val_nonneg
  have hvb : (barLength bpm sr (.fin 1)).val ≤ 2 ^ 21 := by
    have := (abs_le.mp (hr.close (by norm_num))).2
    linarith
  have hrep : f64.Rep (barLength bpm sr (.fin 1)).val := by
    have := Fl.div_ok (f := f64) (Fl.mul f64 (Fl.div f64 (.fin 240) bpm) (Fl.ofNat f64 sr)) (.fin 1)
    change (barLength bpm sr (.fin 1)).Ok f64 at this
    revert this
    cases barLength bpm sr (.fin 1) with
    | nan => intro _; exact Fmt.rep_zero
    | inf s => intro _; exact Fmt.rep_zero
    | nz => intro _; exact Fmt.rep_zero
    | fin q => intro h; exact h.1
  have hge : (barLength bpm sr (.fin 1)).val ≤ (seqTime i j n).val * (barLength bpm sr (.fin 1)).val := by
    have := mul_le_mul_of_nonneg_right w2.2.1 hv0
    linarith
  have hub : (seqTime i j n).val * (barLength bpm sr (.fin 1)).val ≤ 2 ^ 46 := by
    calc (seqTime i j n).val * (barLength bpm sr (.fin 1)).val ≤ 2 ^ 25 * 2 ^ 21 :=
          mul_le_mul w2.2.2 hvb hv0 (by norm_num)
      _ = 2 ^ 46 := by norm_num
  have hm := Fl.mul_fin (f := f64) w2.1 hr.fin (f64_inRange (by
    rw [abs_of_nonneg (by linarith)]; exact le_trans hub (by norm_num)))
  have rb2 : f64.Rep ((2 : ℚ) ^ 46) := ⟨1, 46, by decide, by decide, by rw [pow2_eq]; norm_num⟩
  have l1 : (barLength bpm sr (.fin 1)).val ≤ (Fl.mul f64 (seqTime i j n) (barLength bpm sr (.fin 1))).val := by
    rw [hm.2]; exact Fmt.le_rnd f64_p hrep hge
  have l2 : (Fl.mul f64 (seqTime i j n) (barLength bpm sr (.fin 1))).val ≤ 2 ^ 46 := by
    rw [hm.2]; exact Fmt.rnd_le f64_p rb2 hub
  unfold eventPlace
  rw [Fl.toUsize_of hr.fin (lt_of_le_of_lt hvb (by norm_num)),
    Fl.toUsize_of hm.1 (lt_of_le_of_lt l2 (by norm_num))]
  exact Int.toNat_le_toNat (Int.floor_le_floor l1)

/-- C21 for the first group of a pattern, without inputs: there is a length `b` of the bar and a place `pl j`
in the bar for every element `j` of the group, both right up to two samples, such that the output is the
pitch of element `j` whenever the bar has reached place `j`, and 0 at all other times. So every note of the
group plays exactly once in every bar. Missing: the other groups, which never play (see
`c21_later_groups_counterexample`), references, and a speed input. A bar has at most 2^20 samples, and an
element at least 8. -/
theorem c21_first_group_partial (P : Plat) (N : Nat) (env : Env) (hbpm : Within 1 (2 ^ 10) env.bpm)
    (h1 : 1 ≤ env.sr) (h2 : env.sr ≤ 2 ^ 24) (hX : barSamples env.sr env.bpm.val ≤ 2 ^ 20)
    (g : List SeqElem) (rest : List (List SeqElem)) (hg : g ≠ [])
    (hn : 8 * (g.length : ℚ) ≤ barSamples env.sr env.bpm.val)
    (hrest : rest.length < 2 ^ 24) (hlen : ∀ q ∈ rest, q.length ≤ 2 ^ 24) :
    ∃ (b : Nat) (pl : Nat → Nat), |(b : ℚ) - barSamples env.sr env.bpm.val| ≤ 2 ∧
      (∀ j, j < g.length → pl j < b ∧
        |(pl j : ℚ) - j / g.length * barSamples env.sr env.bpm.val| ≤ 2) ∧
      (∀ i j, i < j → j < g.length → pl i ≠ pl j) ∧
      ∀ n, ∃ outs ys, play P N env (.seq (seqEvents (g :: rest))) [] (noInput n) = .ok outs ∧
        channel 0 outs = some ys ∧ ys.length = n * N ∧
        ∀ t y, ys[t]? = some y →
          (∀ j e, g[j]? = some e → t % b = pl j → y = noteOut P.libm e) ∧
          ((∀ j, j < g.length → t % b ≠ pl j) → y = .fin 0) := by
  have hlen1 : (1 : ℚ) ≤ g.length := by exact_mod_cast List.length_pos_iff.mpr hg
  have hr := bar_rel hbpm h1 h2
  have hb : |((barLength env.bpm env.sr (.fin 1)).toUsize : ℚ) - barSamples env.sr env.bpm.val| ≤ 2 := by
    refine le_trans (hr.toUsize (by norm_num) (le_trans hX (by norm_num))) ?_
    linarith
  have hb0 : (barLength env.bpm env.sr (.fin 1)).toUsize ≠ 0 := by
    intro h
    rw [h] at hb
    have := (abs_le.mp hb).1
    push_cast at this
    linarith
  have hpc : ∀ j, j < g.length → |(eventPlace (barLength env.bpm env.sr (.fin 1))
      (seqTime 0 j g.length, .nat 0) : ℚ) - j / g.length * barSamples env.sr env.bpm.val| ≤ 2 :=
    fun j hj => place_close hbpm h1 h2 hX hj hn _
  have hgap : 8 ≤ 1 / (g.length : ℚ) * barSamples env.sr env.bpm.val := by
    rw [one_div_mul_eq_div, le_div_iff₀ (by linarith)]; exact hn
  have hinj : ∀ i j, i < j → j < g.length →
      eventPlace (barLength env.bpm env.sr (.fin 1)) (seqTime 0 i g.length, .nat 0) ≠
        eventPlace (barLength env.bpm env.sr (.fin 1)) (seqTime 0 j g.length, .nat 0) := by
    intro i j hij hj he
    have a := (abs_le.mp (hpc i (by omega))).1
    have a' := (abs_le.mp (hpc i (by omega))).2
    have c := (abs_le.mp (hpc j hj)).1
    rw [he] at a a'
    have hij' : (i : ℚ) + 1 ≤ j := by exact_mod_cast hij
    have : ((i : ℚ) + 1) / g.length * barSamples env.sr env.bpm.val ≤
        j / g.length * barSamples env.sr env.bpm.val :=
      mul_le_mul_of_nonneg_right (div_le_div_of_nonneg_right hij' (by linarith)) (by linarith)
    have e : ((i : ℚ) + 1) / g.length * barSamples env.sr env.bpm.val =
        i / g.length * barSamples env.sr env.bpm.val + 1 / g.length * barSamples env.sr env.bpm.val := by ring
    linarith
  refine ⟨(barLength env.bpm env.sr (.fin 1)).toUsize,
    fun j => eventPlace (barLength env.bpm env.sr (.fin 1)) (seqTime 0 j g.length, .nat 0),
    hb, fun j hj => ⟨?_, hpc j hj⟩, hinj, fun n => ?_⟩
  · have a := (abs_le.mp (hpc j hj)).2
    have c := (abs_le.mp hb).1
    have hj' : (j : ℚ) + 1 ≤ g.length := by exact_mod_cast hj
    have : ((j : ℚ) + 1) / g.length * barSamples env.sr env.bpm.val ≤
        1 * barSamples env.sr env.bpm.val :=
      mul_le_mul_of_nonneg_right (by rw [div_le_one (by linarith)]; exact hj') (by linarith)
    have e : ((j : ℚ) + 1) / g.length * barSamples env.sr env.bpm.val =
        j / g.length * barSamples env.sr env.bpm.val + 1 / g.length * barSamples env.sr env.bpm.val := by ring
    have : (eventPlace (barLength env.bpm env.sr (.fin 1)) (seqTime 0 j g.length, .nat 0) : ℚ) <
        (barLength env.bpm env.sr (.fin 1)).toUsize := by linarith
    exact_mod_cast this
  · have hlate : ∀ t, ∀ e ∈ patternEvents 1 rest, t % (barLength env.bpm env.sr (.fin 1)).toUsize ≠
        eventPlace (barLength env.bpm env.sr (.fin 1)) e := by
      intro t e he h
      obtain ⟨p, q, a, p1, p2, p3, p4, p5⟩ := patternEvents_time he
      have := place_late hbpm h1 h2 hX p1 (by omega) p4 (hlen q p3) e.2
      rw [← p5] at this
      change _ ≤ eventPlace _ e at this
      have := Nat.mod_lt t (Nat.pos_of_ne_zero hb0)
      rw [h] at this
      omega
    have hgr := fun t => seqSample_group P.libm hb0 t 0 g.length g 0
      (fun a c _ h h' => hinj a c h (by omega))
    have hboth : ∀ t, ∃ v, seqAt P.libm (seqEvents (g :: rest)) env.bpm env.sr t = .ok v ∧
        (∀ j e, g[j]? = some e → t % (barLength env.bpm env.sr (.fin 1)).toUsize =
          eventPlace (barLength env.bpm env.sr (.fin 1)) (seqTime 0 j g.length, .nat 0) →
          v = noteOut P.libm e) ∧
        ((∀ j, j < g.length → t % (barLength env.bpm env.sr (.fin 1)).toUsize ≠
          eventPlace (barLength env.bpm env.sr (.fin 1)) (seqTime 0 j g.length, .nat 0)) → v = .fin 0) := by
      intro t
      have hcut : ∀ v, seqSample P.libm (barLength env.bpm env.sr (.fin 1)) t seqValue0
          (groupEvents 0 g.length 0 g) (.fin 0) = .ok v →
          seqAt P.libm (seqEvents (g :: rest)) env.bpm env.sr t = .ok v := by
        intro v hv
        unfold seqAt seqEvents patternEvents
        rw [seqSample_append P.libm t seqValue0 _ _ _ v hv]
        exact seqSample_keep P.libm hb0 t _ _ _ (hlate t)
      by_cases hex : ∃ j, j < g.length ∧ t % (barLength env.bpm env.sr (.fin 1)).toUsize =
          eventPlace (barLength env.bpm env.sr (.fin 1)) (seqTime 0 j g.length, .nat 0)
      · obtain ⟨j, hj, hjt⟩ := hex
        have hs := (hgr t).1 j g[j] (List.getElem?_eq_getElem hj) (by rw [Nat.zero_add]; exact hjt)
        refine ⟨_, hcut _ hs, ?_, fun hno => absurd hjt (hno j hj)⟩
        intro j' e he ht
        have := (hgr t).1 j' e he (by rw [Nat.zero_add]; exact ht)
        rw [hs] at this
        exact Except.ok.inj this
      · have hno : ∀ j, j < g.length → t % (barLength env.bpm env.sr (.fin 1)).toUsize ≠
            eventPlace (barLength env.bpm env.sr (.fin 1)) (seqTime 0 j g.length, .nat 0) :=
          fun j hj h => hex ⟨j, hj, h⟩
        refine ⟨.fin 0, hcut _ ((hgr t).2 (fun a ha => by rw [Nat.zero_add]; exact hno a ha) _), ?_, fun _ => rfl⟩
        intro j e he ht
        exact absurd ht (hno j (List.getElem?_eq_some_iff.mp he).1)
    have hv := fun t => (hboth t).choose_spec
    obtain ⟨outs, o1, o2⟩ := seq_blocks P N env (seqEvents (g :: rest)) n (fun t => (hboth t).choose)
      (fun j _ => (hv j).1)
    refine ⟨outs, _, o1, o2, by simp, fun t y hy => ?_⟩
    rw [List.getElem?_map] at hy
    obtain ⟨t', ht', rfl⟩ := Option.map_eq_some_iff.mp hy
    obtain ⟨_, h⟩ := List.getElem?_eq_some_iff.mp ht'
    rw [List.getElem_range] at h
    subst h
    exact (hv t).2

/-- The pattern `60_67` at 120 bpm and 100 samples a second: a bar of 200 samples, three elements. -/
example : ∃ env : Env, Within 1 (2 ^ 10) env.bpm ∧ barSamples env.sr env.bpm.val = 200 ∧
    8 * (([.note 60, .rest, .note 67] : List SeqElem).length : ℚ) ≤ barSamples env.sr env.bpm.val :=
  ⟨⟨[], 100, .fin 120, 0⟩, ⟨rfl, by norm_num [Fl.val], by norm_num [Fl.val]⟩, by norm_num [barSamples, Fl.val],
    by norm_num [barSamples, Fl.val]⟩

/-- The groups after the first are never heard: the output is the same without them. -/
theorem c21_later_groups_silent (P : Plat) (N : Nat) (env : Env) (hbpm : Within 1 (2 ^ 10) env.bpm)
    (h1 : 1 ≤ env.sr) (h2 : env.sr ≤ 2 ^ 24) (hX : barSamples env.sr env.bpm.val ≤ 2 ^ 20)
    (g : List SeqElem) (rest : List (List SeqElem)) (hg : g ≠ [])
    (hn : 8 * (g.length : ℚ) ≤ barSamples env.sr env.bpm.val)
    (hrest : rest.length < 2 ^ 24) (hlen : ∀ q ∈ rest, q.length ≤ 2 ^ 24) (n : Nat) :
    ∃ outs outs' ys, play P N env (.seq (seqEvents (g :: rest))) [] (noInput n) = .ok outs ∧
      play P N env (.seq (seqEvents [g])) [] (noInput n) = .ok outs' ∧
      channel 0 outs = some ys ∧ channel 0 outs' = some ys := by
  have hlen1 : (1 : ℚ) ≤ g.length := by exact_mod_cast List.length_pos_iff.mpr hg
  have hr := bar_rel hbpm h1 h2
  have hb0 : (barLength env.bpm env.sr (.fin 1)).toUsize ≠ 0 := by
    have hb := hr.toUsize (by norm_num) (le_trans hX (by norm_num))
    intro h
    rw [h] at hb
    have := (abs_le.mp hb).1
    push_cast at this
    linarith
  obtain ⟨_, _, _, _, _, H⟩ := c21_first_group_partial P N env hbpm h1 h2 hX g [] hg hn (by norm_num) (by simp)
  have hlate : ∀ t, ∀ e ∈ patternEvents 1 rest, t % (barLength env.bpm env.sr (.fin 1)).toUsize ≠
      eventPlace (barLength env.bpm env.sr (.fin 1)) e := by
    intro t e he h
    obtain ⟨p, q, a, p1, p2, p3, p4, p5⟩ := patternEvents_time he
    have := place_late hbpm h1 h2 hX p1 (by omega) p4 (hlen q p3) e.2
    rw [← p5] at this
    change _ ≤ eventPlace _ e at this
    have := Nat.mod_lt t (Nat.pos_of_ne_zero hb0)
    rw [h] at this
    omega
  have hval : ∀ (es : List (Fl × NatRef)) t out, ∃ v,
      seqSample P.libm (barLength env.bpm env.sr (.fin 1)) t seqValue0 es out = .ok v := by
    intro es t
    induction es with
    | nil => exact fun out => ⟨_, rfl⟩
    | cons e es ih =>
      intro out
      rw [seqSample, if_neg hb0]
      split
      · cases e.2 with
        | nat k => exact ih _
        | ref r => exact ih _
      · exact ih _
  have hgv : ∀ t, ∃ v, seqAt P.libm (seqEvents [g]) env.bpm env.sr t = .ok v ∧
      seqAt P.libm (seqEvents (g :: rest)) env.bpm env.sr t = .ok v := by
    intro t
    obtain ⟨v, hv⟩ := hval (groupEvents 0 g.length 0 g) t (.fin 0)
    refine ⟨v, ?_, ?_⟩
    · unfold seqAt seqEvents
      rw [patternEvents, patternEvents, List.append_nil]
      exact hv
    · unfold seqAt seqEvents
      rw [patternEvents, seqSample_append P.libm t seqValue0 _ _ _ v hv]
      exact seqSample_keep P.libm hb0 t _ _ _ (hlate t)
  obtain ⟨o1, a1, a2⟩ := seq_blocks P N env (seqEvents (g :: rest)) n (fun t => (hgv t).choose)
    (fun t _ => (hgv t).choose_spec.2)
  obtain ⟨o2, b1, b2⟩ := seq_blocks P N env (seqEvents [g]) n (fun t => (hgv t).choose)
    (fun t _ => (hgv t).choose_spec.1)
  exact ⟨o1, o2, _, a1, b1, a2, b2⟩

/-- C21 fails: in `seq 60 72` the second note is never played, neither halfway through the bar (place 100 of
200) nor at any other time; the output is 0 at every sample that is not the start of a bar. -/
theorem c21_later_groups_counterexample (P : Plat) (N n : Nat) :
    ∃ (env : Env) (outs : List (List Buf)) (ys : List Fl), barSamples env.sr env.bpm.val = 200 ∧
      play P N env (.seq (seqEvents [[.note 60], [.note 72]])) [] (noInput n) = .ok outs ∧
      channel 0 outs = some ys ∧ ys.length = n * N ∧
      ∀ t y, ys[t]? = some y → t % 200 ≠ 0 → y = .fin 0 := by
  let env : Env := ⟨[], 100, .fin 120, 0⟩
  have hbar : (barLength env.bpm env.sr (.fin 1)).toUsize = 200 := by decide +kernel
  have hp0 : eventPlace (barLength env.bpm env.sr (.fin 1)) (seqTime 0 0 1, .nat 60) = 0 := by decide +kernel
  have hp1 : eventPlace (barLength env.bpm env.sr (.fin 1)) (seqTime 1 0 1, .nat 72) = 200 := by decide +kernel
  have hv : ∀ t, seqAt P.libm (seqEvents [[.note 60], [.note 72]]) env.bpm env.sr t =
      .ok (if t % 200 = 0 then noteOut P.libm (.note 60) else .fin 0) := by
    intro t
    have hlt : t % 200 < 200 := Nat.mod_lt _ (by norm_num)
    unfold eventPlace at hp0 hp1
    unfold seqAt seqEvents
    simp only [patternEvents, groupEvents, List.length_cons, List.length_nil, Nat.zero_add, List.append_nil,
      List.cons_append, List.nil_append, seqSample, hbar, hp0, hp1]
    rw [if_neg (by norm_num : ¬ (200 : Nat) = 0), if_neg (by omega : ¬ t % 200 = 200)]
    by_cases h : t % 200 = 0
    · rw [if_pos h, if_pos h]
      simp only [seqValue0, bind, Except.bind]
      rw [if_neg (by norm_num : ¬ (200 : Nat) = 0), if_neg (by omega), seqPitch_note]
    · rw [if_neg h, if_neg h]
      rw [if_neg (by norm_num : ¬ (200 : Nat) = 0)]
  obtain ⟨outs, o1, o2⟩ := seq_blocks P N env _ n _ (fun t _ => hv t)
  refine ⟨env, outs, _, by norm_num [barSamples, env, Fl.val], o1, o2, by simp, fun t y hy ht => ?_⟩
  rw [List.getElem?_map] at hy
  obtain ⟨t', ht', rfl⟩ := Option.map_eq_some_iff.mp hy
  obtain ⟨_, h⟩ := List.getElem?_eq_some_iff.mp ht'
  rw [List.getElem_range] at h
  subst h
  rw [if_neg ht]

end Verif.Props
