import Verif.Lemmas.Inputs
import Verif.Props.Sequencer
import Verif.Lemmas.Told
import Verif.Spec.SeqRef

/-! # Sequencers with references and a speed (C54) -/

namespace Verif.Props
open Spec

theorem bar_rel_speed {bpm v : Fl} {sr : Nat} (hb : Within 1 (2 ^ 10) bpm) (hv : Within (1 / 2 ^ 10) (2 ^ 10) v)
    (h1 : 1 ≤ sr) (h2 : sr ≤ 2 ^ 24) : Rel 3 (barLength bpm sr v) (barSamples sr bpm.val / v.val) := by
  obtain ⟨f1, f2⟩ := f64_ofNat h2
  have hsr1 : (1 : ℚ) ≤ sr := by exact_mod_cast h1
  have hsr2 : (sr : ℚ) ≤ 2 ^ 24 := by exact_mod_cast h2
  obtain ⟨b0, b1, b2⟩ := hb
  obtain ⟨v0, v1, v2⟩ := hv
  have hbp : 0 < bpm.val := by linarith
  have hvp : 0 < v.val := lt_of_lt_of_le (by norm_num) v1
  have d1 : 240 / bpm.val ≤ 240 := by
    rw [div_le_iff₀ hbp]; linarith
  have d2 : 1 / 2 ^ 10 ≤ 240 / bpm.val := by
    rw [le_div_iff₀ hbp]
    have : (1 : ℚ) / 2 ^ 10 * 2 ^ 10 = 1 := by norm_num
    nlinarith
  have c1 := Rel.div (f := f64) (Rel.of_eq (x := .fin 240) (X := 240) rfl (by norm_num) rfl)
    (Rel.of_eq (x := bpm) b0 hbp.le rfl) (by norm_num) hbp
    (Or.inr (le_trans (by norm_num) d2)) (le_trans d1 (by norm_num))
  have e1 : (1 : ℚ) / 2 ^ 10 ≤ 240 / bpm.val * sr := by
    have : 240 / bpm.val * 1 ≤ 240 / bpm.val * sr :=
      mul_le_mul_of_nonneg_left hsr1 (le_trans (by norm_num) d2)
    linarith
  have e2 : 240 / bpm.val * sr ≤ 2 ^ 32 := by
    calc 240 / bpm.val * sr ≤ 240 * 2 ^ 24 := mul_le_mul d1 hsr2 (by positivity) (by norm_num)
      _ ≤ 2 ^ 32 := by norm_num
  have c2 := c1.mul (f := f64) (Rel.of_eq (x := Fl.ofNat f64 sr) f1 (by positivity) f2) (by norm_num)
    (Or.inr (le_trans (by norm_num) e1)) (le_trans e2 (by norm_num))
  refine c2.div (f := f64) (Rel.of_eq (x := v) v0 hvp.le rfl) (by norm_num) hvp (Or.inr ?_) ?_
  · rw [le_div_iff₀ hvp]
    calc (1 : ℚ) / 2 ^ 100 * v.val ≤ 1 / 2 ^ 100 * 2 ^ 10 := mul_le_mul_of_nonneg_left v2 (by norm_num)
      _ ≤ 1 / 2 ^ 10 := by norm_num
      _ ≤ _ := e1
  · rw [div_le_iff₀ hvp]
    calc 240 / bpm.val * sr ≤ 2 ^ 32 := e2
      _ ≤ 2 ^ 90 * (1 / 2 ^ 10) := by norm_num
      _ ≤ _ := mul_le_mul_of_nonneg_left v1 (by norm_num)

/-- Where the elements of the first group are played. -/
theorem place_close' {bar : Fl} {X : ℚ} (hr : Rel 3 bar X) (hX : X ≤ 2 ^ 20) {j n : Nat} (hj : j < n) (hn : 8 * n ≤ X)
    (v : NatRef) : |(eventPlace bar (seqTime 0 j n, v) : ℚ) - j / n * X| ≤ 2 := by
  have q1 : (1 : ℚ) ≤ n := by exact_mod_cast (by omega : 1 ≤ n)
  have q3 : (j : ℚ) ≤ n := by exact_mod_cast hj.le
  have hn24 : n ≤ 2 ^ 24 := by
    have : (n : ℚ) ≤ 2 ^ 24 := by linarith
    exact_mod_cast this
  have hX1 : 8 ≤ X := by linarith
  have hle : (j / n : ℚ) ≤ 1 := by rw [div_le_one (by linarith)]; exact q3
  have h0 : (0 : ℚ) ≤ j / n := by positivity
  have hz : (j / n * X : ℚ) = 0 ∨ 1 / 2 ^ 100 ≤ (j / n * X : ℚ) := by
    rcases Nat.eq_zero_or_pos j with h | h
    · left; rw [h]; simp
    · right
      have : (1 : ℚ) ≤ j := by exact_mod_cast h
      have h3 : (1 : ℚ) / 2 ^ 24 ≤ j / n := by
        rw [le_div_iff₀ (by linarith)]
        have : (n : ℚ) ≤ 2 ^ 24 := by exact_mod_cast hn24
        have : (1 : ℚ) / 2 ^ 24 * n ≤ 1 / 2 ^ 24 * 2 ^ 24 := mul_le_mul_of_nonneg_left this (by norm_num)
        have e : (1 : ℚ) / 2 ^ 24 * 2 ^ 24 = 1 := by norm_num
        linarith
      calc (1 : ℚ) / 2 ^ 100 ≤ 1 / 2 ^ 24 * 8 := by norm_num
        _ ≤ _ := mul_le_mul h3 hX1 (by norm_num) h0
  have hb2 : (j / n * X : ℚ) ≤ 2 ^ 20 := by
    calc (j / n * X : ℚ) ≤ 1 * X := mul_le_mul_of_nonneg_right hle (by linarith)
      _ ≤ 2 ^ 20 := by linarith
  have c := (time_rel hj hn24).mul (f := f64) hr (by norm_num) hz (le_trans hb2 (by norm_num))
  refine le_trans (c.toUsize (by norm_num) (le_trans hb2 (by norm_num))) ?_
  linarith

/-- An event of a later group lies after the end of the bar. -/
theorem place_late' {bar : Fl} {X : ℚ} (hr : Rel 3 bar X) (hok : bar.Ok f64) (hX : X ≤ 2 ^ 20) {i j n : Nat} (hi : 1 ≤ i)
    (hi2 : i ≤ 2 ^ 24) (hj : j < n) (hn : n ≤ 2 ^ 24) (v : NatRef) :
    bar.toUsize ≤ eventPlace bar (seqTime i j n, v) := by
  obtain ⟨j1, j2⟩ := f32_ofNat (le_trans hj.le hn)
  obtain ⟨n1, n2⟩ := f32_ofNat hn
  obtain ⟨i1, i2⟩ := f32_ofNat hi2
  have q1 : (0 : ℚ) < n := by exact_mod_cast (by omega : 0 < n)
  have q3 : (j : ℚ) ≤ n := by exact_mod_cast hj.le
  have qi : (1 : ℚ) ≤ i := by exact_mod_cast hi
  have qi2 : (i : ℚ) ≤ 2 ^ 24 := by exact_mod_cast hi2
  have hle : (j / n : ℚ) ≤ 1 := by rw [div_le_one q1]; exact q3
  have h0 : (0 : ℚ) ≤ j / n := by positivity
  have w1 := within_div (x := Fl.ofNat f32 j) (y := Fl.ofNat f32 n) j1 n1 rep0 rep1 (by norm_num) (by norm_num)
    (by rw [n2]; exact q1.ne') (by rw [j2, n2]; exact h0) (by rw [j2, n2]; exact hle)
  have rbig : f32.Rep ((2 : ℚ) ^ 25) := ⟨1, 25, by decide, by decide, by rw [pow2_eq]; norm_num⟩
  have w2 : Within 1 (2 ^ 25) (seqTime i j n) := within_add w1.1 i1 rep1 rbig (by norm_num) (by norm_num)
    (by rw [i2]; have := w1.2.1; linarith) (by rw [i2]; have := w1.2.2; linarith)
  have hv0 := hr.val_nonneg
  have hvb : bar.val ≤ 2 ^ 21 := by
    have := (abs_le.mp (hr.close (by norm_num))).2
    linarith
  have hrep : f64.Rep bar.val := by
    revert hok
    cases bar with
    | nan => intro _; exact Fmt.rep_zero
    | inf s => intro _; exact Fmt.rep_zero
    | nz => intro _; exact Fmt.rep_zero
    | fin q => intro h; exact h.1
  have hge : bar.val ≤ (seqTime i j n).val * bar.val := by
    have := mul_le_mul_of_nonneg_right w2.2.1 hv0
    linarith
  have hub : (seqTime i j n).val * bar.val ≤ 2 ^ 46 := by
    calc (seqTime i j n).val * bar.val ≤ 2 ^ 25 * 2 ^ 21 := mul_le_mul w2.2.2 hvb hv0 (by norm_num)
      _ = 2 ^ 46 := by norm_num
  have hm := Fl.mul_fin (f := f64) w2.1 hr.fin (f64_inRange (by
    rw [abs_of_nonneg (by linarith)]; exact le_trans hub (by norm_num)))
  have rb2 : f64.Rep ((2 : ℚ) ^ 46) := ⟨1, 46, by decide, by decide, by rw [pow2_eq]; norm_num⟩
  have l1 : bar.val ≤ (Fl.mul f64 (seqTime i j n) bar).val := by
    rw [hm.2]; exact Fmt.le_rnd f64_p hrep hge
  have l2 : (Fl.mul f64 (seqTime i j n) bar).val ≤ 2 ^ 46 := by
    rw [hm.2]; exact Fmt.rnd_le f64_p rb2 hub
  unfold eventPlace
  rw [Fl.toUsize_of hr.fin (lt_of_le_of_lt hvb (by norm_num)),
    Fl.toUsize_of hm.1 (lt_of_le_of_lt l2 (by norm_num))]
  exact Int.toNat_le_toNat (Int.floor_le_floor l1)

/-- What an element puts out, given what its value is. -/
def elemOut (m : Libm) (val : NatRef → Except Panic Fl) : SeqElem → Except Panic Fl
  | .note k => (val (.nat k)).map (seqPitch m)
  | .rest => .ok (.fin 0)
  | .ref r => (val (.ref r)).map (seqPitch m)

theorem seqSample_group' (m : Libm) {bar : Fl} (hb : bar.toUsize ≠ 0) (k i n : Nat) (val : NatRef → Except Panic Fl)
    (g : List SeqElem) (j : Nat)
    (hinj : ∀ a c, j ≤ a → a < c → c < j + g.length →
      eventPlace bar (seqTime i a n, .nat 0) ≠ eventPlace bar (seqTime i c n, .nat 0)) :
    (∀ a e w, g[a]? = some e → k % bar.toUsize = eventPlace bar (seqTime i (j + a) n, .nat 0) → elemOut m val e = .ok w →
      seqSample m bar k val (groupEvents i n j g) (.fin 0) = .ok w) ∧
    ((∀ a, a < g.length → k % bar.toUsize ≠ eventPlace bar (seqTime i (j + a) n, .nat 0)) →
      ∀ out, seqSample m bar k val (groupEvents i n j g) out = .ok out) := by
  induction g generalizing j with
  | nil => exact ⟨by simp, fun _ _ => rfl⟩
  | cons e es ih =>
    have ih' := ih (j + 1) (fun a c h1 h2 h3 => hinj a c (by omega) h2 (by simp only [List.length_cons]; omega))
    have tail : (∀ a, a < es.length → k % bar.toUsize ≠ eventPlace bar (seqTime i (j + 1 + a) n, .nat 0)) →
        ∀ out, seqSample m bar k val (groupEvents i n (j + 1) es) out = .ok out := ih'.2
    constructor
    · intro a x w hx hk hw
      cases a with
      | zero =>
        simp only [List.getElem?_cons_zero, Option.some.injEq] at hx
        subst hx
        rw [Nat.add_zero] at hk
        have ht := tail (fun a ha => by
          rw [hk]
          exact hinj j (j + 1 + a) (le_refl _) (by omega) (by simp only [List.length_cons]; omega))
        unfold eventPlace at hk
        cases e with
        | note q =>
          rw [groupEvents, seqSample, if_neg hb, if_pos hk]
          simp only [elemOut] at hw
          cases hv : val (.nat q) with
          | error e => rw [hv] at hw; cases hw
          | ok x =>
            rw [hv] at hw
            simp only [bind, Except.bind]
            rw [ht]; exact hw
        | rest =>
          rw [groupEvents, ht]; exact hw
        | ref r =>
          rw [groupEvents, seqSample, if_neg hb, if_pos hk]
          simp only [elemOut] at hw
          cases hv : val (.ref r) with
          | error e => rw [hv] at hw; cases hw
          | ok x =>
            rw [hv] at hw
            simp only [bind, Except.bind]
            rw [ht]; exact hw
      | succ a =>
        rw [List.getElem?_cons_succ] at hx
        have hk' : k % bar.toUsize = eventPlace bar (seqTime i (j + 1 + a) n, .nat 0) := by
          rw [hk]; congr 3; omega
        have hlt : a < es.length := (List.getElem?_eq_some_iff.mp hx).1
        have hr := ih'.1 a x w hx hk' hw
        have hne : ¬ k % bar.toUsize = (Fl.mul f64 (seqTime i j n) bar).toUsize := by
          rw [hk']
          exact (hinj j (j + 1 + a) (le_refl _) (by omega) (by simp only [List.length_cons]; omega)).symm
        cases e with
        | note q => rw [groupEvents, seqSample, if_neg hb, if_neg hne, hr]
        | rest => rw [groupEvents, hr]
        | ref r => rw [groupEvents, seqSample, if_neg hb, if_neg hne, hr]
    · intro hno out
      have hne : ¬ k % bar.toUsize = (Fl.mul f64 (seqTime i j n) bar).toUsize := hno 0 (by simp)
      have hr := tail (fun a ha => by
        have := hno (a + 1) (by simp only [List.length_cons]; omega)
        intro h
        apply this
        rw [h]; congr 3; omega)
      cases e with
      | note q => rw [groupEvents, seqSample, if_neg hb, if_neg hne, hr]
      | rest => rw [groupEvents, hr]
      | ref r => rw [groupEvents, seqSample, if_neg hb, if_neg hne, hr]

/-- One sample of a pattern. -/
theorem seq_core (m : Libm) {bar : Fl} {X : ℚ} (hr : Rel 3 bar X) (hok : bar.Ok f64) (hX : X ≤ 2 ^ 20)
    (g : List SeqElem) (rest : List (List SeqElem)) (hg : g ≠ []) (hn : 8 * (g.length : ℚ) ≤ X)
    (hrest : rest.length < 2 ^ 24) (hlen : ∀ q ∈ rest, q.length ≤ 2 ^ 24) :
    bar.toUsize ≠ 0 ∧ |(bar.toUsize : ℚ) - X| ≤ 2 ∧
      (∀ j, j < g.length → eventPlace bar (seqTime 0 j g.length, .nat 0) < bar.toUsize ∧
        |(eventPlace bar (seqTime 0 j g.length, .nat 0) : ℚ) - j / g.length * X| ≤ 2) ∧
      (∀ i j, i < j → j < g.length →
        eventPlace bar (seqTime 0 i g.length, .nat 0) ≠ eventPlace bar (seqTime 0 j g.length, .nat 0)) ∧
      ∀ t val,
        (∀ j e w, g[j]? = some e → t % bar.toUsize = eventPlace bar (seqTime 0 j g.length, .nat 0) → elemOut m val e = .ok w →
          seqSample m bar t val (seqEvents (g :: rest)) (.fin 0) = .ok w) ∧
        ((∀ j, j < g.length → t % bar.toUsize ≠ eventPlace bar (seqTime 0 j g.length, .nat 0)) →
          seqSample m bar t val (seqEvents (g :: rest)) (.fin 0) = .ok (.fin 0)) := by
  have hlen1 : (1 : ℚ) ≤ g.length := by exact_mod_cast List.length_pos_iff.mpr hg
  have hb : |(bar.toUsize : ℚ) - X| ≤ 2 := by
    refine le_trans (hr.toUsize (by norm_num) (le_trans hX (by norm_num))) ?_
    linarith
  have hb0 : bar.toUsize ≠ 0 := by
    intro h
    rw [h] at hb
    have := (abs_le.mp hb).1
    push_cast at this
    linarith
  have hpc : ∀ j, j < g.length → |(eventPlace bar (seqTime 0 j g.length, .nat 0) : ℚ) - j / g.length * X| ≤ 2 :=
    fun j hj => place_close' hr hX hj hn _
  have hgap : 8 ≤ 1 / (g.length : ℚ) * X := by
    rw [one_div_mul_eq_div, le_div_iff₀ (by linarith)]; exact hn
  have hinj : ∀ i j, i < j → j < g.length →
      eventPlace bar (seqTime 0 i g.length, .nat 0) ≠ eventPlace bar (seqTime 0 j g.length, .nat 0) := by
    intro i j hij hj he
    have a := (abs_le.mp (hpc i (by omega))).1
    have a' := (abs_le.mp (hpc i (by omega))).2
    have c := (abs_le.mp (hpc j hj)).1
    rw [he] at a a'
    have hij' : (i : ℚ) + 1 ≤ j := by exact_mod_cast hij
    have : ((i : ℚ) + 1) / g.length * X ≤ j / g.length * X :=
      mul_le_mul_of_nonneg_right (div_le_div_of_nonneg_right hij' (by linarith)) (by linarith)
    have e : ((i : ℚ) + 1) / g.length * X = i / g.length * X + 1 / g.length * X := by ring
    linarith
  refine ⟨hb0, hb, fun j hj => ⟨?_, hpc j hj⟩, hinj, fun t val => ?_⟩
  · have a := (abs_le.mp (hpc j hj)).2
    have c := (abs_le.mp hb).1
    have hj' : (j : ℚ) + 1 ≤ g.length := by exact_mod_cast hj
    have : ((j : ℚ) + 1) / g.length * X ≤ 1 * X :=
      mul_le_mul_of_nonneg_right (by rw [div_le_one (by linarith)]; exact hj') (by linarith)
    have e : ((j : ℚ) + 1) / g.length * X = j / g.length * X + 1 / g.length * X := by ring
    have : (eventPlace bar (seqTime 0 j g.length, .nat 0) : ℚ) < bar.toUsize := by linarith
    exact_mod_cast this
  · have hlate : ∀ e ∈ patternEvents 1 rest, t % bar.toUsize ≠ eventPlace bar e := by
      intro e he h
      obtain ⟨p, q, a, p1, p2, p3, p4, p5⟩ := patternEvents_time he
      have := place_late' hr hok hX p1 (by omega) p4 (hlen q p3) e.2
      rw [← p5] at this
      change _ ≤ eventPlace _ e at this
      have := Nat.mod_lt t (Nat.pos_of_ne_zero hb0)
      rw [h] at this
      omega
    obtain ⟨g1, g2⟩ := seqSample_group' m hb0 t 0 g.length val g 0 (fun a c _ h h' => hinj a c h (by omega))
    have hcut : ∀ v, seqSample m bar t val (groupEvents 0 g.length 0 g) (.fin 0) = .ok v →
        seqSample m bar t val (seqEvents (g :: rest)) (.fin 0) = .ok v := by
      intro v hv
      unfold seqEvents patternEvents
      rw [seqSample_append m t val _ _ _ v hv]
      exact seqSample_keep m hb0 t _ _ _ hlate
    exact ⟨fun j e w he ht hw => hcut _ (g1 j e w he (by rw [Nat.zero_add]; exact ht) hw),
      fun h => hcut _ (g2 (fun a ha => by rw [Nat.zero_add]; exact h a ha) _)⟩

/-! ### The references -/

theorem group_refs (i n j : Nat) (g : List SeqElem) :
    (groupEvents i n j g).flatMap (fun e => e.2.refs) = g.flatMap elemRef := by
  induction g generalizing j with
  | nil => rfl
  | cons e es ih =>
    have h1 : ∀ k, NatRef.refs (.nat k) = [] := fun _ => rfl
    have h2 : ∀ r, NatRef.refs (.ref r) = [r] := fun _ => rfl
    cases e <;> simp [groupEvents, elemRef, h1, h2, ih]

theorem pattern_refs (i : Nat) (gs : List (List SeqElem)) :
    (patternEvents i gs).flatMap (fun e => e.2.refs) = gs.flatten.flatMap elemRef := by
  induction gs generalizing i with
  | nil => rfl
  | cons g gs ih => simp [patternEvents, group_refs, ih]

theorem seqRefs_pattern (gs : List (List SeqElem)) : seqRefs (seqEvents gs) = patternRefs gs := by
  have := seqRefs_fold (seqEvents gs) []
  unfold seqEvents at this
  rw [pattern_refs] at this
  exact this.trans (by simp [patternRefs])

theorem firsts_mem {l : List Name} {r : Name} : r ∈ firsts l ↔ r ∈ l := by
  induction l with
  | nil => rfl
  | cons a l ih =>
    simp only [firsts, List.mem_cons, List.mem_filter, ih, decide_eq_true_eq]
    by_cases h : r = a <;> simp [h]

theorem lookup_enum (names : List Name) (k : Nat) (r : Name) (h : r ∈ names) :
    ∃ q, lookup ((enumFrom k names).map (fun p => (p.2, p.1))) r = some (k + q) ∧ names[q]? = some r := by
  induction names generalizing k with
  | nil => cases h
  | cons a l ih =>
    simp only [enumFrom, List.map_cons, lookup]
    by_cases ha : a = r
    · exact ⟨0, by rw [if_pos ha]; rfl, by simp [ha]⟩
    · rw [if_neg ha]
      rcases List.mem_cons.mp h with h | h
      · exact absurd h.symm ha
      · obtain ⟨q, h1, h2⟩ := ih (k + 1) h
        exact ⟨q + 1, by rw [h1]; congr 1; omega, by simpa using h2⟩

/-! ### The loop -/

/-- One sample of a sequencer with inputs; the state is the number of samples so far and the speed. -/
def seqStep (m : Libm) (events : List (Fl × NatRef)) (refs : List (Name × Nat)) (bpm : Fl) (sr : Nat) (order : List Nat)
    (sp : Option Fl) (s : Nat × Fl) (x : Ins × Nat) : Except Panic ((Nat × Fl) × Fl) :=
  match seqSample m (barLength bpm sr (sp.getD s.2)) s.1
      (seqValue x.1 refs order (if sp.isSome then 1 else 0) x.2) events (.fin 0) with
  | .error e => .error e
  | .ok v => .ok ((s.1 + 1, sp.getD s.2), v)

theorem seqRun_steps (m : Libm) (events : List (Fl × NatRef)) (refs : List (Name × Nat)) (bpm : Fl) (sr : Nat) (order : List Nat)
    (sp : Option Fl) (i : Ins) (k0 : Nat) (s : Fl) (a : List Fl) (j : Nat) :
    runM (seqStep m events refs bpm sr order sp) (k0 + j, s) ((List.range' j a.length).map (fun q => (i, q))) =
      match runM (fun (k : Nat) (_ : Fl) => do
        let v ← seqSample m (barLength bpm sr (sp.getD s)) k
          (seqValue i refs order (if sp.isSome then 1 else 0) (k - k0)) events (.fin 0)
        (.ok (k + 1, v) : Except Panic (Nat × Fl))) (k0 + j) a with
      | .error e => .error e
      | .ok r => .ok ((r.1, if a = [] then s else sp.getD s), r.2) := by
  induction a generalizing j s with
  | nil => rfl
  | cons x a ih =>
    have hd : sp.getD (sp.getD s) = sp.getD s := by cases sp <;> rfl
    have := ih (sp.getD s) (j + 1)
    rw [hd] at this
    rw [List.length_cons, List.range'_succ, List.map_cons, runM, runM]
    simp only [seqStep, Nat.add_sub_cancel_left, bind, Except.bind]
    cases hs : seqSample m (barLength bpm sr (sp.getD s)) (k0 + j)
          (seqValue i refs order (if sp.isSome then 1 else 0) j) events (.fin 0) with
    | error e => rfl
    | ok v =>
      simp only [bind, Except.bind] at this
      simp only [Nat.add_assoc, this]
      generalize runM _ (k0 + (j + 1)) a = R
      cases R with
      | error e => rfl
      | ok r => simp

/-- The output of a sequencer whose inputs are known. -/
theorem seq_input_blocks (P : Plat) (N : Nat) (hN : 0 < N) (env : Env) (events : List (Fl × NatRef)) (order : List Nat)
    (ins : List Ins) (sp : Option Fl)
    (hsp : ∀ i, i ∈ ins → i ≠ [] ∧ ∃ bufs b, inputAt i order 0 = .ok bufs ∧ chan bufs 0 = .ok b ∧ speedOf b = .ok sp)
    (v : Nat → Fl)
    (h : ∀ t i, ins[t / N]? = some i → t < ins.length * N →
      seqSample P.libm (barLength env.bpm env.sr (sp.getD (.fin 1))) t
        (seqValue i (Sequencer.new events env.sr env.bpm).refOrder order (if sp.isSome then 1 else 0) (t % N)) events (.fin 0) =
        .ok (v t)) :
    ∃ outs, play P N env (.seq events) (order.map .index) ins = .ok outs ∧
      channel 0 outs = some ((List.range (ins.length * N)).map v) ∧
      channel 1 outs = some (List.replicate (ins.length * N) (.fin 0)) := by
  obtain ⟨o, g1, g2, g3⟩ := blocks_items (procG P)
    (fun s : Nat × Fl => .prim (.seq ⟨events, (Sequencer.new events env.sr env.bpm).refOrder, s.2, env.bpm, env.sr, s.1, order⟩))
    (seqStep P.libm events (Sequencer.new events env.sr env.bpm).refOrder env.bpm env.sr order sp)
    N ins (fun s i a b hi ha => by
      obtain ⟨i0, bufs, fb, e1, e2, e3⟩ := hsp i hi
      have hr := seqRun_steps P.libm events (Sequencer.new events env.sr env.bpm).refOrder env.bpm env.sr order sp i s.1 s.2 a 0
      rw [ha, ← List.range_eq_range'] at hr
      have ha0 : a ≠ [] := by
        intro h; rw [h] at ha; simp at ha; omega
      obtain ⟨e, i', rfl⟩ := List.exists_cons_of_ne_nil i0
      simp only [Nat.add_zero] at hr
      unfold blockItems
      simp only [procG, procPrim, procSeq, e1, e2, e3, bind, Except.bind] at hr ⊢
      rw [hr]
      generalize runM _ s.1 a = R
      cases R with
      | error e => rfl
      | ok r =>
        simp only [blockOf, if_neg ha0]
        rfl)
    (fun t => (t, if t = 0 then .fin 1 else sp.getD (.fin 1))) v (fun t i hi ht => by
      have hd : sp.getD (if t = 0 then .fin 1 else sp.getD (.fin 1)) = sp.getD (.fin 1) := by
        split
        · rfl
        · cases sp <;> rfl
      simp only [seqStep, hd, h t i hi ht]
      simp) _
    (leftOnly_fresh N (GNode.prim (P := P) (.seq (Sequencer.new events env.sr env.bpm))))
  obtain ⟨refs, hm⟩ := seq_make P N env events
  refine ⟨o, play_ok (n := .prim (.seq ⟨events, (Sequencer.new events env.sr env.bpm).refOrder, .fin 1, env.bpm, env.sr, 0, order⟩))
    hm ?_ g1, g2, g3⟩
  have := sendMsgs_order (P := P)
    (fun o => .prim (.seq ⟨events, (Sequencer.new events env.sr env.bpm).refOrder, .fin 1, env.bpm, env.sr, 0, o⟩))
    (fun _ _ => rfl) [] order
  rw [List.nil_append] at this
  exact this

theorem beq_zero (x : Fl) : Fl.beq x (.fin 0) = true ↔ x = .fin 0 ∨ x = .nz := by
  cases x <;> simp [Fl.beq, Fl.val] <;> exact decide_eq_true_iff

theorem seqPitch_voice (m : Libm) (x : Fl) : seqPitch m x = voiceOut m x := by
  unfold seqPitch voiceOut
  simp only [beq_zero]

/-- C54 for the first group: a sequencer that refers to other chains plays each note at its place in the bar, and for each
reference the value its chain has at that moment; a speed in front of it shortens the bar. `node` gives the node of
each chain, `strm` what it sends. Missing: the later groups, which never play (`c21_later_groups_counterexample`), and a
first source that looks like a speed (`c54_speed_counterexample`). -/
theorem c54_seq_partial (P : Plat) (N : Nat) (hN : 2 ≤ N) (env : Env) (hbpm : Within 1 (2 ^ 10) env.bpm)
    (h1 : 1 ≤ env.sr) (h2 : env.sr ≤ 2 ^ 24) (sp : Option (Nat × Fl))
    (hv : ∀ p, p ∈ sp → Within (1 / 2 ^ 10) (2 ^ 10) p.2) (X : ℚ)
    (hX : X = barSamples env.sr env.bpm.val / (sp.elim 1 (fun p => p.2.val))) (hX2 : X ≤ 2 ^ 20)
    (g : List SeqElem) (rest : List (List SeqElem)) (hg : g ≠ []) (hn : 8 * (g.length : ℚ) ≤ X)
    (hrest : rest.length < 2 ^ 24) (hlen : ∀ q ∈ rest, q.length ≤ 2 ^ 24) (hsome : sp = none → patternRefs (g :: rest) ≠ []) :
    ∃ (b : Nat) (pl : Nat → Nat), |(b : ℚ) - X| ≤ 2 ∧
      (∀ j, j < g.length → pl j < b ∧ |(pl j : ℚ) - j / g.length * X| ≤ 2) ∧
      (∀ i j, i < j → j < g.length → pl i ≠ pl j) ∧
      ∀ (node : Name → Nat) (strm : Name → List Fl) (ins : List Ins),
        (∀ r, r ∈ patternRefs (g :: rest) → Sends N ins (node r) (strm r)) →
        (∀ p, p ∈ sp → ∃ xs, Sends N ins p.1 xs ∧ SpeedStream N ins.length p.2 xs) →
        (∀ r, sp = none → (patternRefs (g :: rest)).head? = some r → NotSpeed N ins.length (strm r)) →
        ∃ outs ys, play P N env (.seq (seqEvents (g :: rest)))
            ((sp.toList.map (fun p => .index p.1)) ++ (patternRefs (g :: rest)).map (fun r => .index (node r))) ins = .ok outs ∧
          channel 0 outs = some ys ∧ channel 1 outs = some (List.replicate (ins.length * N) (.fin 0)) ∧
          ys.length = ins.length * N ∧
          ∀ t y, ys[t]? = some y →
            (∀ j e, g[j]? = some e → t % b = pl j → y = elemVoice P.libm strm t e) ∧
            ((∀ j, j < g.length → t % b ≠ pl j) → y = .fin 0) := by
  have hrel : Rel 3 (barLength env.bpm env.sr ((sp.map Prod.snd).getD (.fin 1))) X := by
    subst hX
    cases sp with
    | none => exact bar_rel_speed hbpm (v := .fin 1) ⟨rfl, by norm_num [Fl.val], by norm_num [Fl.val]⟩ h1 h2
    | some p => exact bar_rel_speed hbpm (hv p rfl) h1 h2
  obtain ⟨c1, c2, c3, c4, c5⟩ := seq_core P.libm hrel (Fl.div_ok _ _) hX2 g rest hg hn hrest hlen
  refine ⟨_, fun j => eventPlace (barLength env.bpm env.sr ((sp.map Prod.snd).getD (.fin 1))) (seqTime 0 j g.length, .nat 0),
    c2, c3, c4, fun node strm ins hs hspeed hnot => ?_⟩
  generalize hbar : barLength env.bpm env.sr ((sp.map Prod.snd).getD (.fin 1)) = bar at *
  have hmsgs : (sp.toList.map (fun p => (Msg.index p.1 : Msg Fl))) ++ (patternRefs (g :: rest)).map (fun r => .index (node r)) =
      (sp.toList.map Prod.fst ++ (patternRefs (g :: rest)).map node).map .index := by
    simp [List.map_map, Function.comp_def]
  rw [hmsgs]
  generalize hord : sp.toList.map Prod.fst ++ (patternRefs (g :: rest)).map node = order
  -- the first input
  have hfirst : ∀ i, i ∈ ins → i ≠ [] ∧ ∃ bufs b, inputAt i order 0 = .ok bufs ∧ chan bufs 0 = .ok b ∧
      speedOf b = .ok (sp.map Prod.snd) := by
    intro i hi
    obtain ⟨k, hk⟩ := List.getElem?_of_mem hi
    have hkl : k < ins.length := (List.getElem?_eq_some_iff.mp hk).1
    have two : ∀ b : Buf, b.length = N → ∃ x y b', b = x :: y :: b' := by
      intro b hb
      match b, hb with
      | x :: y :: b', _ => exact ⟨x, y, b', rfl⟩
      | [x], hb => simp at hb; omega
      | [], hb => simp at hb; omega
    have hne : ∀ n xs, Sends N ins n xs → i ≠ [] := by
      intro n xs h
      obtain ⟨bufs, b, h1, _⟩ := h.2 k i hk
      intro h0; rw [h0] at h1; cases h1
    cases sp with
    | some p =>
      obtain ⟨xs, g1, g2⟩ := hspeed p rfl
      obtain ⟨bufs, b, e1, e2, e3, e4⟩ := sends_inputAt g1 (order := order) (j := 0) (by rw [← hord]; rfl) hk
      refine ⟨hne _ _ g1, bufs, b, e1, e2, ?_⟩
      obtain ⟨x, y, b', rfl⟩ := two b e3
      obtain ⟨f1, f2⟩ := g2 k hkl
      have q1 := e4 0 (by omega)
      have q2 := e4 1 (by omega)
      rw [Nat.add_zero, f1] at q1
      rw [f2] at q2
      simp only [List.getElem?_cons_zero, List.getElem?_cons_succ, Option.some.injEq] at q1 q2
      subst q1 q2
      have hx := hv p rfl
      have hlt : Fl.lt (.fin 0) p.2 = true :=
        (Fl.lt_fin (a := .fin 0) (b := p.2) rfl hx.1).mpr (lt_of_lt_of_le (by norm_num [Fl.val]) hx.2.1)
      simp [speedOf, hlt, Fl.beq]
    | none =>
      obtain ⟨r, rs, hr⟩ := List.exists_cons_of_ne_nil (hsome rfl)
      have g1 := hs r (by rw [hr]; simp)
      have g2 := hnot r rfl (by rw [hr]; rfl)
      obtain ⟨bufs, b, e1, e2, e3, e4⟩ := sends_inputAt g1 (order := order) (j := 0) (by rw [← hord, hr]; rfl) hk
      refine ⟨hne _ _ g1, bufs, b, e1, e2, ?_⟩
      obtain ⟨x, y, b', rfl⟩ := two b e3
      have q1 := e4 0 (by omega)
      have q2 := e4 1 (by omega)
      rw [Nat.add_zero] at q1
      have := g2 k x y hkl q1.symm q2.symm
      by_cases hx : Fl.lt (.fin 0) x = true
      · have hy : Fl.beq y (.fin 0) = false := by
          cases h : Fl.beq y (.fin 0)
          · rfl
          · exact absurd ⟨hx, h⟩ this
        simp [speedOf, hx, hy]
      · simp [speedOf, hx]
  -- the values
  have hval : ∀ t i, ins[t / N]? = some i → t < ins.length * N → ∀ e, e ∈ g →
      elemOut P.libm (seqValue i (Sequencer.new (seqEvents (g :: rest)) env.sr env.bpm).refOrder order
        (if (sp.map Prod.snd).isSome then 1 else 0) (t % N)) e = .ok (elemVoice P.libm strm t e) := by
    intro t i hi ht e he
    cases e with
    | note q => simp only [elemOut, seqValue, Except.map, seqPitch_note, elemVoice]
    | rest => rfl
    | ref r =>
      have hr : r ∈ patternRefs (g :: rest) := by
        unfold patternRefs
        rw [firsts_mem, List.flatten_cons, List.flatMap_append, List.mem_append]
        exact .inl (List.mem_flatMap.mpr ⟨_, he, by simp [elemRef]⟩)
      obtain ⟨q, l1, l2⟩ := lookup_enum (patternRefs (g :: rest)) 0 r hr
      rw [Nat.zero_add] at l1
      have hor : order[q + (if (sp.map Prod.snd).isSome then 1 else 0)]? = some (node r) := by
        rw [← hord]
        cases sp with
        | none => simp [l2]
        | some p => simp [l2]
      obtain ⟨x, hx⟩ := sends_get (hs r hr) ht
      have := sends_sample (hs r hr) hor hi ht hx
      simp only [elemOut, seqValue, Sequencer.new, seqRefs_pattern, l1, elemVoice, hx]
      unfold inputSample at this
      rw [this]
      simp only [Except.map, seqPitch_voice]
  have hboth : ∀ t, ∃ v, t < ins.length * N → (∀ i, ins[t / N]? = some i →
      seqSample P.libm bar t (seqValue i (Sequencer.new (seqEvents (g :: rest)) env.sr env.bpm).refOrder order
        (if (sp.map Prod.snd).isSome then 1 else 0) (t % N)) (seqEvents (g :: rest)) (.fin 0) = .ok v) ∧
      (∀ j e, g[j]? = some e → t % bar.toUsize = eventPlace bar (seqTime 0 j g.length, .nat 0) → v = elemVoice P.libm strm t e) ∧
      ((∀ j, j < g.length → t % bar.toUsize ≠ eventPlace bar (seqTime 0 j g.length, .nat 0)) → v = .fin 0) := by
    intro t
    by_cases hex : ∃ j, j < g.length ∧ t % bar.toUsize = eventPlace bar (seqTime 0 j g.length, .nat 0)
    · obtain ⟨j, hj, hjt⟩ := hex
      refine ⟨elemVoice P.libm strm t g[j], fun ht => ⟨fun i hi => ?_, fun j' e he hjt' => ?_, fun h => absurd hjt (h j hj)⟩⟩
      · exact (c5 t _).1 j g[j] _ (List.getElem?_eq_getElem hj) hjt (hval t i hi ht _ (List.getElem_mem hj))
      · have hj' : j' < g.length := (List.getElem?_eq_some_iff.mp he).1
        have : j' = j := by
          rcases Nat.lt_trichotomy j' j with h | h | h
          · exact absurd (hjt'.symm.trans hjt) (c4 _ _ h hj)
          · exact h
          · exact absurd (hjt.symm.trans hjt') (c4 _ _ h hj')
        subst this
        rw [List.getElem?_eq_getElem hj'] at he
        cases he; rfl
    · have hno : ∀ j, j < g.length → t % bar.toUsize ≠ eventPlace bar (seqTime 0 j g.length, .nat 0) :=
        fun j hj h => hex ⟨j, hj, h⟩
      exact ⟨.fin 0, fun _ => ⟨fun i _ => (c5 t _).2 hno,
        fun j e he h => absurd h (hno j (List.getElem?_eq_some_iff.mp he).1), fun _ => rfl⟩⟩
  choose v hvv using hboth
  obtain ⟨o, o1, o2, o3⟩ := seq_input_blocks P N (by omega) env (seqEvents (g :: rest)) order ins (sp.map Prod.snd) hfirst v
    (fun t i hi ht => by rw [hbar]; exact (hvv t ht).1 i hi)
  refine ⟨o, _, o1, o2, o3, by simp, fun t y hy => ?_⟩
  have ht : t < ins.length * N := by
    have := (List.getElem?_eq_some_iff.mp hy).1
    simpa using this
  have : y = v t := by
    simp [ht] at hy
    exact hy.symm
  subst this
  exact (hvv t ht).2

/-- `speed 2 >> seq 60 ~a _ ~a` at 44.1 kHz and tempo 120, with the source sounding from the second block on. -/
example : ∃ (env : Env) (sp : Option (Nat × Fl)) (g : List SeqElem) (ins : List Ins) (xs ys : List Fl),
    Within 1 (2 ^ 10) env.bpm ∧ (∀ p, p ∈ sp → Within (1 / 2 ^ 10) (2 ^ 10) p.2) ∧
    barSamples env.sr env.bpm.val / (sp.elim 1 (fun p => p.2.val)) = 44100 ∧ g.length = 4 ∧
    patternRefs [g] = [['~', 'a']] ∧ Sends 2 ins 5 xs ∧ Sends 2 ins 3 ys ∧ SpeedStream 2 ins.length (.fin 2) ys ∧
    NotSpeed 2 ins.length xs ∧ sp = some (3, .fin 2) := by
  have send : ∀ (a b c d e f g h : Fl), Sends 2 [[(3, [[a, b]]), (5, [[c, d]])], [(5, [[e, f]]), (3, [[g, h]])]] 3 [a, b, g, h] ∧
      Sends 2 [[(3, [[a, b]]), (5, [[c, d]])], [(5, [[e, f]]), (3, [[g, h]])]] 5 [c, d, e, f] := by
    intros
    refine ⟨⟨rfl, ?_⟩, rfl, ?_⟩ <;> intro k i hi <;> rcases k with _ | _ | k <;>
      simp only [List.getElem?_cons_zero, List.getElem?_cons_succ, List.getElem?_nil, Option.some.injEq, reduceCtorEq] at hi <;>
      subst hi <;>
      refine ⟨_, _, List.mem_cons.mpr (by first | exact .inl rfl | exact .inr (List.mem_cons.mpr (.inl rfl))), ?_, rfl, rfl, ?_⟩ <;>
      first
        | (intro s hs; rcases s with _ | _ | s
           · rfl
           · rfl
           · omega)
        | (intro x hx; simpa using hx)
  refine ⟨⟨[], 44100, .fin 120, 0⟩, some (3, .fin 2), [.note 60, .ref ['~', 'a'], .rest, .ref ['~', 'a']], _, _, _,
    ⟨rfl, by norm_num [Fl.val], by norm_num [Fl.val]⟩, ?_, by norm_num [barSamples, Fl.val], rfl, by decide,
    (send (.fin 2) (.fin 0) (.fin 0) (.fin 0) (.fin 60) (.fin 62) (.fin 2) (.fin 0)).2, (send _ _ _ _ _ _ _ _).1, ?_, ?_, rfl⟩
  · intro p hp; cases hp
    exact ⟨rfl, by norm_num [Fl.val], by norm_num [Fl.val]⟩
  · intro k hk
    rcases k with _ | _ | k
    · exact ⟨rfl, rfl⟩
    · exact ⟨rfl, rfl⟩
    · simp only [List.length_cons, List.length_nil] at hk; omega
  · intro k x y hk hx hy
    rcases k with _ | _ | k
    · cases hx; cases hy; decide
    · cases hx; cases hy; decide
    · simp only [List.length_cons, List.length_nil] at hk; omega

/-- C54 fails for a first source one of whose blocks starts with a positive sample followed by 0 (such as the output of
`imp` or of another `seq`): it is taken for a speed, the references move by one place, and with one reference the
sequencer panics at the first of them (rs/synth/src/node/sequencer/seq.rs:69-70,87-88). -/
theorem c54_speed_counterexample (P : Plat) :
    play P 2 ⟨[], 44100, .fin 120, 0⟩ (.seq (seqEvents [[.ref ['~', 'a']]])) [.index 3] [[(3, [[.fin 1, .fin 0]])]] =
      .error (.panic .indexOutOfBounds) := by
  kernel_rfl

end Verif.Props
