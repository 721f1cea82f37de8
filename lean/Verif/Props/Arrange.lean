import Verif.Lemmas.Count
import Verif.Lemmas.Inputs
import Verif.Lemmas.KernelRfl
import Verif.Spec.Arrange

/-! # Arrangements (C53) -/

namespace Verif.Props
open Spec

theorem arrangement_length (parts : List (Name × Fl)) : (arrangement parts).length = 2 * parts.length := by
  induction parts with
  | nil => rfl
  | cons p ps ih => simp only [arrangement, List.flatMap_cons, List.length_append, List.length_cons, List.length_nil] at ih ⊢; omega

theorem arrangement_num (parts : List (Name × Fl)) (j : Nat) :
    (arrangement parts)[j * 2 + 1]? = parts[j]?.map (fun p => .num p.2) := by
  induction parts generalizing j with
  | nil => simp [arrangement]
  | cons p ps ih =>
    simp only [arrangement, List.flatMap_cons] at ih ⊢
    cases j with
    | zero => rfl
    | succ j =>
      rw [show (j + 1) * 2 + 1 = (j * 2 + 1) + 2 by ring]
      exact ih j

/-- The part that plays when the places of which `past` holds are past. -/
theorem arrFind_spec (parts : List (Name × Fl)) (pos : Fl) (count : Nat → Fl)
    (hc : ∀ j p, parts[j]? = some p → count (j + 1) = count j +. p.2) (n j : Nat) (hn : n + j = parts.length) :
    (∀ q, j ≤ q → q < parts.length → Fl.lt pos (count (q + 1)) = true →
      (∀ q', j ≤ q' → q' < q → Fl.lt pos (count (q' + 1)) = false) →
      arrFind (arrangement parts) pos n j (count j) = .ok (.part q)) ∧
    (n ≠ 0 → (∀ q, j ≤ q → q < parts.length → Fl.lt pos (count (q + 1)) = false) →
      arrFind (arrangement parts) pos n j (count j) = .ok .wrap) := by
  induction n generalizing j with
  | zero => exact ⟨fun q h1 h2 => by omega, fun h => absurd rfl h⟩
  | succ n ih =>
    obtain ⟨p, hp⟩ : ∃ p, parts[j]? = some p := ⟨_, List.getElem?_eq_getElem (by omega)⟩
    obtain ⟨ih1, ih2⟩ := ih (j + 1) (by omega)
    have hnum := arrangement_num parts j
    rw [hp] at hnum
    simp only [arrFind, hnum, Option.map_some, ← hc j p hp]
    constructor
    · intro q h1 h2 h3 h4
      by_cases hq : q = j
      · subst hq; rw [if_pos h3]
      · rw [if_neg (by rw [h4 j (le_refl _) (by omega)]; decide), if_neg (by omega)]
        exact ih1 q (by omega) h2 h3 (fun q' a b => h4 q' (by omega) b)
    · intro _ h
      rw [if_neg (by rw [h j (le_refl _) (by omega)]; decide)]
      split
      · rfl
      · next hn0 => exact ih2 hn0 (fun q a b => h q (by omega) b)

theorem arrFind_hit (parts : List (Name × Fl)) (pos c : Fl) (n j : Nat) (hn : n + j = parts.length) (h0 : n ≠ 0) :
    (∃ q, arrFind (arrangement parts) pos n j c = .ok (.part q)) ∨ arrFind (arrangement parts) pos n j c = .ok .wrap := by
  induction n generalizing j c with
  | zero => exact absurd rfl h0
  | succ n ih =>
    obtain ⟨p, hp⟩ : ∃ p, parts[j]? = some p := ⟨_, List.getElem?_eq_getElem (by omega)⟩
    have hnum := arrangement_num parts j
    rw [hp] at hnum
    simp only [arrFind, hnum, Option.map_some]
    split
    · exact .inl ⟨_, rfl⟩
    · split
      · exact .inr rfl
      · next h => exact ih _ (j + 1) (by omega) h

/-- One sample of an arrangement. -/
def arrStep (parts : List (Name × Fl)) (bar : Fl) (order : List Nat) (step : Nat) (x : Ins × Nat) : Except Panic (Nat × Fl) :=
  match arrFind (arrangement parts) (Fl.ofNat f32 step /. bar) parts.length 0 (.fin 0) with
  | .ok (.part j) =>
    match inputSample x.1 order j x.2 with
    | .ok y => .ok (step + 1, y)
    | .error e => .error e
  | .ok .wrap =>
    match inputSample x.1 order 0 x.2 with
    | .ok y => .ok (1, y)
    | .error e => .error e
  | .ok _ => .error .missing
  | .error e => .error e

/-- The length of a bar as the node computes it. -/
def arrBar (bpm : Fl) (sr : Nat) : Fl := .fin 240 /. bpm *. Fl.ofNat f32 sr /. .fin 1

theorem arrRun_steps (parts : List (Name × Fl)) (hne : parts ≠ []) (bpm : Fl) (sr st : Nat) (order : List Nat) (i : Ins)
    (k n s : Nat) (old : Buf) (hl : old.length = n) :
    arrRun ⟨arrangement parts, .fin 1, bpm, sr, st, order⟩ i k s old =
      runM (arrStep parts (arrBar bpm sr) order) s ((List.range n).map (fun j => (i, k + j))) := by
  induction n generalizing k s old with
  | zero =>
    obtain rfl := List.length_eq_zero_iff.mp hl
    rfl
  | succ n ih =>
    cases old with
    | nil => simp at hl
    | cons o old =>
      have hlen : (arrangement parts).length / 2 = parts.length := by rw [arrangement_length]; omega
      have hpos : parts.length ≠ 0 := fun h => hne (List.length_eq_zero_iff.mp h)
      have hmap : ∀ k, (List.range (n + 1)).map (fun j => (i, k + j)) = (i, k) :: (List.range n).map (fun j => (i, k + 1 + j)) := by
        intro k
        rw [List.range_succ_eq_map]
        simp [List.map_map, Function.comp_def, Nat.add_assoc, Nat.add_comm 1]
      rw [hmap]
      simp only [arrRun, hlen, runM, arrStep, bind, Except.bind]
      have ih' := fun k s => ih k s old (by simpa using hl)
      rw [show Fl.div f32 (Fl.mul f32 (Fl.div f32 (Fl.fin 240) bpm) (Fl.ofNat f32 sr)) (Fl.fin 1) = arrBar bpm sr from rfl]
      rcases arrFind_hit parts (Fl.ofNat f32 s /. arrBar bpm sr) (.fin 0) parts.length 0 rfl hpos with ⟨q, hq⟩ | hq
      · rw [hq]
        simp only
        cases inputSample i order q k with
        | error e => rfl
        | ok y =>
          simp only [ih']
          cases runM (arrStep parts (arrBar bpm sr) order) (s + 1) ((List.range n).map (fun j => (i, k + 1 + j))) <;> rfl
      · rw [hq]
        simp only
        cases inputSample i order 0 k with
        | error e => rfl
        | ok y =>
          simp only [ih']
          cases runM (arrStep parts (arrBar bpm sr) order) 1 ((List.range n).map (fun j => (i, k + 1 + j))) <;> rfl

theorem arrBar_rel {bpm : Fl} {sr : Nat} (hb : Within 1 (2 ^ 10) bpm) (h1 : 1 ≤ sr) (h2 : sr ≤ 2 ^ 24) :
    Rel 3 (arrBar bpm sr) (barSamples sr bpm.val) ∧ 1 / 2 ^ 10 ≤ barSamples sr bpm.val ∧ barSamples sr bpm.val ≤ 2 ^ 32 := by
  obtain ⟨f1, f2⟩ := f32_ofNat h2
  have hsr1 : (1 : ℚ) ≤ sr := by exact_mod_cast h1
  have hsr2 : (sr : ℚ) ≤ 2 ^ 24 := by exact_mod_cast h2
  obtain ⟨b0, b1, b2⟩ := hb
  have hbp : 0 < bpm.val := by linarith
  have d1 : 240 / bpm.val ≤ 240 := by
    rw [div_le_iff₀ hbp]; linarith
  have d2 : 1 / 2 ^ 10 ≤ 240 / bpm.val := by
    rw [le_div_iff₀ hbp]
    have : (1 : ℚ) / 2 ^ 10 * 2 ^ 10 = 1 := by norm_num
    nlinarith
  have c1 := Rel.div (f := f32) (Rel.of_eq (x := .fin 240) (X := 240) rfl (by norm_num) rfl)
    (Rel.of_eq (x := bpm) b0 hbp.le rfl) (by norm_num) hbp
    (Or.inr (le_trans (by norm_num) d2)) (le_trans d1 (by norm_num))
  have e1 : (1 : ℚ) / 2 ^ 10 ≤ 240 / bpm.val * sr := by
    have : 240 / bpm.val * 1 ≤ 240 / bpm.val * sr :=
      mul_le_mul_of_nonneg_left hsr1 (le_trans (by norm_num) d2)
    linarith
  have e2 : 240 / bpm.val * sr ≤ 2 ^ 32 := by
    calc 240 / bpm.val * sr ≤ 240 * 2 ^ 24 := mul_le_mul d1 hsr2 (by positivity) (by norm_num)
      _ ≤ 2 ^ 32 := by norm_num
  have c2 := c1.mul (f := f32) (Rel.of_eq (x := Fl.ofNat f32 sr) f1 (by positivity) f2) (by norm_num)
    (Or.inr (le_trans (by norm_num) e1)) (le_trans e2 (by norm_num))
  have c3 := c2.div (f := f32) (Rel.of_eq (x := .fin 1) (X := 1) rfl (by norm_num) rfl) (by norm_num)
    (by norm_num) (Or.inr (by rw [div_one]; exact le_trans (by norm_num) e1))
    (by rw [div_one]; exact le_trans e2 (by norm_num))
  rw [div_one] at c3
  exact ⟨c3, e1, e2⟩

/-- The accumulated durations. -/
def arrCount (parts : List (Name × Fl)) (j : Nat) : Fl := (parts.take j).foldl (fun c p => c +. p.2) (.fin 0)

theorem arrCount_succ (parts : List (Name × Fl)) (j : Nat) (p : Name × Fl) (h : parts[j]? = some p) :
    arrCount parts (j + 1) = arrCount parts j +. p.2 := by
  unfold arrCount
  rw [List.take_add_one, h]
  simp

theorem barsBefore_succ (parts : List (Name × Fl)) (j : Nat) (p : Name × Fl) (h : parts[j]? = some p) :
    barsBefore parts (j + 1) = barsBefore parts j + p.2.val := by
  unfold barsBefore
  rw [List.take_add_one, h]
  simp

theorem arrCount_val (parts : List (Name × Fl)) (hf : ∀ p, p ∈ parts → p.2.isFinite = true)
    (hrep : ∀ j, j ≤ parts.length → f32.Rep (barsBefore parts j) ∧ |barsBefore parts j| ≤ 2 ^ 100) (j : Nat)
    (hj : j ≤ parts.length) : (arrCount parts j).isFinite = true ∧ (arrCount parts j).val = barsBefore parts j := by
  induction j with
  | zero => exact ⟨rfl, rfl⟩
  | succ j ih =>
    obtain ⟨a, b⟩ := ih (by omega)
    have hp : parts[j]? = some parts[j] := List.getElem?_eq_getElem (by omega)
    obtain ⟨r1, r2⟩ := hrep (j + 1) hj
    rw [barsBefore_succ parts j _ hp] at r1 r2 ⊢
    rw [arrCount_succ parts j _ hp]
    have := Fl.add_fin (f := f32) a (hf _ (List.getElem_mem _)) (by
      rw [b]
      exact inRange_of (abs_le.mp r2).1 (abs_le.mp r2).2 (by norm_num) (by norm_num))
    rw [b, Fmt.rnd_rep f32_p r1] at this
    exact this

theorem least_nat {p : Nat → Prop} (h : ∃ n, p n) : ∃ b, p b ∧ ∀ n, p n → b ≤ n := by
  classical exact ⟨Nat.find h, Nat.find_spec h, fun n hn => Nat.find_min' h hn⟩

/-- The first sample at which `D` bars have passed. -/
theorem boundary {B D : ℚ} (hB : 0 < B) (hB2 : B ≤ 2 ^ 33) (hD : 0 ≤ D) (hrep : f32.Rep D) (hDB : D * B ≤ 2 ^ 24) :
    ∃ b : Nat, (∀ n : Nat, b ≤ n ↔ D ≤ f32.rnd (n / B)) ∧ |(b : ℚ) - D * B| ≤ 1 ∧ (0 < D → 1 ≤ b) := by
  have hex : ∃ n : Nat, D ≤ f32.rnd (n / B) := by
    refine ⟨⌈D * B⌉.toNat, Fmt.le_rnd f32_p hrep ?_⟩
    rw [le_div_iff₀ hB]
    exact le_trans (Int.le_ceil _) (by exact_mod_cast Int.self_le_toNat _)
  have hmono : ∀ n m : Nat, n ≤ m → f32.rnd (n / B) ≤ f32.rnd (m / B) := fun n m h =>
    Fmt.rnd_mono f32_p (div_le_div_of_nonneg_right (by exact_mod_cast h) hB.le)
  obtain ⟨b, hb, hmin⟩ := least_nat hex
  refine ⟨b, fun n => ⟨fun h => le_trans hb (hmono _ _ h), hmin n⟩, ?_, ?_⟩
  · rw [abs_le]
    constructor
    · rcases le_or_gt D (b / B) with h | h
      · rw [le_div_iff₀ hB] at h; linarith
      · have hb0 : 1 ≤ b := by
          by_contra hc
          obtain rfl : b = 0 := by omega
          simp only [Nat.cast_zero, zero_div, Fmt.rnd_zero] at hb h
          linarith
        have hbq : (1 : ℚ) ≤ b := by exact_mod_cast hb0
        have hx : (0 : ℚ) < b / B := by positivity
        have hx2 : (1 : ℚ) / 2 ^ 33 ≤ b / B := by
          rw [div_le_div_iff₀ (by positivity) hB]; nlinarith
        have e := Fmt.rnd_rel (f := f32) (x := b / B) (by
          rw [abs_of_pos hx]
          refine le_trans ?_ hx2
          rw [pow2_eq]; norm_num [f32])
        have heps : pow2 (-(f32.p : Int)) = 1 / 2 ^ 24 := by rw [pow2_eq]; norm_num [f32]
        rw [heps, abs_of_pos hx] at e
        have e2 := (abs_le.mp e).2
        have h3 : D - b / B ≤ D * (1 / 2 ^ 24) := by
          have : b / B * (1 / 2 ^ 24) ≤ D * (1 / 2 ^ 24) := mul_le_mul_of_nonneg_right h.le (by norm_num)
          linarith
        have h4 : (D - b / B) * B ≤ D * (1 / 2 ^ 24) * B := mul_le_mul_of_nonneg_right h3 hB.le
        have h5 : (D - b / B) * B = D * B - b := by field_simp
        have h6 : D * (1 / 2 ^ 24) * B = D * B / 2 ^ 24 := by ring
        have h7 : D * B / 2 ^ 24 ≤ 1 := by rw [div_le_one (by positivity)]; exact hDB
        linarith
    · have h1 := hmin ⌈D * B⌉.toNat (Fmt.le_rnd f32_p hrep (by
        rw [le_div_iff₀ hB]
        exact le_trans (Int.le_ceil _) (by exact_mod_cast Int.self_le_toNat _)))
      have h2 : ((⌈D * B⌉.toNat : Nat) : ℚ) < D * B + 1 := by
        have h0 : 0 ≤ ⌈D * B⌉ := Int.ceil_nonneg (mul_nonneg hD hB.le)
        have : ((⌈D * B⌉.toNat : Nat) : ℚ) = (⌈D * B⌉ : ℚ) := by
          exact_mod_cast congrArg (Int.cast (R := ℚ)) (Int.toNat_of_nonneg h0)
        rw [this]
        exact Int.ceil_lt_add_one _
      have h3 : (b : ℚ) ≤ (⌈D * B⌉.toNat : Nat) := by exact_mod_cast h1
      linarith
  · intro h0
    by_contra hc
    obtain rfl : b = 0 := by omega
    simp only [Nat.cast_zero, zero_div, Fmt.rnd_zero] at hb
    linarith

/-- The step counter of an arrangement of `T` samples at time `t`. -/
def arrAt (T t : Nat) : Nat := if t = 0 then 0 else (t - 1) % T + 1

theorem arrAt_succ (T t : Nat) : arrAt T (t + 1) = t % T + 1 := by simp [arrAt]

theorem arrAt_cases (T t : Nat) (hT : 1 ≤ T) : (arrAt T t = t % T ∧ arrAt T t < T) ∨ (arrAt T t = T ∧ t % T = 0) := by
  cases t with
  | zero => left; simp [arrAt]; omega
  | succ t =>
    rw [arrAt_succ]
    have hlt := Nat.mod_lt t hT
    by_cases h : t % T + 1 < T
    · left
      refine ⟨?_, h⟩
      rw [Nat.add_mod, Nat.mod_eq_of_lt (show 1 < T by omega), Nat.mod_eq_of_lt h]
    · right
      have h1 : t % T + 1 = T := by omega
      refine ⟨h1, ?_⟩
      have := Nat.div_add_mod t T
      have h2 : t + 1 = T * (t / T) + T := by omega
      rw [h2, ← Nat.mul_succ]
      exact Nat.mul_mod_right _ _

theorem arrange_blocks (P : Plat) (N : Nat) (env : Env) (parts : List (Name × Fl)) (hne : parts ≠ []) (order : List Nat)
    (ins : List Ins) (st : Nat → Nat) (v : Nat → Fl) (h0 : st 0 = 0)
    (h : ∀ t i, ins[t / N]? = some i → t < ins.length * N →
      arrStep parts (arrBar env.bpm env.sr) order (st t) (i, t % N) = .ok (st (t + 1), v t)) :
    ∃ outs, play P N env (.arrange (arrangement parts)) (order.map .index) ins = .ok outs ∧
      channel 0 outs = some ((List.range (ins.length * N)).map v) ∧
      channel 1 outs = some (List.replicate (ins.length * N) (.fin 0)) := by
  obtain ⟨o, g1, g2, g3⟩ := blocks_items (procG P)
    (fun k => .prim (.arrange ⟨arrangement parts, .fin 1, env.bpm, env.sr, k, order⟩)) (arrStep parts (arrBar env.bpm env.sr) order)
    N ins (fun s i a b hi ha => by
      have hr := arrRun_steps parts hne env.bpm env.sr s order i 0 N s a ha
      simp only [Nat.zero_add] at hr
      simp only [procG, procPrim, procArrange, hr, bind, Except.bind]
      unfold blockItems
      cases runM (arrStep parts (arrBar env.bpm env.sr) order) s ((List.range N).map (fun j => (i, j))) <;> rfl)
    st v h _ (leftOnly_fresh N (GNode.prim (P := P) (.arrange (Arrange.new (arrangement parts) env.sr env.bpm))))
  rw [h0] at g1
  refine ⟨o, play_ok (d := fresh N 2 (.prim (.arrange (Arrange.new (arrangement parts) env.sr env.bpm))))
    (n := .prim (.arrange ⟨arrangement parts, .fin 1, env.bpm, env.sr, 0, order⟩)) rfl ?_ g1, g2, g3⟩
  have := sendMsgs_order (P := P) (fun o => .prim (.arrange ⟨arrangement parts, .fin 1, env.bpm, env.sr, 0, o⟩))
    (fun _ _ => rfl) [] order
  rw [List.nil_append] at this
  exact this

/-- What is heard, given the places at which the comparisons of the node change. -/
theorem arrange_heard (P : Plat) (N : Nat) (env : Env) (parts : List (Name × Fl)) (hne : parts ≠ []) (b : Nat → Nat)
    (hb0 : b 0 = 0) (hb1 : 1 ≤ b 1) (hbm : ∀ m j, j ≤ m → m ≤ parts.length → b j ≤ b m)
    (hlt : ∀ n j, n ≤ b parts.length → j ≤ parts.length →
      (Fl.lt (Fl.ofNat f32 n /. arrBar env.bpm env.sr) (arrCount parts j) = true ↔ n < b j))
    (order : List Nat) (xs : List (List Fl)) (ins : List Ins) (hsend : List.Forall₂ (Sends N ins) order xs)
    (hol : order.length = parts.length) :
    ∃ outs ys, play P N env (.arrange (arrangement parts)) (order.map .index) ins = .ok outs ∧
      channel 0 outs = some ys ∧ channel 1 outs = some (List.replicate (ins.length * N) (.fin 0)) ∧
      ys.length = ins.length * N ∧
      ∀ t j x, j < parts.length → b j ≤ t % b parts.length → t % b parts.length < b (j + 1) → xs[j]? = some x →
        ys[t]? = x[t]? := by
  have hm0 : 0 < parts.length := List.length_pos_iff.mpr hne
  have hT : 1 ≤ b parts.length := le_trans hb1 (hbm _ _ hm0 (le_refl _))
  have hlt' : ∀ n j, n ≤ b parts.length → j ≤ parts.length → b j ≤ n →
      Fl.lt (Fl.ofNat f32 n /. arrBar env.bpm env.sr) (arrCount parts j) = false := by
    intro n j hn hj hbn
    rw [← Bool.not_eq_true, hlt n j hn hj]
    omega
  -- the part at a place
  have hpart : ∀ n, n < b parts.length → ∃ q, q < parts.length ∧ b q ≤ n ∧ n < b (q + 1) := by
    intro n hn
    obtain ⟨q, hq, hmin⟩ := least_nat (p := fun q => n < b q) ⟨_, hn⟩
    have hq0 : q ≠ 0 := by rintro rfl; rw [hb0] at hq; omega
    have hqm := hmin _ hn
    refine ⟨q - 1, by omega, ?_, by rwa [Nat.sub_add_cancel (by omega)]⟩
    by_contra hc
    have := hmin (q - 1) (by omega)
    omega
  have huniq : ∀ n q j, q < parts.length → j < parts.length → b q ≤ n → n < b (q + 1) → b j ≤ n → n < b (j + 1) → q = j := by
    intro n q j hq hj a1 a2 a3 a4
    rcases Nat.lt_trichotomy q j with h | h | h
    · have := hbm j (q + 1) (by omega) (by omega); omega
    · exact h
    · have := hbm q (j + 1) (by omega) (by omega); omega
  have hsrc : ∀ j, j < parts.length → ∃ n x, order[j]? = some n ∧ xs[j]? = some x ∧ Sends N ins n x := by
    intro j hj
    have hxl := hsend.length_eq
    refine ⟨order[j], xs[j], List.getElem?_eq_getElem _, List.getElem?_eq_getElem _, ?_⟩
    exact (List.forall₂_iff_get.mp hsend).2 j (by omega) (by omega)
  -- the value at time t
  have hval : ∀ t, ∃ y, t < ins.length * N → ∃ q x, q < parts.length ∧ b q ≤ t % b parts.length ∧
      t % b parts.length < b (q + 1) ∧ xs[q]? = some x ∧ x[t]? = some y := by
    intro t
    by_cases ht : t < ins.length * N
    · obtain ⟨q, hq, a1, a2⟩ := hpart _ (Nat.mod_lt t hT)
      obtain ⟨n, x, g1, g2, g3⟩ := hsrc q hq
      obtain ⟨y, hy⟩ := sends_get g3 ht
      exact ⟨y, fun _ => ⟨q, x, hq, a1, a2, g2, hy⟩⟩
    · exact ⟨.fin 0, fun h => absurd h ht⟩
  choose v hv using hval
  obtain ⟨o, g1, g2, g3⟩ := arrange_blocks P N env parts hne order ins (arrAt (b parts.length)) v rfl (fun t i hi ht => by
    obtain ⟨q, x, hq, a1, a2, a3, a4⟩ := hv t ht
    obtain ⟨n, x', c1, c2, c3⟩ := hsrc q hq
    rw [a3] at c2; cases c2
    have hs := sends_sample c3 c1 hi ht a4
    rw [arrAt_succ]
    rcases arrAt_cases (b parts.length) t hT with ⟨e1, e2⟩ | ⟨e1, e2⟩
    · have := (arrFind_spec parts (Fl.ofNat f32 (t % b parts.length) /. arrBar env.bpm env.sr) (arrCount parts) (arrCount_succ parts)
        parts.length 0 rfl).1 q (by omega) hq ((hlt _ _ (by omega) (by omega)).mpr a2)
        (fun q' _ h => hlt' _ _ (by omega) (by omega) (le_trans (hbm q (q' + 1) (by omega) (by omega)) a1))
      rw [show arrCount parts 0 = .fin 0 from rfl] at this
      simp only [arrStep, e1, this, hs]
    · have := (arrFind_spec parts (Fl.ofNat f32 (b parts.length) /. arrBar env.bpm env.sr) (arrCount parts) (arrCount_succ parts)
        parts.length 0 rfl).2 (by omega) (fun q' _ h => hlt' _ _ (le_refl _) (by omega) (hbm _ _ (by omega) (le_refl _)))
      rw [show arrCount parts 0 = .fin 0 from rfl] at this
      have hq0 : q = 0 := huniq _ q 0 hq hm0 a1 a2 (by rw [hb0]; omega) (by rw [e2]; exact hb1)
      subst hq0
      simp only [arrStep, e1, this, hs, e2])
  refine ⟨o, _, g1, g2, g3, by simp, fun t j x hj a1 a2 hx => ?_⟩
  by_cases ht : t < ins.length * N
  · obtain ⟨q, x', hq, d1, d2, d3, d4⟩ := hv t ht
    obtain rfl := huniq _ q j hq hj d1 d2 a1 a2
    rw [hx] at d3; cases d3
    rw [d4]
    simp [ht]
  · obtain ⟨n, x', _, c2, c3⟩ := hsrc j hj
    rw [hx] at c2; cases c2
    rw [List.getElem?_eq_none (by simpa using ht), List.getElem?_eq_none (by rw [c3.1]; omega)]

/-- C53 for tempos from 1 to 1024, durations whose sums f32 can represent, and arrangements of up to 2^23 samples: there
are places `b 0 = 0 ≤ b 1 ≤ …` in the stream, at the written numbers of bars up to a sample and rounding, such that
source `j` is heard from `b j` to `b (j + 1)`, and again after each repetition of the whole. The bound is sharper
than that of `c53_arrange_partial`, which has other durations and longer arrangements. -/
theorem c53_exact_partial (P : Plat) (N : Nat) (env : Env) (hbpm : Within 1 (2 ^ 10) env.bpm) (h1 : 1 ≤ env.sr)
    (h2 : env.sr ≤ 2 ^ 24) (parts : List (Name × Fl)) (hne : parts ≠ [])
    (hdur : ∀ p, p ∈ parts → p.2.isFinite = true ∧ 0 < p.2.val)
    (hrep : ∀ j, j ≤ parts.length → f32.Rep (barsBefore parts j))
    (hlen : barsBefore parts parts.length * barSamples env.sr env.bpm.val ≤ 2 ^ 23) :
    ∃ b : Nat → Nat, b 0 = 0 ∧ 1 ≤ b 1 ∧ (∀ j, j < parts.length → b j ≤ b (j + 1)) ∧
      (∀ j, j ≤ parts.length → |(b j : ℚ) - barsBefore parts j * barSamples env.sr env.bpm.val| ≤
        1 + barsBefore parts j * barSamples env.sr env.bpm.val / 2 ^ 20) ∧
      ∀ (order : List Nat) (xs : List (List Fl)) (ins : List Ins), order.length = parts.length →
        List.Forall₂ (Sends N ins) order xs →
        ∃ outs ys, play P N env (.arrange (arrangement parts)) (order.map .index) ins = .ok outs ∧
          channel 0 outs = some ys ∧ channel 1 outs = some (List.replicate (ins.length * N) (.fin 0)) ∧
          ys.length = ins.length * N ∧
          ∀ t j x, j < parts.length → b j ≤ t % b parts.length → t % b parts.length < b (j + 1) → xs[j]? = some x →
            ys[t]? = x[t]? := by
  obtain ⟨hrel, hb1, hb2⟩ := arrBar_rel hbpm h1 h2
  have hclose := hrel.close (by norm_num)
  generalize hB : barSamples env.sr env.bpm.val = B at hrel hb1 hb2 hclose hlen
  have hBp : 0 < B := lt_of_lt_of_le (by norm_num) hb1
  rw [abs_le] at hclose
  have hA1 : B / 2 ≤ (arrBar env.bpm env.sr).val := by
    have : B / 2 ^ 20 ≤ B / 2 := by
      apply div_le_div_of_nonneg_left hBp.le (by norm_num) (by norm_num)
    linarith
  have hAp : 0 < (arrBar env.bpm env.sr).val := by linarith
  have hA2 : (arrBar env.bpm env.sr).val ≤ 2 * B := by
    have : B / 2 ^ 20 ≤ B := div_le_self hBp.le (by norm_num)
    linarith
  have hmono : ∀ j, j < parts.length → barsBefore parts j < barsBefore parts (j + 1) := by
    intro j hj
    have hp : parts[j]? = some parts[j] := List.getElem?_eq_getElem hj
    rw [barsBefore_succ parts j _ hp]
    have := (hdur _ (List.getElem_mem hj)).2
    linarith
  have hmono' : ∀ m j, j ≤ m → m ≤ parts.length → barsBefore parts j ≤ barsBefore parts m := by
    intro m
    induction m with
    | zero => intro j hj _; obtain rfl : j = 0 := by omega
              exact le_refl _
    | succ m ih =>
      intro j hj hm
      rcases Nat.lt_or_ge m j with h | h
      · obtain rfl : j = m + 1 := by omega
        exact le_refl _
      · exact le_trans (ih j h (by omega)) (hmono m (by omega)).le
  have hzero : barsBefore parts 0 = 0 := rfl
  have hnn : ∀ j, j ≤ parts.length → 0 ≤ barsBefore parts j := fun j hj => by
    have := hmono' j 0 (by omega) hj; rwa [hzero] at this
  have hDB : ∀ j, j ≤ parts.length → barsBefore parts j * B ≤ 2 ^ 23 := fun j hj =>
    le_trans (mul_le_mul_of_nonneg_right (hmono' _ _ hj (le_refl _)) hBp.le) hlen
  have hDA : ∀ j, j ≤ parts.length → barsBefore parts j * (arrBar env.bpm env.sr).val ≤ 2 ^ 24 := by
    intro j hj
    have := mul_le_mul_of_nonneg_left hA2 (hnn j hj)
    have := hDB j hj
    nlinarith
  have hD100 : ∀ j, j ≤ parts.length → |barsBefore parts j| ≤ 2 ^ 100 := by
    intro j hj
    rw [abs_of_nonneg (hnn j hj)]
    have : barsBefore parts j * (1 / 2 ^ 10) ≤ 2 ^ 23 :=
      le_trans (mul_le_mul_of_nonneg_left hb1 (hnn j hj)) (hDB j hj)
    linarith
  have hbex : ∀ j, ∃ b : Nat, j ≤ parts.length → (∀ n : Nat, b ≤ n ↔ barsBefore parts j ≤ f32.rnd (n / (arrBar env.bpm env.sr).val)) ∧
      |(b : ℚ) - barsBefore parts j * (arrBar env.bpm env.sr).val| ≤ 1 ∧ (0 < barsBefore parts j → 1 ≤ b) := by
    intro j
    by_cases hj : j ≤ parts.length
    · obtain ⟨b, hb⟩ := boundary hAp (by linarith) (hnn j hj) (hrep j hj) (hDA j hj)
      exact ⟨b, fun _ => hb⟩
    · exact ⟨0, fun h => absurd h hj⟩
  choose b hb using hbex
  have hm0 : 0 < parts.length := List.length_pos_iff.mpr hne
  have hb0 : b 0 = 0 := by
    have := ((hb 0 (by omega)).1 0).mpr (by rw [hzero]; simp [Fmt.rnd_zero])
    omega
  have hpos : ∀ j, 1 ≤ j → j ≤ parts.length → 1 ≤ b j := fun j h hj => (hb j hj).2.2 (by
    have a := hmono 0 hm0
    have c := hmono' j 1 h hj
    rw [hzero] at a
    linarith)
  have hbm : ∀ m j, j ≤ m → m ≤ parts.length → b j ≤ b m := fun m j hj hm =>
    ((hb j (by omega)).1 _).mpr (le_trans (hmono' m j hj hm) (((hb m hm).1 _).mp (le_refl _)))
  refine ⟨b, hb0, hpos 1 (le_refl _) hm0, fun j hj => hbm _ _ (by omega) (by omega), fun j hj => ?_, ?_⟩
  · have e := (hb j hj).2.1
    rw [abs_le] at e ⊢
    have e1 : barsBefore parts j * ((arrBar env.bpm env.sr).val - B) ≤ barsBefore parts j * (B / 2 ^ 20) :=
      mul_le_mul_of_nonneg_left hclose.2 (hnn j hj)
    have e2 : barsBefore parts j * (-(B / 2 ^ 20)) ≤ barsBefore parts j * ((arrBar env.bpm env.sr).val - B) :=
      mul_le_mul_of_nonneg_left hclose.1 (hnn j hj)
    rw [mul_div_assoc]
    constructor <;> linarith
  · intro order xs ins hol hsend
    have hTle : b parts.length ≤ 2 ^ 24 := by
      have e := (abs_le.mp (hb parts.length (le_refl _)).2.1).2
      have e2 : barsBefore parts parts.length * (arrBar env.bpm env.sr).val ≤ 2 ^ 23 + 2 ^ 3 := by
        have a1 : barsBefore parts parts.length * ((arrBar env.bpm env.sr).val - B) ≤ barsBefore parts parts.length * (B / 2 ^ 20) :=
          mul_le_mul_of_nonneg_left hclose.2 (hnn _ (le_refl _))
        have a2 := hDB _ (le_refl parts.length)
        have a3 : barsBefore parts parts.length * (B / 2 ^ 20) ≤ 2 ^ 3 := by
          rw [← mul_div_assoc, div_le_iff₀ (by norm_num)]
          exact le_trans a2 (by norm_num)
        nlinarith
      have : (b parts.length : ℚ) ≤ 2 ^ 24 := by
        have : (2 : ℚ) ^ 23 + 2 ^ 3 + 1 ≤ 2 ^ 24 := by norm_num
        linarith
      exact_mod_cast this
    -- the comparison made by the node
    refine arrange_heard P N env parts hne b hb0 (hpos 1 (le_refl _) hm0) hbm ?_ order xs ins hsend hol
    intro n j hn hj
    obtain ⟨f1, f2⟩ := f32_ofNat (le_trans hn hTle)
    have hnq : (n : ℚ) ≤ 2 ^ 24 := by exact_mod_cast le_trans hn hTle
    have hd := Fl.div_fin (f := f32) f1 hrel.fin hAp.ne' (by
      rw [f2]
      refine inRange_of (lo := 0) (hi := 2 ^ 60) (by positivity) ?_ (by norm_num) (by norm_num)
      rw [div_le_iff₀ hAp]
      have : (1 : ℚ) / 2 ^ 11 ≤ (arrBar env.bpm env.sr).val := by linarith
      nlinarith)
    rw [f2] at hd
    obtain ⟨c1, c2⟩ := arrCount_val parts (fun p hp => (hdur p hp).1) (fun j hj => ⟨hrep j hj, hD100 j hj⟩) j hj
    rw [Fl.lt_fin hd.1 c1, hd.2, c2, ← not_le, ← (hb j hj).1 n, Nat.not_le]

/-! ### Durations of any kind -/

theorem eps_pow_hi {k : Nat} (h : k ≤ 2 ^ 22) : ((1 : ℚ) + 1 / 2 ^ 23) ^ k ≤ 1 + k / 2 ^ 22 := by
  induction k with
  | zero => simp
  | succ k ih =>
    have ih := ih (by omega)
    have hk : (k : ℚ) ≤ 2 ^ 22 := by exact_mod_cast (by omega : k ≤ 2 ^ 22)
    rw [pow_succ]
    calc ((1 : ℚ) + 1 / 2 ^ 23) ^ k * (1 + 1 / 2 ^ 23) ≤ (1 + k / 2 ^ 22) * (1 + 1 / 2 ^ 23) :=
          mul_le_mul_of_nonneg_right ih (by norm_num)
      _ = 1 + k / 2 ^ 22 + 1 / 2 ^ 23 + k / 2 ^ 22 * (1 / 2 ^ 23) := by ring
      _ ≤ 1 + k / 2 ^ 22 + 1 / 2 ^ 23 + 1 * (1 / 2 ^ 23) := by
          have : (k : ℚ) / 2 ^ 22 ≤ 1 := by rw [div_le_one (by norm_num)]; exact hk
          have := mul_le_mul_of_nonneg_right this (show (0 : ℚ) ≤ 1 / 2 ^ 23 by norm_num)
          linarith
      _ = 1 + (k + 1 : ℕ) / 2 ^ 22 := by push_cast; ring

theorem eps_pow_lo (k : Nat) : (1 : ℚ) - k / 2 ^ 23 ≤ (1 - 1 / 2 ^ 23) ^ k := by
  have := one_add_mul_le_pow (a := -(1 : ℚ) / 2 ^ 23) (by norm_num) k
  have e : (1 : ℚ) + -1 / 2 ^ 23 = 1 - 1 / 2 ^ 23 := by ring
  rw [e] at this
  have e2 : 1 + (k : ℚ) * (-1 / 2 ^ 23) = 1 - k / 2 ^ 23 := by ring
  linarith

/-- The accumulated durations, rounded at each step. -/
theorem arrCount_rel (parts : List (Name × Fl)) (hf : ∀ p, p ∈ parts → p.2.isFinite = true ∧ 0 ≤ p.2.val)
    (hfirst : 1 / 2 ^ 80 ≤ barsBefore parts 1) (hmono : ∀ m j, j ≤ m → m ≤ parts.length → barsBefore parts j ≤ barsBefore parts m)
    (hn : parts.length ≤ 2 ^ 16) (htot : barsBefore parts parts.length ≤ 2 ^ 80) (j : Nat) (hj : j ≤ parts.length) :
    (arrCount parts j).isFinite = true ∧ barsBefore parts j * (1 - 1 / 2 ^ 23) ^ j ≤ (arrCount parts j).val ∧
      (arrCount parts j).val ≤ barsBefore parts j * (1 + 1 / 2 ^ 23) ^ j ∧ f32.Rep (arrCount parts j).val ∧
      ∀ i, j = i + 1 → (arrCount parts i).val ≤ (arrCount parts j).val := by
  induction j with
  | zero => exact ⟨rfl, by norm_num [barsBefore, arrCount, Fl.val], by norm_num [barsBefore, arrCount, Fl.val],
      Fmt.rep_zero, fun i h => by omega⟩
  | succ j ih =>
    obtain ⟨a, lo, hi, hr, _⟩ := ih (by omega)
    have hp : parts[j]? = some parts[j] := List.getElem?_eq_getElem (by omega)
    obtain ⟨p1, p2⟩ := hf _ (List.getElem_mem (show j < parts.length by omega))
    have hD := hmono parts.length (j + 1) hj (le_refl _)
    have hD1 := hmono (j + 1) 1 (by omega) hj
    have hDj := hmono j 0 (by omega) (by omega)
    rw [show barsBefore parts 0 = 0 from rfl] at hDj
    rw [barsBefore_succ parts j _ hp] at hD hD1 ⊢
    rw [arrCount_succ parts j _ hp]
    have q1 : (1 - 1 / 2 ^ 23 : ℚ) ^ j ≤ 1 := pow_le_one₀ (by norm_num) (by norm_num)
    have q0 : (1 : ℚ) / 2 ≤ (1 - 1 / 2 ^ 23 : ℚ) ^ j := by
      have h := eps_pow_lo j
      have : (j : ℚ) ≤ 2 ^ 16 := by exact_mod_cast (by omega : j ≤ 2 ^ 16)
      have : (j : ℚ) / 2 ^ 23 ≤ 2 ^ 16 / 2 ^ 23 := div_le_div_of_nonneg_right this (by norm_num)
      norm_num at this h ⊢
      linarith
    have q2 : (1 : ℚ) ≤ (1 + 1 / 2 ^ 23 : ℚ) ^ j := one_le_pow₀ (by norm_num)
    have q3 : (1 + 1 / 2 ^ 23 : ℚ) ^ j ≤ 2 := by
      have h := eps_pow_hi (k := j) (by omega)
      have : (j : ℚ) ≤ 2 ^ 22 := by exact_mod_cast (by omega : j ≤ 2 ^ 22)
      have : (j : ℚ) / 2 ^ 22 ≤ 1 := by rw [div_le_one (by norm_num)]; exact this
      linarith
    generalize barsBefore parts j = D at *
    generalize (parts[j]).2 = p at *
    rw [pow_succ (1 - 1 / 2 ^ 23 : ℚ) j, pow_succ (1 + 1 / 2 ^ 23 : ℚ) j]
    generalize (1 - 1 / 2 ^ 23 : ℚ) ^ j = L at *
    generalize (1 + 1 / 2 ^ 23 : ℚ) ^ j = H at *
    have lo' : (D + p.val) * L ≤ (arrCount parts j).val + p.val := by
      have := mul_le_mul_of_nonneg_left q1 p2
      nlinarith
    have hi' : (arrCount parts j).val + p.val ≤ (D + p.val) * H := by
      have := mul_le_mul_of_nonneg_left q2 p2
      nlinarith
    have hs : 1 / 2 ^ 101 ≤ (arrCount parts j).val + p.val := by
      have h1 : (D + p.val) * (1 / 2) ≤ (D + p.val) * L := mul_le_mul_of_nonneg_left q0 (by linarith)
      have h2 : (1 : ℚ) / 2 ^ 101 ≤ 1 / 2 ^ 80 * (1 / 2) := by norm_num
      linarith
    have hs0 : 0 ≤ (arrCount parts j).val + p.val := le_trans (by norm_num) hs
    have hd := Fl.add_fin (f := f32) a p1 (f32_inRange (by
      rw [abs_of_nonneg hs0]
      have h1 : (D + p.val) * H ≤ 2 ^ 80 * 2 := mul_le_mul (by linarith) q3 (by linarith) (by norm_num)
      have h2 : (2 : ℚ) ^ 80 * 2 ≤ 2 ^ 100 := by norm_num
      linarith))
    obtain ⟨r1, r2⟩ := rnd_relw hs0 (Or.inr hs)
    refine ⟨hd.1, ?_, ?_, ?_, ?_⟩
    · rw [hd.2, ← mul_assoc]
      exact le_trans (mul_le_mul_of_nonneg_right lo' (by norm_num)) r1
    · rw [hd.2, ← mul_assoc]
      exact le_trans r2 (mul_le_mul_of_nonneg_right hi' (by norm_num))
    · rw [hd.2]; exact Fmt.rep_rnd _
    · intro i hi
      obtain rfl : i = j := by omega
      rw [hd.2]
      exact Fmt.le_rnd f32_p hr (by linarith)

/-- The place the node computes for its `n`th sample, in bars. -/
def arrPos (A : ℚ) (n : Nat) : ℚ := f32.rnd (f32.rnd n / A)

theorem arrPos_mono {A : ℚ} (hA : 0 < A) {n m : Nat} (h : n ≤ m) : arrPos A n ≤ arrPos A m :=
  Fmt.rnd_mono f32_p (div_le_div_of_nonneg_right (Fmt.rnd_mono f32_p (by exact_mod_cast h)) hA.le)

theorem arrPos_zero (A : ℚ) : arrPos A 0 = 0 := by
  unfold arrPos
  rw [Nat.cast_zero, Fmt.rnd_zero, zero_div, Fmt.rnd_zero]

theorem arrPos_rel {A : ℚ} (hA : 0 < A) (hA2 : A ≤ 2 ^ 33) (n : Nat) :
    n / A * (1 - 1 / 2 ^ 23) ^ 2 ≤ arrPos A n ∧ arrPos A n ≤ n / A * (1 + 1 / 2 ^ 23) ^ 2 := by
  rcases Nat.eq_zero_or_pos n with rfl | hn
  · rw [arrPos_zero]; simp
  · have hn1 : (1 : ℚ) ≤ n := by exact_mod_cast hn
    obtain ⟨a1, a2⟩ := rnd_relw (v := (n : ℚ)) (by positivity) (Or.inr (le_trans (by norm_num) hn1))
    have hr : (1 : ℚ) / 2 ≤ f32.rnd n := by
      have : (1 : ℚ) * (1 - 1 / 2 ^ 23) ≤ n * (1 - 1 / 2 ^ 23) := mul_le_mul_of_nonneg_right hn1 (by norm_num)
      norm_num at this a1 ⊢
      linarith
    have hq : (1 : ℚ) / 2 ^ 101 ≤ f32.rnd n / A := by
      rw [le_div_iff₀ hA]
      have : (1 : ℚ) / 2 ^ 101 * A ≤ 1 / 2 ^ 101 * 2 ^ 33 := mul_le_mul_of_nonneg_left hA2 (by norm_num)
      norm_num at this hr ⊢
      linarith
    obtain ⟨b1, b2⟩ := rnd_relw (le_trans (by norm_num) hq) (Or.inr hq)
    have d1 := div_le_div_of_nonneg_right a1 hA.le
    have d2 := div_le_div_of_nonneg_right a2 hA.le
    unfold arrPos
    constructor
    · refine le_trans (le_of_eq ?_) (le_trans (mul_le_mul_of_nonneg_right d1 (show (0 : ℚ) ≤ 1 - 1 / 2 ^ 23 by norm_num)) b1)
      ring
    · refine le_trans b2 (le_trans (mul_le_mul_of_nonneg_right d2 (show (0 : ℚ) ≤ 1 + 1 / 2 ^ 23 by norm_num)) (le_of_eq ?_))
      ring

/-- The first sample at which the rounded count `c` is reached. -/
theorem boundary_any {A c : ℚ} (hA : 0 < A) (hA2 : A ≤ 2 ^ 33) (hc : 0 ≤ c) :
    ∃ b : Nat, (∀ n : Nat, b ≤ n ↔ c ≤ arrPos A n) ∧ c * A * (1 - 1 / 2 ^ 23) ^ 2 ≤ b ∧ b ≤ 1 + c * A * (1 + 1 / 2 ^ 23) ^ 4 ∧
      (0 < c → 1 ≤ b) := by
  have hex : ∃ n : Nat, c ≤ arrPos A n := by
    refine ⟨⌈2 * c * A⌉.toNat, le_trans ?_ (arrPos_rel hA hA2 _).1⟩
    have h1 : 2 * c * A ≤ (⌈2 * c * A⌉.toNat : ℚ) := le_trans (Int.le_ceil _) (by exact_mod_cast Int.self_le_toNat _)
    have h2 : 2 * c ≤ (⌈2 * c * A⌉.toNat : ℚ) / A := by rwa [le_div_iff₀ hA]
    have h3 : 2 * c * (1 - 1 / 2 ^ 23) ^ 2 ≤ (⌈2 * c * A⌉.toNat : ℚ) / A * (1 - 1 / 2 ^ 23) ^ 2 :=
      mul_le_mul_of_nonneg_right h2 (by norm_num)
    have h4 : c * 1 ≤ c * (2 * (1 - 1 / 2 ^ 23) ^ 2) := mul_le_mul_of_nonneg_left (by norm_num) hc
    linarith
  obtain ⟨b, hb, hmin⟩ := least_nat hex
  refine ⟨b, fun n => ⟨fun h => le_trans hb (arrPos_mono hA h), hmin n⟩, ?_, ?_, ?_⟩
  · have h1 := le_trans hb (arrPos_rel hA hA2 b).2
    have h2 : c * A ≤ b * (1 + 1 / 2 ^ 23) ^ 2 := by
      have := mul_le_mul_of_nonneg_right h1 hA.le
      have e : (b : ℚ) / A * (1 + 1 / 2 ^ 23) ^ 2 * A = b * (1 + 1 / 2 ^ 23) ^ 2 := by field_simp
      linarith
    calc c * A * (1 - 1 / 2 ^ 23) ^ 2 ≤ b * (1 + 1 / 2 ^ 23) ^ 2 * (1 - 1 / 2 ^ 23) ^ 2 :=
          mul_le_mul_of_nonneg_right h2 (by norm_num)
      _ = b * ((1 + 1 / 2 ^ 23) ^ 2 * (1 - 1 / 2 ^ 23) ^ 2) := by ring
      _ ≤ b * 1 := mul_le_mul_of_nonneg_left (by norm_num) (by positivity)
      _ = b := mul_one _
  · rcases Nat.eq_zero_or_pos b with rfl | hb0
    · have : 0 ≤ c * A * (1 + 1 / 2 ^ 23) ^ 4 := by positivity
      rw [Nat.cast_zero]; linarith
    · have h1 : arrPos A (b - 1) < c := by
        by_contra h
        have := hmin (b - 1) (not_lt.mp h)
        omega
      have h2 := lt_of_le_of_lt (arrPos_rel hA hA2 (b - 1)).1 h1
      have h3 : ((b - 1 : ℕ) : ℚ) * (1 - 1 / 2 ^ 23) ^ 2 ≤ c * A := by
        have := mul_le_mul_of_nonneg_right h2.le hA.le
        have e : ((b - 1 : ℕ) : ℚ) / A * (1 - 1 / 2 ^ 23) ^ 2 * A = ((b - 1 : ℕ) : ℚ) * (1 - 1 / 2 ^ 23) ^ 2 := by field_simp
        linarith
      have h4 : ((b - 1 : ℕ) : ℚ) ≤ c * A * (1 + 1 / 2 ^ 23) ^ 4 := by
        calc ((b - 1 : ℕ) : ℚ) = (b - 1 : ℕ) * 1 := (mul_one _).symm
          _ ≤ (b - 1 : ℕ) * ((1 - 1 / 2 ^ 23) ^ 2 * (1 + 1 / 2 ^ 23) ^ 4) := mul_le_mul_of_nonneg_left (by norm_num) (by positivity)
          _ = (b - 1 : ℕ) * (1 - 1 / 2 ^ 23) ^ 2 * (1 + 1 / 2 ^ 23) ^ 4 := by ring
          _ ≤ c * A * (1 + 1 / 2 ^ 23) ^ 4 := mul_le_mul_of_nonneg_right h3 (by norm_num)
      have h5 : (b : ℚ) = (b - 1 : ℕ) + 1 := by
        rw [Nat.cast_sub hb0]; ring
      linarith
  · intro h0
    by_contra hc'
    obtain rfl : b = 0 := by omega
    rw [arrPos_zero] at hb
    linarith

/-- C53 for tempos from 1 to 1024, up to 2^16 parts, the first of at least 2^-80 bars, the others of 0 bars or more, and
2^62 samples in all: there are places `b 0 = 0 ≤ b 1 ≤ …` in the stream, at the written numbers of bars up to a sample
and rounding, such that source `j` is heard from `b j` to `b (j + 1)`, and again after each repetition of the whole. Missing: an
empty first part, for which it is false (`c53_empty_first_counterexample`), and arrangements out of these bounds. -/
theorem c53_arrange_partial (P : Plat) (N : Nat) (env : Env) (hbpm : Within 1 (2 ^ 10) env.bpm) (h1 : 1 ≤ env.sr)
    (h2 : env.sr ≤ 2 ^ 24) (parts : List (Name × Fl)) (hn : parts.length ≤ 2 ^ 16)
    (hdur : ∀ p, p ∈ parts → p.2.isFinite = true ∧ 0 ≤ p.2.val) (hfirst : 1 / 2 ^ 80 ≤ barsBefore parts 1)
    (hlen : barsBefore parts parts.length * barSamples env.sr env.bpm.val ≤ 2 ^ 62) :
    ∃ b : Nat → Nat, b 0 = 0 ∧ 1 ≤ b 1 ∧ (∀ j, j < parts.length → b j ≤ b (j + 1)) ∧
      (∀ j, j ≤ parts.length → |(b j : ℚ) - barsBefore parts j * barSamples env.sr env.bpm.val| ≤
        1 + barsBefore parts j * barSamples env.sr env.bpm.val * (j + 7) / 2 ^ 22) ∧
      ∀ (order : List Nat) (xs : List (List Fl)) (ins : List Ins), order.length = parts.length →
        List.Forall₂ (Sends N ins) order xs →
        ∃ outs ys, play P N env (.arrange (arrangement parts)) (order.map .index) ins = .ok outs ∧
          channel 0 outs = some ys ∧ channel 1 outs = some (List.replicate (ins.length * N) (.fin 0)) ∧
          ys.length = ins.length * N ∧
          ∀ t j x, j < parts.length → b j ≤ t % b parts.length → t % b parts.length < b (j + 1) → xs[j]? = some x →
            ys[t]? = x[t]? := by
  have hne : parts ≠ [] := by
    rintro rfl
    norm_num [barsBefore] at hfirst
  have hm0 : 0 < parts.length := List.length_pos_iff.mpr hne
  obtain ⟨hrel, hb1, hb2⟩ := arrBar_rel hbpm h1 h2
  generalize hB : barSamples env.sr env.bpm.val = B at hrel hb1 hb2 hlen
  have hBp : 0 < B := lt_of_lt_of_le (by norm_num) hb1
  have hlo := hrel.lo
  have hhi := hrel.hi
  have hAlo : B / 2 ≤ (arrBar env.bpm env.sr).val := by
    have : B * (1 / 2) ≤ B * (1 - 1 / 2 ^ 23) ^ 3 := mul_le_mul_of_nonneg_left (by norm_num) hBp.le
    linarith
  have hAhi : (arrBar env.bpm env.sr).val ≤ 2 ^ 33 := by
    have : B * (1 + 1 / 2 ^ 23) ^ 3 ≤ B * 2 := mul_le_mul_of_nonneg_left (by norm_num) hBp.le
    have e : (2 : ℚ) ^ 32 * 2 = 2 ^ 33 := by norm_num
    linarith
  have hAp : 0 < (arrBar env.bpm env.sr).val := by linarith
  have hstep : ∀ j, j < parts.length → barsBefore parts j ≤ barsBefore parts (j + 1) := by
    intro j hj
    have hp : parts[j]? = some parts[j] := List.getElem?_eq_getElem hj
    rw [barsBefore_succ parts j _ hp]
    have := (hdur _ (List.getElem_mem hj)).2
    linarith
  have hmono : ∀ m j, j ≤ m → m ≤ parts.length → barsBefore parts j ≤ barsBefore parts m := by
    intro m
    induction m with
    | zero => intro j hj _; obtain rfl : j = 0 := by omega
              exact le_refl _
    | succ m ih =>
      intro j hj hm
      rcases Nat.lt_or_ge m j with h | h
      · obtain rfl : j = m + 1 := by omega
        exact le_refl _
      · exact le_trans (ih j h (by omega)) (hstep m (by omega))
  have hnn : ∀ j, j ≤ parts.length → 0 ≤ barsBefore parts j := fun j hj => hmono j 0 (by omega) hj
  have htot : barsBefore parts parts.length ≤ 2 ^ 80 := by
    have h : barsBefore parts parts.length * (1 / 2 ^ 10) ≤ 2 ^ 62 :=
      le_trans (mul_le_mul_of_nonneg_left hb1 (hnn _ (le_refl _))) hlen
    have e : (2 : ℚ) ^ 62 * 2 ^ 10 ≤ 2 ^ 80 := by norm_num
    have e2 : barsBefore parts parts.length = barsBefore parts parts.length * (1 / 2 ^ 10) * 2 ^ 10 := by ring
    have e3 := mul_le_mul_of_nonneg_right h (show (0 : ℚ) ≤ 2 ^ 10 by norm_num)
    linarith
  have hc := arrCount_rel parts hdur hfirst hmono hn htot
  have hcn : ∀ j, j ≤ parts.length → 0 ≤ (arrCount parts j).val := fun j hj =>
    le_trans (mul_nonneg (hnn j hj) (pow_nonneg (by norm_num) _)) (hc j hj).2.1
  have hcm : ∀ m j, j ≤ m → m ≤ parts.length → (arrCount parts j).val ≤ (arrCount parts m).val := by
    intro m
    induction m with
    | zero => intro j hj _; obtain rfl : j = 0 := by omega
              exact le_refl _
    | succ m ih =>
      intro j hj hm
      rcases Nat.lt_or_ge m j with h | h
      · obtain rfl : j = m + 1 := by omega
        exact le_refl _
      · exact le_trans (ih j h (by omega)) ((hc (m + 1) hm).2.2.2.2 m rfl)
  have hbex : ∀ j, ∃ b : Nat, j ≤ parts.length →
      (∀ n : Nat, b ≤ n ↔ (arrCount parts j).val ≤ arrPos (arrBar env.bpm env.sr).val n) ∧
      (arrCount parts j).val * (arrBar env.bpm env.sr).val * (1 - 1 / 2 ^ 23) ^ 2 ≤ b ∧
      b ≤ 1 + (arrCount parts j).val * (arrBar env.bpm env.sr).val * (1 + 1 / 2 ^ 23) ^ 4 ∧
      (0 < (arrCount parts j).val → 1 ≤ b) := by
    intro j
    by_cases hj : j ≤ parts.length
    · obtain ⟨b, hb⟩ := boundary_any hAp hAhi (hcn j hj)
      exact ⟨b, fun _ => hb⟩
    · exact ⟨0, fun h => absurd h hj⟩
  choose b hb using hbex
  have hb0 : b 0 = 0 := by
    have := ((hb 0 (by omega)).1 0).mpr (by rw [arrPos_zero]; exact le_refl _)
    omega
  have hone : 1 ≤ b 1 := (hb 1 hm0).2.2.2 (by
    have h := (hc 1 hm0).2.1
    have : (1 : ℚ) / 2 ^ 80 * (1 - 1 / 2 ^ 23) ^ 1 ≤ barsBefore parts 1 * (1 - 1 / 2 ^ 23) ^ 1 :=
      mul_le_mul_of_nonneg_right hfirst (by norm_num)
    have h0 : (0 : ℚ) < 1 / 2 ^ 80 * (1 - 1 / 2 ^ 23) ^ 1 := by norm_num
    linarith)
  have hbm : ∀ m j, j ≤ m → m ≤ parts.length → b j ≤ b m := fun m j hj hm =>
    ((hb j (by omega)).1 _).mpr (le_trans (hcm m j hj hm) (((hb m hm).1 _).mp (le_refl _)))
  have hclose : ∀ j, j ≤ parts.length → |(b j : ℚ) - barsBefore parts j * B| ≤ 1 + barsBefore parts j * B * (j + 7) / 2 ^ 22 := by
    intro j hj
    obtain ⟨_, l, u, _⟩ := hb j hj
    obtain ⟨_, cl, cu, _⟩ := hc j hj
    have hj' : j + 7 ≤ 2 ^ 22 := by omega
    have p1 := eps_pow_hi hj'
    have p2 := eps_pow_lo (j + 5)
    have hDB : 0 ≤ barsBefore parts j * B := mul_nonneg (hnn j hj) hBp.le
    have u1 : (arrCount parts j).val * (arrBar env.bpm env.sr).val * (1 + 1 / 2 ^ 23) ^ 4 ≤
        barsBefore parts j * B * (1 + 1 / 2 ^ 23) ^ (j + 7) := by
      calc _ ≤ (barsBefore parts j * (1 + 1 / 2 ^ 23) ^ j) * (B * (1 + 1 / 2 ^ 23) ^ 3) * (1 + 1 / 2 ^ 23) ^ 4 :=
            mul_le_mul_of_nonneg_right (mul_le_mul cu hhi hAp.le (mul_nonneg (hnn j hj) (by positivity))) (by norm_num)
        _ = _ := by ring
    have l1 : barsBefore parts j * B * (1 - 1 / 2 ^ 23) ^ (j + 5) ≤
        (arrCount parts j).val * (arrBar env.bpm env.sr).val * (1 - 1 / 2 ^ 23) ^ 2 := by
      calc _ = (barsBefore parts j * (1 - 1 / 2 ^ 23) ^ j) * (B * (1 - 1 / 2 ^ 23) ^ 3) * (1 - 1 / 2 ^ 23) ^ 2 := by ring
        _ ≤ _ := mul_le_mul_of_nonneg_right (mul_le_mul cl hlo (mul_nonneg hBp.le (by norm_num)) (hcn j hj)) (by norm_num)
    have u2 := mul_le_mul_of_nonneg_left p1 hDB
    have l2 := mul_le_mul_of_nonneg_left p2 hDB
    have e1 : barsBefore parts j * B * (1 + ((j + 7 : ℕ) : ℚ) / 2 ^ 22) = barsBefore parts j * B + barsBefore parts j * B * (j + 7) / 2 ^ 22 := by
      push_cast; ring
    have e2 : barsBefore parts j * B * (1 - ((j + 5 : ℕ) : ℚ) / 2 ^ 23) ≥
        barsBefore parts j * B - barsBefore parts j * B * (j + 7) / 2 ^ 22 := by
      have : barsBefore parts j * B * (j + 5) ≤ barsBefore parts j * B * ((j + 7) * 2) :=
        mul_le_mul_of_nonneg_left (by have : (0 : ℚ) ≤ j := by positivity
                                      linarith) hDB
      have e3 : barsBefore parts j * B * (1 - ((j + 5 : ℕ) : ℚ) / 2 ^ 23) = barsBefore parts j * B - barsBefore parts j * B * (j + 5) / 2 ^ 23 := by
        push_cast; ring
      have e4 : barsBefore parts j * B * (j + 7) / 2 ^ 22 = barsBefore parts j * B * ((j + 7) * 2) / 2 ^ 23 := by ring
      rw [e3, e4]
      have := div_le_div_of_nonneg_right this (show (0 : ℚ) ≤ 2 ^ 23 by norm_num)
      linarith
    rw [abs_le]
    constructor <;> linarith
  refine ⟨b, hb0, hone, fun j hj => hbm _ _ (by omega) (by omega), fun j hj => hclose j hj, ?_⟩
  intro order xs ins hol hsend
  have hTle : b parts.length ≤ 2 ^ 64 := by
    have e := (abs_le.mp (hclose _ (le_refl parts.length))).2
    have e1 : barsBefore parts parts.length * B * (parts.length + 7) / 2 ^ 22 ≤ 2 ^ 62 := by
      have hq : (parts.length : ℚ) + 7 ≤ 2 ^ 22 := by
        have : (parts.length : ℚ) ≤ 2 ^ 16 := by exact_mod_cast hn
        have e : (2 : ℚ) ^ 16 + 7 ≤ 2 ^ 22 := by norm_num
        linarith
      rw [div_le_iff₀ (by norm_num)]
      exact mul_le_mul hlen hq (by positivity) (by norm_num)
    have e2 : (b parts.length : ℚ) ≤ 2 ^ 64 := by
      have e3 : (1 : ℚ) + 2 ^ 62 + 2 ^ 62 ≤ 2 ^ 64 := by norm_num
      linarith
    exact_mod_cast e2
  refine arrange_heard P N env parts hne b hb0 hone hbm ?_ order xs ins hsend hol
  intro n j hn' hj
  obtain ⟨f1, f2⟩ := f32_ofNat_big (le_trans hn' hTle)
  have hn64 : (n : ℚ) ≤ 2 ^ 64 := by exact_mod_cast le_trans hn' hTle
  have hrn : f32.rnd n ≤ 2 ^ 65 ∧ 0 ≤ f32.rnd n := by
    rcases Nat.eq_zero_or_pos n with rfl | h0
    · rw [Nat.cast_zero, Fmt.rnd_zero]; norm_num
    · have hn1 : (1 : ℚ) ≤ n := by exact_mod_cast h0
      obtain ⟨a1, a2⟩ := rnd_relw (v := (n : ℚ)) (by positivity) (Or.inr (le_trans (by norm_num) hn1))
      have h3 : (n : ℚ) * (1 + 1 / 2 ^ 23) ≤ n * 2 := mul_le_mul_of_nonneg_left (by norm_num) (by positivity)
      have h4 : (0 : ℚ) ≤ n * (1 - 1 / 2 ^ 23) := mul_nonneg (by positivity) (by norm_num)
      constructor
      · have : (2 : ℚ) ^ 64 * 2 = 2 ^ 65 := by norm_num
        linarith
      · linarith
  have hd := Fl.div_fin (f := f32) f1 hrel.fin hAp.ne' (by
    rw [f2]
    refine inRange_of (lo := 0) (hi := 2 ^ 90) (div_nonneg hrn.2 hAp.le) ?_ (by norm_num) (by norm_num)
    rw [div_le_iff₀ hAp]
    have h3 : (1 : ℚ) / 2 ^ 11 ≤ (arrBar env.bpm env.sr).val := by linarith
    have h4 : (2 : ℚ) ^ 90 * (1 / 2 ^ 11) ≤ 2 ^ 90 * (arrBar env.bpm env.sr).val := mul_le_mul_of_nonneg_left h3 (by norm_num)
    have h5 : (2 : ℚ) ^ 65 ≤ 2 ^ 90 * (1 / 2 ^ 11) := by norm_num
    linarith [hrn.1])
  rw [f2] at hd
  rw [Fl.lt_fin hd.1 (hc j hj).1, hd.2, ← not_le]
  exact (not_congr ((hb j hj).1 n).symm).trans Nat.not_le

/-- `arrange ~a 2 ~b 1` at 44.1 kHz and tempo 120: three bars of 88200 samples. -/
example : ∃ (env : Env) (parts : List (Name × Fl)), Within 1 (2 ^ 10) env.bpm ∧ 1 ≤ env.sr ∧ env.sr ≤ 2 ^ 24 ∧
    arrangement parts = [.ref ['~', 'a'], .num (.fin 2), .ref ['~', 'b'], .num (.fin 1)] ∧
    (∀ p, p ∈ parts → p.2.isFinite = true ∧ 0 < p.2.val) ∧
    (∀ j, j ≤ parts.length → f32.Rep (barsBefore parts j)) ∧
    barsBefore parts parts.length * barSamples env.sr env.bpm.val = 264600 := by
  refine ⟨⟨[], 44100, .fin 120, 0⟩, [(['~', 'a'], .fin 2), (['~', 'b'], .fin 1)], ⟨rfl, by norm_num [Fl.val], by norm_num [Fl.val]⟩,
    by decide, by decide, rfl, ?_, ?_, ?_⟩
  · intro p hp
    simp only [List.mem_cons, List.not_mem_nil, or_false] at hp
    rcases hp with rfl | rfl <;> exact ⟨rfl, by norm_num [Fl.val]⟩
  · intro j hj
    have h3 : f32.Rep 3 := by exact_mod_cast f32_rep_int (n := 3) (by decide)
    simp only [List.length_cons, List.length_nil] at hj
    rcases j with _ | _ | _ | j
    · exact rep0
    · simpa [barsBefore, Fl.val] using rep2
    · have : barsBefore [(['~', 'a'], Fl.fin 2), (['~', 'b'], Fl.fin 1)] 2 = 3 := by norm_num [barsBefore, Fl.val]
      rw [this]; exact h3
    · omega
  · norm_num [barsBefore, barSamples, Fl.val]

/-- `arrange ~a 0.1 ~b 0.2` at 44.1 kHz and tempo 120: 0.1 and 0.2 are not what f32 stores, and the sum is rounded again. -/
example : ∃ (env : Env) (parts : List (Name × Fl)), Within 1 (2 ^ 10) env.bpm ∧ 1 ≤ env.sr ∧ env.sr ≤ 2 ^ 24 ∧
    parts.length ≤ 2 ^ 16 ∧
    arrangement parts = [.ref ['~', 'a'], .num (Fl.lit f32 (1 / 10)), .ref ['~', 'b'], .num (Fl.lit f32 (2 / 10))] ∧
    (∀ p, p ∈ parts → p.2.isFinite = true ∧ 0 ≤ p.2.val) ∧ 1 / 2 ^ 80 ≤ barsBefore parts 1 ∧
    ¬ f32.Rep (barsBefore parts 2) ∧
    barsBefore parts parts.length * barSamples env.sr env.bpm.val ≤ 2 ^ 62 := by
  have h1 : Fl.lit f32 (1 / 10) = .fin (13421773 / 2 ^ 27) := by kernel_rfl
  have h2 : Fl.lit f32 (2 / 10) = .fin (13421773 / 2 ^ 26) := by kernel_rfl
  have hs : barsBefore [(['~', 'a'], Fl.fin (13421773 / 2 ^ 27)), (['~', 'b'], Fl.fin (13421773 / 2 ^ 26))] 2 = 40265319 / 2 ^ 27 := by
    norm_num [barsBefore, Fl.val]
  refine ⟨⟨[], 44100, .fin 120, 0⟩, [(['~', 'a'], .fin (13421773 / 2 ^ 27)), (['~', 'b'], .fin (13421773 / 2 ^ 26))],
    ⟨rfl, by norm_num [Fl.val], by norm_num [Fl.val]⟩, by decide, by decide, by decide, by rw [h1, h2]; rfl, ?_, ?_, ?_, ?_⟩
  · intro p hp
    simp only [List.mem_cons, List.not_mem_nil, or_false] at hp
    rcases hp with rfl | rfl <;> exact ⟨rfl, by norm_num [Fl.val]⟩
  · norm_num [barsBefore, Fl.val]
  · rw [hs]
    intro h
    have h := Fmt.rnd_rep f32_p h
    have : f32.rnd (40265319 / 2 ^ 27) ≠ 40265319 / 2 ^ 27 := by decide +kernel
    exact this h
  · rw [show ([(['~', 'a'], Fl.fin (13421773 / 2 ^ 27)), (['~', 'b'], Fl.fin (13421773 / 2 ^ 26))] : List (Name × Fl)).length = 2 from rfl, hs]
    norm_num [barSamples, Fl.val]

theorem arrange_empty_first (P : Plat) :
    (match play P 16 ⟨[], 44100, .fin 120, 0⟩ (.arrange (arrangement [(['~', 'a'], .fin 0), (['~', 'b'], .fin (1 / 2 ^ 14))]))
      ([1, 2].map .index) [[(1, [List.replicate 16 (.fin 1)]), (2, [List.replicate 16 (.fin 2)])]] with
    | .ok o => channel 0 o
    | .error _ => none) = some [.fin 2, .fin 2, .fin 2, .fin 2, .fin 2, .fin 2, .fin 1, .fin 2, .fin 2, .fin 2, .fin 2, .fin 2,
      .fin 1, .fin 2, .fin 2, .fin 2] := by kernel_rfl

/-- The first part must not be empty: in `arrange ~a 0 ~b 0.00006103515625` (no bar, then 5.4 samples at 44100 and tempo 120)
~a is heard for one sample at each repetition, though not at the start. -/
theorem c53_empty_first_counterexample (P : Plat) :
    let parts : List (Name × Fl) := [(['~', 'a'], .fin 0), (['~', 'b'], .fin (1 / 2 ^ 14))]
    ¬ ∃ b : Nat → Nat, b 0 = 0 ∧
      (∀ j, j ≤ 2 → |(b j : ℚ) - barsBefore parts j * barSamples 44100 120| ≤
        1 + barsBefore parts j * barSamples 44100 120 * (j + 7) / 2 ^ 22) ∧
      ∀ (order : List Nat) (xs : List (List Fl)) (ins : List Ins), order.length = 2 →
        List.Forall₂ (Sends 16 ins) order xs →
        ∃ outs ys, play P 16 ⟨[], 44100, .fin 120, 0⟩ (.arrange (arrangement parts)) (order.map .index) ins = .ok outs ∧
          channel 0 outs = some ys ∧
          ∀ t j x, j < 2 → b j ≤ t % b 2 → t % b 2 < b (j + 1) → xs[j]? = some x → ys[t]? = x[t]? := by
  intro parts
  rintro ⟨b, hb0, hclose, hheard⟩
  have h2 := hclose 2 (le_refl _)
  have hs : barsBefore parts 2 * barSamples 44100 120 = 88200 / 2 ^ 14 := by
    norm_num [parts, barsBefore, barSamples, Fl.val]
  rw [hs, abs_le] at h2
  have hlo : 5 ≤ b 2 := by
    by_contra h
    have : (b 2 : ℚ) ≤ 4 := by exact_mod_cast (by omega : b 2 ≤ 4)
    norm_num at h2
    linarith
  have hhi : b 2 ≤ 6 := by
    by_contra h
    have : (7 : ℚ) ≤ b 2 := by exact_mod_cast (by omega : 7 ≤ b 2)
    norm_num at h2
    linarith
  obtain ⟨outs, ys, g1, g2, g3⟩ := hheard [1, 2] [List.replicate 16 (.fin 1), List.replicate 16 (.fin 2)]
    [[(1, [List.replicate 16 (.fin 1)]), (2, [List.replicate 16 (.fin 2)])]] rfl (by
      have hs : ∀ n v, (n, [List.replicate 16 (Fl.fin v)]) ∈ [((1 : Nat), [List.replicate 16 (Fl.fin 1)]), (2, [List.replicate 16 (Fl.fin 2)])] →
          (∀ x, (n, x) ∈ [((1 : Nat), [List.replicate 16 (Fl.fin 1)]), (2, [List.replicate 16 (Fl.fin 2)])] → x = [List.replicate 16 (Fl.fin v)]) →
          Sends 16 [[(1, [List.replicate 16 (.fin 1)]), (2, [List.replicate 16 (.fin 2)])]] n (List.replicate 16 (.fin v)) := by
        intro n v h1 h2
        refine ⟨rfl, fun k i hi => ?_⟩
        rcases k with _ | k
        · cases hi
          exact ⟨_, _, h1, h2, rfl, rfl, fun s _ => by rw [Nat.zero_mul, Nat.zero_add]⟩
        · cases hi
      exact .cons (hs 1 1 (by simp) (by simp)) (.cons (hs 2 2 (by simp) (by simp)) .nil))
  have hrun := arrange_empty_first P
  rw [g1] at hrun
  replace hrun := g2.symm.trans hrun
  obtain rfl := Option.some.inj hrun
  have key : ∀ t, t < 16 → t % b 2 < b 2 := fun t _ => Nat.mod_lt _ (by omega)
  have clash : ∀ t u, t < 16 → u < 16 → t % b 2 = u % b 2 →
      ([.fin 2, .fin 2, .fin 2, .fin 2, .fin 2, .fin 2, .fin 1, .fin 2, .fin 2, .fin 2, .fin 2, .fin 2,
        .fin 1, .fin 2, .fin 2, .fin 2] : List Fl)[t]? = [.fin 2, .fin 2, .fin 2, .fin 2, .fin 2, .fin 2, .fin 1, .fin 2, .fin 2,
        .fin 2, .fin 2, .fin 2, .fin 1, .fin 2, .fin 2, .fin 2][u]? := by
    intro t u ht hu he
    have k := key t ht
    rcases Nat.lt_or_ge (t % b 2) (b 1) with h | h
    · rw [g3 t 0 _ (by decide) (by rw [hb0]; omega) h rfl, g3 u 0 _ (by decide) (by rw [hb0]; omega) (by rw [← he]; exact h) rfl,
        List.getElem?_replicate, List.getElem?_replicate, if_pos ht, if_pos hu]
    · rw [g3 t 1 _ (by decide) h k rfl, g3 u 1 _ (by decide) (by rw [← he]; exact h) (by rw [← he]; exact k) rfl,
        List.getElem?_replicate, List.getElem?_replicate, if_pos ht, if_pos hu]
  rcases (by omega : b 2 = 5 ∨ b 2 = 6) with h | h
  · have := clash 1 6 (by decide) (by decide) (by rw [h])
    simp at this
  · have := clash 0 6 (by decide) (by decide) (by rw [h])
    simp at this

end Verif.Props
