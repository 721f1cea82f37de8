import Verif.Lemmas.Count
import Verif.Lemmas.KernelRfl
import Verif.Spec.Signal

/-! # Random choice (C25) -/

namespace Verif.Props
open Spec

theorem f64_rep {n : Nat} (h : n ≤ 2 ^ 53) : f64.Rep (n : ℚ) := by
  have h1 : f64.Rep ((n : Int) : ℚ) := Fmt.rep_int (by
    rw [abs_of_nonneg (by omega)]
    exact_mod_cast h) (by decide)
  exact_mod_cast h1

theorem f64_ofNat53 {n : Nat} (h : n ≤ 2 ^ 53) :
    (Fl.ofNat f64 n).isFinite = true ∧ (Fl.ofNat f64 n).val = n := by
  have h2 : f64.rnd (n : ℚ) = n := Fmt.rnd_rep f64_p (f64_rep h)
  have h3 : InRange f64 (n : ℚ) := f64_inRange (by
    rw [abs_of_nonneg (by positivity)]
    have : (n : ℚ) ≤ 2 ^ 53 := by exact_mod_cast h
    exact le_trans this (by norm_num))
  have := Fl.round_val (s := false) h3
  rw [h2] at this
  exact this

/-- A random value between -1 and 1 picks a position of the list. -/
theorem chooseIndex_lt {x : Fl} (hx : Within (-1) 1 x) {n : Nat} (h0 : 0 < n) (hn : n ≤ 2 ^ 53) :
    chooseIndex x n < n := by
  obtain ⟨n1, n2⟩ := f64_ofNat53 hn
  have hnq : (0 : ℚ) < n := by exact_mod_cast h0
  have hnq2 : (n : ℚ) ≤ 2 ^ 53 := by exact_mod_cast hn
  have r0 : f64.Rep (0 : ℚ) := Fmt.rep_zero
  have r1 : f64.Rep (1 : ℚ) := by exact_mod_cast f64_rep (n := 1) (by norm_num)
  have rh : f64.Rep (1 / 2 : ℚ) := ⟨1, -1, by decide, by decide, by rw [pow2_eq]; norm_num⟩
  have rmh : f64.Rep (-(1 / 2) : ℚ) := ⟨-1, -1, by decide, by decide, by rw [pow2_eq]; norm_num⟩
  obtain ⟨x0, x1, x2⟩ := hx
  have a := Fl.mul_fin (f := f64) (b := .fin (1 / 2)) x0 rfl (f64_inRange (by
    simp only [Fl.val_fin]; rw [abs_le]; constructor <;> linarith))
  simp only [Fl.val_fin] at a
  have a1 : -(1 / 2) ≤ f64.rnd (x.val * (1 / 2)) := Fmt.le_rnd f64_p rmh (by linarith)
  have a2 : f64.rnd (x.val * (1 / 2)) ≤ 1 / 2 := Fmt.rnd_le f64_p rh (by linarith)
  rw [← a.2] at a1 a2
  have b := Fl.add_fin (f := f64) (b := .fin (1 / 2)) a.1 rfl (f64_inRange (by
    simp only [Fl.val_fin]; rw [abs_le]; constructor <;> linarith))
  simp only [Fl.val_fin] at b
  have b1 := Fmt.le_rnd f64_p r0 (show 0 ≤ (Fl.mul f64 x (.fin (1 / 2))).val + 1 / 2 by linarith)
  have b2 := Fmt.rnd_le f64_p r1 (show (Fl.mul f64 x (.fin (1 / 2))).val + 1 / 2 ≤ 1 by linarith)
  rw [← b.2] at b1 b2
  have c1 : 0 ≤ (Fl.add f64 (Fl.mul f64 x (.fin (1 / 2))) (.fin (1 / 2))).val * (n : ℚ) :=
    mul_nonneg b1 hnq.le
  have c2 : (Fl.add f64 (Fl.mul f64 x (.fin (1 / 2))) (.fin (1 / 2))).val * (n : ℚ) ≤ n := by
    have := mul_le_mul_of_nonneg_right b2 hnq.le
    linarith
  have c := Fl.mul_fin (f := f64) b.1 n1 (by
    rw [n2]; exact f64_inRange (by rw [abs_of_nonneg c1]; exact le_trans c2 (le_trans hnq2 (by norm_num))))
  rw [n2] at c
  have d2 := Fmt.rnd_le f64_p (f64_rep hn) c2
  rw [← c.2] at d2
  have hu : (Fl.mul f64 (Fl.add f64 (Fl.mul f64 x (.fin (1 / 2))) (.fin (1 / 2))) (Fl.ofNat f64 n)).toUsize ≤ n := by
    rw [Fl.toUsize_of c.1 (lt_of_le_of_lt d2 (lt_of_le_of_lt hnq2 (by norm_num)))]
    have : ⌊(Fl.mul f64 (Fl.add f64 (Fl.mul f64 x (.fin (1 / 2))) (.fin (1 / 2))) (Fl.ofNat f64 n)).val⌋ ≤
        (n : Int) := by
      have := Int.floor_le_floor d2
      rwa [Int.floor_natCast] at this
    exact Int.toNat_le.mpr this
  unfold chooseIndex
  simp only
  split
  · exact h0
  · omega

theorem choose_blocks (P : Plat) (N : Nat) (seed : Nat) (notes : List Fl) (v : Nat → Fl)
    (hv : ∀ k, notes[chooseIndex (P.libm.noise seed k) notes.length]? = some (v k)) (ins : List Ins) (k : Nat)
    (a b : Buf) (ha : a.length = N) :
    runBlocks (procG P) (.prim (.choose ⟨seed, k, notes, []⟩)) [a, b] ins =
      .ok ((List.range ins.length).map (fun j => [List.replicate N (v (k + j)), b])) := by
  induction ins generalizing k a with
  | nil => rfl
  | cons i ins ih =>
    have hp : procG P (.prim (.choose ⟨seed, k, notes, []⟩)) i [a, b] =
        .ok (.prim (.choose ⟨seed, k + 1, notes, []⟩), [List.replicate N (v k), b]) := by
      cases a with
      | nil => subst ha; rfl
      | cons x a =>
        subst ha
        simp only [procG, procPrim, procChoose, hv k, List.map_const']
        rfl
    rw [runBlocks, hp]
    simp only
    rw [ih (k + 1) _ (by simp)]
    simp only [List.length_cons, List.range_succ_eq_map, List.map_cons, List.map_map, Function.comp_def,
      Nat.add_zero, Except.ok.injEq, List.cons.injEq, true_and]
    apply List.map_congr_left
    intro j _
    rw [show k + 1 + j = k + (j + 1) by omega]

theorem channel_map (N n k : Nat) (v : Nat → Fl) (b : Buf) :
    channel 0 ((List.range n).map (fun j => [List.replicate N (v (k + j)), b])) =
      some ((List.range (n * N)).map (fun t => v (k + t / N))) := by
  induction n generalizing k with
  | zero => simp [channel]
  | succ n ih =>
    rw [List.range_succ_eq_map]
    simp only [List.map_cons, List.map_map, Function.comp_def, Nat.add_zero]
    have h1 : (List.range n).map (fun j => [List.replicate N (v (k + (j + 1))), b]) =
        (List.range n).map (fun j => [List.replicate N (v (k + 1 + j)), b]) :=
      List.map_congr_left (fun j _ => by rw [show k + (j + 1) = k + 1 + j by omega])
    simp only [channel]
    simp only [Nat.succ_eq_add_one] at *
    rw [h1, ih (k + 1)]
    simp only [List.getElem?_cons_zero, Option.some.injEq]
    rcases Nat.eq_zero_or_pos N with rfl | hN
    · simp
    · rw [show (n + 1) * N = N + n * N by ring, List.range_add, List.map_append, List.map_map]
      congr 1
      · apply List.ext_getElem (by simp)
        intro t h1 h2
        simp only [List.length_replicate] at h1
        simp [Nat.div_eq_of_lt h1]
      · apply List.map_congr_left
        intro t _
        simp only [Function.comp_def]
        rw [Nat.add_div_left _ hN, show k + 1 + t / N = k + (t / N).succ by omega]

/-- C25. Every sample is one of the listed numbers, whatever the random values (between -1 and 1), the
inputs and the number of blocks; a new number is picked for every block. -/
theorem c25_choose (P : Plat) (hP : ∀ s k, Within (-1) 1 (P.libm.noise s k)) (N : Nat) (env : Env)
    (notes : List Fl) (hne : notes ≠ []) (hlen : notes.length ≤ 2 ^ 53) (ins : List Ins) :
    ∃ outs ys, play P N env (.choose notes) [] ins = .ok outs ∧ channel 0 outs = some ys ∧
      ys.length = ins.length * N ∧ (∀ y, y ∈ ys → y ∈ notes) ∧
      ∀ t u, t / N = u / N → t < ys.length → u < ys.length → ys[t]? = ys[u]? := by
  have hl : 0 < notes.length := List.length_pos_iff.mpr hne
  have hi := fun k => chooseIndex_lt (hP env.seed k) hl hlen
  obtain ⟨v, hv, hm⟩ : ∃ v : Nat → Fl, (∀ k, notes[chooseIndex (P.libm.noise env.seed k) notes.length]? =
      some (v k)) ∧ ∀ k, v k ∈ notes :=
    ⟨fun k => notes[chooseIndex (P.libm.noise env.seed k) notes.length]'(hi k),
      fun k => List.getElem?_eq_getElem (hi k), fun k => List.getElem_mem _⟩
  have hb := choose_blocks P N env.seed notes v hv ins 0 (List.replicate N (.fin 0)) (List.replicate N (.fin 0))
    (by simp)
  refine ⟨_, _, play_ok (d := fresh N 2 (.prim (.choose (Choose.new notes env.seed)))) (refs := []) rfl rfl hb,
    channel_map N ins.length 0 v _, by simp, ?_, ?_⟩
  · intro y hy
    obtain ⟨t, _, rfl⟩ := List.mem_map.mp hy
    exact hm _
  · intro t u htu ht hu
    simp only [List.length_map, List.length_range] at ht hu
    rw [List.getElem?_map, List.getElem?_map, List.getElem?_range ht, List.getElem?_range hu]
    simp only [Option.map_some, htu]

/-- There are platforms whose noise is between -1 and 1. -/
example (P : Plat) : ∃ Q : Plat, ∀ s k, Within (-1) 1 (Q.libm.noise s k) :=
  ⟨{ P with libm := { P.libm with noise := fun s k => if s + k < 3 then .fin 1 else .fin (-1 / 3) } }, fun s k => by
    show Within (-1) 1 (if s + k < 3 then .fin 1 else .fin (-1 / 3))
    split <;> exact ⟨rfl, by norm_num [Fl.val], by norm_num [Fl.val]⟩⟩

end Verif.Props
