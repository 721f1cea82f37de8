import Verif.Spec.Pan
import Verif.Spec.Demo
import Verif.Lemmas.KernelRfl
import Verif.Props.Arith
import Verif.Props.Envelope

/-! # Panning (C72) -/

namespace Verif.Props
open Spec

theorem div_ok {f : Fmt} (a b : Fl) : (Fl.div f a b).Ok f := by
  cases a <;> cases b <;> simp only [Fl.div] <;> (repeat' split) <;> first | exact Fl.round_ok | exact Fl.zero_ok | trivial

theorem half_sum {p : Fl} (hp : Within (-1) 1 p) :
    Within 0 1 ((p +. .fin 1) /. .fin 2) ∧ ((p +. .fin 1) /. .fin 2).val = f32.rnd (f32.rnd (p.val + 1) / 2) := by
  have h0 : 0 ≤ p.val + (Fl.fin 1).val := by have := hp.2.1; simp only [Fl.val_fin]; linarith
  have h1 : p.val + (Fl.fin 1).val ≤ 2 := by have := hp.2.2; simp only [Fl.val_fin]; linarith
  have hs := Fl.add_fin (f := f32) (b := .fin 1) hp.1 rfl (inRange_of h0 h1 (by norm_num) (by norm_num))
  have hw := within_of_fin hs rep0 (f32_rep_int (n := 2) (by norm_num)) h0 h1
  have d0 : 0 ≤ (p +. .fin 1).val / (Fl.fin 2).val := div_nonneg hw.2.1 (by norm_num [Fl.val])
  have d1 : (p +. .fin 1).val / (Fl.fin 2).val ≤ 1 := by
    have := hw.2.2
    rw [Fl.val_fin, div_le_one (by norm_num)]
    exact_mod_cast this
  have hd := Fl.div_fin (f := f32) (b := .fin 2) hw.1 rfl (by norm_num [Fl.val]) (inRange_of d0 d1 (by norm_num) (by norm_num))
  refine ⟨within_of_fin hd rep0 rep1 d0 d1, ?_⟩
  rw [hd.2, hs.2]
  rfl

theorem half_sum_err {p : ℚ} (h0 : -1 ≤ p) (h1 : p ≤ 1) : |f32.rnd (f32.rnd (p + 1) / 2) - (p + 1) / 2| ≤ 1 / 2 ^ 23 + 1 / 2 ^ 149 := by
  have e1 := f32_err (p + 1)
  have e2 := f32_err (f32.rnd (p + 1) / 2)
  have a1 : 0 ≤ f32.rnd (p + 1) := Fmt.rnd_nonneg (by linarith)
  have a2 : f32.rnd (p + 1) ≤ 2 := Fmt.rnd_le f32_p (by exact_mod_cast f32_rep_int (n := 2) (by norm_num)) (by linarith)
  rw [abs_of_nonneg (by linarith : 0 ≤ p + 1)] at e1
  rw [abs_of_nonneg (by linarith : 0 ≤ f32.rnd (p + 1) / 2)] at e2
  rw [abs_le] at *
  constructor <;> linarith

theorem square_close {g x l : ℚ} (h0 : 0 ≤ g) (h1 : g ≤ 1) (h : |l - g * x| ≤ |x| / 2 ^ 24 + 1 / 2 ^ 150) :
    |l ^ 2 - g ^ 2 * x ^ 2| ≤ x ^ 2 / 2 ^ 21 + (|x| + 1) / 2 ^ 145 := by
  have hx := abs_nonneg x
  have e : l ^ 2 - g ^ 2 * x ^ 2 = (l - g * x) * (2 * (g * x) + (l - g * x)) := by ring
  have hgx : |g * x| ≤ |x| := by
    rw [abs_mul, abs_of_nonneg h0]
    exact mul_le_of_le_one_left hx h1
  have h2 : |2 * (g * x) + (l - g * x)| ≤ 2 * |x| + (|x| / 2 ^ 24 + 1 / 2 ^ 150) := by
    refine le_trans (abs_add_le _ _) ?_
    rw [abs_mul, abs_of_pos (by norm_num : (0 : ℚ) < 2)]
    linarith
  rw [e, abs_mul]
  refine le_trans (mul_le_mul h h2 (abs_nonneg _) (by positivity)) ?_
  rw [← sq_abs x]
  nlinarith [sq_nonneg |x|]

theorem power_close {g h p x l r : ℚ} (g0 : 0 ≤ g) (g1 : g ≤ 1) (h0 : 0 ≤ h) (h1 : h ≤ 1) (hg : |g ^ 2 - (1 - p) / 2| ≤ 1 / 2 ^ 20)
    (hh : |h ^ 2 - (1 + p) / 2| ≤ 1 / 2 ^ 20) (hl : |l - g * x| ≤ |x| / 2 ^ 24 + 1 / 2 ^ 150) (hr : |r - h * x| ≤ |x| / 2 ^ 24 + 1 / 2 ^ 150) :
    |l ^ 2 + r ^ 2 - x ^ 2| ≤ x ^ 2 / 2 ^ 18 + (|x| + 1) / 2 ^ 140 := by
  have e1 := square_close g0 g1 hl
  have e2 := square_close h0 h1 hr
  have hx := abs_nonneg x
  have hxx := sq_nonneg x
  have e3 : |(g ^ 2 + h ^ 2 - 1) * x ^ 2| ≤ x ^ 2 / 2 ^ 19 := by
    rw [abs_mul, abs_of_nonneg hxx]
    have : |g ^ 2 + h ^ 2 - 1| ≤ 1 / 2 ^ 19 := by
      rw [abs_le] at *
      constructor <;> linarith
    have := mul_le_mul_of_nonneg_right this hxx
    linarith
  have e4 : (g ^ 2 + h ^ 2 - 1) * x ^ 2 = g ^ 2 * x ^ 2 + h ^ 2 * x ^ 2 - x ^ 2 := by ring
  rw [e4] at e3
  have e5 : x ^ 2 / 2 ^ 21 + (|x| + 1) / 2 ^ 145 + (x ^ 2 / 2 ^ 21 + (|x| + 1) / 2 ^ 145) + x ^ 2 / 2 ^ 19 ≤ x ^ 2 / 2 ^ 18 + (|x| + 1) / 2 ^ 140 := by
    linarith
  rw [abs_le] at *
  constructor <;> linarith

/-- The factor of one side. -/
theorem pan_side {m : Libm} (hm : SqrtClose m) {n x : Fl} (hn : Within 0 1 n) (ho : n.Ok f32) (hx : x.isFinite = true) (hox : x.Ok f32)
    (hb : |x.val| ≤ 2 ^ 100) :
    (m.sqrt n *. x).isFinite = true ∧ |(m.sqrt n *. x).val - (m.sqrt n).val * x.val| ≤ |x.val| / 2 ^ 24 + 1 / 2 ^ 150 ∧
    (n.val = 1 → (m.sqrt n *. x).val = x.val) ∧ (n.val = 0 → (m.sqrt n *. x).val = 0) := by
  obtain ⟨s1, s2, s3⟩ := hm n hn ho
  have hle : |(m.sqrt n).val * x.val| ≤ |x.val| := by
    rw [abs_mul, abs_of_nonneg s1.2.1]
    exact mul_le_of_le_one_left (abs_nonneg _) s1.2.2
  have hf := Fl.mul_fin (f := f32) s1.1 hx (f32_inRange (le_trans hle hb))
  refine ⟨hf.1, ?_, fun h => ?_, fun h => ?_⟩
  · rw [hf.2]
    refine le_trans (f32_err _) ?_
    have := div_le_div_of_nonneg_right hle (show (0 : ℚ) ≤ 2 ^ 24 by norm_num)
    linarith
  · rw [hf.2, s3 h, one_mul]
    exact Fmt.rnd_rep f32_p (ok_rep hox).1
  · rw [h, zero_div] at s2
    have : (m.sqrt n).val = 0 := by
      have := le_antisymm s2 (abs_nonneg _)
      rw [sub_zero, abs_eq_zero] at this
      exact pow_eq_zero_iff (two_ne_zero) |>.mp this
    rw [hf.2, this, zero_mul, Fmt.rnd_zero]

/-- One sample. -/
theorem pan_sample {m : Libm} (hm : SqrtClose m) {p x : Fl} (hp : Within (-1) 1 p) (hx : x.isFinite = true) (hox : x.Ok f32)
    (hb : |x.val| ≤ 2 ^ 100) : Panned p.val x (panSample m p x).1 (panSample m p x).2 := by
  obtain ⟨n1, n2⟩ := half_sum hp
  obtain ⟨o1, o2⟩ := one_sub_within n1
  have e := half_sum_err hp.2.1 hp.2.2
  rw [← n2] at e
  have e' := w01_err (x := 1 - ((p +. .fin 1) /. .fin 2).val) (by linarith [n1.2.2]) (by linarith [n1.2.1])
  rw [← o2] at e'
  have k1 : (Fl.fin 1 -. ((p +. .fin 1) /. .fin 2)).Ok f32 := Fl.add_ok _ _
  have k2 : ((p +. .fin 1) /. .fin 2).Ok f32 := div_ok _ _
  obtain ⟨l1, l2, l3, l4⟩ := pan_side hm o1 k1 hx hox hb
  obtain ⟨r1, r2, r3, r4⟩ := pan_side hm n1 k2 hx hox hb
  obtain ⟨g1, g2, -⟩ := hm _ o1 k1
  obtain ⟨h1, h2, -⟩ := hm _ n1 k2
  have g3 : |(m.sqrt (Fl.fin 1 -. ((p +. .fin 1) /. .fin 2))).val ^ 2 - (1 - p.val) / 2| ≤ 1 / 2 ^ 20 := by
    have := div_le_div_of_nonneg_right o1.2.2 (show (0 : ℚ) ≤ 2 ^ 22 by norm_num)
    have hq : (1 : ℚ) / 2 ^ 22 + 1 / 2 ^ 23 + (1 / 2 ^ 23 + 1 / 2 ^ 149) ≤ 1 / 2 ^ 20 := by norm_num
    rw [abs_le] at *
    constructor <;> linarith
  have h3 : |(m.sqrt ((p +. .fin 1) /. .fin 2)).val ^ 2 - (1 + p.val) / 2| ≤ 1 / 2 ^ 20 := by
    have := div_le_div_of_nonneg_right n1.2.2 (show (0 : ℚ) ≤ 2 ^ 22 by norm_num)
    have hq : (1 : ℚ) / 2 ^ 22 + (1 / 2 ^ 23 + 1 / 2 ^ 149) ≤ 1 / 2 ^ 20 := by norm_num
    rw [abs_le] at *
    constructor <;> linarith
  simp only [panSample]
  refine ⟨⟨l1, r1⟩, ⟨_, _, g1.2.1, h1.2.1, g3, h3, l2, r2⟩, ?_, fun hp' => ?_, fun hp' => ?_, fun hp' => ?_⟩
  · exact power_close g1.2.1 g1.2.2 h1.2.1 h1.2.2 g3 h3 l2 r2
  · have hn : ((p +. .fin 1) /. .fin 2).val = 0 := by rw [n2, hp']; decide +kernel
    refine ⟨l3 ?_, r4 hn⟩
    rw [o2, hn]; decide +kernel
  · have hn : ((p +. .fin 1) /. .fin 2).val = 1 := by rw [n2, hp']; decide +kernel
    refine ⟨l4 ?_, r3 hn⟩
    rw [o2, hn]; decide +kernel
  · have hpp : p = .nz ∨ p = .fin 0 := by
      cases p with
      | nan => cases hp.1
      | inf s => cases hp.1
      | nz => exact .inl rfl
      | fin q => right; rw [Fl.val_fin] at hp'; rw [hp']
    have : Fl.fin 1 -. ((p +. .fin 1) /. .fin 2) = (p +. .fin 1) /. .fin 2 := by
      rcases hpp with rfl | rfl <;> decide +kernel
    rw [this]

theorem pan_make (P : Plat) (N : Nat) (env : Env) (p : NumRef) :
    makeNode P N env.samples env.sr env.bpm env.seed (.pan p) = .ok (fresh N 2 (.prim (.pan (arith (p.value (.fin 0))))), p.refs) := by
  cases p <;> rfl

theorem pan_one (m : Libm) (v : Fl) (order : List Nat) (k : Nat) (mono : Bool) (x : List (Fl × Fl)) (a b : Buf) :
    procPan m ⟨v, order⟩ [(k, bufsOf mono x)] [a, b] =
      .ok [x.map fun q => (panSample m v q.1).1, x.map fun q => (panSample m v q.1).2] := by
  simp [procPan, chan_bufsOf, bind, Except.bind, setStereo, Function.comp_def]

theorem pan_two (m : Libm) (v : Fl) (swap : Bool) (k j : Nat) (hkj : k ≠ j) (mk mj : Bool) (x : List ((Fl × Fl) × (Fl × Fl))) (a b : Buf) :
    procPan m ⟨v, [k, j]⟩
      (if swap then [(j, bufsOf mj (x.map Prod.snd)), (k, bufsOf mk (x.map Prod.fst))]
       else [(k, bufsOf mk (x.map Prod.fst)), (j, bufsOf mj (x.map Prod.snd))]) [a, b] =
      .ok [x.map fun q => (panSample m q.2.1 q.1.1).1, x.map fun q => (panSample m q.2.1 q.1.1).2] := by
  have hjk : ¬ j = k := fun h => hkj h.symm
  cases swap <;> cases mk <;> cases mj <;>
    simp [procPan, inputAt, chan, bind, Except.bind, setStereo, bufsOf, List.find?, hkj, hjk, Function.comp_def, List.zipWith_map, List.zipWith_self,
      beq_iff_eq]

/-- **C72 (part)**, a written position: every sample of the left channel of the input is placed at the position, with the same power. Missing: the right channel of a stereo
input, which is dropped (see below), and positions outside -1 to 1. -/
theorem c72_pan_partial (P : Plat) (hm : SqrtClose P.libm) (N : Nat) (env : Env) (p : Fl) (k : Nat) (mono : Bool) (xs : List (List (Fl × Fl)))
    (hp : Within (-1) 1 p) (hx : ∀ x ∈ xs.flatten, x.1.isFinite = true ∧ x.1.Ok f32 ∧ |x.1.val| ≤ 2 ^ 100) :
    ∃ outs ls rs, play P N env (.pan (.num p)) [.index k] (oneFrom k mono xs) = .ok outs ∧
      channel 0 outs = some ls ∧ channel 1 outs = some rs ∧ ls.length = xs.flatten.length ∧ rs.length = xs.flatten.length ∧
      ∀ (t : Nat) x, xs.flatten[t]? = some x → ∃ l r, ls[t]? = some l ∧ rs[t]? = some r ∧ Panned p.val x.1 l r := by
  obtain ⟨o, h1, h2, h3⟩ := blocks_stereo (procG P) (fun (_ : Unit) => .prim (.pan ⟨p, [k]⟩))
    (fun _ (x : Fl × Fl) => .ok ((), panSample P.libm p x.1))
    (fun x => [(k, bufsOf mono x)]) (fun o => o.length = 2) xs
    (fun s x out _ ho => by
      obtain ⟨a, b, rfl⟩ := List.length_eq_two.mp ho
      rw [run_triv' () (fun x : Fl × Fl => panSample P.libm p x.1)]
      simp [procG, procPrim, pan_one, sameNode, reState, blockOf, Function.comp_def])
    (fun _ _ _ _ _ => rfl) () _ (shaped_fresh N 2 (GNode.prim (P := P) (.pan (arith p)))).1 _
    (run_triv' () (fun x : Fl × Fl => panSample P.libm p x.1) _)
  refine ⟨o, _, _, play_ok (pan_make P N env (.num p)) rfl h1, h2, h3, by simp only [List.length_map], by simp only [List.length_map], fun t x hxt => ?_⟩
  obtain ⟨x1, x2, x3⟩ := hx x (List.mem_of_getElem? hxt)
  exact ⟨_, _, by simp only [List.getElem?_map, hxt, Option.map_some], by simp only [List.getElem?_map, hxt, Option.map_some], pan_sample hm hp x1 x2 x3⟩

/-- **C72 (part)**, a referenced position: every sample of the left neighbour (node `k`) is placed at the position that the reference (node `j`) has at that sample,
in whatever order the inputs are stored. -/
theorem c72_pan_reference_partial (P : Plat) (hm : SqrtClose P.libm) (N : Nat) (env : Env) (p : NumRef) (k j : Nat) (hkj : k ≠ j) (swap mk mj : Bool)
    (xs : List (List ((Fl × Fl) × (Fl × Fl)))) (hp : ∀ x ∈ xs.flatten, Within (-1) 1 x.2.1)
    (hx : ∀ x ∈ xs.flatten, x.1.1.isFinite = true ∧ x.1.1.Ok f32 ∧ |x.1.1.val| ≤ 2 ^ 100) :
    ∃ outs ls rs, play P N env (.pan p) [.index k, .index j] (twoFrom swap k j mk mj xs) = .ok outs ∧
      channel 0 outs = some ls ∧ channel 1 outs = some rs ∧ ls.length = xs.flatten.length ∧ rs.length = xs.flatten.length ∧
      ∀ (t : Nat) x, xs.flatten[t]? = some x → ∃ l r, ls[t]? = some l ∧ rs[t]? = some r ∧ Panned x.2.1.val x.1.1 l r := by
  obtain ⟨o, h1, h2, h3⟩ := blocks_stereo (procG P) (fun (_ : Unit) => .prim (.pan ⟨p.value (.fin 0), [k, j]⟩))
    (fun _ (x : (Fl × Fl) × (Fl × Fl)) => .ok ((), panSample P.libm x.2.1 x.1.1))
    (fun x => if swap then [(j, bufsOf mj (x.map Prod.snd)), (k, bufsOf mk (x.map Prod.fst))]
       else [(k, bufsOf mk (x.map Prod.fst)), (j, bufsOf mj (x.map Prod.snd))]) (fun o => o.length = 2) xs
    (fun s x out _ ho => by
      obtain ⟨a, b, rfl⟩ := List.length_eq_two.mp ho
      rw [run_triv' () (fun x : (Fl × Fl) × (Fl × Fl) => panSample P.libm x.2.1 x.1.1)]
      simp only [procG, procPrim, pan_two P.libm (p.value (.fin 0)) swap k j hkj mk mj x a b]
      simp [sameNode, reState, blockOf, Function.comp_def])
    (fun _ _ _ _ _ => rfl) () _ (shaped_fresh N 2 (GNode.prim (P := P) (.pan (arith (p.value (.fin 0)))))).1 _
    (run_triv' () (fun x : (Fl × Fl) × (Fl × Fl) => panSample P.libm x.2.1 x.1.1) _)
  refine ⟨o, _, _, play_ok (pan_make P N env p) rfl h1, h2, h3, by simp only [List.length_map], by simp only [List.length_map], fun t x hxt => ?_⟩
  obtain ⟨x1, x2, x3⟩ := hx x (List.mem_of_getElem? hxt)
  exact ⟨_, _, by simp only [List.getElem?_map, hxt, Option.map_some], by simp only [List.getElem?_map, hxt, Option.map_some], pan_sample hm (hp x (List.mem_of_getElem? hxt)) x1 x2 x3⟩

/-- C72 fails for the right channel of a stereo input: `pan` reads the left channel only, so that a signal that is on the right side only becomes silence, and a
change of the right channel is not heard. -/
theorem c72_right_counterexample (P : Plat) (env : Env) (hs : (P.libm.sqrt (.fin (1 / 2))).isFinite = true) (h0 : 0 ≤ (P.libm.sqrt (.fin (1 / 2))).val)
    (hz : P.libm.sqrt (.fin (1 / 2)) ≠ .nz) :
    play P 1 env (.pan (.num (.fin 0))) [.index 0] (oneFrom 0 false [[(.fin 0, .fin 1)]]) = .ok [[[.fin 0], [.fin 0]]] ∧
    play P 1 env (.pan (.num (.fin 0))) [.index 0] (oneFrom 0 false [[(.fin 0, .fin 0)]]) = .ok [[[.fin 0], [.fin 0]]] := by
  have e : P.libm.sqrt (.fin (1 / 2)) *. .fin 0 = .fin 0 := by
    cases hq : P.libm.sqrt (.fin (1 / 2)) with
    | nan => rw [hq] at hs; cases hs
    | inf n => rw [hq] at hs; cases hs
    | nz => exact absurd hq hz
    | fin q =>
      rw [hq] at h0
      have h0 : 0 ≤ q := h0
      have : Fl.round f32 ((Fl.fin q).sign ^^ (Fl.fin 0).sign) (q * 0) = .fin 0 := by
        simp [Fl.sign, Fl.round, not_lt.mpr h0, f32.rnd_zero]
      exact this
  have h1 : play P 1 env (.pan (.num (.fin 0))) [.index 0] (oneFrom 0 false [[(.fin 0, .fin 1)]]) =
    .ok [[[P.libm.sqrt (.fin (1 / 2)) *. .fin 0], [P.libm.sqrt (.fin (1 / 2)) *. .fin 0]]] := by kernel_rfl
  have h2 : play P 1 env (.pan (.num (.fin 0))) [.index 0] (oneFrom 0 false [[(.fin 0, .fin 0)]]) =
    .ok [[[P.libm.sqrt (.fin (1 / 2)) *. .fin 0], [P.libm.sqrt (.fin (1 / 2)) *. .fin 0]]] := by kernel_rfl
  rw [h1, h2, e]
  exact ⟨rfl, rfl⟩

/-- C72 fails for positions outside -1 to 1, written or referenced: they are not limited, and on one side the root of a negative number is taken, which is not a number. -/
theorem c72_outside_counterexample (P : Plat) (env : Env) (hs : P.libm.sqrt (.fin (-1 / 2)) = .nan) :
    (∃ r, play P 1 env (.pan (.num (.fin 2))) [.index 0] (oneFrom 0 true [[(.fin 1, .fin 0)]]) = .ok [[[.nan], [r]]]) ∧
    ∃ r, play P 1 env (.pan (.ref ['~', 'a'])) [.index 0, .index 1] (twoFrom false 0 1 true true [[((.fin 1, .fin 0), (.fin 2, .fin 0))]]) =
      .ok [[[.nan], [r]]] := by
  have h1 : play P 1 env (.pan (.num (.fin 2))) [.index 0] (oneFrom 0 true [[(.fin 1, .fin 0)]]) =
      .ok [[[P.libm.sqrt (.fin (-1 / 2)) *. .fin 1], [P.libm.sqrt (.fin (3 / 2)) *. .fin 1]]] := by kernel_rfl
  have h2 : play P 1 env (.pan (.ref ['~', 'a'])) [.index 0, .index 1] (twoFrom false 0 1 true true [[((.fin 1, .fin 0), (.fin 2, .fin 0))]]) =
      .ok [[[P.libm.sqrt (.fin (-1 / 2)) *. .fin 1], [P.libm.sqrt (.fin (3 / 2)) *. .fin 1]]] := by kernel_rfl
  rw [h1, h2, hs]
  exact ⟨⟨_, rfl⟩, ⟨_, rfl⟩⟩

/-! ### Examples -/

/-- A root of a number from 0 to 1, with an error of about 24 binary digits. -/
def demoRoot : Fl → Fl
  | .fin q => .fin ((Nat.sqrt (q.num.toNat * q.den * 4 ^ 24) : ℚ) / (q.den * 2 ^ 24))
  | v => v

/-- There are square roots as required. -/
theorem demoRoot_close : SqrtClose { Demo.libm with sqrt := demoRoot } := by
  intro x hx _
  obtain ⟨h1, h2, h3⟩ := hx
  cases x with
  | nan => cases h1
  | inf n => cases h1
  | nz => exact ⟨⟨rfl, by norm_num [demoRoot, Fl.val], by norm_num [demoRoot, Fl.val]⟩, by norm_num [demoRoot, Fl.val], by norm_num [Fl.val]⟩
  | fin q =>
    have h2 : 0 ≤ q := h2
    have h3 : q ≤ 1 := h3
    show Within 0 1 (demoRoot (.fin q)) ∧ |(demoRoot (.fin q)).val ^ 2 - q| ≤ q / 2 ^ 22 ∧ (q = 1 → (demoRoot (.fin q)).val = 1)
    obtain ⟨a, ha⟩ := Int.eq_ofNat_of_zero_le (Rat.num_nonneg.mpr h2)
    have hd : (0 : ℚ) < q.den := by exact_mod_cast q.den_pos
    have hqd : q * q.den = a := by
      rw [Rat.mul_den_eq_num, ha]
      simp
    have ht : q * (q.den ^ 2 * 4 ^ 24) = a * q.den * 4 ^ 24 := by
      rw [← hqd]
      ring
    obtain ⟨s, hs⟩ : ∃ s, s = Nat.sqrt (a * q.den * 4 ^ 24) := ⟨_, rfl⟩
    have hr : demoRoot (.fin q) = .fin ((s : ℚ) / (q.den * 2 ^ 24)) := by simp [demoRoot, ha, hs]
    have s1 : (s : ℚ) ^ 2 ≤ a * q.den * 4 ^ 24 := by
      have := Nat.sqrt_le (a * q.den * 4 ^ 24)
      rw [← hs] at this
      rw [sq]
      exact_mod_cast this
    have s2 : (a * q.den * 4 ^ 24 : ℚ) ≤ s ^ 2 + 2 * s := by
      have := Nat.sqrt_le_add (a * q.den * 4 ^ 24)
      rw [← hs] at this
      have h : ((a * q.den * 4 ^ 24 : ℕ) : ℚ) ≤ ((s * s + s + s : ℕ) : ℚ) := by exact_mod_cast this
      push_cast at h
      linarith
    have s3 : (2 * s : ℚ) * 2 ^ 22 ≤ a * q.den * 4 ^ 24 := by
      by_cases h0 : a = 0
      · subst h0
        have : s = 0 := by simp [hs]
        simp [this]
      · have hn : 4 ^ 24 ≤ a * q.den * 4 ^ 24 := Nat.le_mul_of_pos_left _ (Nat.mul_pos (by omega) q.den_pos)
        have : 2 ^ 24 ≤ s := by
          rw [hs, Nat.le_sqrt]
          exact le_trans (by norm_num) hn
        have : (2 ^ 24 : ℚ) ≤ s := by exact_mod_cast this
        nlinarith
    have hs0 : (0 : ℚ) ≤ s := by positivity
    have e : ((s : ℚ) / (q.den * 2 ^ 24)) ^ 2 = s ^ 2 / (q.den ^ 2 * 4 ^ 24) := by
      rw [div_pow, mul_pow]
      norm_num
    have hsq : ((s : ℚ) / (q.den * 2 ^ 24)) ^ 2 ≤ q := by
      rw [e, div_le_iff₀ (by positivity), ht]
      exact s1
    rw [hr]
    simp only [Fl.val]
    refine ⟨⟨rfl, by simp only [Fl.val]; positivity, ?_⟩, ?_, fun h => ?_⟩
    · simp only [Fl.val]
      nlinarith [hsq]
    · rw [abs_sub_comm, abs_of_nonneg (by linarith)]
      have : q - q / 2 ^ 22 ≤ s ^ 2 / (q.den ^ 2 * 4 ^ 24) := by
        rw [le_div_iff₀ (by positivity)]
        have hu : (q - q / 2 ^ 22) * (q.den ^ 2 * 4 ^ 24) = a * q.den * 4 ^ 24 - a * q.den * 4 ^ 24 / 2 ^ 22 := by
          rw [← ht]
          ring
        rw [hu]
        linarith
      rw [e]
      linarith
    · subst h
      have : a = 1 := by
        have := ha
        simp at this
        omega
      subst this
      have : s = 2 ^ 24 := by
        have : s = Nat.sqrt (2 ^ 24 * 2 ^ 24) := by rw [hs]; rfl
        rw [this, Nat.sqrt_eq]
      rw [this]
      norm_num

/-- The theorems speak about this player, for example. -/
example : ∃ P : Plat, SqrtClose P.libm := ⟨⟨{ Demo.libm with sqrt := demoRoot }, Demo.plat.ho, Demo.plat.ext⟩, demoRoot_close⟩

example : Within (-1) 1 (.fin (1 / 2)) ∧
    (∀ x ∈ [[(Fl.fin 1, Fl.fin 3)], [(.fin (-2), .fin 4)]].flatten, x.1.isFinite = true ∧ x.1.Ok f32 ∧ |x.1.val| ≤ 2 ^ 100) := by
  refine ⟨⟨rfl, by decide +kernel, by decide +kernel⟩, ?_⟩
  intro x hx
  simp only [List.flatten_cons, List.flatten_nil, List.append_nil, List.cons_append, List.nil_append, List.mem_cons, List.not_mem_nil, or_false] at hx
  rcases hx with rfl | rfl
  · exact ⟨rfl, ⟨by exact_mod_cast f32_rep_int (n := 1) (by norm_num), by decide +kernel⟩, by norm_num [Fl.val]⟩
  · exact ⟨rfl, ⟨by exact_mod_cast f32_rep_int (n := -2) (by norm_num), by decide +kernel⟩, by norm_num [Fl.val]⟩

end Verif.Props
