import Verif.Lemmas.Count
import Verif.Lemmas.KernelRfl
import Verif.Spec.Signal

/-! # Breakpoints (C26, C43) -/

namespace Verif.Props
open Spec

theorem points_make (P : Plat) (N : Nat) (env : Env) (ps : List (TimeList × Fl)) (span : Fl) (lp : Bool)
    {l : List (Nat × Fl)} (h : pointList env.bpm span env.sr ps = .ok l) :
    makeNode P N env.samples env.sr env.bpm env.seed (.points ps span lp) =
      .ok (fresh N 1 (.prim (.points ⟨l, span, env.bpm, env.sr, 0, lp, []⟩)), []) := by
  simp only [makeNode, makePrim, Points.new, h, liftP, bind, Except.bind]
  rfl

/-- The value of one sample. -/
def pointsValue (m : Libm) (p : Points) (k : Nat) : Except Panic Fl :=
  if p.looping then pointsLoop p.points ((pointsBar p.bpm p.span p.sr).toUsize) k
  else pointsOnce m.checked p.points k

theorem points_proc (P : Plat) (p : Points) (hp : p.points ≠ []) (i : Ins) (b : Buf) :
    procG P (.prim (.points p)) i [b] =
      blockOf (fun k => .prim (.points { p with step := k })) (fun y => [y])
        (runM (countStep (pointsValue P.libm p)) p.step (List.replicate b.length ())) := by
  have hf : runM (fun (k : Nat) (_ : Fl) => do
        let v ← if p.looping then pointsLoop p.points ((pointsBar p.bpm p.span p.sr).toUsize) k
          else pointsOnce P.libm.checked p.points k
        .ok (k + 1, v)) p.step b =
      runM (countStep (pointsValue P.libm p)) p.step (List.replicate b.length ()) := by
    apply runM_const _ _ _ _ _ _ (by simp)
    intro s x y
    unfold countStep pointsValue
    by_cases hlp : p.looping = true
    · simp only [if_pos hlp]
      cases pointsLoop p.points ((pointsBar p.bpm p.span p.sr).toUsize) s <;> rfl
    · simp only [if_neg hlp]
      cases pointsOnce P.libm.checked p.points s <;> rfl
  simp only [procG, procPrim, procPoints]
  cases hq : p.points with
  | nil => exact absurd hq hp
  | cons q qs =>
    rw [hq] at hf
    simp only [bind, Except.bind] at hf ⊢
    rw [hf]
    cases runM (countStep (pointsValue P.libm p)) p.step (List.replicate b.length ()) <;> rfl

/-- The output of a breakpoint node over any number of blocks. -/
theorem points_blocks (P : Plat) (N : Nat) (env : Env) (ps : List (TimeList × Fl)) (span : Fl) (lp : Bool)
    {l : List (Nat × Fl)} (h : pointList env.bpm span env.sr ps = .ok l) (hl : l ≠ []) (v : Nat → Fl)
    (ins : List Ins)
    (hv : ∀ j, j < ins.length * N →
      pointsValue P.libm ⟨l, span, env.bpm, env.sr, 0, lp, []⟩ j = .ok (v j)) :
    ∃ outs, play P N env (.points ps span lp) [] ins = .ok outs ∧
      channel 0 outs = some ((List.range (ins.length * N)).map v) := by
  have hr := runM_count (pointsValue P.libm ⟨l, span, env.bpm, env.sr, 0, lp, []⟩) v 0 (ins.length * N)
    (fun j _ hj => hv j (by omega))
  obtain ⟨o, g1, g2⟩ := blocks_source (procG P)
    (fun k => .prim (.points ⟨l, span, env.bpm, env.sr, k, lp, []⟩))
    (countStep (pointsValue P.libm ⟨l, span, env.bpm, env.sr, 0, lp, []⟩)) N (Shaped 1 N) ins
    (fun s i out _ ho => by
      obtain ⟨a, rfl, ha⟩ := ho.one
      rw [points_proc P ⟨l, span, env.bpm, env.sr, s, lp, []⟩ hl, ha]
      rfl)
    (fun y hy => ⟨rfl, by simp [hy]⟩) 0 _
    (shaped_fresh N 1 (GNode.prim (P := P) (.points ⟨l, span, env.bpm, env.sr, 0, lp, []⟩))) _ hr
  exact ⟨o, play_ok (points_make P N env ps span lp h) rfl g1, by simpa using g2⟩

/-- The place of a breakpoint is right up to one sample and rounding. -/
theorem pointsBar_rel {bpm span : Fl} {sr : Nat} (hb : Within 1 (2 ^ 10) bpm)
    (hs : Within (1 / 2 ^ 10) (2 ^ 10) span) (h1 : 1 ≤ sr) (h2 : sr ≤ 2 ^ 24) :
    Rel 4 (pointsBar bpm span sr) (240 / bpm.val * span.val * sr) ∧
      1 / 2 ^ 20 ≤ 240 / bpm.val * span.val * sr ∧ 240 / bpm.val * span.val * sr ≤ 2 ^ 42 := by
  obtain ⟨f1, f2⟩ := f32_ofNat h2
  have hsr1 : (1 : ℚ) ≤ sr := by exact_mod_cast h1
  have hsr2 : (sr : ℚ) ≤ 2 ^ 24 := by exact_mod_cast h2
  obtain ⟨b0, b1, b2⟩ := hb
  obtain ⟨s0, s1, s2⟩ := hs
  have hbp : 0 < bpm.val := by linarith
  have d1 : 60 / bpm.val ≤ 60 := by
    rw [div_le_iff₀ hbp]; linarith
  have d2 : 1 / 2 ^ 10 ≤ 60 / bpm.val := by
    rw [le_div_iff₀ hbp]
    have : (1 : ℚ) / 2 ^ 10 * 2 ^ 10 = 1 := by norm_num
    nlinarith
  have c1 := Rel.div (f := f32) (Rel.of_eq (x := .fin 60) (X := 60) rfl (by norm_num) rfl)
    (Rel.of_eq (x := bpm) b0 hbp.le rfl) (by norm_num) hbp
    (Or.inr (le_trans (by norm_num) d2)) (le_trans d1 (by norm_num))
  have c2 := c1.mul (f := f32) (Rel.of_eq (x := .fin 4) (X := 4) rfl (by norm_num) rfl) (by norm_num)
    (Or.inr (le_trans (by norm_num) (show (1 : ℚ) / 2 ^ 10 ≤ 60 / bpm.val * 4 by linarith)))
    (le_trans (show 60 / bpm.val * 4 ≤ 240 by linarith) (by norm_num))
  have hspos : 0 < span.val := lt_of_lt_of_le (by norm_num) s1
  have e1 : (1 : ℚ) / 2 ^ 20 ≤ 60 / bpm.val * 4 * span.val := by
    calc (1 : ℚ) / 2 ^ 20 = 1 / 2 ^ 10 * (1 / 2 ^ 10) := by norm_num
      _ ≤ 60 / bpm.val * 4 * span.val :=
        mul_le_mul (by linarith) s1 (by norm_num) (by linarith [div_pos (by norm_num : (0 : ℚ) < 60) hbp])
  have e2 : 60 / bpm.val * 4 * span.val ≤ 2 ^ 18 := by
    calc 60 / bpm.val * 4 * span.val ≤ 240 * 2 ^ 10 :=
          mul_le_mul (by linarith) s2 hspos.le (by norm_num)
      _ ≤ 2 ^ 18 := by norm_num
  have c3 := c2.mul (f := f32) (Rel.of_eq (x := span) s0 hspos.le rfl) (by norm_num)
    (Or.inr (le_trans (by norm_num) e1)) (le_trans e2 (by norm_num))
  have e3 : (1 : ℚ) / 2 ^ 20 ≤ 60 / bpm.val * 4 * span.val * sr := by
    have : 60 / bpm.val * 4 * span.val * 1 ≤ 60 / bpm.val * 4 * span.val * sr :=
      mul_le_mul_of_nonneg_left hsr1 (le_trans (by norm_num) e1)
    linarith
  have e4 : 60 / bpm.val * 4 * span.val * sr ≤ 2 ^ 42 := by
    calc 60 / bpm.val * 4 * span.val * sr ≤ 2 ^ 18 * 2 ^ 24 :=
          mul_le_mul e2 hsr2 (by positivity) (by norm_num)
      _ = 2 ^ 42 := by norm_num
  have c4 := c3.mul (f := f32) (Rel.of_eq (x := Fl.ofNat f32 sr) f1 (by positivity) f2) (by norm_num)
    (Or.inr (le_trans (by norm_num) e3)) (le_trans e4 (by norm_num))
  have heq : 60 / bpm.val * 4 * span.val * sr = 240 / bpm.val * span.val * sr := by ring
  rw [heq] at c4 e3 e4
  exact ⟨c4, e3, e4⟩

theorem Sane.rel {x : Fl} (h : Sane x) : Rel 0 x x.val :=
  Rel.of_eq h.1 (by rcases h.2.1 with h | h <;> [exact h.ge; exact le_trans (by norm_num) h]) rfl

theorem sane_mul {x : Fl} (h : Sane x) {c : ℚ} (hc : 1 / 2 ^ 20 ≤ c) (hc2 : c ≤ 2 ^ 42) :
    (x.val * c = 0 ∨ 1 / 2 ^ 100 ≤ x.val * c) ∧ 0 ≤ x.val * c ∧ x.val * c ≤ 2 ^ 62 := by
  obtain ⟨_, h2, h3⟩ := h
  rcases h2 with h2 | h2
  · rw [h2]; simp
  · refine ⟨Or.inr ?_, ?_, ?_⟩
    · calc (1 : ℚ) / 2 ^ 100 ≤ 1 / 2 ^ 20 * (1 / 2 ^ 20) := by norm_num
        _ ≤ x.val * c := mul_le_mul h2 hc (by norm_num) (le_trans (by norm_num) h2)
    · exact mul_nonneg (le_trans (by norm_num) h2) (le_trans (by norm_num) hc)
    · calc x.val * c ≤ 2 ^ 20 * 2 ^ 42 := mul_le_mul h3 hc2 (le_trans (by norm_num) hc) (by norm_num)
        _ = 2 ^ 62 := by norm_num

theorem add_zero_or {a b : ℚ} (ha : a = 0 ∨ 1 / 2 ^ 100 ≤ a) (hb : b = 0 ∨ 1 / 2 ^ 100 ≤ b) (h1 : 0 ≤ a)
    (h2 : 0 ≤ b) : a + b = 0 ∨ 1 / 2 ^ 100 ≤ a + b := by
  rcases ha with rfl | ha
  · rw [zero_add]; exact hb
  · right; linarith

theorem pointStep_close {bpm span : Fl} {sr : Nat} (hb : Within 1 (2 ^ 10) bpm)
    (hs : Within (1 / 2 ^ 10) (2 ^ 10) span) (h1 : 1 ≤ sr) (h2 : sr ≤ 2 ^ 24) {t : TimeList}
    (ht : TimeSane t) (hle : pointPos sr bpm.val span.val t ≤ 2 ^ 23) :
    0 ≤ pointPos sr bpm.val span.val t ∧
    |(pointStep bpm span sr t : ℚ) - pointPos sr bpm.val span.val t| ≤
      1 + pointPos sr bpm.val span.val t / 2 ^ 20 ∧
    (pointPos sr bpm.val span.val t = 0 → pointStep bpm span sr t = 0) := by
  obtain ⟨r4, m1, m2⟩ := pointsBar_rel hb hs h1 h2
  obtain ⟨f1, f2⟩ := f32_ofNat h2
  have hsr1 : (1 : ℚ) ≤ sr := by exact_mod_cast h1
  have hsr2 : (sr : ℚ) ≤ 2 ^ 24 := by exact_mod_cast h2
  obtain ⟨tb, tt⟩ := ht
  obtain ⟨a1, a2, a3⟩ := sane_mul tb m1 m2
  have c1 := (Sane.rel tb).mul (f := f32) r4 (by norm_num) a1 (le_trans a3 (by norm_num))
  have key : ∀ (off : Fl) (X : ℚ), Rel 5 off X → (X = 0 ∨ 1 / 2 ^ 100 ≤ X) → X ≤ 2 ^ 62 →
      t.bar.val * (240 / bpm.val * span.val * sr) + X ≤ 2 ^ 23 →
      0 ≤ t.bar.val * (240 / bpm.val * span.val * sr) + X ∧
      |((t.bar *. pointsBar bpm span sr +. off).toUsize : ℚ) -
        (t.bar.val * (240 / bpm.val * span.val * sr) + X)| ≤
        1 + (t.bar.val * (240 / bpm.val * span.val * sr) + X) / 2 ^ 20 ∧
      (t.bar.val * (240 / bpm.val * span.val * sr) + X = 0 →
        (t.bar *. pointsBar bpm span sr +. off).toUsize = 0) := by
    intro off X hX hz hle' hsum
    have hs := c1.add (f := f32) hX (by norm_num) (add_zero_or a1 hz a2 hX.nonneg) (le_trans hsum (by norm_num))
    refine ⟨hs.nonneg, hs.toUsize (by norm_num) (le_trans hsum (by norm_num)), fun h0 => ?_⟩
    have hv : (t.bar *. pointsBar bpm span sr +. off).val = 0 := by
      have a := hs.lo; have b := hs.hi
      rw [h0, zero_mul] at a b
      exact le_antisymm b a
    rw [Fl.toUsize_of hs.fin (by rw [hv]; norm_num), hv]; rfl
  have hsrange : ∀ x : Fl, Sane x → (x.val * sr = 0 ∨ 1 / 2 ^ 100 ≤ x.val * sr) ∧ 0 ≤ x.val * sr ∧
      x.val * sr ≤ 2 ^ 62 := fun x hx =>
    sane_mul hx (le_trans (by norm_num) hsr1) (le_trans hsr2 (by norm_num))
  unfold pointStep
  unfold pointPos at hle ⊢
  cases hd : t.time with
  | none =>
    rw [hd] at hle
    exact key (.fin 0) 0 ((Rel.of_eq rfl (le_refl _) rfl).weaken (by norm_num)) (Or.inl rfl) (by norm_num) hle
  | some d =>
    have hsane := tt d hd
    rw [hd] at hle
    cases d with
    | bar b =>
      obtain ⟨b1, b2, b3⟩ := sane_mul hsane m1 m2
      exact key _ _ ((Sane.rel hsane).mul (f := f32) r4 (by norm_num) b1 (le_trans b3 (by norm_num))) b1 b3 hle
    | sec s =>
      obtain ⟨b1, b2, b3⟩ := hsrange s hsane
      exact key _ _ (((Sane.rel hsane).mul (f := f32) (Rel.of_eq f1 (by positivity) f2) (by norm_num) b1
        (le_trans b3 (by norm_num))).weaken (by norm_num)) b1 b3 hle
    | ms x =>
      have hx0 : 0 ≤ x.val := (Sane.rel hsane).nonneg
      have g1 : x.val / 1000 = 0 ∨ 1 / 2 ^ 100 ≤ x.val / 1000 := by
        rcases hsane.2.1 with h | h
        · left; rw [h]; simp
        · right
          rw [le_div_iff₀ (by norm_num)]
          exact le_trans (by norm_num) h
      have g2 : x.val / 1000 ≤ 2 ^ 20 := by
        have := hsane.2.2
        rw [div_le_iff₀ (by norm_num)]; linarith
      have q1 := (Sane.rel hsane).div (f := f32) (Rel.of_eq (x := .fin 1000) (X := 1000) rfl (by norm_num) rfl)
        (by norm_num) (by norm_num) g1 (le_trans g2 (by norm_num))
      have g3 : x.val / 1000 * sr = 0 ∨ 1 / 2 ^ 100 ≤ x.val / 1000 * sr := by
        rcases g1 with h | h
        · left; rw [h, zero_mul]
        · right
          have : x.val / 1000 * 1 ≤ x.val / 1000 * sr := mul_le_mul_of_nonneg_left hsr1 (by positivity)
          linarith
      have g4 : x.val / 1000 * sr ≤ 2 ^ 62 := by
        calc x.val / 1000 * sr ≤ 2 ^ 20 * 2 ^ 24 := mul_le_mul g2 hsr2 (by positivity) (by norm_num)
          _ ≤ 2 ^ 62 := by norm_num
      exact key _ _ ((q1.mul (f := f32) (Rel.of_eq f1 (by positivity) f2) (by norm_num) g3
        (le_trans g4 (by norm_num))).weaken (by norm_num)) g3 g4 hle

theorem f32_sub_nat {p a : Nat} (h : a ≤ p) (hp : p ≤ 2 ^ 24) :
    (Fl.ofNat f32 p -. Fl.ofNat f32 a).isFinite = true ∧
      (Fl.ofNat f32 p -. Fl.ofNat f32 a).val = (p : ℚ) - a := by
  obtain ⟨p1, p2⟩ := f32_ofNat hp
  obtain ⟨a1, a2⟩ := f32_ofNat (le_trans h hp)
  have hr : f32.Rep (((p : Int) - a : Int) : ℚ) := f32_rep_int (by
    rw [abs_of_nonneg (by omega)]
    have : (p : Int) ≤ 2 ^ 24 := by exact_mod_cast hp
    omega)
  have hb : (0 : ℚ) ≤ (p : ℚ) - a := by
    have : (a : ℚ) ≤ p := by exact_mod_cast h
    linarith
  have hb2 : (p : ℚ) - a ≤ 2 ^ 24 := by
    have : (p : ℚ) ≤ 2 ^ 24 := by exact_mod_cast hp
    have : (0 : ℚ) ≤ a := by positivity
    linarith
  have hs := Fl.sub_fin (f := f32) p1 a1 (by
    rw [p2, a2]; exact inRange_of hb hb2 (by norm_num) (by norm_num))
  rw [p2, a2] at hs
  refine ⟨hs.1, ?_⟩
  rw [hs.2]
  have := Fmt.rnd_rep f32_p hr
  push_cast at this
  exact this

/-- Rounding of a number of at most the given size. -/
theorem rnd_abs {x M : ℚ} (h : |x| ≤ M) : |f32.rnd x - x| ≤ M / 2 ^ 24 + 1 / 2 ^ 150 :=
  le_trans (f32_err x) (by
    have : |x| / 2 ^ 24 ≤ M / 2 ^ 24 := div_le_div_of_nonneg_right h (by positivity)
    linarith)

/-- Linear interpolation in f32. -/
theorem lerp_close {a b p : Nat} {v w : Fl} {B : ℚ} (h1 : a ≤ p) (h2 : p ≤ b) (h3 : a < b)
    (h4 : b ≤ 2 ^ 24) (hB : 1 ≤ B) (hB2 : B ≤ 2 ^ 60) (hv : Within (-B) B v) (hw : Within (-B) B w) :
    (lerpPoint (Fl.ofNat f32 p) (Fl.ofNat f32 a) (Fl.ofNat f32 b -. Fl.ofNat f32 a) v w).isFinite = true ∧
    |(lerpPoint (Fl.ofNat f32 p) (Fl.ofNat f32 a) (Fl.ofNat f32 b -. Fl.ofNat f32 a) v w).val -
      lineAt a b v.val w.val p| ≤ B / 2 ^ 20 := by
  obtain ⟨n1, n2⟩ := f32_sub_nat h1 (le_trans h2 h4)
  obtain ⟨d1, d2⟩ := f32_sub_nat h3.le h4
  have qa : (a : ℚ) ≤ p := by exact_mod_cast h1
  have qb : (p : ℚ) ≤ b := by exact_mod_cast h2
  have qc : (a : ℚ) < b := by exact_mod_cast h3
  obtain ⟨v0, v1, v2⟩ := hv
  obtain ⟨w0, w1, w2⟩ := hw
  unfold lerpPoint lineAt
  have r0 : 0 ≤ ((p : ℚ) - a) / (b - a) := div_nonneg (by linarith) (by linarith)
  have r1 : ((p : ℚ) - a) / (b - a) ≤ 1 := by
    rw [div_le_one (by linarith)]; linarith
  have c1 := Fl.div_fin (f := f32) n1 d1 (by rw [d2]; linarith) (by
    rw [n2, d2]; exact inRange_of r0 r1 (by norm_num) (by norm_num))
  rw [n2, d2] at c1
  have k1 : 0 ≤ f32.rnd (((p : ℚ) - a) / (b - a)) := Fmt.rnd_nonneg r0
  have k2 : f32.rnd (((p : ℚ) - a) / (b - a)) ≤ 1 := Fmt.rnd_le f32_p rep1 r1
  have e1 := rnd_abs (x := ((p : ℚ) - a) / (b - a)) (M := 1) (by rw [abs_of_nonneg r0]; exact r1)
  have c2 := Fl.sub_fin (f := f32) w0 v0 (inRange_of (lo := -2 * B) (hi := 2 * B) (by linarith) (by linarith)
    (by linarith) (by linarith))
  have m2 : |w.val - v.val| ≤ 2 * B := by rw [abs_le]; constructor <;> linarith
  have e2 := rnd_abs m2
  set r := ((p : ℚ) - a) / (b - a) with hr
  set x := (Fl.ofNat f32 p -. Fl.ofNat f32 a) /. (Fl.ofNat f32 b -. Fl.ofNat f32 a) with hx
  set z := w -. v with hz
  rw [← c1.2] at e1 k1 k2
  rw [← c2.2] at e2
  have hzB : |z.val| ≤ 3 * B := by
    have := abs_sub_abs_le_abs_sub z.val (w.val - v.val)
    have : 2 * B / 2 ^ 24 + 1 / 2 ^ 150 ≤ B := by
      have : (1 : ℚ) / 2 ^ 150 ≤ 1 / 2 := by norm_num
      linarith
    linarith
  have hxz : |x.val * z.val| ≤ 3 * B := by
    rw [abs_mul, abs_of_nonneg k1]
    calc x.val * |z.val| ≤ 1 * (3 * B) := mul_le_mul k2 hzB (abs_nonneg _) (by norm_num)
      _ = 3 * B := by ring
  have c3 := Fl.mul_fin (f := f32) c1.1 c2.1 (f32_inRange (le_trans hxz (by linarith)))
  have e3 := rnd_abs hxz
  rw [← c3.2] at e3
  have hyB : |v.val + (x *. z).val| ≤ 5 * B := by
    have q1 := abs_le.mp hxz
    have q2 := abs_le.mp e3
    have : 3 * B / 2 ^ 24 + 1 / 2 ^ 150 ≤ B := by
      have : (1 : ℚ) / 2 ^ 150 ≤ 1 / 2 := by norm_num
      linarith
    rw [abs_le]; constructor <;> linarith [q1.1, q1.2, q2.1, q2.2]
  have c4 := Fl.add_fin (f := f32) v0 c3.1 (f32_inRange (le_trans hyB (by linarith)))
  have e4 := rnd_abs hyB
  rw [← c4.2] at e4
  refine ⟨c4.1, ?_⟩
  have e5 : |x.val * z.val - r * (w.val - v.val)| ≤ 2 * B / 2 ^ 24 + 1 / 2 ^ 150 + (1 / 2 ^ 24 + 1 / 2 ^ 150) * (2 * B) := by
    have : x.val * z.val - r * (w.val - v.val) =
      x.val * (z.val - (w.val - v.val)) + (x.val - r) * (w.val - v.val) := by ring
    rw [this]
    refine le_trans (abs_add_le _ _) (add_le_add ?_ ?_)
    · rw [abs_mul, abs_of_nonneg k1]
      calc x.val * |z.val - (w.val - v.val)| ≤ 1 * (2 * B / 2 ^ 24 + 1 / 2 ^ 150) :=
            mul_le_mul k2 e2 (abs_nonneg _) (by norm_num)
        _ = _ := one_mul _
    · rw [abs_mul]
      exact mul_le_mul e1 m2 (abs_nonneg _) (by positivity)
  have q3 := abs_le.mp e3
  have q4 := abs_le.mp e4
  have q5 := abs_le.mp e5
  have tiny : (1 : ℚ) / 2 ^ 150 ≤ B / 2 ^ 40 := by
    have : (1 : ℚ) / 2 ^ 150 ≤ 1 / 2 ^ 40 := by norm_num
    have : (1 : ℚ) / 2 ^ 40 ≤ B / 2 ^ 40 := div_le_div_of_nonneg_right hB (by positivity)
    linarith
  have tiny2 : (1 : ℚ) / 2 ^ 150 * (2 * B) ≤ B / 2 ^ 40 := by
    have : (1 : ℚ) / 2 ^ 150 ≤ 1 / 2 ^ 41 := by norm_num
    calc (1 : ℚ) / 2 ^ 150 * (2 * B) ≤ 1 / 2 ^ 41 * (2 * B) := mul_le_mul_of_nonneg_right this (by linarith)
      _ = B / 2 ^ 40 := by ring
  rw [abs_le]
  constructor <;> linarith [q3.1, q3.2, q4.1, q4.2, q5.1, q5.2]

theorem pointsOnce_mid (ck : Bool) {l : List (Nat × Fl)} (hs : l.Pairwise (fun a b => a.1 < b.1)) {i t : Nat}
    {a b : Nat × Fl} (ha : l[i]? = some a) (hb : l[i + 1]? = some b) (h1 : a.1 < t) (h2 : t ≤ b.1) :
    pointsOnce ck l t = .ok (lerpPoint (Fl.ofNat f32 t) (Fl.ofNat f32 a.1)
      (Fl.ofNat f32 b.1 -. Fl.ofNat f32 a.1) a.2 b.2) := by
  have hf : l.findIdx? (fun s => decide (t ≤ s.1)) = some (i + 1) := by
    obtain ⟨hi, hbe⟩ := List.getElem?_eq_some_iff.mp hb
    obtain ⟨hi0, hae⟩ := List.getElem?_eq_some_iff.mp ha
    rw [List.findIdx?_eq_some_iff_getElem]
    refine ⟨hi, by rw [hbe]; simpa using h2, fun j hj => ?_⟩
    have : l[j].1 ≤ a.1 := by
      rcases Nat.lt_or_ge j i with h | h
      · have := (List.pairwise_iff_getElem.mp hs) j i (by omega) hi0 h
        rw [hae] at this; omega
      · have : j = i := by omega
        subst this; rw [hae]
    simp only [decide_eq_true_eq]; omega
  simp only [pointsOnce, hf, bind, Except.bind, ha, hb]

theorem pointsOnce_ok {l : List (Nat × Fl)} (hl : l ≠ []) (t : Nat) : ∃ v, pointsOnce false l t = .ok v := by
  obtain ⟨z, hz⟩ : ∃ z, l.getLast? = some z := ⟨l.getLast hl, List.getLast?_eq_some_getLast hl⟩
  unfold pointsOnce
  have key : ∀ index, ∃ v, (match l[index]?, l[index + 1]? with
      | some a, some b => .ok (lerpPoint (Fl.ofNat f32 t) (Fl.ofNat f32 a.1)
          (Fl.ofNat f32 b.1 -. Fl.ofNat f32 a.1) a.2 b.2)
      | _, _ => match l.getLast? with
        | none => .error .missing
        | some a => .ok a.2 : Except Panic Fl) = .ok v := by
    intro index
    cases l[index]? <;> cases l[index + 1]? <;> simp [hz]
  cases l.findIdx? (fun s => decide (t ≤ s.1)) with
  | none => exact key 0
  | some k =>
    cases k with
    | zero => exact key (2 ^ 64 - 1)
    | succ k => exact key k

theorem pointsOnce_single (n : Nat) (w : Fl) (t : Nat) : pointsOnce false [(n, w)] t = .ok w := by
  by_cases h : t ≤ n
  · simp [pointsOnce, h, bind, Except.bind]
  · simp [pointsOnce, h, bind, Except.bind]

/-- The breakpoints of the node beside the exact ones. -/
theorem pointList_close {bpm span : Fl} {sr : Nat} (hb : Within 1 (2 ^ 10) bpm)
    (hs : Within (1 / 2 ^ 10) (2 ^ 10) span) (h1 : 1 ≤ sr) (h2 : sr ≤ 2 ^ 24) {ps : List (TimeList × Fl)}
    (hne : ps ≠ []) (hsane : ∀ p ∈ ps, TimeSane p.1)
    (hmax : ∀ b ∈ breakpoints sr bpm.val span.val ps, b.1 ≤ 2 ^ 23)
    (hsp : (breakpoints sr bpm.val span.val ps).Pairwise (fun a b => a.1 + 20 ≤ b.1)) :
    ∃ L : List (Nat × ℚ × Fl), L.map (fun x => x.2) = breakpoints sr bpm.val span.val ps ∧
      pointList bpm span sr ps = .ok (L.map (fun x => (x.1, x.2.2))) ∧
      (∀ x ∈ L, 0 ≤ x.2.1 ∧ |(x.1 : ℚ) - x.2.1| ≤ 1 + x.2.1 / 2 ^ 20) ∧
      (∀ x ∈ L, x.2.2 = .fin 0 ∨ ∃ p ∈ ps, x.2.2 = p.2) := by
  obtain ⟨p, rest, rfl⟩ : ∃ p rest, ps = p :: rest := by
    cases ps with
    | nil => exact absurd rfl hne
    | cons p rest => exact ⟨p, rest, rfl⟩
  let f : TimeList × Fl → Nat × ℚ × Fl :=
    fun q => (pointStep bpm span sr q.1, pointPos sr bpm.val span.val q.1, q.2)
  have hle : ∀ q ∈ p :: rest, pointPos sr bpm.val span.val q.1 ≤ 2 ^ 23 := by
    intro q hq
    apply hmax (pointPos sr bpm.val span.val q.1, q.2)
    have : (pointPos sr bpm.val span.val q.1, q.2) ∈
        (p :: rest).map (fun p => (pointPos sr bpm.val span.val p.1, p.2)) :=
      List.mem_map.mpr ⟨q, hq, rfl⟩
    rw [List.map_cons] at this
    unfold breakpoints
    rw [List.map_cons]
    simp only
    split
    · exact this
    · exact List.mem_cons_of_mem _ this
  have hcl : ∀ q ∈ p :: rest, _ := fun q hq => pointStep_close hb hs h1 h2 (hsane q hq) (hle q hq)
  have hF : ∀ x ∈ (p :: rest).map f, (0 ≤ x.2.1 ∧ |(x.1 : ℚ) - x.2.1| ≤ 1 + x.2.1 / 2 ^ 20) ∧
      (x.2.2 = .fin 0 ∨ ∃ q ∈ p :: rest, x.2.2 = q.2) := by
    intro x hx
    obtain ⟨q, hq, rfl⟩ := List.mem_map.mp hx
    exact ⟨⟨(hcl q hq).1, (hcl q hq).2.1⟩, Or.inr ⟨q, hq, rfl⟩⟩
  have hp := hcl p List.mem_cons_self
  by_cases h0 : pointPos sr bpm.val span.val p.1 = 0
  · refine ⟨(p :: rest).map f, ?_, ?_, fun x hx => (hF x hx).1, fun x hx => (hF x hx).2⟩
    · simp [breakpoints, h0, f, List.map_map, Function.comp_def]
    · simp [pointList, hp.2.2 h0, f, List.map_map, Function.comp_def]
  · have hpos : pointStep bpm span sr p.1 ≠ 0 := by
      have h20 : 20 ≤ pointPos sr bpm.val span.val p.1 := by
        unfold breakpoints at hsp
        rw [List.map_cons] at hsp
        simp only [if_neg h0] at hsp
        have := (List.pairwise_cons.mp hsp).1 _ List.mem_cons_self
        linarith
      intro hz
      have := hp.2.1
      rw [hz] at this
      have := (abs_le.mp this).1
      push_cast at this
      linarith
    refine ⟨(0, 0, .fin 0) :: (p :: rest).map f, ?_, ?_, ?_, ?_⟩
    · simp [breakpoints, h0, f, List.map_map, Function.comp_def]
    · simp [pointList, hpos, f, List.map_map, Function.comp_def]
    · intro x hx
      rcases List.mem_cons.mp hx with rfl | hx
      · norm_num
      · exact (hF x hx).1
    · intro x hx
      rcases List.mem_cons.mp hx with rfl | hx
      · exact Or.inl rfl
      · exact (hF x hx).2

/-- A breakpoint node that does not loop, compiled without overflow checks: from the second sample to the last
breakpoint the output is the straight line between the neighbouring breakpoints, whose places are right up
to one sample and rounding; a node with one breakpoint holds its value for ever. Breakpoints have to be in
order and at least 20 samples apart. Missing: the first sample, the time after the last breakpoint (both
wrong, see below), and builds with overflow checks (which panic, see below). -/
theorem c26_points_partial (P : Plat) (hP : P.libm.checked = false) (N : Nat) (env : Env)
    (hbpm : Within 1 (2 ^ 10) env.bpm) {span : Fl} (hspan : Within (1 / 2 ^ 10) (2 ^ 10) span)
    (h1 : 1 ≤ env.sr) (h2 : env.sr ≤ 2 ^ 24) {ps : List (TimeList × Fl)} (hne : ps ≠ [])
    (hsane : ∀ p ∈ ps, TimeSane p.1) {B : ℚ} (hB : 1 ≤ B) (hB2 : B ≤ 2 ^ 60)
    (hval : ∀ p ∈ ps, Within (-B) B p.2)
    (hmax : ∀ b ∈ breakpoints env.sr env.bpm.val span.val ps, b.1 ≤ 2 ^ 23)
    (hsp : (breakpoints env.sr env.bpm.val span.val ps).Pairwise (fun a b => a.1 + 20 ≤ b.1)) :
    ∃ ns : List Nat, List.Forall₂ (fun (n : Nat) b => |(n : ℚ) - b.1| ≤ 1 + b.1 / 2 ^ 20) ns
        (breakpoints env.sr env.bpm.val span.val ps) ∧
      ∀ ins : List Ins, ∃ outs ys, play P N env (.points ps span false) [] ins = .ok outs ∧
        channel 0 outs = some ys ∧ ys.length = ins.length * N ∧
        (∀ (i m n : Nat) (a b : ℚ × Fl) (t : Nat) (y : Fl), ns[i]? = some m → ns[i + 1]? = some n →
          (breakpoints env.sr env.bpm.val span.val ps)[i]? = some a →
          (breakpoints env.sr env.bpm.val span.val ps)[i + 1]? = some b →
          m < t → t ≤ n → ys[t]? = some y →
          y.isFinite = true ∧ |y.val - lineAt m n a.2.val b.2.val t| ≤ B / 2 ^ 20) ∧
        (∀ b, breakpoints env.sr env.bpm.val span.val ps = [b] → ys = List.replicate (ins.length * N) b.2) := by
  obtain ⟨L, l1, l2, l3, l4⟩ := pointList_close hbpm hspan h1 h2 hne hsane hmax hsp
  have hbound : ∀ x ∈ L, |(x.1 : ℚ) - x.2.1| ≤ 9 ∧ x.1 ≤ 2 ^ 24 := by
    intro x hx
    have hm : x.2.1 ≤ 2 ^ 23 := hmax x.2 (l1 ▸ List.mem_map.mpr ⟨x, hx, rfl⟩)
    have h9 : |(x.1 : ℚ) - x.2.1| ≤ 9 := le_trans (l3 x hx).2 (by linarith)
    refine ⟨h9, ?_⟩
    have := (abs_le.mp h9).2
    have : (x.1 : ℚ) ≤ 2 ^ 24 := by linarith
    exact_mod_cast this
  have hsort : (L.map (fun x => (x.1, x.2.2))).Pairwise (fun a b => a.1 < b.1) := by
    rw [← l1, List.pairwise_map] at hsp
    rw [List.pairwise_map]
    refine hsp.imp_of_mem ?_
    intro a b ha hb hab
    have q1 := (abs_le.mp (hbound a ha).1).2
    have q2 := (abs_le.mp (hbound b hb).1).1
    have : (a.1 : ℚ) < b.1 := by linarith
    exact_mod_cast this
  have hLne : L.map (fun x => (x.1, x.2.2)) ≠ [] := by
    intro h
    have h0 : L = [] := List.map_eq_nil_iff.mp h
    rw [h0] at l1
    cases ps with
    | nil => exact hne rfl
    | cons p rest =>
      simp only [breakpoints, List.map_cons, List.map_nil] at l1
      split at l1 <;> cases l1
  have hvalL : ∀ x ∈ L, Within (-B) B x.2.2 := by
    intro x hx
    rcases l4 x hx with h | ⟨p, hp, h⟩
    · rw [h]; exact ⟨rfl, by simp only [Fl.val_fin]; linarith, by simp only [Fl.val_fin]; linarith⟩
    · rw [h]; exact hval p hp
  refine ⟨L.map (fun x => x.1), ?_, fun ins => ?_⟩
  · rw [← l1, List.forall₂_map_left_iff, List.forall₂_map_right_iff, List.forall₂_same]
    exact fun x hx => (l3 x hx).2
  · obtain ⟨v, hv⟩ : ∃ v : Nat → Fl, ∀ t, pointsOnce false (L.map (fun x => (x.1, x.2.2))) t = .ok (v t) :=
      ⟨fun t => (pointsOnce_ok hLne t).choose, fun t => (pointsOnce_ok hLne t).choose_spec⟩
    obtain ⟨outs, o1, o2⟩ := points_blocks P N env ps span false l2 hLne v ins (fun j _ => by
      simp only [pointsValue, hP, Bool.false_eq_true, if_false]
      exact hv j)
    refine ⟨outs, _, o1, o2, by simp, ?_, ?_⟩
    · intro i m n a b t y hm hn ha hb hmt htn hy
      rw [← l1, List.getElem?_map] at ha hb
      rw [List.getElem?_map] at hm hn
      obtain ⟨xa, hxa, rfl⟩ := Option.map_eq_some_iff.mp ha
      obtain ⟨xb, hxb, rfl⟩ := Option.map_eq_some_iff.mp hb
      rw [hxa] at hm
      rw [hxb] at hn
      cases hm; cases hn
      have hmid := pointsOnce_mid false hsort (i := i) (t := t) (a := (xa.1, xa.2.2)) (b := (xb.1, xb.2.2))
        (by rw [List.getElem?_map, hxa]; rfl) (by rw [List.getElem?_map, hxb]; rfl) hmt htn
      rw [hv t] at hmid
      have hvt : v t = _ := Except.ok.inj hmid
      rw [List.getElem?_map] at hy
      obtain ⟨t', ht', hyt⟩ := Option.map_eq_some_iff.mp hy
      have : t' = t := by
        have := List.getElem?_eq_some_iff.mp ht'
        obtain ⟨_, h⟩ := this
        rw [List.getElem_range] at h
        exact h.symm
      subst this
      rw [← hyt, hvt]
      exact lerp_close hmt.le htn (lt_of_lt_of_le hmt htn) (hbound xb (List.mem_of_getElem? hxb)).2 hB hB2
        (hvalL xa (List.mem_of_getElem? hxa)) (hvalL xb (List.mem_of_getElem? hxb))
    · intro b hb
      rw [← l1] at hb
      obtain ⟨x, rfl, rfl⟩ : ∃ x, L = [x] ∧ x.2 = b := by
        cases L with
        | nil => cases hb
        | cons x L =>
          cases L with
          | nil => exact ⟨x, rfl, by simpa using hb⟩
          | cons => simp at hb
      have hconst : v = fun _ => x.2.2 := by
        funext t
        have := hv t
        rw [List.map_cons, List.map_nil, pointsOnce_single] at this
        exact (Except.ok.inj this).symm
      subst hconst
      exact List.ext_getElem (by simp) (by simp)

/-- At 120 bpm and 100 samples a second: up to 1 in half a bar and back to 0 at 2 s. -/
example : ∃ (env : Env) (ps : List (TimeList × Fl)), Within 1 (2 ^ 10) env.bpm ∧ env.sr = 100 ∧
    (∀ p ∈ ps, TimeSane p.1) ∧ (∀ p ∈ ps, Within (-1) 1 p.2) ∧
    breakpoints env.sr env.bpm.val 1 ps = [(0, .fin 0), (100, .fin 1), (200, .fin 0)] := by
  refine ⟨⟨[], 100, .fin 120, 0⟩, [(⟨.fin (1 / 2), none⟩, .fin 1), (⟨.fin 0, some (.sec (.fin 2))⟩, .fin 0)],
    ⟨rfl, by norm_num [Fl.val], by norm_num [Fl.val]⟩, rfl, ?_, ?_, ?_⟩
  · intro p hp
    simp only [List.mem_cons, List.not_mem_nil, or_false] at hp
    rcases hp with rfl | rfl
    · exact ⟨⟨rfl, by norm_num [Fl.val], by norm_num [Fl.val]⟩, by simp⟩
    · refine ⟨⟨rfl, by norm_num [Fl.val], by norm_num [Fl.val]⟩, ?_⟩
      intro d hd
      cases hd
      exact ⟨rfl, by norm_num [Fl.val], by norm_num [Fl.val]⟩
  · intro p hp
    simp only [List.mem_cons, List.not_mem_nil, or_false] at hp
    rcases hp with rfl | rfl <;> exact ⟨rfl, by norm_num [Fl.val], by norm_num [Fl.val]⟩
  · norm_num [breakpoints, pointPos, Fl.val]

/-- In builds with overflow checks every breakpoint node that does not loop panics at its first sample. -/
theorem c26_start_panics (P : Plat) (hP : P.libm.checked = true) {N : Nat} (hN : 1 ≤ N) (env : Env)
    (ps : List (TimeList × Fl)) (span : Fl) (i : Ins) (ins : List Ins) :
    ∃ e, play P N env (.points ps span false) [] (i :: ins) = .error e := by
  cases hl : pointList env.bpm span env.sr ps with
  | error e =>
    refine ⟨.panic e, ?_⟩
    simp only [play, makeNode, makePrim, Points.new, hl, liftP, bind, Except.bind]
  | ok l =>
    obtain ⟨w, rest, rfl⟩ : ∃ w rest, l = (0, w) :: rest := by
      cases ps with
      | nil => simp [pointList] at hl
      | cons p rest =>
        simp only [pointList, List.map_cons, Except.ok.injEq] at hl
        split at hl
        · exact ⟨_, _, hl.symm⟩
        · rename_i h
          exact ⟨p.2, _, by rw [← hl, not_not.mp h]⟩
    have hp0 : pointsValue P.libm ⟨(0, w) :: rest, span, env.bpm, env.sr, 0, false, []⟩ 0 =
        .error .underflow := by
      simp [pointsValue, hP, pointsOnce, bind, Except.bind, List.findIdx?_cons]
    obtain ⟨k, rfl⟩ : ∃ k, N = k + 1 := ⟨N - 1, by omega⟩
    have hpr : procG P (.prim (.points ⟨(0, w) :: rest, span, env.bpm, env.sr, 0, false, []⟩)) i
        [List.replicate (k + 1) (.fin 0)] = .error .underflow := by
      rw [points_proc P _ (by simp), List.length_replicate]
      simp only [List.replicate_succ, runM, countStep, hp0, Except.map, blockOf]
    refine ⟨.panic .underflow, ?_⟩
    simp only [play, points_make P (k + 1) env ps span false hl, sendMsgs, runBlocks, fresh, bind, Except.bind,
      liftP, List.replicate_one, hpr]

/-- Without overflow checks the first sample is the value of the last breakpoint, and after the last
breakpoint the first line is extended for ever: from 0 to 1 in half a bar, the output starts with 1 and
is 2 at the end of the bar. -/
theorem c26_ends_counterexample (P : Plat) (hP : P.libm.checked = false) :
    ∃ (env : Env) (ps : List (TimeList × Fl)) (outs : List (List Buf)) (ys : List Fl),
      breakpoints env.sr env.bpm.val 1 ps = [(0, .fin 0), (8, .fin 1)] ∧
      play P 32 env (.points ps (.fin 1) false) [] [[]] = .ok outs ∧ channel 0 outs = some ys ∧
      ys[0]? = some (.fin 1) ∧ ys[8]? = some (.fin 1) ∧ ys[16]? = some (.fin 2) := by
  let env : Env := ⟨[], 8, .fin 120, 0⟩
  let ps : List (TimeList × Fl) := [(⟨.fin 0, none⟩, .fin 0), (⟨.fin (1 / 2), none⟩, .fin 1)]
  have hl : pointList env.bpm (.fin 1) env.sr ps = .ok [(0, .fin 0), (8, .fin 1)] := by decide +kernel
  obtain ⟨v, hv⟩ : ∃ v : Nat → Fl, ∀ t, pointsOnce false [(0, .fin 0), (8, .fin 1)] t = .ok (v t) :=
    ⟨fun t => (pointsOnce_ok (by simp) t).choose, fun t => (pointsOnce_ok (by simp) t).choose_spec⟩
  obtain ⟨outs, o1, o2⟩ := points_blocks P 32 env ps (.fin 1) false hl (by simp) v [[]] (fun j _ => by
    simp only [pointsValue, hP, Bool.false_eq_true, if_false]
    exact hv j)
  have hat : ∀ t w, pointsOnce false [(0, .fin 0), (8, .fin 1)] t = .ok w → v t = w := fun t w h =>
    Except.ok.inj ((hv t).symm.trans h)
  refine ⟨env, ps, outs, _, by norm_num [breakpoints, pointPos, Fl.val, env, ps], o1, o2, ?_, ?_, ?_⟩
  · simp [hat 0 (.fin 1) (by decide +kernel)]
  · simp [hat 8 (.fin 1) (by decide +kernel)]
  · simp [hat 16 (.fin 2) (by decide +kernel)]

theorem pointsLoop_ok {l : List (Nat × Fl)} (hl : l ≠ []) {bar : Nat} (hb : bar ≠ 0) (t : Nat) :
    ∃ v, pointsLoop l bar t = .ok v := by
  have hlen : 0 < l.length := List.length_pos_iff.mpr hl
  unfold pointsLoop
  rw [if_neg hb]
  simp only
  have hi : (l.findIdx? (fun s => decide (t % bar ≤ s.1))).getD (l.length - 1) < l.length := by
    cases h : l.findIdx? (fun s => decide (t % bar ≤ s.1)) with
    | none => simp only [Option.getD_none]; omega
    | some k => exact (List.findIdx?_eq_some_iff_getElem.mp h).1
  rw [List.getElem?_eq_getElem hi, List.getElem?_eq_getElem (Nat.mod_lt _ hlen)]
  exact ⟨_, rfl⟩

/-- A looping breakpoint node repeats its output every bar, the length of the bar being right up to one
sample and rounding. Missing: that the output is the line through the breakpoints (wrong, see below). -/
theorem c43_periodic_partial (P : Plat) (N : Nat) (env : Env)
    (hbpm : Within 1 (2 ^ 10) env.bpm) {span : Fl} (hspan : Within (1 / 2 ^ 10) (2 ^ 10) span)
    (h1 : 1 ≤ env.sr) (h2 : env.sr ≤ 2 ^ 24) {ps : List (TimeList × Fl)} (hne : ps ≠ [])
    (hbar : 3 ≤ 240 / env.bpm.val * span.val * env.sr) :
    ∃ b : Nat, 1 ≤ b ∧ |(b : ℚ) - 240 / env.bpm.val * span.val * env.sr| ≤
        1 + 240 / env.bpm.val * span.val * env.sr / 2 ^ 20 ∧
      ∀ ins : List Ins, ∃ outs ys, play P N env (.points ps span true) [] ins = .ok outs ∧
        channel 0 outs = some ys ∧ ys.length = ins.length * N ∧
        ∀ t, t + b < ys.length → ys[t + b]? = ys[t]? := by
  obtain ⟨r, m1, m2⟩ := pointsBar_rel hbpm hspan h1 h2
  have hcl := r.toUsize (by norm_num) (le_trans m2 (by norm_num))
  have hb0 : (pointsBar env.bpm span env.sr).toUsize ≠ 0 := by
    intro h
    rw [h] at hcl
    have := (abs_le.mp hcl).1
    push_cast at this
    linarith
  obtain ⟨l, hl, hlne⟩ : ∃ l, pointList env.bpm span env.sr ps = .ok l ∧ l ≠ [] := by
    cases ps with
    | nil => exact absurd rfl hne
    | cons p rest =>
      simp only [pointList, List.map_cons]
      refine ⟨_, rfl, ?_⟩
      split <;> simp
  refine ⟨(pointsBar env.bpm span env.sr).toUsize, by omega, hcl, fun ins => ?_⟩
  obtain ⟨v, hv⟩ : ∃ v : Nat → Fl, ∀ t,
      pointsLoop l ((pointsBar env.bpm span env.sr).toUsize) t = .ok (v t) :=
    ⟨fun t => (pointsLoop_ok hlne hb0 t).choose, fun t => (pointsLoop_ok hlne hb0 t).choose_spec⟩
  obtain ⟨outs, o1, o2⟩ := points_blocks P N env ps span true hl hlne v ins (fun j _ => by
    simp only [pointsValue, if_true]
    exact hv j)
  refine ⟨outs, _, o1, o2, by simp, fun t ht => ?_⟩
  simp only [List.length_map, List.length_range] at ht
  have hp : v (t + (pointsBar env.bpm span env.sr).toUsize) = v t := by
    have e1 := hv (t + (pointsBar env.bpm span env.sr).toUsize)
    have e2 := hv t
    unfold pointsLoop at e1 e2
    rw [Nat.add_mod_right] at e1
    rw [e1] at e2
    exact Except.ok.inj e2
  rw [List.getElem?_map, List.getElem?_map, List.getElem?_range ht, List.getElem?_range (by omega)]
  simp [hp]

/-- A bar of 200 samples: 120 bpm, 100 samples a second, span 1. -/
example : ∃ env : Env, Within 1 (2 ^ 10) env.bpm ∧ (1 : ℚ) ≤ env.sr ∧
    240 / env.bpm.val * (Fl.fin 1).val * env.sr = 200 :=
  ⟨⟨[], 100, .fin 120, 0⟩, ⟨rfl, by norm_num [Fl.val], by norm_num [Fl.val]⟩, by norm_num, by norm_num [Fl.val]⟩

/-- A looping node does not interpolate between the neighbouring breakpoints: it extends the line that starts
at the next one. On the way from 0 to 1 in a quarter of a bar and back to 0 in another quarter, the
output is 3/2 halfway up instead of 1/2. -/
theorem c43_interpolation_counterexample (P : Plat) :
    ∃ (env : Env) (ps : List (TimeList × Fl)) (outs : List (List Buf)) (ys : List Fl),
      breakpoints env.sr env.bpm.val 1 ps = [(0, .fin 0), (4, .fin 1), (8, .fin 0)] ∧
      play P 16 env (.points ps (.fin 1) true) [] [[]] = .ok outs ∧ channel 0 outs = some ys ∧
      ys[2]? = some (.fin (3 / 2)) ∧ lineAt 0 4 0 1 2 = 1 / 2 := by
  let env : Env := ⟨[], 8, .fin 120, 0⟩
  let ps : List (TimeList × Fl) := [(⟨.fin 0, none⟩, .fin 0), (⟨.fin (1 / 4), none⟩, .fin 1),
    (⟨.fin (1 / 2), none⟩, .fin 0)]
  have hl : pointList env.bpm (.fin 1) env.sr ps = .ok [(0, .fin 0), (4, .fin 1), (8, .fin 0)] := by
    decide +kernel
  have hbar : (pointsBar env.bpm (.fin 1) env.sr).toUsize = 16 := by decide +kernel
  obtain ⟨v, hv⟩ : ∃ v : Nat → Fl, ∀ t,
      pointsLoop [(0, .fin 0), (4, .fin 1), (8, .fin 0)] 16 t = .ok (v t) :=
    ⟨fun t => (pointsLoop_ok (by simp) (by norm_num) t).choose,
      fun t => (pointsLoop_ok (by simp) (by norm_num) t).choose_spec⟩
  obtain ⟨outs, o1, o2⟩ := points_blocks P 16 env ps (.fin 1) true hl (by simp) v [[]] (fun j _ => by
    simp only [pointsValue, if_true, hbar]
    exact hv j)
  have hat : ∀ t w, pointsLoop [(0, .fin 0), (4, .fin 1), (8, .fin 0)] 16 t = .ok w → v t = w := fun t w h =>
    Except.ok.inj ((hv t).symm.trans h)
  refine ⟨env, ps, outs, _, by norm_num [breakpoints, pointPos, Fl.val, env, ps], o1, o2, ?_, ?_⟩
  · simp [hat 2 (.fin (3 / 2)) (by decide +kernel)]
  · norm_num [lineAt]

end Verif.Props
