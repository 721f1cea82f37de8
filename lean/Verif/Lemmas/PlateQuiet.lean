import Verif.Lemmas.PlateNet

/-!
# When the lines of the reverb are still silent

What the equations of the reverb say about the time before the first reflections, and about the first reflections.
-/

namespace Verif.Props
open Verif Spec

/-! ### Zeros -/

theorem zero_fin : Within 0 0 (Fl.fin 0) := ⟨rfl, le_refl _, le_refl _⟩

theorem zero_val {x : Fl} (h : Within 0 0 x) : x.val = 0 := le_antisymm h.2.2 h.2.1

theorem zero_mul {x g : Fl} (h : Within 0 0 x) (hg : g.isFinite = true) : Within 0 0 (x *. g) := by
  apply within_mul h.1 hg rep0 rep0 (by norm_num) (by norm_num) <;> simp [zero_val h]

theorem mul_zero' {x g : Fl} (h : Within 0 0 x) (hg : g.isFinite = true) : Within 0 0 (g *. x) := by
  apply within_mul hg h.1 rep0 rep0 (by norm_num) (by norm_num) <;> simp [zero_val h]

theorem add_zero_within {a b : ℚ} (ha : f32.Rep a) (hb : f32.Rep b) (h1 : -2 ^ 100 ≤ a) (h2 : b ≤ 2 ^ 100) {x z : Fl}
    (h : Within a b x) (hz : Within 0 0 z) : Within a b (x +. z) := by
  apply within_add h.1 hz.1 ha hb h1 h2 <;> rw [zero_val hz, add_zero]
  · exact h.2.1
  · exact h.2.2

theorem zero_add_within {a b : ℚ} (ha : f32.Rep a) (hb : f32.Rep b) (h1 : -2 ^ 100 ≤ a) (h2 : b ≤ 2 ^ 100) {x z : Fl}
    (h : Within a b x) (hz : Within 0 0 z) : Within a b (z +. x) := by
  apply within_add hz.1 h.1 ha hb h1 h2 <;> rw [zero_val hz, zero_add]
  · exact h.2.1
  · exact h.2.2

theorem zero_add_zero {x z : Fl} (h : Within 0 0 x) (hz : Within 0 0 z) : Within 0 0 (x +. z) :=
  add_zero_within rep0 rep0 (by norm_num) (by norm_num) h hz

/-- A sum that starts with +0 is not changed by zeros. -/
theorem settled (d z : Fl) (hz : Within 0 0 z) : .fin 0 +. d +. z = .fin 0 +. d ∧ z +. (.fin 0 +. d) = .fin 0 +. d := by
  have hv := zero_val hz
  have key : ∀ v : ℚ, Fl.round f32 false v +. z = Fl.round f32 false v ∧ z +. Fl.round f32 false v = Fl.round f32 false v := by
    intro v
    have hr : f32.rnd (f32.rnd v) = f32.rnd v := Fmt.rnd_rep f32_p (Fmt.rep_rnd v)
    have hz' : z = .nz ∨ z = .fin 0 := by
      cases z with
      | nan => cases hz.1
      | inf s => cases hz.1
      | nz => exact Or.inl rfl
      | fin q => exact Or.inr (congrArg Fl.fin hv)
    have e : ∀ q : ℚ, Fl.fin q +. z = Fl.round f32 false q ∧ z +. Fl.fin q = Fl.round f32 false q := by
      intro q
      rcases hz' with rfl | rfl <;> simp [Fl.add, Fl.val]
    by_cases h0 : f32.rnd v = 0
    · have : Fl.round f32 false v = .fin 0 := by rw [Fl.round, if_pos h0]; rfl
      rw [this, (e 0).1, (e 0).2]
      simp [Fl.round, Fmt.rnd_zero]
    · by_cases h1 : f32.maxFin < f32.rnd v
      · have : Fl.round f32 false v = .inf false := by rw [Fl.round, if_neg h0, if_pos h1]
        rw [this]
        rcases hz' with rfl | rfl <;> exact ⟨rfl, rfl⟩
      · by_cases h2 : f32.rnd v < -f32.maxFin
        · have : Fl.round f32 false v = .inf true := by rw [Fl.round, if_neg h0, if_neg h1, if_pos h2]
          rw [this]
          rcases hz' with rfl | rfl <;> exact ⟨rfl, rfl⟩
        · have : Fl.round f32 false v = .fin (f32.rnd v) := by rw [Fl.round, if_neg h0, if_neg h1, if_neg h2]
          rw [this, (e _).1, (e _).2, Fl.round, hr, if_neg h0, if_neg h1, if_neg h2]
          exact ⟨rfl, rfl⟩
  have hz' : z = .nz ∨ z = .fin 0 := by
    cases z with
    | nan => cases hz.1
    | inf s => cases hz.1
    | nz => exact Or.inl rfl
    | fin q => exact Or.inr (congrArg Fl.fin hv)
  cases d with
  | nan => rcases hz' with rfl | rfl <;> exact ⟨rfl, rfl⟩
  | inf s => rcases hz' with rfl | rfl <;> exact ⟨rfl, rfl⟩
  | nz => exact key (0 + 0)
  | fin q => exact key (0 + q)

theorem perm_two {α : Type} {vs : List α} {a b : α} (h : vs.Perm [a, b]) : vs = [a, b] ∨ vs = [b, a] := by
  match vs, h.length_eq with
  | [u, v], _ =>
    rcases List.mem_cons.mp (h.mem_iff.mp (List.mem_cons_self (a := u))) with rfl | hu
    · rw [List.perm_cons, List.perm_singleton] at h
      exact Or.inl (by rw [h])
    · rw [List.mem_singleton] at hu
      subst hu
      have h := h.trans (List.Perm.swap _ _ [])
      rw [List.perm_cons, List.perm_singleton] at h
      exact Or.inr (by rw [h])

/-- A sum of a value and a zero, as it is heard. -/
theorem sum_dry {vs : List Fl} {d z : Fl} (p : vs.Perm [d, z]) (hz : Within 0 0 z) : .fin 0 +. flSum vs = .fin 0 +. d := by
  have e : Fl.fin 0 +. .fin 0 = .fin 0 := by decide +kernel
  have e0 : Fl.fin 0 +. z = .fin 0 := by
    have := (settled (.fin 0) z hz).1
    rwa [e] at this
  rcases perm_two p with rfl | rfl
  · show .fin 0 +. (.fin 0 +. d +. z) = _
    rw [(settled d z hz).1, (settled d (.fin 0) zero_fin).2]
  · show .fin 0 +. (.fin 0 +. z +. d) = _
    rw [e0, (settled d (.fin 0) zero_fin).2]

theorem sum_nan {vs : List Fl} {d : Fl} (p : vs.Perm [d, .nan]) : .fin 0 +. flSum vs = .nan := by
  have e : ∀ x : Fl, x +. .nan = .nan := fun x => by cases x <;> rfl
  rcases perm_two p with rfl | rfl
  · show .fin 0 +. (.fin 0 +. d +. .nan) = _
    rw [e, e]
  · show .fin 0 +. (.fin 0 +. .nan +. d) = _
    rw [e]
    rfl

/-- The dry part of a mix of 0. -/
theorem dry_all (v : Fl) : .fin 0 +. v *. (.fin 1 -. .fin 0) = .fin 0 +. v := by
  have e : Fl.fin 1 -. .fin 0 = .fin 1 := by decide +kernel
  rw [e]
  cases v with
  | nan => rfl
  | inf s => cases s <;> decide +kernel
  | nz => decide +kernel
  | fin q =>
    have h1 : Fl.fin q *. .fin 1 = Fl.round f32 (decide (q < 0)) q := by
      have : decide ((1 : ℚ) < 0) = false := by decide
      simp only [Fl.mul, Fl.sign, Fl.val, this, mul_one, Bool.xor_false]
    have h2 : Fl.fin 0 +. .fin q = Fl.round f32 false q := by simp [Fl.add, Fl.val]
    have hr : f32.rnd (f32.rnd q) = f32.rnd q := Fmt.rnd_rep f32_p (Fmt.rep_rnd q)
    rw [h1, h2, Fl.round, Fl.round]
    by_cases h0 : f32.rnd q = 0
    · rw [if_pos h0, if_pos h0]
      split <;> decide +kernel
    · rw [if_neg h0, if_neg h0]
      split
      · rfl
      · split
        · rfl
        · next k1 k2 =>
          have : Fl.fin 0 +. .fin (f32.rnd q) = Fl.round f32 false (f32.rnd q) := by simp [Fl.add, Fl.val]
          rw [this, Fl.round, hr, if_neg h0, if_neg k1, if_neg k2]

/-- A stream that is zero before the time `T`. -/
def Quiet (T : Nat) (s : List Fl) : Prop := ∀ t, t < T → Within 0 0 (s.getD t (.fin 0))

theorem Quiet.mono {T U : Nat} {s : List Fl} (h : Quiet T s) (hu : U ≤ T) : Quiet U s := fun t ht => h t (by omega)

theorem Quiet.before {T t k : Nat} {s : List Fl} (h : Quiet T s) (hk : t < T + k) : Within 0 0 (before s t k) := by
  unfold Spec.before
  split
  · exact h _ (by omega)
  · exact zero_fin

/-- A stream that a law gives sample by sample. -/
theorem quiet_of {T : Nat} {ys : List Fl} {F : Nat → Fl} (h : ∀ t, t < ys.length → ys[t]? = some (F t))
    (hF : ∀ t, t < T → t < ys.length → Quiet t ys → Within 0 0 (F t)) : Quiet T ys := by
  intro t
  induction t using Nat.strong_induction_on with
  | _ t ih =>
    intro ht
    rw [List.getD_eq_getElem?_getD]
    by_cases hl : t < ys.length
    · rw [h t hl]
      exact hF t ht hl (fun u hu => ih u hu (by omega))
    · rw [List.getElem?_eq_none (by omega)]
      exact zero_fin

theorem quiet_delayed {n T : Nat} {xs ys : List Fl} (h : Delayed n xs ys) (hx : Quiet T xs) : Quiet (T + n) ys := by
  intro t ht
  rw [List.getD_eq_getElem?_getD]
  by_cases hl : t < xs.length
  · rw [h.2 t hl]
    split
    · exact zero_fin
    · rw [← List.getD_eq_getElem?_getD]
      exact hx _ (by omega)
  · rw [List.getElem?_eq_none (by rw [h.1]; omega)]
    exact zero_fin

theorem quiet_pole {a b : Fl} {T : Nat} {xs ys : List Fl} (h : OnePoleEq (fun _ => a) (fun _ => b) xs ys)
    (ha : a.isFinite = true) (hb : b.isFinite = true) (hx : Quiet T xs) : Quiet T ys := by
  refine quiet_of (fun t ht => h.2 t (h.1 ▸ ht)) (fun t ht _ hq => ?_)
  exact zero_add_zero (zero_mul (hx.before (by omega)) ha) (mul_zero' (hq.before (by omega)) hb)

theorem neg_finite {g : Fl} (hg : g.isFinite = true) : (Fl.neg g).isFinite = true := (Fl.neg_fin hg).1

theorem quiet_allpass {g : Fl} {d T : Nat} {xs ys : List Fl} (h : AllPassEq g d xs ys) (hd : 1 ≤ d)
    (hg : g.isFinite = true) (hx : Quiet T xs) : Quiet T ys := by
  refine quiet_of (fun t ht => h.2 t (h.1 ▸ ht)) (fun t ht _ hq => ?_)
  exact zero_add_zero (zero_add_zero (mul_zero' (hx.before (by omega)) (neg_finite hg)) (hx.before (by omega)))
    (mul_zero' (hq.before (by omega)) hg)

theorem quiet_scaled {v : Fl} {T : Nat} {xs ys : List Fl} (h : Scaled v xs ys) (hv : v.isFinite = true) (hx : Quiet T xs) :
    Quiet T ys := by
  intro t ht
  have := hx t ht
  rw [h, List.getD_eq_getElem?_getD, List.getElem?_map]
  rw [List.getD_eq_getElem?_getD] at this
  cases hq : xs[t]? with
  | none => exact zero_fin
  | some x =>
    rw [hq] at this
    exact zero_mul this hv

theorem sum_zero {vs : List Fl} (h : ∀ v ∈ vs, Within 0 0 v) : Within 0 0 (flSum vs) := by
  unfold flSum
  have : ∀ (vs : List Fl) a, Within 0 0 a → (∀ v ∈ vs, Within 0 0 v) → Within 0 0 (vs.foldl (· +. ·) a) := by
    intro vs
    induction vs with
    | nil => exact fun a ha _ => ha
    | cons v vs ih => exact fun a ha hv => ih _ (zero_add_zero ha (hv v (by simp))) (fun w hw => hv w (by simp [hw]))
  exact this vs _ zero_fin h

/-- One of the terms may be something else. -/
theorem sum_one {a b : ℚ} (ha : f32.Rep a) (hb : f32.Rep b) (h1 : -2 ^ 100 ≤ a) (h2 : b ≤ 2 ^ 100) {v : Fl} {zs vs : List Fl}
    (hp : vs.Perm (v :: zs)) (hv : Within a b v) (hz : ∀ z ∈ zs, Within 0 0 z) : Within a b (flSum vs) := by
  obtain ⟨l, r, hlr⟩ := List.append_of_mem (hp.mem_iff.mpr (List.mem_cons_self (a := v) (l := zs)))
  subst hlr
  have hp' : (l ++ r).Perm zs := (List.perm_cons v).mp ((List.perm_middle.symm).trans hp)
  have hl : ∀ z ∈ l ++ r, Within 0 0 z := fun z h => hz z (hp'.mem_iff.mp h)
  have : ∀ (vs : List Fl) x, Within a b x → (∀ z ∈ vs, Within 0 0 z) → Within a b (vs.foldl (· +. ·) x) := by
    intro vs
    induction vs with
    | nil => exact fun a ha _ => ha
    | cons z vs ih =>
      exact fun x hx hv => ih _ (add_zero_within ha hb h1 h2 hx (hv z (by simp))) (fun w hw => hv w (by simp [hw]))
  rw [flSum, List.foldl_append, List.foldl_cons]
  exact this r _ (zero_add_within ha hb h1 h2 hv (sum_zero (vs := l) (fun z h => hl z (by simp [h]))))
    (fun z h => hl z (by simp [h]))

theorem quiet_mixed {T : Nat} {ls : List (List Fl)} {ys : List Fl} (h : Mixed ls ys) (hl : ∀ l ∈ ls, Quiet T l) : Quiet T ys := by
  intro t ht
  rw [List.getD_eq_getElem?_getD]
  by_cases hy : t < ys.length
  · obtain ⟨vs, p, e⟩ := h.2 t hy
    rw [e]
    refine sum_zero (fun v hv => ?_)
    obtain ⟨l, hl', rfl⟩ := List.mem_map.mp (p.mem_iff.mp hv)
    exact (hl l hl').before (by omega)
  · rw [List.getElem?_eq_none (by omega)]
    exact zero_fin

theorem quiet_zip {T : Nat} {xs ys zs : List Fl} (h : zs = List.zipWith (· +. ·) xs ys) (hx : Quiet T xs) (hy : Quiet T ys) :
    Quiet T zs := by
  intro t ht
  have h1 := hx t ht
  have h2 := hy t ht
  rw [List.getD_eq_getElem?_getD] at h1 h2 ⊢
  rw [h, List.getElem?_zipWith]
  cases e1 : xs[t]? with
  | none => exact zero_fin
  | some x =>
    cases e2 : ys[t]? with
    | none => exact zero_fin
    | some y =>
      rw [e1] at h1
      rw [e2] at h2
      exact zero_add_zero h1 h2

/-! ### The moving lines -/

theorem fract_place {v : Fl} (h : Within 24 35 v) : (Fl.fract f32 (place v)).isFinite = true ∧
    (.fin 1 -. Fl.fract f32 (place v)).isFinite = true := by
  obtain ⟨-, h2, -⟩ := place_range h
  have : Within 0 1 (Fl.fract f32 (place v)) := by
    generalize place v = p at h2
    cases p with
    | nan => cases h2.1
    | inf s => cases h2.1
    | nz => have := h2.2.1; norm_num [Fl.val] at this
    | fin q =>
      have hq : (2800 : ℚ) ≤ q := h2.2.1
      have e : Fl.trunc (.fin q) = .fin q.floor := by
        rw [Fl.trunc, if_neg (by simp [Fl.sign]; linarith)]
        rfl
      rw [Fl.fract, e]
      have hf := floor_le' q
      have hf2 := lt_floor' q
      apply within_sub rfl rfl rep0 rep1 (by norm_num) (by norm_num) <;> simp only [Fl.val_fin] <;> linarith
  refine ⟨this.1, (within_sub (x := .fin 1) rfl this.1 rep0 rep1 (by norm_num) (by norm_num) ?_ ?_ : Within 0 1 _).1⟩ <;>
    rw [Fl.val_fin] <;> linarith [this.2.1, this.2.2]

theorem quiet_between {xs : List Fl} {t : Nat} {v : Fl} (h : Within 24 35 v) (hx : Quiet t xs) :
    Within 0 0 (between xs t (place v)) := by
  obtain ⟨f1, f2⟩ := fract_place h
  have := (place_floor h).2
  exact zero_add_zero (zero_mul (hx.before (by omega)) f1) (zero_mul (hx.before (by omega)) f2)

theorem quiet_wobble {g : Fl} {T : Nat} {ms xs ys : List Fl} (h : WobbleEq g ms xs ys) (hg : g.isFinite = true)
    (hm : ∀ t, t < xs.length → Within 24 35 (before ms t 0)) (hx : Quiet T xs) : Quiet T ys := by
  refine quiet_of (fun t ht => h.2 t (h.1 ▸ ht)) (fun t ht hl hq => ?_)
  have hv := hm t (h.1 ▸ hl)
  exact zero_add_zero (zero_add_zero (mul_zero' (hx.before (by omega)) (neg_finite hg))
    (quiet_between hv (hx.mono (by omega)))) (mul_zero' (quiet_between hv hq) hg)

/-! ### The first sound of a line -/

/-- A stream that is zero before the time `T` and then has a value between `a` and `b`. -/
def Onset (T : Nat) (a b : ℚ) (s : List Fl) : Prop := T < s.length ∧ Quiet T s ∧ Within a b (s.getD T (.fin 0))

theorem onset_before {T : Nat} {a b : ℚ} {s : List Fl} (h : Onset T a b s) : Within a b (before s T 0) := by
  rw [before_zero]
  exact h.2.2

theorem onset_delayed {n T : Nat} {a b : ℚ} {xs ys : List Fl} (h : Delayed n xs ys) (hx : Onset T a b xs)
    (hl : T + n < xs.length) : Onset (T + n) a b ys := by
  refine ⟨h.1 ▸ hl, quiet_delayed h hx.2.1, ?_⟩
  rw [List.getD_eq_getElem?_getD, h.2 _ hl, if_neg (by omega), Nat.add_sub_cancel, ← List.getD_eq_getElem?_getD]
  exact hx.2.2

theorem within_neg {g : Fl} {a b : ℚ} (h : Within a b g) : Within (-b) (-a) (Fl.neg g) := by
  have := Fl.neg_fin h.1
  exact ⟨this.1, by rw [this.2]; linarith [h.2.2], by rw [this.2]; linarith [h.2.1]⟩

theorem onset_allpass {g : Fl} {d T : Nat} {a b a' b' : ℚ} {xs ys : List Fl} (h : AllPassEq g d xs ys) (hd : 1 ≤ d)
    (hg : g.isFinite = true) (hx : Onset T a b xs) (ra : f32.Rep a') (rb : f32.Rep b') (h1 : -2 ^ 100 ≤ a')
    (h2 : b' ≤ 2 ^ 100) (hv : ∀ v, Within a b v → Within a' b' (Fl.neg g *. v)) : Onset T a' b' ys := by
  have hq := quiet_allpass h hd hg hx.2.1
  refine ⟨h.1 ▸ hx.1, hq, ?_⟩
  rw [List.getD_eq_getElem?_getD, h.2 _ hx.1]
  exact add_zero_within ra rb h1 h2 (add_zero_within ra rb h1 h2 (hv _ (onset_before hx)) (hx.2.1.before (by omega)))
    (mul_zero' (hq.before (by omega)) hg)

theorem onset_wobble {g : Fl} {T : Nat} {a b a' b' : ℚ} {ms xs ys : List Fl} (h : WobbleEq g ms xs ys)
    (hg : g.isFinite = true) (hm : ∀ t, t < xs.length → Within 24 35 (before ms t 0)) (hx : Onset T a b xs)
    (ra : f32.Rep a') (rb : f32.Rep b') (h1 : -2 ^ 100 ≤ a')
    (h2 : b' ≤ 2 ^ 100) (hv : ∀ v, Within a b v → Within a' b' (Fl.neg g *. v)) : Onset T a' b' ys := by
  have hq := quiet_wobble h hg hm hx.2.1
  refine ⟨h.1 ▸ hx.1, hq, ?_⟩
  rw [List.getD_eq_getElem?_getD, h.2 _ hx.1]
  exact add_zero_within ra rb h1 h2 (add_zero_within ra rb h1 h2 (hv _ (onset_before hx))
    (quiet_between (hm T hx.1) hx.2.1)) (mul_zero' (quiet_between (hm T hx.1) hq) hg)

theorem onset_scaled {g : Fl} {T : Nat} {a b a' b' : ℚ} {xs ys : List Fl} (h : Scaled g xs ys)
    (hg : g.isFinite = true) (hx : Onset T a b xs) (hv : ∀ v, Within a b v → Within a' b' (v *. g)) : Onset T a' b' ys := by
  refine ⟨by rw [h, List.length_map]; exact hx.1, quiet_scaled h hg hx.2.1, ?_⟩
  have := hx.2.2
  rw [List.getD_eq_getElem?_getD, List.getElem?_eq_getElem hx.1] at this
  rw [h, List.getD_eq_getElem?_getD, List.getElem?_map, List.getElem?_eq_getElem hx.1]
  exact hv _ this

theorem onset_zip {T : Nat} {a b : ℚ} {xs ys zs : List Fl} (h : zs = List.zipWith (· +. ·) xs ys) (hl : xs.length ≤ ys.length)
    (ra : f32.Rep a) (rb : f32.Rep b) (h1 : -2 ^ 100 ≤ a) (h2 : b ≤ 2 ^ 100)
    (hx : Onset T a b xs) (hy : Quiet (T + 1) ys) : Onset T a b zs := by
  have t1 := hx.1
  refine ⟨by rw [h, List.length_zipWith]; omega, quiet_zip h hx.2.1 (hy.mono (by omega)), ?_⟩
  have k1 := hx.2.2
  have k2 := hy T (by omega)
  have t2 : T < ys.length := by omega
  rw [List.getD_eq_getElem?_getD] at k1 k2 ⊢
  rw [h, List.getElem?_zipWith]
  rw [List.getElem?_eq_getElem t1] at k1 ⊢
  rw [List.getElem?_eq_getElem t2] at k2 ⊢
  exact add_zero_within ra rb h1 h2 k1 k2

theorem onset_mixed {T : Nat} {a b : ℚ} {l : List Fl} {ls ms : List (List Fl)} {ys : List Fl} (h : Mixed ms ys)
    (hp : ms.Perm (l :: ls)) (ra : f32.Rep a) (rb : f32.Rep b) (h1 : -2 ^ 100 ≤ a) (h2 : b ≤ 2 ^ 100)
    (hx : Onset T a b l) (hy : ∀ x ∈ ls, Quiet (T + 1) x) : Onset T a b ys := by
  have hl := h.1 l (hp.mem_iff.mpr (by simp))
  have hT := hx.1
  refine ⟨by omega, quiet_mixed h (fun x hx' => ?_), ?_⟩
  · rcases List.mem_cons.mp (hp.mem_iff.mp hx') with rfl | hx'
    · exact hx.2.1
    · exact (hy x hx').mono (by omega)
  · obtain ⟨vs, p, e⟩ := h.2 T (by omega)
    rw [List.getD_eq_getElem?_getD, e]
    refine sum_one ra rb h1 h2 (p.trans (hp.map _)) (onset_before hx) (fun z hz => ?_)
    obtain ⟨x, hx', rfl⟩ := List.mem_map.mp hz
    exact (hy x hx').before (by omega)

end Verif.Props
