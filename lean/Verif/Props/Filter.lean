import Verif.Lemmas.Nodes
import Verif.Lemmas.Loop
import Verif.Lemmas.Rel
import Verif.Lemmas.KernelRfl
import Verif.Spec.Filter
import Verif.Spec.Signal
import Verif.Spec.Demo
import Verif.Props.Delay

/-! # Filters follow their equations (C56) -/

namespace Verif.Props
open Spec

/-! ### Helpers -/

theorem before_zero (xs : List Fl) (t : Nat) : before xs t 0 = xs.getD t (.fin 0) := by simp [before]

theorem before_succ (xs : List Fl) (t k : Nat) : before xs (t + 1) (k + 1) = before xs t k := by
  simp only [before, Nat.add_le_add_iff_right, Nat.add_sub_add_right]

theorem before_start (xs : List Fl) (k : Nat) : before xs 0 (k + 1) = .fin 0 := by simp [before]

theorem getD_of {xs : List Fl} {t : Nat} {x : Fl} (h : xs[t]? = some x) : xs.getD t (.fin 0) = x := by
  simp [List.getD_eq_getElem?_getD, h]

/-- The left channel of the first input. -/
theorem chan_bufsOf (mono : Bool) (x : List (Fl × Fl)) : chan (bufsOf mono x) 0 = .ok (x.map Prod.fst) := by
  cases mono <;> rfl

theorem run_lefts {σ : Type} (f : σ → Fl → σ × Fl) (s : σ) (x : List (Fl × Fl)) :
    run (fun s (p : Fl × Fl) => f s p.1) s x = run f s (x.map Prod.fst) := by
  induction x generalizing s with
  | nil => rfl
  | cons p x ih => simp only [run, List.map_cons, ih]

/-- A node with one output channel that runs a loop over the left channel of its only input. -/
theorem blocks_lefts {P : Plat} {N : Nat} {env : Env} {c : Comp} {d : NodeData (GNode P) Buf} {refs : List Name}
    {msgs : List (Msg Fl)} {σ : Type} (wrap : σ → GNode P) (f : σ → Fl → σ × Fl) (s : σ) (k : Nat) (mono : Bool)
    (xs : List (List (Fl × Fl))) (h1 : makeNode P N env.samples env.sr env.bpm env.seed c = .ok (d, refs))
    (hd : ∃ b, d.buffers = [b]) (h2 : sendMsgs d.node msgs = .ok (wrap s))
    (H : ∀ s x b, procG P (wrap s) [(k, bufsOf mono x)] [b] =
      .ok (wrap (run f s (x.map Prod.fst)).1, [(run f s (x.map Prod.fst)).2])) :
    ∃ outs, play P N env c msgs (oneFrom k mono xs) = .ok outs ∧ channel 0 outs = some (run f s (lefts xs)).2 := by
  obtain ⟨o, g1, g2⟩ := blocks_mono (procG P) wrap (fun s (p : Fl × Fl) => .ok (f s p.1)) (fun x => [(k, bufsOf mono x)])
    (fun o => ∃ b, o = [b]) xs
    (fun s x out _ ho => by
      obtain ⟨b, rfl⟩ := ho
      rw [runM_pure (fun s (p : Fl × Fl) => f s p.1), run_lefts, H]
      rfl)
    (fun _ _ _ _ _ => ⟨_, rfl⟩) s d.buffers hd _ (runM_pure (fun s (p : Fl × Fl) => f s p.1) s xs.flatten)
  refine ⟨o, play_ok h1 h2 g1, ?_⟩
  rw [g2, run_lefts]
  rfl

/-! ### onepole -/

theorem pole_eq (a b : Fl) (xs : List Fl) : OnePoleEq (fun _ => a) (fun _ => b) xs (run (poleStep a b) (.fin 0) xs).2 := by
  obtain ⟨st, h0, _, h⟩ := run_states (poleStep a b) (.fin 0) xs
  refine ⟨run_length _ _ _, ?_⟩
  have hst : ∀ t, t ≤ xs.length → st t = before (run (poleStep a b) (.fin 0) xs).2 t 1 := by
    intro t
    cases t with
    | zero => intro _; rw [h0, before_start]
    | succ t =>
      intro ht
      obtain ⟨h1, h2⟩ := h t _ (List.getElem?_eq_getElem (show t < xs.length by omega))
      rw [h2, before_succ, before_zero, getD_of h1]
      rfl
  intro t ht
  obtain ⟨h1, _⟩ := h t _ (List.getElem?_eq_getElem ht)
  rw [h1, before_zero, getD_of (List.getElem?_eq_getElem ht), ← hst t ht.le]
  rfl

/-- **C56** for `onepole` with a number: the output is the solution of the equation of first order with the coefficients
`b = exp(-2π rate)` and `a = 1 - b`, over all blocks. Of a stereo input only the left channel is used. -/
theorem c56_onepole (P : Plat) (N : Nat) (env : Env) (rate : Fl) (k : Nat) (mono : Bool) (xs : List (List (Fl × Fl))) :
    ∃ outs ys, play P N env (.onepole (.num rate)) [.index k] (oneFrom k mono xs) = .ok outs ∧ channel 0 outs = some ys ∧
      OnePoleEq (fun _ => .fin 1 -. pole P.libm rate) (fun _ => pole P.libm rate) (lefts xs) ys := by
  obtain ⟨o, h1, h2⟩ := blocks_lefts (P := P) (N := N) (env := env) (c := .onepole (.num rate)) (msgs := [.index k])
    (fun y => .prim (.onepole { OnePole.new P.libm rate with y1 := y, order := [k] }))
    (poleStep (.fin 1 -. pole P.libm rate) (pole P.libm rate)) (.fin 0) k mono xs rfl ⟨_, rfl⟩ rfl
    (fun s x b => by
      simp only [procG, procPrim, procOnePole, chan_bufsOf]
      rfl)
  exact ⟨o, _, h1, h2, pole_eq _ _ _⟩

theorem rnd_to_one {v : ℚ} (h : |v| ≤ 1 + 1 / 2 ^ 24) : |f32.rnd v| ≤ 1 := by
  have e : f32.rnd (1 + 1 / 2 ^ 24) = 1 := by decide +kernel
  rw [abs_le] at h ⊢
  have h1 := Fmt.rnd_mono f32_p h.2
  have h2 := Fmt.rnd_mono f32_p h.1
  rw [Fmt.rnd_neg, e] at h2
  rw [e] at h1
  exact ⟨h2, h1⟩

theorem pole_within {b y x : Fl} (hb : Within 0 1 b) (hr : b.Ok f32) (hy : Within (-1) 1 y) (hx : Within (-1) 1 x) :
    Within (-1) 1 (x *. (.fin 1 -. b) +. b *. y) := by
  obtain ⟨b0, b1, b2⟩ := hb
  obtain ⟨y0, y1, y2⟩ := hy
  obtain ⟨x0, x1, x2⟩ := hx
  have hrep : f32.Rep b.val := by
    cases b with
    | nan => cases b0
    | inf s => cases b0
    | nz => exact rep0
    | fin q => exact hr.1
  have ha := Fl.sub_fin (f := f32) (a := .fin 1) (b := b) rfl b0 (f32_inRange (by
    simp only [Fl.val_fin]; rw [abs_of_nonneg (by linarith)]; exact le_trans (by linarith : 1 - b.val ≤ 1) (by norm_num)))
  generalize haa : (.fin 1 -. b) = a at ha ⊢
  obtain ⟨a0, a1⟩ := ha
  rw [Fl.val_fin] at a1
  have hap : 0 ≤ a.val := by rw [a1]; exact Fmt.rnd_nonneg (by linarith)
  have hab : a.val + b.val ≤ 1 + 1 / 2 ^ 24 := by
    rcases le_or_gt (pow2 (-126)) (1 - b.val) with h | h
    · have := Fmt.rnd_rel (f := f32) (x := 1 - b.val) (by
        rw [abs_of_nonneg (by linarith)]; exact h)
      have heps : pow2 (-(f32.p : Int)) = 1 / 2 ^ 24 := by rw [pow2_eq]; norm_num [f32]
      rw [heps, abs_of_nonneg (a := 1 - b.val) (by linarith), abs_le, ← a1] at this
      have := this.2
      linarith
    · have := Fmt.rnd_le f32_p (x := 1 - b.val) (b := pow2 (-126)) ⟨1, -126, by decide, by decide, by simp⟩ h.le
      rw [← a1] at this
      have e : pow2 (-126) ≤ 1 / 2 ^ 24 := by rw [pow2_eq]; norm_num
      linarith
  have harep : f32.Rep a.val := by rw [a1]; exact Fmt.rep_rnd _
  have hxa : |x.val * a.val| ≤ a.val := by
    rw [abs_mul, abs_of_nonneg hap]
    have : |x.val| ≤ 1 := abs_le.mpr ⟨x1, x2⟩
    nlinarith
  have hby : |b.val * y.val| ≤ b.val := by
    rw [abs_mul, abs_of_nonneg b1]
    have : |y.val| ≤ 1 := abs_le.mpr ⟨y1, y2⟩
    nlinarith
  have hbig : (1 : ℚ) + 1 / 2 ^ 24 ≤ 2 ^ 100 := by norm_num
  have m1 := Fl.mul_fin (f := f32) x0 a0 (f32_inRange (by linarith))
  have m2 := Fl.mul_fin (f := f32) b0 y0 (f32_inRange (by linarith))
  have r1 := Fmt.abs_rnd_le f32_p harep hxa
  have r2 := Fmt.abs_rnd_le f32_p hrep hby
  rw [← m1.2] at r1
  rw [← m2.2] at r2
  have hsum : |(x *. a).val + (b *. y).val| ≤ 1 + 1 / 2 ^ 24 := le_trans (abs_add_le _ _) (by linarith)
  have m3 := Fl.add_fin (f := f32) m1.1 m2.1 (f32_inRange (by linarith))
  have r3 := rnd_to_one hsum
  rw [← m3.2, abs_le] at r3
  exact ⟨m3.1, r3.1, r3.2⟩

/-- **C56** for `onepole`: if the coefficient `exp(-2π rate)` is a number from 0 to 1, as it is for every rate that is not
negative, a signal that stays within -1 and 1 does so after the filter. -/
theorem c56_onepole_bounded (P : Plat) (N : Nat) (env : Env) (rate : Fl) (h : Within 0 1 (pole P.libm rate))
    (hr : (pole P.libm rate).Ok f32) (k : Nat) (mono : Bool) (xs : List (List (Fl × Fl)))
    (hx : ∀ x, x ∈ lefts xs → Within (-1) 1 x) :
    ∃ outs ys, play P N env (.onepole (.num rate)) [.index k] (oneFrom k mono xs) = .ok outs ∧ channel 0 outs = some ys ∧
      ∀ y, y ∈ ys → Within (-1) 1 y := by
  obtain ⟨o, ys, h1, h2, h3, h4⟩ := c56_onepole P N env rate k mono xs
  refine ⟨o, ys, h1, h2, ?_⟩
  have key : ∀ t, t < (lefts xs).length → Within (-1) 1 (before ys t 0) := by
    intro t
    induction t with
    | zero =>
      intro ht
      rw [before_zero, getD_of (h4 0 ht), before_start]
      refine pole_within h hr ⟨rfl, by norm_num [Fl.val], by norm_num [Fl.val]⟩ ?_
      rw [before_zero, getD_of (List.getElem?_eq_getElem ht)]
      exact hx _ (List.getElem_mem _)
    | succ t ih =>
      intro ht
      rw [before_zero, getD_of (h4 (t + 1) ht), before_succ]
      refine pole_within h hr (ih (by omega)) ?_
      rw [before_zero, getD_of (List.getElem?_eq_getElem ht)]
      exact hx _ (List.getElem_mem _)
  intro y hy
  obtain ⟨t, ht, rfl⟩ := List.mem_iff_getElem.mp hy
  have := key t (by omega)
  rwa [before_zero, getD_of (List.getElem?_eq_getElem ht)] at this

/-- What reaches a loop over two inputs. -/
theorem run_pairs {σ : Type} (f : σ → Fl × Fl → σ × Fl) (s : σ) (x : List ((Fl × Fl) × (Fl × Fl))) :
    run (fun s (p : (Fl × Fl) × (Fl × Fl)) => f s (p.1.1, p.2.1)) s x =
      run f s ((x.map (fun p => p.1.1)).zip (x.map (fun p => p.2.1))) := by
  induction x generalizing s with
  | nil => rfl
  | cons p x ih => simp only [run, List.map_cons, List.zip_cons_cons, ih]

theorem poleMod_eq (m : Libm) (s : Fl × Fl × Fl) (hs : s.2.2 = .fin 0) (xs : List (Fl × Fl)) :
    OnePoleEq (fun t => .fin 1 -. pole m (before (xs.map Prod.fst) t 0)) (fun t => pole m (before (xs.map Prod.fst) t 0))
      (xs.map Prod.snd) (run (poleModStep m) s xs).2 := by
  obtain ⟨st, h0, _, h⟩ := run_states (poleModStep m) s xs
  refine ⟨by rw [run_length, List.length_map], ?_⟩
  have hst : ∀ t, t ≤ xs.length → (st t).2.2 = before (run (poleModStep m) s xs).2 t 1 := by
    intro t
    cases t with
    | zero => intro _; rw [h0, before_start, hs]
    | succ t =>
      intro ht
      obtain ⟨h1, h2⟩ := h t _ (List.getElem?_eq_getElem (show t < xs.length by omega))
      rw [h2, before_succ, before_zero, getD_of h1]
      rfl
  intro t ht
  rw [List.length_map] at ht
  have hx := List.getElem?_eq_getElem ht
  obtain ⟨h1, _⟩ := h t _ hx
  have e1 : (xs.map Prod.snd).getD t (.fin 0) = (xs[t]).2 := getD_of (by rw [List.getElem?_map, hx]; rfl)
  have e2 : (xs.map Prod.fst).getD t (.fin 0) = (xs[t]).1 := getD_of (by rw [List.getElem?_map, hx]; rfl)
  beta_reduce
  rw [h1, before_zero, before_zero, e1, e2, ← hst t ht.le]
  rfl

/-- **C56** for `onepole` with a reference (partial): an equation of first order holds, but with the roles of the inputs
exchanged: the signal from the left (`k`) is taken for the rate, and the reference (`j`) is filtered. -/
theorem c56_onepole_mod_partial (P : Plat) (N : Nat) (env : Env) (r : Name) (swap mk mj : Bool) (k j : Nat) (hkj : k ≠ j)
    (xs : List (List ((Fl × Fl) × (Fl × Fl)))) :
    ∃ outs ys, play P N env (.onepole (.ref r)) [.index k, .index j] (twoFrom swap k j mk mj xs) = .ok outs ∧
      channel 0 outs = some ys ∧
      OnePoleEq (fun t => .fin 1 -. pole P.libm (before (xs.flatten.map (fun p => p.1.1)) t 0))
        (fun t => pole P.libm (before (xs.flatten.map (fun p => p.1.1)) t 0)) (xs.flatten.map (fun p => p.2.1)) ys := by
  obtain ⟨o, g1, g2⟩ := blocks_mono (procG P)
    (fun s : Fl × Fl × Fl => .prim (.onepole ⟨s.1, s.2.1, s.2.2, [k, j]⟩))
    (fun s (p : (Fl × Fl) × (Fl × Fl)) => .ok (poleModStep P.libm s (p.1.1, p.2.1)))
    (fun x => if swap then [(j, bufsOf mj (x.map Prod.snd)), (k, bufsOf mk (x.map Prod.fst))]
      else [(k, bufsOf mk (x.map Prod.fst)), (j, bufsOf mj (x.map Prod.snd))])
    (fun o => ∃ b, o = [b]) xs
    (fun s x out _ ho => by
      obtain ⟨b, rfl⟩ := ho
      rw [runM_pure (fun s (p : (Fl × Fl) × (Fl × Fl)) => poleModStep P.libm s (p.1.1, p.2.1)), run_pairs]
      have hjk : j ≠ k := fun h => hkj h.symm
      cases swap <;>
        simp [procG, procPrim, procOnePole, inputAt, hkj, hjk, chan_bufsOf, bind, Except.bind, reState, blockOf,
          Function.comp_def])
    (fun _ _ _ _ _ => ⟨_, rfl⟩) ((OnePole.new P.libm (.fin 0)).a, (OnePole.new P.libm (.fin 0)).b, .fin 0)
    (fresh N 1 (GNode.prim (P := P) (.onepole (OnePole.new P.libm (.fin 0))))).buffers ⟨_, rfl⟩ _
    (runM_pure (fun s (p : (Fl × Fl) × (Fl × Fl)) => poleModStep P.libm s (p.1.1, p.2.1)) _ xs.flatten)
  refine ⟨o, _, play_ok rfl rfl g1, g2, ?_⟩
  rw [run_pairs]
  have := poleMod_eq P.libm ((OnePole.new P.libm (.fin 0)).a, (OnePole.new P.libm (.fin 0)).b, .fin 0) rfl
    ((xs.flatten.map (fun p => p.1.1)).zip (xs.flatten.map (fun p => p.2.1)))
  have z1 : ((xs.flatten.map (fun p => p.1.1)).zip (xs.flatten.map (fun p => p.2.1))).map Prod.fst =
      xs.flatten.map (fun p => p.1.1) := List.map_fst_zip (by simp only [List.length_map]; exact Nat.le_refl _)
  have z2 : ((xs.flatten.map (fun p => p.1.1)).zip (xs.flatten.map (fun p => p.2.1))).map Prod.snd =
      xs.flatten.map (fun p => p.2.1) := List.map_snd_zip (by simp only [List.length_map]; exact Nat.le_refl _)
  rwa [z1, z2] at this

/-! ### The filters of second order -/

/-- The coefficients of a model filter. -/
def coefs (c : Coef) : Coefs := ⟨c.a0, c.a1, c.a2, c.b1, c.b2⟩

theorem coefs_rhpf (m : Libm) (c q : Fl) (sr : Nat) : coefs (rhpfCoef m c q sr) = highPass m sr c q := rfl

theorem coefs_rlpf (m : Libm) (c q : Fl) (sr : Nat) : coefs (rlpfCoef m c q sr) = lowPass m sr c q := rfl

/-- The memory of a section in which the coefficients may change. -/
theorem biquad_eq {σ ι : Type} {f : σ → ι → Except Panic (σ × Fl)} {mem : σ → Biquad} {inp : ι → Fl} {s : σ} {xs : List ι}
    {r : σ × List Fl} (h : runM f s xs = .ok r) (h0 : mem s = Biquad.zero) (co : Nat → Coef) (st : Nat → σ) (hs : st 0 = s)
    (hst : ∀ t x, xs[t]? = some x → ∃ y, r.2[t]? = some y ∧ f (st t) x = .ok (st (t + 1), y) ∧
      biquadStep (co t) (mem (st t)) (inp x) = (mem (st (t + 1)), y)) :
    LaggingEq (fun t => coefs (co t)) (xs.map inp) r.2 := by
  have hinv : ∀ t, t ≤ xs.length → mem (st t) = ⟨.fin 0, before (xs.map inp) t 1, before (xs.map inp) t 2, before r.2 t 1,
      before r.2 t 2⟩ := by
    intro t
    induction t with
    | zero => intro _; rw [hs, h0]; rfl
    | succ t ih =>
      intro ht
      have hx := List.getElem?_eq_getElem (show t < xs.length by omega)
      obtain ⟨y, h1, _, h3⟩ := hst t _ hx
      have e1 : before (xs.map inp) t 0 = inp xs[t] := by
        rw [before_zero]; exact getD_of (by rw [List.getElem?_map, hx]; rfl)
      have e2 : before r.2 t 0 = y := by rw [before_zero]; exact getD_of h1
      have h4 := congrArg Prod.fst h3
      simp only at h4
      rw [← h4, before_succ, before_succ, before_succ, before_succ, e1, e2, ih (by omega)]
      have h5 := congrArg Prod.snd h3
      simp only [biquadStep] at h5 ⊢
      rw [ih (by omega)] at h5
      rw [h5]
  refine ⟨by rw [List.length_map]; exact runM_length h, ?_⟩
  intro t ht
  rw [List.length_map] at ht
  obtain ⟨y, h1, _, h3⟩ := hst t _ (List.getElem?_eq_getElem ht)
  rw [h1]
  have h5 := congrArg Prod.snd h3
  simp only [biquadStep] at h5
  rw [← h5, hinv t ht.le]
  rfl

theorem biquad_run (c : Coef) (xs : List Fl) : LaggingEq (fun _ => coefs c) xs (run (biquadStep c) Biquad.zero xs).2 := by
  have h := runM_pure (biquadStep c) Biquad.zero xs
  obtain ⟨st, h0, _, hst⟩ := runM_states h
  have := biquad_eq (mem := id) (inp := id) h rfl (fun _ => c) st h0 (fun t x hx => by
    obtain ⟨y, h1, h2⟩ := hst t x hx
    exact ⟨y, h1, h2, Except.ok.inj h2⟩)
  rwa [List.map_id] at this

/-- **C56** for `rhpf` with a number (partial): at a sample rate of 44100 the output follows the equation of the resonant high
pass over all blocks, except that the term of the current sample is missing. -/
theorem c56_rhpf_partial (P : Plat) (N : Nat) (env : Env) (hsr : env.sr = 44100) (cutoff q : Fl) (k : Nat) (mono : Bool)
    (xs : List (List (Fl × Fl))) :
    ∃ outs ys, play P N env (.rhpf (.num cutoff) q) [.index k] (oneFrom k mono xs) = .ok outs ∧ channel 0 outs = some ys ∧
      LaggingEq (fun _ => highPass P.libm env.sr cutoff q) (lefts xs) ys := by
  obtain ⟨o, h1, h2⟩ := blocks_lefts (P := P) (N := N) (env := env) (c := .rhpf (.num cutoff) q) (msgs := [.index k])
    (fun s => .prim (.rhpf { Rhpf.new cutoff q with mem := s, order := [k] }))
    (biquadStep (rhpfCoef P.libm cutoff q 44100)) Biquad.zero k mono xs rfl ⟨_, rfl⟩ rfl
    (fun s x b => by
      simp only [procG, procPrim, procRhpf, chan_bufsOf]
      rfl)
  refine ⟨o, _, h1, h2, ?_⟩
  rw [hsr]
  exact biquad_run _ _

/-- **C56**: a `rhpf` does not know the sample rate of the engine, so that its cutoff is right at 44100 only. -/
theorem rhpf_ignores_rate (P : Plat) (N : Nat) (env env' : Env) (cutoff q : Fl) (msgs : List (Msg Fl)) (ins : List Ins) :
    play P N env (.rhpf (.num cutoff) q) msgs ins = play P N env' (.rhpf (.num cutoff) q) msgs ins := rfl

/-- The pattern of a low pass with the places of its values in samples. -/
def placed (f : Rlpf) : List (Fl × Nat) := f.pattern.map (fun e => (e.1, eventStep f.bpm e.2 f.sr))

theorem patternValue_ok {bar step : Nat} {bpm : Fl} {sr : Nat} {p : List (Fl × Fl)} (h : p = [] ∨ 1 ≤ bar) (v : Fl) :
    patternValue bar step bpm sr p v = .ok ((((p.map (fun e => (e.1, eventStep bpm e.2 sr))).filter
      (fun e => step % bar = e.2)).map Prod.fst).getLastD v) := by
  induction p generalizing v with
  | nil => rfl
  | cons e es ih =>
    have hb : 1 ≤ bar := by simpa using h
    rw [patternValue, if_neg (by omega), ih (.inr hb), List.map_cons, List.filter_cons]
    simp only [decide_eq_true_eq]
    split
    · rw [List.map_cons, List.getLastD_cons]
    · rfl

theorem getLastD_append {α : Type} (a b : List α) (v : α) : (a ++ b).getLastD v = b.getLastD (a.getLastD v) := by
  induction a generalizing v with
  | nil => rfl
  | cons x a ih => rw [List.cons_append, List.getLastD_cons, List.getLastD_cons, ih]

theorem inForce_zero (v : Fl) (bar : Nat) (p : List (Fl × Nat)) :
    inForce v bar p 0 = ((p.filter (fun e => 0 % bar = e.2)).map Prod.fst).getLastD v := by
  simp [inForce]

theorem inForce_succ (v : Fl) (bar : Nat) (p : List (Fl × Nat)) (t : Nat) :
    inForce v bar p (t + 1) = ((p.filter (fun e => (t + 1) % bar = e.2)).map Prod.fst).getLastD (inForce v bar p t) := by
  rw [inForce, List.range_succ, List.flatMap_append, getLastD_append]
  simp [inForce]

/-- One sample of the low pass when nothing panics. -/
def rlpfPure (m : Libm) (f : Rlpf) (s : Fl × Nat × Biquad) (x : Fl) : (Fl × Nat × Biquad) × Fl :=
  let c := (((placed f).filter (fun e => s.2.1 % (barDur f.bpm f.span f.sr).toUsize = e.2)).map Prod.fst).getLastD s.1
  let r := biquadStep (rlpfCoef m c f.q f.sr) s.2.2 x
  ((c, s.2.1 + 1, r.1), r.2)

theorem rlpfStep_pure {m : Libm} {f : Rlpf} (h : f.pattern = [] ∨ 1 ≤ (barDur f.bpm f.span f.sr).toUsize) :
    rlpfStep m f = fun s x => .ok (rlpfPure m f s x) := by
  funext s x
  rw [rlpfStep, patternValue_ok h]
  rfl

theorem lpf_run (m : Libm) (f : Rlpf) (xs : List Fl) :
    LaggingEq (fun t => lowPass m f.sr (inForce f.cutoff (barDur f.bpm f.span f.sr).toUsize (placed f) t) f.q) xs
      (run (rlpfPure m f) (f.cutoff, 0, Biquad.zero) xs).2 := by
  have h := runM_pure (rlpfPure m f) (f.cutoff, 0, Biquad.zero) xs
  obtain ⟨st, h0, _, hst⟩ := runM_states h
  have hinv : ∀ t, t < xs.length → (st t).2.1 = t ∧
      ((((placed f).filter (fun e => (st t).2.1 % (barDur f.bpm f.span f.sr).toUsize = e.2)).map Prod.fst).getLastD (st t).1 =
        inForce f.cutoff (barDur f.bpm f.span f.sr).toUsize (placed f) t) := by
    intro t
    induction t with
    | zero => intro _; rw [h0]; exact ⟨rfl, (inForce_zero _ _ _).symm⟩
    | succ t ih =>
      intro ht
      obtain ⟨i1, i2⟩ := ih (by omega)
      obtain ⟨y, _, h2⟩ := hst t _ (List.getElem?_eq_getElem (show t < xs.length by omega))
      have h3 := congrArg Prod.fst (Except.ok.inj h2)
      simp only [rlpfPure] at h3
      rw [← h3, inForce_succ, ← i2]
      simp only [i1, and_self]
  have := biquad_eq (mem := fun s : Fl × Nat × Biquad => s.2.2) (inp := id) h rfl
    (fun t => rlpfCoef m (inForce f.cutoff (barDur f.bpm f.span f.sr).toUsize (placed f) t) f.q f.sr) st h0 (fun t x hx => by
      obtain ⟨y, h1, h2⟩ := hst t x hx
      refine ⟨y, h1, h2, ?_⟩
      have h3 := Except.ok.inj h2
      simp only [rlpfPure] at h3
      rw [(hinv t (List.getElem?_eq_some_iff.mp hx).1).2] at h3
      have h4 := congrArg Prod.fst h3
      have h5 := congrArg Prod.snd h3
      simp only at h4 h5
      rw [← h4, ← h5]
      rfl)
  rwa [List.map_id] at this

/-- A low pass without modulation. -/
theorem lpf_blocks {P : Plat} {N : Nat} {env : Env} {c : Comp} {f : Rlpf}
    (hc : makeNode P N env.samples env.sr env.bpm env.seed c = .ok (fresh N 1 (.prim (.rlpf f)), c.refs))
    (h0 : f.mem = Biquad.zero) (hs : f.step = 0) (ho : f.order = [])
    (h : f.pattern = [] ∨ 1 ≤ (barDur f.bpm f.span f.sr).toUsize) (k : Nat) (mono : Bool) (xs : List (List (Fl × Fl))) :
    ∃ outs ys, play P N env c [.index k] (oneFrom k mono xs) = .ok outs ∧ channel 0 outs = some ys ∧
      LaggingEq (fun t => lowPass P.libm f.sr (inForce f.cutoff (barDur f.bpm f.span f.sr).toUsize (placed f) t) f.q)
        (lefts xs) ys := by
  obtain ⟨o, h1, h2⟩ := blocks_lefts (P := P) (N := N) (env := env) (c := c) (msgs := [.index k])
    (fun s => .prim (.rlpf { f with cutoff := s.1, step := s.2.1, mem := s.2.2, order := [k] }))
    (rlpfPure P.libm f) (f.cutoff, 0, Biquad.zero) k mono xs hc ⟨_, rfl⟩
    (by obtain ⟨p, sp, bpm, sr, cu, q, mem, st, od⟩ := f; simp only at h0 hs ho; subst h0 hs ho; rfl)
    (fun s x b => by
      have hst := rlpfStep_pure (m := P.libm) h
      simp only [procG, procPrim, procRlpf, chan_bufsOf, bind, Except.bind]
      have : rlpfStep P.libm { f with cutoff := s.1, step := s.2.1, mem := s.2.2, order := [k] } = rlpfStep P.libm f := rfl
      rw [this, hst, runM_pure]
      rfl)
  exact ⟨o, _, h1, h2, lpf_run _ _ _⟩

/-- **C56** for `lpf` with a number (partial): the output follows the equation of the resonant low pass at the sample rate of the
engine over all blocks, except that the term of the current sample is missing. -/
theorem c56_lpf_partial (P : Plat) (N : Nat) (env : Env) (cutoff q : Fl) (k : Nat) (mono : Bool) (xs : List (List (Fl × Fl))) :
    ∃ outs ys, play P N env (.lpf (.num cutoff) q) [.index k] (oneFrom k mono xs) = .ok outs ∧ channel 0 outs = some ys ∧
      LaggingEq (fun _ => lowPass P.libm env.sr cutoff q) (lefts xs) ys := by
  obtain ⟨o, ys, h1, h2, h3⟩ := lpf_blocks (P := P) (N := N) (env := env) (c := .lpf (.num cutoff) q)
    (f := Rlpf.new cutoff q [] (.fin 1) (.fin 120) env.sr) rfl rfl rfl rfl (.inl rfl) k mono xs
  refine ⟨o, ys, h1, h2, ?_⟩
  have : (fun _ : Nat => lowPass P.libm env.sr cutoff q) = fun t => lowPass P.libm env.sr
      (inForce cutoff (barDur (.fin 120) (.fin 1) env.sr).toUsize [] t) q := by
    funext t
    have : (List.range (t + 1)).flatMap (fun u => (([] : List (Fl × Nat)).filter
        (fun e => u % (barDur (.fin 120) (.fin 1) env.sr).toUsize = e.2)).map Prod.fst) = [] :=
      List.flatMap_eq_nil_iff.mpr (fun _ _ => rfl)
    rw [inForce, this]
    rfl
  rw [this]
  exact h3

/-- **C56** for `lpf` with a pattern (partial): the cutoff in force at each sample is that of the pattern in a bar of `span` times
four beats, 20 before the first value; the places within the bar are as in C46. -/
theorem c56_lpf_pattern_partial (P : Plat) (N : Nat) (env : Env) (e : List (Fl × Fl)) (span q : Fl) (k : Nat) (mono : Bool)
    (xs : List (List (Fl × Fl))) (bar : Nat)
    (hbar : bar = ((.fin 60 /. env.bpm *. .fin 4) *. span *. Fl.ofNat f32 env.sr).toUsize) (h1 : 1 ≤ bar) :
    ∃ outs ys, play P N env (.lpf (.pattern (e.map (fun v => (.num v.1, v.2))) span) q) [.index k] (oneFrom k mono xs) = .ok outs ∧
      channel 0 outs = some ys ∧
      LaggingEq (fun t => lowPass P.libm env.sr (inForce (.fin 20) bar
        (e.map (fun v => (v.1, (v.2 *. (.fin 60 /. env.bpm *. .fin 4) *. Fl.ofNat f32 env.sr).toUsize))) t) q) (lefts xs) ys := by
  have hn : patternNums (e.map (fun v => (.num v.1, v.2))) = e := by
    simp [patternNums, List.map_map, Function.comp_def]
  obtain ⟨o, ys, g1, g2, g3⟩ := lpf_blocks (P := P) (N := N) (env := env)
    (c := .lpf (.pattern (e.map (fun v => (.num v.1, v.2))) span) q)
    (f := Rlpf.new (.fin 20) q e span env.bpm env.sr)
    (by simp [makeNode, makePrim, hn, makeRefs, bind, Except.bind]) rfl rfl rfl
    (.inr (by rw [hbar] at h1; exact h1)) k mono xs
  subst hbar
  exact ⟨o, ys, g1, g2, g3⟩

/-- **C56**, **C46**: the bar and the places of a pattern (of `lpf` or of samples) are those of the tempo up to one sample and the
rounding of f32. -/
theorem c56_pattern_times {bpm t : Fl} {sr : Nat} (hb : Within 1 (2 ^ 10) bpm) (h1 : 1 ≤ sr) (h2 : sr ≤ 2 ^ 24)
    (ht : t.isFinite = true) (t0 : t.val = 0 ∨ 1 / 2 ^ 40 ≤ t.val) (t1 : t.val ≤ 2 ^ 20) :
    |((.fin 60 /. bpm *. .fin 4 *. t *. Fl.ofNat f32 sr).toUsize : ℚ) - t.val * barSamples sr bpm.val| ≤
        1 + t.val * barSamples sr bpm.val / 2 ^ 20 ∧
      |((t *. (.fin 60 /. bpm *. .fin 4) *. Fl.ofNat f32 sr).toUsize : ℚ) - t.val * barSamples sr bpm.val| ≤
        1 + t.val * barSamples sr bpm.val / 2 ^ 20 := by
  have hsr1 : (1 : ℚ) ≤ sr := by exact_mod_cast h1
  have hsr2 : (sr : ℚ) ≤ 2 ^ 24 := by exact_mod_cast h2
  obtain ⟨f1, f2⟩ := f32_ofNat h2
  obtain ⟨b0, b1, b2⟩ := hb
  have hbp : 0 < bpm.val := by linarith
  have d1 : 60 / bpm.val ≤ 60 := by rw [div_le_iff₀ hbp]; linarith
  have d2 : 1 / 2 ^ 10 ≤ 60 / bpm.val := by
    rw [le_div_iff₀ hbp]
    have : (1 : ℚ) / 2 ^ 10 * 2 ^ 10 = 1 := by norm_num
    nlinarith
  have tn : 0 ≤ t.val := by
    rcases t0 with h | h
    · exact h.ge
    · exact le_trans (by norm_num) h
  have c1 := Rel.div (f := f32) (Rel.of_eq (x := .fin 60) (X := 60) rfl (by norm_num) rfl)
    (Rel.of_eq (x := bpm) b0 hbp.le rfl) (by norm_num) hbp (.inr (le_trans (by norm_num) d2)) (le_trans d1 (by norm_num))
  have c2 := c1.mul (f := f32) (Rel.of_eq (x := .fin 4) (X := 4) rfl (by norm_num) rfl) (by norm_num)
    (.inr (by linarith)) (by linarith)
  have hc : 60 / bpm.val * 4 = 240 / bpm.val := by ring
  rw [hc] at c2
  have e1 : 240 / bpm.val ≤ 240 := by rw [← hc]; linarith
  have e2 : 1 / 2 ^ 8 ≤ 240 / bpm.val := by rw [← hc]; linarith
  have rt := Rel.of_eq (x := t) ht tn rfl
  have hct1 : 240 / bpm.val * t.val ≤ 2 ^ 28 := by
    calc 240 / bpm.val * t.val ≤ 240 * 2 ^ 20 := mul_le_mul e1 t1 tn (by norm_num)
      _ ≤ 2 ^ 28 := by norm_num
  have hct0 : 240 / bpm.val * t.val = 0 ∨ 1 / 2 ^ 48 ≤ 240 / bpm.val * t.val := by
    rcases t0 with h | h
    · left; rw [h, mul_zero]
    · right
      calc (1 : ℚ) / 2 ^ 48 = 1 / 2 ^ 8 * (1 / 2 ^ 40) := by norm_num
        _ ≤ 240 / bpm.val * t.val := mul_le_mul e2 h (by norm_num) (le_trans (by norm_num) e2)
  have rs := Rel.of_eq (x := Fl.ofNat f32 sr) (X := sr) f1 (by positivity) f2
  have hall1 : 240 / bpm.val * t.val * sr ≤ 2 ^ 52 := by
    calc 240 / bpm.val * t.val * sr ≤ 2 ^ 28 * 2 ^ 24 := mul_le_mul hct1 hsr2 (by positivity) (by norm_num)
      _ = 2 ^ 52 := by norm_num
  have hall0 : 240 / bpm.val * t.val * sr = 0 ∨ 1 / 2 ^ 48 ≤ 240 / bpm.val * t.val * sr := by
    rcases hct0 with h | h
    · left; rw [h, zero_mul]
    · right
      calc (1 : ℚ) / 2 ^ 48 = 1 / 2 ^ 48 * 1 := by ring
        _ ≤ _ := mul_le_mul h hsr1 (by norm_num) (le_trans (by norm_num) h)
  have hX : 240 / bpm.val * t.val * sr = t.val * barSamples sr bpm.val := by rw [barSamples]; ring
  have weak : ∀ {X : ℚ}, (X = 0 ∨ 1 / 2 ^ 48 ≤ X) → (X = 0 ∨ 1 / 2 ^ 100 ≤ X) := fun h =>
    h.imp id (le_trans (by norm_num))
  constructor
  · have c3 := (c2.mul (f := f32) rt (by norm_num) (weak hct0) (le_trans hct1 (by norm_num))).mul (f := f32) rs (by norm_num)
      (weak hall0) (le_trans hall1 (by norm_num))
    rw [hX] at c3 hall1
    exact c3.toUsize (by norm_num) (le_trans hall1 (by norm_num))
  · rw [mul_comm] at hct0 hct1
    rw [mul_comm (240 / bpm.val)] at hall0 hall1 hX
    have c3 := (rt.mul (f := f32) c2 (by norm_num) (weak hct0) (le_trans hct1 (by norm_num))).mul (f := f32) rs (by norm_num)
      (weak hall0) (le_trans hall1 (by norm_num))
    rw [hX] at c3 hall1
    exact c3.toUsize (by norm_num) (le_trans hall1 (by norm_num))

/-! ### A reference as the cutoff -/

/-- The samples of two inputs, each with the first sample of the second input in its block. -/
def withFirst (x : List ((Fl × Fl) × (Fl × Fl))) : List (((Fl × Fl) × (Fl × Fl)) × Fl) :=
  x.map (fun p => (p, (x.map (fun p => p.2.1)).headD (.fin 0)))

theorem withFirst_at {N : Nat} {xs : List (List ((Fl × Fl) × (Fl × Fl)))} (hs : Sized N xs) {t : Nat}
    {p : ((Fl × Fl) × (Fl × Fl)) × Fl} (h : (xs.map withFirst).flatten[t]? = some p) :
    p.2 = (xs.flatten.map (fun p => p.2.1)).getD (t / N * N) (.fin 0) := by
  induction xs generalizing t with
  | nil => cases h
  | cons x xs ih =>
    have hx : x.length = N := hs x (by simp)
    rw [List.map_cons, List.flatten_cons] at h
    by_cases ht : t < N
    · rw [List.getElem?_append_left (by simp [withFirst, hx, ht])] at h
      simp only [withFirst, List.getElem?_map, Option.map_eq_some_iff] at h
      obtain ⟨q, _, rfl⟩ := h
      rw [Nat.div_eq_of_lt ht, Nat.zero_mul]
      cases x with
      | nil => simp at hx; omega
      | cons a x => simp
    · have hl : (withFirst x).length = N := by simp [withFirst, hx]
      rw [List.getElem?_append_right (by omega), hl] at h
      rcases Nat.eq_zero_or_pos N with h0 | h0
      · subst h0
        have := ih (fun y hy => hs y (by simp [hy])) h
        simp only [Nat.sub_zero, Nat.mul_zero] at this ⊢
        rw [this, List.flatten_cons, List.length_eq_zero_iff.mp hx, List.nil_append]
      · rw [ih (fun y hy => hs y (by simp [hy])) h, List.flatten_cons, List.map_append]
        have e : t / N * N = N + (t - N) / N * N := by
          obtain ⟨u, rfl⟩ := Nat.exists_eq_add_of_le (Nat.le_of_not_lt ht)
          rw [Nat.add_sub_cancel_left, Nat.add_div_left _ h0, Nat.succ_mul, Nat.add_comm]
        rw [List.getD_eq_getElem?_getD, List.getD_eq_getElem?_getD, e,
          List.getElem?_append_right (by simp [hx]), List.length_map, hx, Nat.add_sub_cancel_left]

/-- One sample of a filter whose coefficients come with the sample, which counts. -/
def countStep (co : Fl → Coef) (s : Biquad × Nat) (p : Fl × Fl) : (Biquad × Nat) × Fl :=
  (((biquadStep (co p.2) s.1 p.1).1, s.2 + 1), (biquadStep (co p.2) s.1 p.1).2)

theorem count_run (co : Fl → Coef) (c : Fl) (s : Biquad × Nat) (xs : List Fl) :
    run (countStep co) s (xs.map (fun x => (x, c))) =
      (((run (biquadStep (co c)) s.1 xs).1, s.2 + xs.length), (run (biquadStep (co c)) s.1 xs).2) := by
  induction xs generalizing s with
  | nil => rfl
  | cons x xs ih =>
    simp only [List.map_cons, run, ih, countStep, List.length_cons]
    simp only [Nat.add_assoc, Nat.add_comm 1]

/-- A filter whose cutoff is the first sample of the reference in each block. -/
theorem mod_blocks {P : Plat} {N : Nat} (hN : 1 ≤ N) {env : Env} {c : Comp} {d : NodeData (GNode P) Buf} {refs : List Name}
    (wrap : Biquad × Nat → GNode P) (co : Fl → Coef) (swap mk mj : Bool) (k j : Nat)
    (h1 : makeNode P N env.samples env.sr env.bpm env.seed c = .ok (d, refs)) (hd : ∃ b, d.buffers = [b])
    (h2 : sendMsgs d.node [.index k, .index j] = .ok (wrap (Biquad.zero, 0)))
    (H : ∀ s (x y : List (Fl × Fl)) b c0 cs, y.map Prod.fst = c0 :: cs →
      procG P (wrap s) (if swap then [(j, bufsOf mj y), (k, bufsOf mk x)] else [(k, bufsOf mk x), (j, bufsOf mj y)]) [b] =
      .ok (wrap ((run (biquadStep (co c0)) s.1 (x.map Prod.fst)).1, s.2 + x.length),
        [(run (biquadStep (co c0)) s.1 (x.map Prod.fst)).2]))
    (xs : List (List ((Fl × Fl) × (Fl × Fl)))) (hs : Sized N xs) :
    ∃ outs ys, play P N env c [.index k, .index j] (twoFrom swap k j mk mj xs) = .ok outs ∧ channel 0 outs = some ys ∧
      LaggingEq (fun t => coefs (co ((xs.flatten.map (fun p => p.2.1)).getD (t / N * N) (.fin 0))))
        (xs.flatten.map (fun p => p.1.1)) ys := by
  let f : Biquad × Nat → (((Fl × Fl) × (Fl × Fl)) × Fl) → (Biquad × Nat) × Fl := fun s p => countStep co s (p.1.1.1, p.2)
  obtain ⟨o, g1, g2⟩ := blocks_mono (procG P) wrap (fun s p => .ok (f s p))
    (fun x => if swap then [(j, bufsOf mj ((x.map Prod.fst).map Prod.snd)), (k, bufsOf mk ((x.map Prod.fst).map Prod.fst))]
      else [(k, bufsOf mk ((x.map Prod.fst).map Prod.fst)), (j, bufsOf mj ((x.map Prod.fst).map Prod.snd))])
    (fun o => ∃ b, o = [b]) (xs.map withFirst)
    (fun s x out hx ho => by
      obtain ⟨b, rfl⟩ := ho
      obtain ⟨x, hm, rfl⟩ := List.mem_map.mp hx
      have hl := hs x hm
      cases x with
      | nil => simp at hl; omega
      | cons a x =>
        have e : (withFirst (a :: x)).map Prod.fst = a :: x := by simp [withFirst, Function.comp_def]
        have r : run f s (withFirst (a :: x)) = run (countStep co) s (((a :: x).map (fun p => p.1.1)).map (fun v => (v, a.2.1))) := by
          generalize hz : a :: x = z
          have : ∀ (z : List ((Fl × Fl) × (Fl × Fl))) s, run f s (z.map (fun p => (p, a.2.1))) =
              run (countStep co) s ((z.map (fun p => p.1.1)).map (fun v => (v, a.2.1))) := by
            intro z
            induction z with
            | nil => intro s; rfl
            | cons p z ih => intro s; simp only [List.map_cons, run, ih, f]
          have hw : withFirst z = z.map (fun p => (p, a.2.1)) := by subst hz; rfl
          rw [hw, this]
        rw [runM_pure f, e, H s _ _ b a.2.1 (x.map (fun p => p.2.1)) (by simp [Function.comp_def]), r, count_run]
        simp [blockOf, Function.comp_def])
    (fun _ _ _ _ _ => ⟨_, rfl⟩) (Biquad.zero, 0) d.buffers hd _ (runM_pure f (Biquad.zero, 0) (xs.map withFirst).flatten)
  refine ⟨o, _, play_ok h1 h2 ?_, g2, ?_⟩
  · have : twoFrom swap k j mk mj xs = (xs.map withFirst).map (fun x => if swap then
        [(j, bufsOf mj ((x.map Prod.fst).map Prod.snd)), (k, bufsOf mk ((x.map Prod.fst).map Prod.fst))]
        else [(k, bufsOf mk ((x.map Prod.fst).map Prod.fst)), (j, bufsOf mj ((x.map Prod.fst).map Prod.snd))]) := by
      rw [List.map_map]
      apply List.map_congr_left
      intro x _
      have e : (withFirst x).map Prod.fst = x := by simp [withFirst, Function.comp_def]
      simp only [Function.comp_apply, e]
    rw [this]
    exact g1
  · have h := runM_pure f (Biquad.zero, 0) (xs.map withFirst).flatten
    obtain ⟨st, s0, _, hst⟩ := runM_states h
    have := biquad_eq (mem := Prod.fst) (inp := fun p : ((Fl × Fl) × (Fl × Fl)) × Fl => p.1.1.1) h rfl
      (fun t => co ((xs.flatten.map (fun p => p.2.1)).getD (t / N * N) (.fin 0))) st s0 (fun t x hx => by
        obtain ⟨y, y1, y2⟩ := hst t x hx
        refine ⟨y, y1, y2, ?_⟩
        have e := Except.ok.inj y2
        rw [← withFirst_at hs hx]
        have e1 := congrArg (fun r => r.1.1) e
        have e2 := congrArg Prod.snd e
        simp only at e1 e2
        rw [← e1, ← e2]
        rfl)
    have e : (xs.map withFirst).flatten.map (fun p => p.1.1.1) = xs.flatten.map (fun p => p.1.1) := by
      rw [List.map_flatten, List.map_flatten, List.map_map]
      congr 1
      apply List.map_congr_left
      intro x _
      simp [withFirst, Function.comp_def]
    rwa [e] at this

/-- **C56** for `rhpf` with a reference (partial): the cutoff in each block is the first sample of the reference in the block. -/
theorem c56_rhpf_mod_partial (P : Plat) (N : Nat) (hN : 1 ≤ N) (env : Env) (hsr : env.sr = 44100) (r : Name) (q : Fl)
    (swap mk mj : Bool) (k j : Nat) (hkj : k ≠ j) (xs : List (List ((Fl × Fl) × (Fl × Fl)))) (hs : Sized N xs) :
    ∃ outs ys, play P N env (.rhpf (.ref r) q) [.index k, .index j] (twoFrom swap k j mk mj xs) = .ok outs ∧
      channel 0 outs = some ys ∧
      LaggingEq (fun t => highPass P.libm env.sr ((xs.flatten.map (fun p => p.2.1)).getD (t / N * N) (.fin 0)) q)
        (xs.flatten.map (fun p => p.1.1)) ys := by
  rw [hsr]
  have hjk : j ≠ k := fun h => hkj h.symm
  exact mod_blocks hN (fun s => .prim (.rhpf { Rhpf.new (.fin 100) q with mem := s.1, order := [k, j] }))
    (fun c => rhpfCoef P.libm c q 44100) swap mk mj k j rfl ⟨_, rfl⟩ rfl
    (fun s x y b c0 cs h => by
      cases swap <;>
        simp [procG, procPrim, procRhpf, inputAt, hkj, hjk, chan_bufsOf, bind, Except.bind, reState, h, firstSample, Rhpf.new]) xs hs

/-- **C56** for `lpf` with a reference (partial): the cutoff in each block is the first sample of the reference in the block. -/
theorem c56_lpf_mod_partial (P : Plat) (N : Nat) (hN : 1 ≤ N) (env : Env) (r : Name) (q : Fl)
    (swap mk mj : Bool) (k j : Nat) (hkj : k ≠ j) (xs : List (List ((Fl × Fl) × (Fl × Fl)))) (hs : Sized N xs) :
    ∃ outs ys, play P N env (.lpf (.ref r) q) [.index k, .index j] (twoFrom swap k j mk mj xs) = .ok outs ∧
      channel 0 outs = some ys ∧
      LaggingEq (fun t => lowPass P.libm env.sr ((xs.flatten.map (fun p => p.2.1)).getD (t / N * N) (.fin 0)) q)
        (xs.flatten.map (fun p => p.1.1)) ys := by
  have hjk : j ≠ k := fun h => hkj h.symm
  exact mod_blocks hN (fun s => .prim (.rlpf { Rlpf.new (.fin 20) q [] (.fin 1) (.fin 120) env.sr with
      mem := s.1, step := s.2, order := [k, j] }))
    (fun c => rlpfCoef P.libm c q env.sr) swap mk mj k j rfl ⟨_, rfl⟩ rfl
    (fun s x y b c0 cs h => by
      cases swap <;>
        simp [procG, procPrim, procRlpf, inputAt, hkj, hjk, chan_bufsOf, bind, Except.bind, reState, h, firstSample, Rlpf.new]) xs hs

/-! ### apfmsgain -/

theorem ring_head {r : Ring} (h : r.Wf) {x : Fl} {l : List Fl} (hc : r.contents = x :: l) : r.get 0 = .ok x := by
  have h' : r.first < r.data.length := h
  rw [Ring.contents, List.drop_eq_getElem_cons h', List.cons_append, List.cons.injEq] at hc
  have h0 : r.data.length ≠ 0 := by omega
  simp [Ring.get, h0, Nat.mod_eq_of_lt h', h', hc.1]

/-- The last `d` samples before sample `t`, the oldest first. -/
def window (d : Nat) (xs : List Fl) (t : Nat) : List Fl := (List.range d).map (fun i => before xs t (d - i))

theorem window_zero (d : Nat) (xs : List Fl) : window d xs 0 = List.replicate d (.fin 0) := by
  rw [List.eq_replicate_iff]
  refine ⟨by simp [window], ?_⟩
  intro y hy
  obtain ⟨i, hi, rfl⟩ := List.mem_map.mp hy
  obtain ⟨k, hk⟩ : ∃ k, d - i = k + 1 := ⟨d - i - 1, by have := List.mem_range.mp hi; omega⟩
  rw [hk, before_start]

theorem window_push {d : Nat} {xs : List Fl} {t : Nat} {x : Fl} {l : List Fl} (h : window (d + 1) xs t = x :: l) :
    x = before xs t (d + 1) ∧ window (d + 1) xs (t + 1) = l ++ [before xs t 0] := by
  rw [window, List.range_succ_eq_map, List.map_cons, List.cons.injEq] at h
  refine ⟨h.1.symm, ?_⟩
  rw [← h.2, window, List.range_succ, List.map_append]
  congr 1
  · rw [List.map_map]
    apply List.map_congr_left
    intro i hi
    have := List.mem_range.mp hi
    simp only [Function.comp_apply]
    rw [show d + 1 - i = d - i + 1 by omega, before_succ, show d + 1 - (i + 1) = d - i by omega]
  · rw [List.map_singleton, show d + 1 - d = 0 + 1 by omega, before_succ]

theorem window_cons (d : Nat) (xs : List Fl) (t : Nat) : ∃ x l, window (d + 1) xs t = x :: l := by
  rw [window, List.range_succ_eq_map, List.map_cons]
  exact ⟨_, _, rfl⟩

theorem apf_run (g : Fl) (d : Nat) (hd : 1 ≤ d) (xs : List Fl) :
    ∃ r, runM (apfStep g) (⟨List.replicate d (.fin 0), 0⟩, ⟨List.replicate d (.fin 0), 0⟩) xs = .ok r ∧ AllPassEq g d xs r.2 := by
  obtain ⟨r, hr, -⟩ := runM_total (I := fun s : Ring × Ring => s.1.Wf ∧ s.2.Wf) (J := fun _ => True) (apfStep g)
    (fun s x hs _ => by
      obtain ⟨r1, x1, l1, a1, a2, a3, _⟩ := Ring.push_spec hs.1 x
      obtain ⟨r2, x2, l2, b1, b2, b3, _⟩ := Ring.push_spec hs.2 (apfOut g x x1 ((s.2.contents).headD (.fin 0)))
      rw [b2] at b1
      refine ⟨((r1, r2), apfOut g x x1 x2), ?_, a3, b3⟩
      simp only [apfStep, ring_head hs.1 a2, ring_head hs.2 b2, bind, Except.bind, a1]
      simp only [List.headD_cons] at b1
      rw [b1])
    (⟨List.replicate d (.fin 0), 0⟩, ⟨List.replicate d (.fin 0), 0⟩) ⟨Ring.wf_zeros hd, Ring.wf_zeros hd⟩ xs (fun _ _ => trivial)
  refine ⟨r, hr, runM_length hr, ?_⟩
  obtain ⟨st, h0, _, hst⟩ := runM_states hr
  obtain ⟨d, rfl⟩ : ∃ k, d = k + 1 := ⟨d - 1, by omega⟩
  have key : ∀ t, t < xs.length → (st t).1.Wf → (st t).2.Wf → (st t).1.contents = window (d + 1) xs t →
      (st t).2.contents = window (d + 1) r.2 t →
      r.2[t]? = some (Fl.neg g *. before xs t 0 +. before xs t (d + 1) +. g *. before r.2 t (d + 1)) ∧
        (st (t + 1)).1.Wf ∧ (st (t + 1)).2.Wf ∧ (st (t + 1)).1.contents = window (d + 1) xs (t + 1) ∧
        (st (t + 1)).2.contents = window (d + 1) r.2 (t + 1) := by
    intro t ht w1 w2 c1 c2
    have hx := List.getElem?_eq_getElem ht
    obtain ⟨y, y1, y2⟩ := hst t _ hx
    obtain ⟨u, l, hu⟩ := window_cons d xs t
    obtain ⟨v, m, hv⟩ := window_cons d r.2 t
    obtain ⟨u1, u2⟩ := window_push hu
    obtain ⟨v1, v2⟩ := window_push hv
    rw [hu] at c1
    rw [hv] at c2
    obtain ⟨r1, x1, l1, a1, a2, a3, a4⟩ := Ring.push_spec w1 xs[t]
    obtain ⟨r2, x2, l2, b1, b2, b3, b4⟩ := Ring.push_spec w2 (apfOut g xs[t] u v)
    rw [a2, List.cons.injEq] at c1
    rw [b2, List.cons.injEq] at c2
    obtain ⟨rfl, rfl⟩ := c1
    obtain ⟨rfl, rfl⟩ := c2
    simp only [apfStep, ring_head w1 a2, ring_head w2 b2, bind, Except.bind, a1, b1, Except.ok.injEq, Prod.mk.injEq] at y2
    obtain ⟨y2, y3⟩ := y2
    have e1 : before xs t 0 = xs[t] := by rw [before_zero]; exact getD_of hx
    have e2 : before r.2 t 0 = y := by rw [before_zero]; exact getD_of y1
    rw [← y2, e1, ← u1, ← v1, u2, v2, e1, e2, ← y3]
    exact ⟨by rw [y1, ← y3]; rfl, a3, b3, a4, b4⟩
  have inv : ∀ t, t ≤ xs.length → (st t).1.Wf ∧ (st t).2.Wf ∧ (st t).1.contents = window (d + 1) xs t ∧
      (st t).2.contents = window (d + 1) r.2 t := by
    intro t
    induction t with
    | zero =>
      intro _
      rw [h0, window_zero, window_zero]
      exact ⟨Ring.wf_zeros hd, Ring.wf_zeros hd, Ring.contents_zeros _, Ring.contents_zeros _⟩
    | succ t ih =>
      intro ht
      obtain ⟨i1, i2, i3, i4⟩ := ih (by omega)
      exact (key t (by omega) i1 i2 i3 i4).2
  intro t ht
  obtain ⟨i1, i2, i3, i4⟩ := inv t ht.le
  exact (key t ht i1 i2 i3 i4).1

theorem runM_lefts {σ : Type} (f : σ → Fl → Except Panic (σ × Fl)) (s : σ) (x : List (Fl × Fl)) :
    runM (fun s (p : Fl × Fl) => f s p.1) s x = runM f s (x.map Prod.fst) := by
  induction x generalizing s with
  | nil => rfl
  | cons p x ih => simp only [runM, List.map_cons, ih]

/-- **C56** for `apfmsgain` with numbers (partial: at least three samples of delay): the output is the solution of the equation
of the all pass, with the delay the milliseconds stand for up to one sample and rounding, over all blocks. Missing: the output is
on the left only, and of a stereo input only the left channel is used. -/
theorem c56_apfmsgain_partial (P : Plat) (N : Nat) (env : Env) (d g : Fl) (h1 : 1 ≤ env.sr) (h2 : env.sr ≤ 2 ^ 24)
    (hd : d.isFinite = true) (hq : 3 ≤ d.val * env.sr / 1000) (hq2 : d.val ≤ 2 ^ 30) (k : Nat) (mono : Bool)
    (xs : List (List (Fl × Fl))) (hs : Sized N xs) :
    ∃ outs ys n, play P N env (.apfmsgain (.num d) g) [.index k] (oneFrom k mono xs) = .ok outs ∧ channel 0 outs = some ys ∧
      channel 1 outs = some (List.replicate (lefts xs).length (.fin 0)) ∧ AllPassEq g n (lefts xs) ys ∧
      |(n : ℚ) - d.val * env.sr / 1000| ≤ 1 + d.val * env.sr / 1000 / 2 ^ 22 := by
  have hsr : (0 : ℚ) < env.sr := by exact_mod_cast h1
  have hd0 : 0 < d.val := by
    by_contra hn
    have : d.val * env.sr ≤ 0 := mul_nonpos_of_nonpos_of_nonneg (not_lt.mp hn) hsr.le
    linarith
  have hcl := msToSamples_close h1 h2 hd hd0.le hq2
  have hn2 : 2 ≤ (msToSamples env.sr d).toUsize := by
    by_contra hn
    have hm : max (msToSamples env.sr d).toUsize 1 = 1 := by omega
    rw [hm, abs_le] at hcl
    push_cast at hcl
    linarith [hcl.1]
  rw [Nat.max_eq_left (by omega)] at hcl
  have hne : Fl.beq d (.fin 0) = false := by
    cases d with
    | nan => rfl
    | inf b => rfl
    | nz => simp [Fl.val] at hd0
    | fin q =>
      have : q ≠ 0 := ne_of_gt hd0
      simp [Fl.beq, Fl.val, this]
  have hnew : Apf.new env.sr d g = .ok ⟨g, ⟨List.replicate (msToSamples env.sr d).toUsize (.fin 0), 0⟩,
      ⟨List.replicate (msToSamples env.sr d).toUsize (.fin 0), 0⟩, env.sr, []⟩ := by
    have : List.replicate (msToSamples env.sr d).toUsize (Fl.fin 0) ≠ [] := by
      rw [Ne, List.replicate_eq_nil_iff]; omega
    simp [Apf.new, hne, Ring.from', bind, Except.bind, show (msToSamples env.sr d).toUsize ≠ 0 by omega]
  obtain ⟨r, hr, he⟩ := apf_run g (msToSamples env.sr d).toUsize (by omega) (lefts xs)
  obtain ⟨o, g1, g2, g3⟩ := blocks_left (procG P)
    (fun s : Ring × Ring => .prim (.apf ⟨g, s.1, s.2, env.sr, [k]⟩)) (fun s (p : Fl × Fl) => apfStep g s p.1)
    (fun x => [(k, bufsOf mono x)]) N xs hs
    (fun s x a b _ _ => by
      rw [runM_lefts]
      simp only [procG, procPrim, procApf, inputAt, List.getElem?_cons_zero, List.find?_cons_of_pos, BEq.rfl, chan_bufsOf,
        bind, Except.bind]
      cases runM (apfStep g) s (x.map Prod.fst) <;> rfl)
    (⟨List.replicate (msToSamples env.sr d).toUsize (.fin 0), 0⟩, ⟨List.replicate (msToSamples env.sr d).toUsize (.fin 0), 0⟩)
    _ (leftOnly_fresh N (GNode.prim (P := P) (.apf ⟨g, ⟨List.replicate (msToSamples env.sr d).toUsize (.fin 0), 0⟩,
      ⟨List.replicate (msToSamples env.sr d).toUsize (.fin 0), 0⟩, env.sr, []⟩))) r
    (by rw [runM_lefts]; exact hr)
  refine ⟨o, r.2, _, play_ok (d := fresh N 2 (GNode.prim (P := P) (.apf ⟨g, ⟨List.replicate (msToSamples env.sr d).toUsize
    (.fin 0), 0⟩, ⟨List.replicate (msToSamples env.sr d).toUsize (.fin 0), 0⟩, env.sr, []⟩))) (refs := []) ?_ rfl g1, g2,
    ?_, he, hcl⟩
  · simp only [makeNode, makePrim, NumRef.value, hnew, liftP, bind, Except.bind, makeRefs]
    rfl
  · rw [g3, lefts, List.length_map]

/-! ### Disagreements -/

/-- **C56** fails for `rhpf`: the term of the current sample is missing. Whatever the platform, as long as `sin 0 = 0` and
`cos 0 = 1`: with a cutoff of 0 nothing is to be filtered out, so that the first sample should be the first of the input; but it
is silent. -/
theorem c56_rhpf_counterexample (P : Plat) (N : Nat) (env : Env) (hsr : env.sr = 44100) (hs : P.libm.sin (.fin 0) = .fin 0)
    (hc : P.libm.cos (.fin 0) = .fin 1) (k : Nat) :
    ∃ outs ys, play P N env (.rhpf (.num (.fin 0)) (.fin 1)) [.index k] (oneFrom k true [[(.fin 1, .fin 1)]]) = .ok outs ∧
      channel 0 outs = some ys ∧ (highPass P.libm env.sr (.fin 0) (.fin 1)).a0 = .fin 1 ∧ ys = [.fin 0] ∧
      ¬ SecondOrderEq (fun _ => highPass P.libm env.sr (.fin 0) (.fin 1)) (lefts [[(.fin 1, .fin 1)]]) ys := by
  obtain ⟨o, ys, h1, h2, h3, h4⟩ := c56_rhpf_partial P N env hsr (.fin 0) (.fin 1) k true [[(.fin 1, .fin 1)]]
  have hang : angle (.fin 0) env.sr = .fin 0 := by rw [hsr]; decide +kernel
  have hco : highPass P.libm env.sr (.fin 0) (.fin 1) = ⟨.fin 1, .fin (-2), .fin 1, .fin (-2), .fin 1⟩ := by
    rw [highPass, gamma, beta, hang, hs, hc]; decide +kernel
  have hy : ys = [.fin 0] := by
    have := h4 0 (by decide)
    rw [hco, show before ys 0 1 = .fin 0 from before_start _ 0, show before ys 0 2 = .fin 0 from before_start _ 1] at this
    have e : ys[0]? = some (.fin 0) := this.trans (by decide +kernel)
    match ys, h3, e with
    | [y], _, e => exact congrArg (fun z => [z]) (Option.some.inj e)
  refine ⟨o, ys, h1, h2, by rw [hco], hy, ?_⟩
  rintro ⟨_, h⟩
  have := h 0 (by decide)
  rw [hco, hy] at this
  revert this
  decide +kernel

/-- A platform in which `sin` and `cos` have their values at the f32 nearest to π. -/
def atPi : Plat := ⟨{ Demo.libm with sin := fun _ => Fl.lit f32 (-8742278 / 10 ^ 14), cos := fun _ => .fin (-1) }, .ident, Demo.ext⟩

/-- **C56** fails for `lpf` too: with a cutoff of half the sample rate nearly all of the input is to pass, but the first
sample is silent. -/
theorem c56_lpf_counterexample (N : Nat) (env : Env) (hsr : env.sr = 44100) (k : Nat) :
    |(angle (.fin 22050) env.sr).val - flPi.val| ≤ 1 / 2 ^ 21 ∧
    ∃ outs ys, play atPi N env (.lpf (.num (.fin 22050)) (.fin 1)) [.index k] (oneFrom k true [[(.fin 1, .fin 1)]]) = .ok outs ∧
      channel 0 outs = some ys ∧ (ys.map Fl.val) = [0] ∧
      (99 / 100 : ℚ) < (lowPass atPi.libm env.sr (.fin 22050) (.fin 1)).a0.val ∧
      ¬ SecondOrderEq (fun _ => lowPass atPi.libm env.sr (.fin 22050) (.fin 1)) (lefts [[(.fin 1, .fin 1)]]) ys := by
  obtain ⟨o, ys, h1, h2, h3, h4⟩ := c56_lpf_partial atPi N env (.fin 22050) (.fin 1) k true [[(.fin 1, .fin 1)]]
  rw [hsr] at *
  have e0 := h4 0 (by decide)
  match ys, h3, e0, h1, h2, h4 with
  | [y], _, e0, h1, h2, _ =>
    have hy : y = (lowPass atPi.libm 44100 (.fin 22050) (.fin 1)).a0 *. .fin 0 +.
        (lowPass atPi.libm 44100 (.fin 22050) (.fin 1)).a1 *. .fin 0 +. (lowPass atPi.libm 44100 (.fin 22050) (.fin 1)).a2 *. .fin 0 -.
        (lowPass atPi.libm 44100 (.fin 22050) (.fin 1)).b1 *. .fin 0 -.
        (lowPass atPi.libm 44100 (.fin 22050) (.fin 1)).b2 *. .fin 0 := Option.some.inj e0
    refine ⟨by decide +kernel, o, [y], h1, h2, ?_, by decide +kernel, ?_⟩
    · rw [hy]; decide +kernel
    · rintro ⟨_, h⟩
      have := h 0 (by decide)
      rw [hy] at this
      revert this
      decide +kernel

/-- A platform with a coarse `cos`. -/
def coarse : Plat := ⟨{ Demo.libm with cos := fun x => if Fl.le x (.fin 1) then .fin 1 else .fin 0 }, .ident, Demo.ext⟩

/-- **C56** fails for `rhpf` at other sample rates than 44100: the coefficients are those of 44100. -/
theorem c56_rhpf_rate_counterexample (N : Nat) (env : Env) (hsr : env.sr = 88200) (k : Nat) :
    ∃ outs ys, play coarse N env (.rhpf (.num (.fin 10000)) (.fin 1)) [.index k]
        (oneFrom k true [[(.fin 1, .fin 1), (.fin 0, .fin 0)]]) = .ok outs ∧ channel 0 outs = some ys ∧
      LaggingEq (fun _ => highPass coarse.libm 44100 (.fin 10000) (.fin 1)) (lefts [[(.fin 1, .fin 1), (.fin 0, .fin 0)]]) ys ∧
      ¬ LaggingEq (fun _ => highPass coarse.libm env.sr (.fin 10000) (.fin 1)) (lefts [[(.fin 1, .fin 1), (.fin 0, .fin 0)]]) ys := by
  obtain ⟨o, ys, h1, h2, h3⟩ := c56_rhpf_partial coarse N { env with sr := 44100 } rfl (.fin 10000) (.fin 1) k true
    [[(.fin 1, .fin 1), (.fin 0, .fin 0)]]
  rw [rhpf_ignores_rate coarse N _ env] at h1
  refine ⟨o, ys, h1, h2, h3, ?_⟩
  rw [hsr]
  intro h4
  have h3 : LaggingEq (fun _ => highPass coarse.libm 44100 (.fin 10000) (.fin 1)) (lefts [[(.fin 1, .fin 1), (.fin 0, .fin 0)]]) ys := h3
  have a0 := h3.2 0 (by decide)
  have a1 := h3.2 1 (by decide)
  have b1 := h4.2 1 (by decide)
  have hl := h3.1
  match ys, hl, a0, a1, b1 with
  | [y, z], _, a0, a1, b1 =>
    have hy := Option.some.inj a0
    have e0 : y = .fin 0 := hy.trans (by kernel_rfl)
    subst e0
    have e1 : z = .fin (-1) := (Option.some.inj a1).trans (by kernel_rfl)
    subst e1
    revert b1
    decide +kernel

/-- A platform whose `exp` is right at 0 and at minus infinity. -/
def coarseExp : Plat := ⟨{ Demo.libm with exp := fun x => if Fl.beq x (.fin 0) then .fin 1 else .fin 0 }, .ident, Demo.ext⟩

/-- **C56** fails for `onepole` with a reference: `o: constant >> onepole ~r` filters `~r` at the rate of the signal: the
signal 1 should come out, since the rate 1/2 makes the coefficient 0, but the reference 1/2 does. -/
theorem c56_onepole_mod_counterexample (N : Nat) (env : Env) (r : Name) :
    ∃ outs ys, play coarseExp N env (.onepole (.ref r)) [.index 0, .index 1]
        (twoFrom false 0 1 true true [[((.fin 1, .fin 1), (.fin (1 / 2), .fin (1 / 2)))]]) = .ok outs ∧
      channel 0 outs = some ys ∧ ys = [.fin (1 / 2)] ∧
      ¬ OnePoleEq (fun _ => .fin 1 -. pole coarseExp.libm (.fin (1 / 2))) (fun _ => pole coarseExp.libm (.fin (1 / 2))) [.fin 1] ys := by
  obtain ⟨o, ys, h1, h2, h3, h4⟩ := c56_onepole_mod_partial coarseExp N env r false true true 0 1 (by decide)
    [[((.fin 1, .fin 1), (.fin (1 / 2), .fin (1 / 2)))]]
  have e0 := h4 0 (by decide)
  match ys, h3, e0, h1, h2 with
  | [y], _, e0, h1, h2 =>
    have hy : y = .fin (1 / 2) *. (.fin 1 -. pole coarseExp.libm (.fin 1)) +. pole coarseExp.libm (.fin 1) *. .fin 0 :=
      Option.some.inj e0
    have hy : y = .fin (1 / 2) := hy.trans (by decide +kernel)
    subst hy
    refine ⟨o, _, h1, h2, rfl, ?_⟩
    rintro ⟨_, h⟩
    have := h 0 (by decide)
    revert this
    decide +kernel

/-- **C56** fails for `apfmsgain` with a delay below one sample: it panics. -/
theorem c56_apfmsgain_counterexample (P : Plat) (N : Nat) (env : Env) (hsr : env.sr = 44100) (g : Fl) (msgs : List (Msg Fl))
    (ins : List Ins) :
    play P N env (.apfmsgain (.num (.fin (1 / 100))) g) msgs ins = .error (.panic .emptyRing) := by
  have hn : Apf.new env.sr (.fin (1 / 100)) g = .error .emptyRing := by
    have h0 : (if Fl.beq (.fin (1 / 100)) (.fin 0) then .fin 3 *. Fl.ofNat f32 44100
        else msToSamples 44100 (.fin (1 / 100))).toUsize = 0 := by decide +kernel
    rw [hsr, Apf.new, h0]
    rfl
  simp only [play, makeNode, makePrim, NumRef.value, hn, liftP, bind, Except.bind]

/-! ### Examples -/

/-- A rate whose coefficient is between 0 and 1. -/
example : Within 0 1 (pole coarseExp.libm (.fin (1 / 10))) ∧ (pole coarseExp.libm (.fin (1 / 10))).Ok f32 ∧
    ∀ x, x ∈ lefts [[(.fin 1, .fin 5), (.fin (-1), .fin 0)], [(.fin (1 / 2), .nan)]] → Within (-1) 1 x := by
  have e : pole coarseExp.libm (.fin (1 / 10)) = .fin 0 := by decide +kernel
  rw [e]
  refine ⟨⟨rfl, by norm_num [Fl.val], by norm_num [Fl.val]⟩, Fl.zero_ok, ?_⟩
  intro x hx
  simp only [lefts, List.flatten_cons, List.flatten_nil, List.append_nil, List.cons_append, List.nil_append, List.map_cons,
    List.map_nil, List.mem_cons, List.not_mem_nil, or_false] at hx
  rcases hx with rfl | rfl | rfl <;> exact ⟨rfl, by norm_num [Fl.val], by norm_num [Fl.val]⟩

/-- Two cutoffs in a bar of 88200 samples: the second begins in the middle. -/
example : ((.fin 60 /. .fin 120 *. .fin 4) *. .fin 1 *. Fl.ofNat f32 44100).toUsize = 88200 ∧
    (Fl.fin (1 / 2) *. (.fin 60 /. .fin 120 *. .fin 4) *. Fl.ofNat f32 44100).toUsize = 44100 := by decide +kernel

/-- A pattern in which the second value is in force from its place on, and the first again in the next bar. -/
example : (List.range 7).map (inForce (.fin 20) 4 [(.fin 300, 1), (.fin 500, 2)]) =
    [.fin 20, .fin 300, .fin 500, .fin 500, .fin 500, .fin 300, .fin 500] := by decide +kernel

/-- Ten milliseconds at 44.1 kHz. -/
example : (1 : Nat) ≤ 44100 ∧ (44100 : Nat) ≤ 2 ^ 24 ∧ (Fl.fin 10).isFinite = true ∧ (3 : ℚ) ≤ (Fl.fin 10).val * (44100 : Nat) / 1000 ∧
    (Fl.fin 10).val ≤ 2 ^ 30 ∧ Sized 2 [[((.fin 1, .fin 1) : Fl × Fl), (.fin 0, .fin 0)]] :=
  ⟨by decide, by decide, rfl, by norm_num [Fl.val], by norm_num [Fl.val], by
    intro x hx; simp at hx; subst hx; rfl⟩

/-- A tempo and a time. -/
example : Within 1 (2 ^ 10) (.fin 120) ∧ (Fl.fin (1 / 2)).isFinite = true ∧ 1 / 2 ^ 40 ≤ (Fl.fin (1 / 2)).val ∧
    (Fl.fin (1 / 2)).val ≤ 2 ^ 20 :=
  ⟨⟨rfl, by norm_num [Fl.val], by norm_num [Fl.val]⟩, rfl, by norm_num [Fl.val], by norm_num [Fl.val]⟩

/-- Two blocks of two samples from two nodes. -/
example : Sized 2 [[(((.fin 1, .fin 1), (.fin 100, .fin 0)) : (Fl × Fl) × (Fl × Fl)), ((.fin 0, .fin 0), (.fin 200, .fin 0))],
    [((.fin 1, .fin 1), (.fin 300, .fin 0)), ((.fin 0, .fin 0), (.fin 400, .fin 0))]] := by
  intro x hx
  simp only [List.mem_cons, List.not_mem_nil, or_false] at hx
  rcases hx with rfl | rfl <;> rfl

end Verif.Props
