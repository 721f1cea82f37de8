import Verif.Spec.AllPass
import Verif.Props.Live
import Verif.Lemmas.PlateStream

/-! # The all-pass filter, changed (C71) and modulated (C56) -/

namespace Verif.Props
open Spec

variable {P : Plat} {N : Nat} {env : Env}

theorem contents_length (r : Ring) (h : r.Wf) : r.contents.length = r.data.length := by
  have h' : r.first < r.data.length := h
  simp only [Ring.contents, List.length_append, List.length_drop, List.length_take]
  omega

/-- Two lines in step: each sample is computed from what the lines hold (`tap`), which is the past of the input and of the output. -/
theorem lines_run {ι : Type} {L : Nat} (hL : 1 ≤ L) (f : Ring × Ring → ι → Except Panic ((Ring × Ring) × Fl)) (g x : ι → Fl)
    (tap : ι → List Fl → Fl) (zs : List ι)
    (H : ∀ s i, i ∈ zs → s.1.Wf → s.2.Wf → s.1.contents.length = L → s.2.contents.length = L → ∀ r1 o1 r2 o2,
      s.1.push (x i) = .ok (r1, o1) →
      s.2.push (apfOut (g i) (x i) (tap i s.1.contents) (tap i s.2.contents)) = .ok (r2, o2) →
      f s i = .ok ((r1, r2), apfOut (g i) (x i) (tap i s.1.contents) (tap i s.2.contents))) :
    ∃ r, runM f (⟨List.replicate L (.fin 0), 0⟩, ⟨List.replicate L (.fin 0), 0⟩) zs = .ok r ∧ r.2.length = zs.length ∧
      ∀ t i, zs[t]? = some i → r.2[t]? = some (apfOut (g i) (x i) (tap i (window L (zs.map x) t)) (tap i (window L r.2 t))) := by
  have step : ∀ s i, i ∈ zs → s.1.Wf → s.2.Wf → s.1.contents.length = L → s.2.contents.length = L → ∃ r1 r2 u l v m,
      f s i = .ok ((r1, r2), apfOut (g i) (x i) (tap i s.1.contents) (tap i s.2.contents)) ∧ s.1.contents = u :: l ∧ s.2.contents = v :: m ∧
      r1.Wf ∧ r2.Wf ∧ r1.contents = l ++ [x i] ∧
      r2.contents = m ++ [apfOut (g i) (x i) (tap i s.1.contents) (tap i s.2.contents)] := by
    intro s i hi w1 w2 l1 l2
    obtain ⟨r1, o1, k1, a1, a2, a3, a4⟩ := Ring.push_spec w1 (x i)
    obtain ⟨r2, o2, k2, b1, b2, b3, b4⟩ := Ring.push_spec w2 (apfOut (g i) (x i) (tap i s.1.contents) (tap i s.2.contents))
    exact ⟨r1, r2, o1, k1, o2, k2, H s i hi w1 w2 l1 l2 r1 o1 r2 o2 a1 b1, a2, b2, a3, b3, a4, b4⟩
  obtain ⟨r, hr, -⟩ := runM_total (I := fun s : Ring × Ring => (s.1.Wf ∧ s.2.Wf) ∧ s.1.contents.length = L ∧ s.2.contents.length = L)
    (J := fun i => i ∈ zs) f
    (fun s i hs hi => by
      obtain ⟨r1, r2, u, l, v, m, h1, h2, h3, h4, h5, h6, h7⟩ := step s i hi hs.1.1 hs.1.2 hs.2.1 hs.2.2
      refine ⟨_, h1, ⟨h4, h5⟩, ?_, ?_⟩
      · have := hs.2.1
        rw [h2] at this
        rw [h6]
        simpa using this
      · have := hs.2.2
        rw [h3] at this
        rw [h7]
        simpa using this)
    (⟨List.replicate L (.fin 0), 0⟩, ⟨List.replicate L (.fin 0), 0⟩)
    ⟨⟨Ring.wf_zeros hL, Ring.wf_zeros hL⟩, by rw [Ring.contents_zeros]; simp, by rw [Ring.contents_zeros]; simp⟩ zs (fun _ h => h)
  refine ⟨r, hr, runM_length hr, ?_⟩
  obtain ⟨st, h0, _, hst⟩ := runM_states hr
  obtain ⟨d, rfl⟩ : ∃ k, L = k + 1 := ⟨L - 1, by omega⟩
  have hwl : ∀ l t, (window (d + 1) l t).length = d + 1 := fun l t => by simp [window]
  have key : ∀ t i, zs[t]? = some i → (st t).1.Wf → (st t).2.Wf → (st t).1.contents = window (d + 1) (zs.map x) t →
      (st t).2.contents = window (d + 1) r.2 t →
      r.2[t]? = some (apfOut (g i) (x i) (tap i (window (d + 1) (zs.map x) t)) (tap i (window (d + 1) r.2 t))) ∧
        (st (t + 1)).1.Wf ∧ (st (t + 1)).2.Wf ∧ (st (t + 1)).1.contents = window (d + 1) (zs.map x) (t + 1) ∧
        (st (t + 1)).2.contents = window (d + 1) r.2 (t + 1) := by
    intro t i hi w1 w2 c1 c2
    obtain ⟨y, y1, y2⟩ := hst t i hi
    obtain ⟨r1, r2, u, l, v, m, h1, h2, h3, h4, h5, h6, h7⟩ := step (st t) i (List.mem_of_getElem? hi) w1 w2
      (by rw [c1, hwl]) (by rw [c2, hwl])
    rw [y2] at h1
    simp only [Except.ok.injEq, Prod.mk.injEq] at h1
    obtain ⟨s1, s2⟩ := h1
    have e1 : before (zs.map x) t 0 = x i := by rw [before_zero]; exact getD_of (by rw [List.getElem?_map, hi]; rfl)
    have e2 : before r.2 t 0 = y := by rw [before_zero]; exact getD_of y1
    rw [c1] at h2
    rw [c2] at h3
    have p1 := (window_push h2).2
    have p2 := (window_push h3).2
    rw [e1] at p1
    rw [e2] at p2
    rw [c1, c2] at s2 h7
    rw [y1, s1, s2, p1, p2, s2]
    exact ⟨rfl, h4, h5, h6, h7⟩
  have inv : ∀ t, t ≤ zs.length → (st t).1.Wf ∧ (st t).2.Wf ∧ (st t).1.contents = window (d + 1) (zs.map x) t ∧
      (st t).2.contents = window (d + 1) r.2 t := by
    intro t
    induction t with
    | zero =>
      intro _
      rw [h0, window_zero, window_zero]
      exact ⟨Ring.wf_zeros hL, Ring.wf_zeros hL, Ring.contents_zeros _, Ring.contents_zeros _⟩
    | succ t ih =>
      intro ht
      obtain ⟨i1, i2, i3, i4⟩ := ih (by omega)
      exact (key t _ (List.getElem?_eq_getElem (by omega)) i1 i2 i3 i4).2
  intro t i hi
  obtain ⟨i1, i2, i3, i4⟩ := inv t (List.getElem?_eq_some_iff.mp hi).1.le
  exact (key t i hi i1 i2 i3 i4).1

theorem window_at {L : Nat} (xs : List Fl) (t : Nat) {k : Nat} (hk : k < L) : (window L xs t)[k]? = some (before xs t (L - k)) := by
  rw [window, List.getElem?_map, List.getElem?_range hk]
  rfl

/-! ### Changed gains -/

/-- The gains, changed by messages that leave the delay alone. -/
theorem apf_sends {b1 b2 : Ring} {sr : Nat} {ord : List Nat} (g : Fl) (cs : Changes) (h : ∀ e ∈ cs, e.1 ≠ 0) :
    sendMsgs (GNode.prim (P := P) (.apf ⟨g, b1, b2, sr, ord⟩)) (changeMsgs cs) =
      .ok (.prim (.apf ⟨newValue 1 g cs, b1, b2, sr, ord⟩)) := by
  induction cs generalizing g with
  | nil => rfl
  | cons e cs ih =>
    obtain ⟨i, v⟩ := e
    have h0 : i ≠ 0 := h (i, v) (by simp)
    have hm : msgG P (.prim (.apf ⟨g, b1, b2, sr, ord⟩)) (.setToNumber i v) =
        .ok (.prim (.apf ⟨if i = 1 then v else g, b1, b2, sr, ord⟩)) := by
      match i, h0 with
      | 1, _ => rfl
      | i + 2, _ => rfl
    show (match msgG P (.prim (.apf ⟨g, b1, b2, sr, ord⟩)) (.setToNumber i v) with | .error e => _ | .ok n => sendMsgs n (changeMsgs cs)) = _
    rw [hm]
    exact ih _ (fun e he => h e (by simp [he]))

/-- **C71 (part)**, `apfmsgain`: the equation of C56 with the gain that was set last, over all blocks. The delay is not changed: a message for
it does not do what it says (`c40_apf_counterexample`). -/
theorem c71_apfmsgain_partial (d g : Fl) (h1 : 1 ≤ env.sr) (h2 : env.sr ≤ 2 ^ 24) (hd : d.isFinite = true)
    (hq : 3 ≤ d.val * env.sr / 1000) (hq2 : d.val ≤ 2 ^ 30) (k : Nat) (mono : Bool) (bs : List (Changes × List (Fl × Fl)))
    (hs : Sized N (bs.map Prod.snd)) (hbs : ∀ b ∈ bs, ∀ e ∈ b.1, e.1 ≠ 0) :
    ∃ outs ys n, playChanged P N env (.apfmsgain (.num d) g) [.index k] (changedFrom k mono bs) = .ok outs ∧ channel 0 outs = some ys ∧
      AllPassByEq (fun t => setting 1 g (bs.map Prod.fst) (t / N)) n (lefts (bs.map Prod.snd)) ys ∧
      |(n : ℚ) - d.val * env.sr / 1000| ≤ 1 + d.val * env.sr / 1000 / 2 ^ 22 := by
  have hsr : (0 : ℚ) < env.sr := by exact_mod_cast h1
  have hd0 : 0 < d.val := by
    by_contra hn
    have : d.val * env.sr ≤ 0 := mul_nonpos_of_nonpos_of_nonneg (not_lt.mp hn) hsr.le
    linarith
  have hcl := msToSamples_close h1 h2 hd hd0.le hq2
  have hn2 : 2 ≤ (msToSamples env.sr d).toUsize := by
    by_contra hn
    have hm : max (msToSamples env.sr d).toUsize 1 = 1 := by omega
    rw [hm, abs_le] at hcl
    push_cast at hcl
    linarith [hcl.1]
  rw [Nat.max_eq_left (by omega)] at hcl
  have hne : Fl.beq d (.fin 0) = false := by
    cases d with
    | nan => rfl
    | inf b => rfl
    | nz => simp [Fl.val] at hd0
    | fin q =>
      have : q ≠ 0 := ne_of_gt hd0
      simp [Fl.beq, Fl.val, this]
  generalize hL : (msToSamples env.sr d).toUsize = L at *
  have hnew : Apf.new env.sr d g = .ok ⟨g, ⟨List.replicate L (.fin 0), 0⟩, ⟨List.replicate L (.fin 0), 0⟩, env.sr, []⟩ := by
    simp [Apf.new, hne, Ring.from', bind, Except.bind, hL, show L ≠ 0 by omega]
  -- the loop over the whole stream
  let zs := (withPar (newValue 1) g (inBlocks k mono bs)).flatten
  obtain ⟨r, hr, hrl, hre⟩ := lines_run (L := L) (by omega) (fun s (q : Fl × Fl × Fl) => apfStep q.1 s q.2.1) (fun q => q.1) (fun q => q.2.1)
    (fun _ l => l.headD (.fin 0)) zs
    (fun s i _ w1 w2 l1 l2 r1 o1 r2 o2 a b => by
      cases hc1 : s.1.contents with
      | nil => rw [hc1] at l1; simp at l1; omega
      | cons u l =>
        cases hc2 : s.2.contents with
        | nil => rw [hc2] at l2; simp at l2; omega
        | cons v m =>
          rw [hc1, hc2] at b
          simp only [List.headD_cons] at b ⊢
          simp only [apfStep, ring_head w1 hc1, ring_head w2 hc2, bind, Except.bind, a, b])
  have hg := live_general (P := P) (fun g (s : Ring × Ring) => .prim (.apf ⟨g, s.1, s.2, env.sr, [k]⟩)) changeMsgs (newValue 1)
    (fun g s (x : Fl × Fl) => apfStep g s x.1) id (fun _ => True) (fun o => o.length = 2) 0 (fun y o => y :: o.tail) (inBlocks k mono bs)
    (fun _ _ _ _ => trivial)
    (fun b hb p s => by
      obtain ⟨b', hb', rfl⟩ := List.mem_map.mp hb
      exact apf_sends p b'.1 (hbs b' hb'))
    (fun p s b out hb _ ho => by
      obtain ⟨b', hb', rfl⟩ := List.mem_map.mp hb
      obtain ⟨a, c, rfl⟩ := List.length_eq_two.mp ho
      rw [runM_lefts]
      simp only [procG, procPrim, procApf, inputAt, List.getElem?_cons_zero, List.find?_cons_of_pos, BEq.rfl, chan_bufsOf,
        bind, Except.bind]
      cases runM (apfStep p) s (b'.2.map Prod.fst) <;> rfl)
    (fun p b s r out hb ho hr => by
      obtain ⟨a, c, rfl⟩ := List.length_eq_two.mp ho
      exact ⟨rfl, by simp⟩)
    g (⟨List.replicate L (.fin 0), 0⟩, ⟨List.replicate L (.fin 0), 0⟩)
    (fresh N 2 (GNode.prim (P := P) (.apf ⟨g, ⟨List.replicate L (.fin 0), 0⟩, ⟨List.replicate L (.fin 0), 0⟩, env.sr, []⟩))).buffers trivial rfl
  rw [show (withPar (newValue 1) g (inBlocks k mono bs)).flatten = zs from rfl, hr] at hg
  obtain ⟨o, g1, g2⟩ := chanResult_ok hg
  rw [inBlocks_steps] at g1
  rw [List.map_id] at g2
  have hitems : zs.map (fun q => q.2.1) = lefts (bs.map Prod.snd) := by
    have := withPar_items (upd := newValue 1) (p := g) (bs := inBlocks k mono bs)
    rw [inBlocks_items] at this
    rw [lefts, ← this, List.map_map]
    rfl
  have hzl : zs.length = (lefts (bs.map Prod.snd)).length := by rw [← hitems, List.length_map]
  refine ⟨o, r.2, L, live_ok (d := fresh N 2 (GNode.prim (P := P) (.apf ⟨g, ⟨List.replicate L (.fin 0), 0⟩, ⟨List.replicate L (.fin 0), 0⟩,
    env.sr, []⟩))) (refs := []) ?_ rfl g1, g2, ⟨by rw [hrl, hzl], ?_⟩, hcl⟩
  · simp only [makeNode, makePrim, NumRef.value, hnew, liftP, bind, Except.bind, makeRefs]
    rfl
  · intro t ht
    have hz := List.getElem?_eq_getElem (show t < zs.length by omega)
    have e := hre t _ hz
    have hset := withPar_at (upd := newValue 1) (p := g) (inBlocks_len (k := k) (mono := mono) hs) t
    rw [show (withPar (newValue 1) g (inBlocks k mono bs)).flatten = zs from rfl, hz, inBlocks_fst, setting_eq] at hset
    have hg1 : zs[t].1 = setting 1 g (bs.map Prod.fst) (t / N) := by
      cases hx : ((inBlocks k mono bs).map fun b => b.2.2).flatten[t]? with
      | none => rw [hx] at hset; cases hset
      | some x => rw [hx] at hset; exact congrArg Prod.fst (Option.some.inj hset)
    have hx1 : zs[t].2.1 = before (lefts (bs.map Prod.snd)) t 0 := by
      rw [before_zero, ← hitems]
      exact (getD_of (by rw [List.getElem?_map, hz]; rfl)).symm
    have hhead : ∀ l : List Fl, (window L l t).headD (.fin 0) = before l t L := by
      intro l
      have := window_at (L := L) l t (show 0 < L by omega)
      rw [List.headD_eq_head?_getD, List.head?_eq_getElem?, this]
      rfl
    rw [hitems, hhead, hhead, hg1, hx1] at e
    exact e

/-! ### A reference as the delay -/

theorem hrel (x : ℚ) (h1 : 1 / 2 ^ 100 ≤ |x|) (h2 : |x| ≤ 2 ^ 20) : InRange f32 x ∧ |f32.rnd x - x| ≤ |x| / 2 ^ 24 := by
  refine ⟨f32_inRange (le_trans h2 (by norm_num)), ?_⟩
  have := Fmt.rnd_rel (f := f32) (x := x) (le_trans (by rw [pow2_eq]; norm_num [f32]) h1)
  have heps : pow2 (-(f32.p : Int)) = 1 / 2 ^ 24 := by rw [pow2_eq]; norm_num [f32]
  rw [heps] at this
  linarith

/-- A number between 0 and 1 is rounded by less than a thousandth. -/
theorem rnd_unit {x : ℚ} (h0 : 0 ≤ x) (h1 : x ≤ 1) : |f32.rnd x - x| ≤ 1 / 1000 := by
  rcases le_or_gt (1 / 1024) x with h | h
  · have := (hrel x (by rw [abs_of_nonneg h0]; exact le_trans (by norm_num) h) (by rw [abs_of_nonneg h0]; linarith [show (2 : ℚ) ^ 20 = 1048576 by norm_num])).2
    rw [abs_of_nonneg h0] at this
    refine le_trans this ?_
    rw [div_le_iff₀ (by norm_num)]
    linarith [show (2 : ℚ) ^ 24 = 16777216 by norm_num]
  · have e : f32.rnd (1 / 1024) = 1 / 1024 := by decide +kernel
    have k1 := Fmt.rnd_mono (f := f32) (by decide) (le_of_lt h)
    have k2 := Fmt.rnd_nonneg (f := f32) h0
    rw [e] at k1
    rw [abs_le]
    constructor <;> linarith

theorem ofNat_exact {n : Nat} (h0 : 0 < n) (h : n ≤ 2 ^ 24) : Fl.ofNat f32 n = .fin n := by
  obtain ⟨h1, h2⟩ := f32_ofNat h
  generalize Fl.ofNat f32 n = x at h1 h2
  have hn : (n : ℚ) ≠ 0 := by exact_mod_cast Nat.ne_of_gt h0
  cases x with
  | nan => cases h1
  | inf s => cases h1
  | nz => exact absurd h2.symm hn
  | fin q => rw [Fl.val_fin] at h2; rw [h2]

/-- The place at which a line of three seconds is read for a delay of `v` ms. -/
theorem reach_range {r : Ring} {sr : Nat} {v : Fl} (hs1 : 8000 ≤ sr) (hs2 : sr ≤ 2 ^ 18) (hr : r.len = 3 * sr) (h : Within 1 2900 v) :
    ∃ q : ℚ, readPos [r] sr v = .ok ((Fl.floor (.fin q)).toUsize, Fl.fract f32 (.fin q)) ∧
      |q - (3 * sr - v.val * sr / 1000)| ≤ 9 * sr / 2 ^ 24 := by
  have e1 : Fl.ofNat f32 sr = .fin sr := ofNat_exact (by omega) (by omega)
  have e2 : Fl.ofNat f32 (3 * sr) = .fin ((3 * sr : Nat) : ℚ) := ofNat_exact (by omega) (by omega)
  have c1 : (8000 : ℚ) ≤ sr := by exact_mod_cast hs1
  have c2 : (sr : ℚ) ≤ 262144 := by exact_mod_cast hs2
  push_cast at e2
  generalize (sr : ℚ) = S at e1 e2 c1 c2 ⊢
  have hn := Fl.neg_fin h.1
  obtain ⟨-, a1, a2⟩ := h
  have k20 : (2 : ℚ) ^ 20 = 1048576 := by norm_num
  have k24 : (2 : ℚ) ^ 24 = 16777216 := by norm_num
  -- the three operations
  have x1 : |(Fl.neg v).val / (Fl.fin 1000).val| = v.val / 1000 := by
    rw [hn.2, Fl.val_fin, abs_div, abs_neg, abs_of_nonneg (by linarith : (0 : ℚ) ≤ v.val)]
    norm_num
  have r1 := hrel ((Fl.neg v).val / (Fl.fin 1000).val) (by rw [x1]; linarith [show (1 : ℚ) / 2 ^ 100 ≤ 1 / 1000 by norm_num])
    (by rw [x1]; linarith)
  obtain ⟨f1, u1⟩ := Fl.div_fin (f := f32) hn.1 (b := .fin 1000) rfl (by norm_num [Fl.val]) r1.1
  have r1 := r1.2
  rw [← u1, x1] at r1
  rw [hn.2, Fl.val_fin] at r1
  generalize hu : Fl.div f32 (Fl.neg v) (.fin 1000) = u at f1 u1 r1
  rw [abs_le, k24] at r1
  have b1 : -(29001 / 10000) ≤ u.val := by linarith [r1.1]
  have b2 : u.val ≤ -(999 / 1000000) := by linarith [r1.2]
  have b3 : -(29001 / 10000) * S ≤ u.val * S := mul_le_mul_of_nonneg_right b1 (by linarith)
  have b4 : u.val * S ≤ -(999 / 1000000) * S := mul_le_mul_of_nonneg_right b2 (by linarith)
  have r1a := mul_le_mul_of_nonneg_right r1.1 (show 0 ≤ S by linarith)
  have r1b := mul_le_mul_of_nonneg_right r1.2 (show 0 ≤ S by linarith)
  have b5 : v.val * S ≤ 2900 * S := mul_le_mul_of_nonneg_right a2 (by linarith)
  have b6 : 1 * S ≤ v.val * S := mul_le_mul_of_nonneg_right a1 (by linarith)
  have x2 : |u.val * (Fl.fin S).val| = -(u.val * S) := by
    rw [Fl.val_fin, abs_of_nonpos (by linarith)]
  have r2 := hrel (u.val * (Fl.fin S).val) (by rw [x2]; linarith [show (1 : ℚ) / 2 ^ 100 ≤ 1 by norm_num])
    (by rw [x2]; linarith)
  obtain ⟨f2, u2⟩ := Fl.mul_fin (f := f32) f1 (b := .fin S) rfl r2.1
  have r2 := r2.2
  rw [← u2, x2, Fl.val_fin] at r2
  generalize hw : Fl.mul f32 u (.fin S) = w at f2 u2 r2
  rw [abs_le, k24] at r2
  have d1 : |w.val + v.val * S / 1000| ≤ 59 * S / 10 / 16777216 := by
    rw [abs_le]
    constructor <;> linarith [r1a, r1b, r2.1, r2.2]
  rw [abs_le] at d1
  have x3 : |w.val + (Fl.fin (3 * S)).val| = w.val + 3 * S := by
    rw [Fl.val_fin, abs_of_nonneg (by linarith [d1.1])]
  have r3 := hrel (w.val + (Fl.fin (3 * S)).val) (by rw [x3]; linarith [d1.1, show (1 : ℚ) / 2 ^ 100 ≤ 1 by norm_num])
    (by rw [x3]; linarith [d1.2])
  obtain ⟨f3, u3⟩ := Fl.add_fin (f := f32) f2 (b := .fin (3 * S)) rfl r3.1
  have r3 := r3.2
  rw [← u3, x3, Fl.val_fin] at r3
  have hms : msToSamples sr (Fl.neg v) = w := by rw [msToSamples, e1, hu, hw]
  have hneg : Fl.lt w (.fin 0) = true := by
    rw [Fl.lt_fin f2 rfl, Fl.val_fin]
    linarith [d1.2]
  generalize hp : Fl.add f32 w (.fin (3 * S)) = p at f3 u3 r3
  rw [abs_le, k24] at r3
  have hpos : 10 ≤ p.val := by linarith [r3.1, d1.1]
  obtain ⟨q, rfl⟩ : ∃ q, p = .fin q := by
    cases p with
    | nan => cases f3
    | inf s => cases f3
    | nz => norm_num [Fl.val] at hpos
    | fin q => exact ⟨q, rfl⟩
  rw [Fl.val_fin] at r3 hpos
  refine ⟨q, ?_, ?_⟩
  · unfold readPos
    dsimp only
    rw [hms, if_pos hneg]
    simp only [lineLen, hr, bind, Except.bind, e2]
    unfold wrapUp
    rw [dif_pos hneg, hp]
    have hlt : Fl.lt w (.fin q) = true := by
      rw [Fl.lt_fin f2 rfl, Fl.val_fin]
      linarith [d1.2]
    rw [dif_pos hlt]
    unfold wrapUp
    have h0 : Fl.lt (.fin q) (.fin 0) = false := by
      by_contra hc
      have := (Fl.lt_fin (a := .fin q) (b := .fin 0) rfl rfl).mp (by simpa using hc)
      rw [Fl.val_fin, Fl.val_fin] at this
      linarith
    rw [dif_neg (by rw [h0]; decide)]
  · rw [abs_le, k24]
    constructor <;> linarith [r3.1, r3.2, d1.1, d1.2]

/-- The parts of a place in a line. -/
theorem reach_parts {q : ℚ} {a : ℚ} {sr : Nat} (hs1 : 8000 ≤ sr) (hs2 : sr ≤ 2 ^ 18) (h1 : 1 ≤ a) (h2 : a ≤ 2900)
    (h : |q - (3 * sr - a * sr / 1000)| ≤ 9 * sr / 2 ^ 24) :
    (Fl.floor (.fin q)).toUsize + 1 < 3 * sr ∧
      |((3 * sr - (Fl.floor (.fin q)).toUsize : Nat) : ℚ) - (Fl.fract f32 (.fin q)).val - a * sr / 1000| ≤ sr / 2 ^ 20 ∧
      Within 0 1 (Fl.fract f32 (.fin q)) := by
  have c1 : (8000 : ℚ) ≤ sr := by exact_mod_cast hs1
  have k24 : (2 : ℚ) ^ 24 = 16777216 := by norm_num
  rw [abs_le, k24] at h
  have b5 : a * sr ≤ 2900 * sr := mul_le_mul_of_nonneg_right h2 (by linarith)
  have b6 : 1 * (sr : ℚ) ≤ a * sr := mul_le_mul_of_nonneg_right h1 (by linarith)
  have hq0 : 10 ≤ q := by linarith [h.1]
  have hq1 : q ≤ 3 * sr - 2 := by linarith [h.2]
  have e : (Fl.floor (.fin q)).toUsize = min (⌊q⌋.toNat) (2 ^ 64 - 1) := by
    show min (⌊((⌊q⌋ : ℤ) : ℚ)⌋.toNat) (2 ^ 64 - 1) = _
    rw [Int.floor_intCast]
  have k1 : 10 ≤ ⌊q⌋ := by rw [Int.le_floor]; exact_mod_cast hq0
  have k2 : ⌊q⌋ ≤ 3 * (sr : ℤ) - 2 := by
    have : (⌊q⌋ : ℚ) ≤ 3 * sr - 2 := le_trans (Int.floor_le q) hq1
    exact_mod_cast this
  have hf := floor_le' q
  have hf2 := lt_floor' q
  have e' : (Fl.floor (.fin q)).toUsize = ⌊q⌋.toNat := by rw [e]; omega
  have ht : Fl.trunc (.fin q) = .fin q.floor := by
    rw [Fl.trunc, if_neg (by simp [Fl.sign]; linarith)]
    rfl
  have hin : InRange f32 ((Fl.fin q).val - (Fl.fin q.floor).val) := f32_inRange (by
    rw [Fl.val_fin, Fl.val_fin, abs_of_nonneg (by linarith)]
    linarith [show (1 : ℚ) ≤ 2 ^ 100 by norm_num])
  have hv := (Fl.sub_fin (f := f32) (a := .fin q) (b := .fin q.floor) rfl rfl hin).2
  have hr := rnd_unit (x := q - q.floor) (by linarith) (by linarith)
  refine ⟨by rw [e']; omega, ?_, ?_⟩
  · have : ((3 * sr - (Fl.floor (.fin q)).toUsize : Nat) : ℚ) = 3 * sr - (q.floor : ℚ) := by
      rw [e', Nat.cast_sub (by omega)]
      have : ((⌊q⌋.toNat : Nat) : ℚ) = (⌊q⌋ : ℚ) := by
        have : ((⌊q⌋.toNat : Nat) : ℤ) = ⌊q⌋ := Int.toNat_of_nonneg (by omega)
        exact_mod_cast this
      rw [this]
      push_cast
      rfl
    rw [this, Fl.fract, ht, hv, Fl.val_fin, Fl.val_fin, abs_le, show (2 : ℚ) ^ 20 = 1048576 by norm_num]
    rw [abs_le] at hr
    constructor <;> linarith [h.1, h.2, hr.1, hr.2]
  · rw [Fl.fract, ht]
    apply within_sub rfl rfl rep0 rep1 (by norm_num) (by norm_num) <;> simp only [Fl.val_fin] <;> linarith

theorem readPos_len {r r' : Ring} (h : r.len = r'.len) (sr : Nat) (v : Fl) : readPos [r] sr v = readPos [r'] sr v := by
  simp only [readPos, lineLen, h]

theorem mod_zip (g : Fl) (sr : Nat) (x : List ((Fl × Fl) × (Fl × Fl))) (s : Ring × Ring) :
    runM (fun s (i : (Fl × Fl) × (Fl × Fl)) => apfModStep g sr s (i.1.1, i.2.1)) s x =
      runM (apfModStep g sr) s (((x.map Prod.fst).map Prod.fst).zip ((x.map Prod.snd).map Prod.fst)) := by
  induction x generalizing s with
  | nil => rfl
  | cons i x ih => simp only [runM, List.map_cons, List.zip_cons_cons, ih]

/-- What a line holds at a place. -/
def tapAt (p : Nat × Fl) (l : List Fl) : Fl := l.getD p.1 (.fin 0) *. p.2 +. l.getD (p.1 + 1) (.fin 0) *. (.fin 1 -. p.2)

theorem readLerp_tap {r : Ring} (h : r.Wf) {p : Nat × Fl} (hp : p.1 + 1 < r.contents.length) (hs : p.1 ≠ 2 ^ 64 - 1) :
    readLerp r p = .ok (tapAt p r.contents) := by
  have hw : ∀ k, k < r.contents.length → r.get k = .ok (r.contents.getD k (.fin 0)) := by
    intro k hk
    apply ring_get h
    rw [List.getElem?_eq_getElem hk, List.getD_eq_getElem?_getD, List.getElem?_eq_getElem hk]
    rfl
  simp only [readLerp, hw _ (show p.1 < _ by omega), hw _ hp, bind, Except.bind, if_neg hs]
  rfl

/-- The length of a line of three seconds. -/
theorem size_three {sr : Nat} (h0 : 0 < sr) (h : sr ≤ 2 ^ 18) : (Fl.fin 3 *. Fl.ofNat f32 sr).toUsize = 3 * sr := by
  have h1 : f32.Rep (((3 * sr : Nat) : Int) : ℚ) := f32_rep_int (by rw [abs_of_nonneg (by omega)]; omega)
  have h2 := Fmt.rnd_rep f32_p h1
  have h4 : ((3 * sr : Nat) : ℚ) ≤ 2 ^ 20 := by exact_mod_cast (by omega : 3 * sr ≤ 2 ^ 20)
  have e : (Fl.fin 3).val * (Fl.fin sr).val = (((3 * sr : Nat) : Int) : ℚ) := by rw [Fl.val_fin, Fl.val_fin]; push_cast; rfl
  have h3 : InRange f32 ((Fl.fin 3).val * (Fl.fin sr).val) := f32_inRange (by
    rw [e, Int.cast_natCast, abs_of_nonneg (by positivity)]
    exact le_trans h4 (by norm_num))
  obtain ⟨f1, f2⟩ := Fl.mul_fin (f := f32) (a := .fin 3) (b := .fin sr) rfl rfl h3
  rw [e, h2] at f2
  rw [ofNat_exact h0 (by omega), Fl.toUsize_of f1 (by rw [f2, Int.cast_natCast]; exact lt_of_le_of_lt h4 (by norm_num)), f2, Int.floor_intCast]
  rfl

/-- **C56** for `apfmsgain` with a reference (partial), at 8000 to 2^18 samples in a second, for delays from 1 to 2900 ms, which may be different for
each sample: the equation of the all pass with the delay of the moment, over all blocks. Missing: the weights of the two neighbouring
samples, which are exchanged (`c56_apfmsgain_weights_counterexample`). -/
theorem c56_apfmsgain_reference_partial (P : Plat) (N : Nat) (env : Env) (hs1 : 8000 ≤ env.sr) (hs2 : env.sr ≤ 2 ^ 18) (name : Name) (g : Fl) (swap mk mj : Bool) {k j : Nat}
    (hkj : k ≠ j) (xs : List (List ((Fl × Fl) × (Fl × Fl)))) (hs : Sized N xs) (hm : ∀ x ∈ xs.flatten, Within 1 2900 x.2.1) :
    ∃ outs ys, play P N env (.apfmsgain (.ref name) g) [.index k, .index j] (twoFrom swap k j mk mj xs) = .ok outs ∧
      channel 0 outs = some ys ∧ channel 1 outs = some (List.replicate xs.flatten.length (.fin 0)) ∧
      AllPassModEq env.sr g (xs.flatten.map (fun p => p.2.1)) (xs.flatten.map (fun p => p.1.1)) ys := by
  have hjk : j ≠ k := fun h => hkj h.symm
  obtain ⟨L, hL⟩ : ∃ L, L = 3 * env.sr := ⟨_, rfl⟩
  have hsize : (Fl.fin 3 *. Fl.ofNat f32 env.sr).toUsize = L := by rw [hL]; exact size_three (by omega) hs2
  have hnew : Apf.new env.sr (.fin 0) g = .ok ⟨g, ⟨List.replicate L (.fin 0), 0⟩, ⟨List.replicate L (.fin 0), 0⟩, env.sr, []⟩ := by
    have : Fl.beq (.fin 0) (.fin 0) = true := by decide
    simp [Apf.new, this, Ring.from', bind, Except.bind, hsize, show L ≠ 0 by omega]
  have hpos : ∀ i ∈ xs.flatten, ∀ r : Ring, r.len = 3 * env.sr → ∃ q : ℚ,
      readPos [r] env.sr i.2.1 = .ok ((Fl.floor (.fin q)).toUsize, Fl.fract f32 (.fin q)) ∧
      |q - (3 * env.sr - i.2.1.val * env.sr / 1000)| ≤ 9 * env.sr / 2 ^ 24 := fun i hi r hr => reach_range hs1 hs2 hr (hm i hi)
  -- the place for each sample, which does not depend on what the line holds
  let pos : (Fl × Fl) × (Fl × Fl) → Nat × Fl := fun i =>
    match readPos [⟨List.replicate L (.fin 0), 0⟩] env.sr i.2.1 with | .ok p => p | .error _ => (0, .fin 0)
  have hpos' : ∀ i ∈ xs.flatten, ∀ r : Ring, r.len = 3 * env.sr → readPos [r] env.sr i.2.1 = .ok (pos i) := by
    intro i hi r hr
    have hl : (⟨List.replicate L (.fin 0), 0⟩ : Ring).len = 3 * env.sr := (List.length_replicate).trans hL
    obtain ⟨q, h1, -⟩ := hpos i hi ⟨List.replicate L (.fin 0), 0⟩ hl
    have e : readPos [r] env.sr i.2.1 = readPos [⟨List.replicate L (.fin 0), 0⟩] env.sr i.2.1 :=
      readPos_len (hr.trans hl.symm) _ _
    rw [e]
    simp only [pos, h1]
  have hparts : ∀ i ∈ xs.flatten, ∃ q : ℚ, pos i = ((Fl.floor (.fin q)).toUsize, Fl.fract f32 (.fin q)) ∧
      (Fl.floor (.fin q)).toUsize + 1 < 3 * env.sr ∧
      |((3 * env.sr - (Fl.floor (.fin q)).toUsize : Nat) : ℚ) - (Fl.fract f32 (.fin q)).val - i.2.1.val * env.sr / 1000| ≤ env.sr / 2 ^ 20 ∧ Within 0 1 (Fl.fract f32 (.fin q)) := by
    intro i hi
    have hl : (⟨List.replicate L (.fin 0), 0⟩ : Ring).len = 3 * env.sr := (List.length_replicate).trans hL
    obtain ⟨q, h1, h2⟩ := hpos i hi ⟨List.replicate L (.fin 0), 0⟩ hl
    have := (hpos' i hi _ hl).symm.trans h1
    exact ⟨q, Except.ok.inj this, reach_parts hs1 hs2 (hm i hi).2.1 (hm i hi).2.2 h2⟩
  obtain ⟨r, hr, hrl, hre⟩ := lines_run (L := L) (by omega)
    (fun s (i : (Fl × Fl) × (Fl × Fl)) => apfModStep g env.sr s (i.1.1, i.2.1)) (fun _ => g) (fun i => i.1.1) (fun i l => tapAt (pos i) l) xs.flatten
    (fun s i hi w1 w2 l1 l2 r1 o1 r2 o2 a b => by
      obtain ⟨q, p1, p2, -⟩ := hparts i hi
      have hlen : s.1.len = 3 * env.sr := by rw [Ring.len, ← contents_length _ w1, l1, hL]
      have hpi : (pos i).1 + 1 < 3 * env.sr := by rw [p1]; exact p2
      simp only [apfModStep, hpos' i hi _ hlen, readLerp_tap w1 (by rw [l1, hL]; exact hpi) (by omega),
        readLerp_tap w2 (by rw [l2, hL]; exact hpi) (by omega), bind, Except.bind, a, b])
  obtain ⟨o, g1, g2, g3⟩ := blocks_left (procG P)
    (fun s : Ring × Ring => .prim (.apf ⟨g, s.1, s.2, env.sr, [k, j]⟩)) (fun s (i : (Fl × Fl) × (Fl × Fl)) => apfModStep g env.sr s (i.1.1, i.2.1))
    (fun x => if swap then [(j, bufsOf mj (x.map Prod.snd)), (k, bufsOf mk (x.map Prod.fst))]
      else [(k, bufsOf mk (x.map Prod.fst)), (j, bufsOf mj (x.map Prod.snd))]) N xs hs
    (fun s x a b _ _ => by
      rw [mod_zip]
      cases swap <;>
        simp only [procG, procPrim, procApf, inputAt, hkj, hjk, chan_bufsOf, bind, Except.bind, List.getElem?_cons_zero, List.getElem?_cons_succ,
          List.find?_cons, BEq.rfl, beq_eq_false_iff_ne.mpr hkj, beq_eq_false_iff_ne.mpr hjk, if_true, Bool.false_eq_true, if_false] <;>
        cases runM (apfModStep g env.sr) s (((x.map Prod.fst).map Prod.fst).zip ((x.map Prod.snd).map Prod.fst)) <;> rfl)
    (⟨List.replicate L (.fin 0), 0⟩, ⟨List.replicate L (.fin 0), 0⟩)
    _ (leftOnly_fresh N (GNode.prim (P := P) (.apf ⟨g, ⟨List.replicate L (.fin 0), 0⟩, ⟨List.replicate L (.fin 0), 0⟩, env.sr, []⟩))) r hr
  refine ⟨o, r.2, play_ok (d := fresh N 2 (GNode.prim (P := P) (.apf ⟨g, ⟨List.replicate L (.fin 0), 0⟩, ⟨List.replicate L (.fin 0), 0⟩,
    env.sr, []⟩))) (refs := [name]) ?_ rfl g1, g2, g3, by rw [hrl, List.length_map], ?_⟩
  · simp only [makeNode, makePrim, NumRef.value, hnew, liftP, bind, Except.bind, makeRefs]
    rfl
  · intro t ht
    rw [List.length_map] at ht
    have hz := List.getElem?_eq_getElem ht
    obtain ⟨q, p1, p2, p3, p4⟩ := hparts _ (List.mem_of_getElem? hz)
    have e := hre t _ hz
    have hx : before (xs.flatten.map (fun p => p.1.1)) t 0 = xs.flatten[t].1.1 := by
      rw [before_zero]; exact getD_of (by rw [List.getElem?_map, hz]; rfl)
    have hv : before (xs.flatten.map (fun p => p.2.1)) t 0 = xs.flatten[t].2.1 := by
      rw [before_zero]; exact getD_of (by rw [List.getElem?_map, hz]; rfl)
    refine ⟨3 * env.sr - (Fl.floor (.fin q)).toUsize, Fl.fract f32 (.fin q), by rw [hv]; exact p3, p4.1, p4.2.1, p4.2.2, ?_⟩
    have htap : ∀ l : List Fl, tapAt (pos xs.flatten[t]) (window L l t) =
        mixedAt l t (3 * env.sr - (Fl.floor (.fin q)).toUsize) (Fl.fract f32 (.fin q)) := by
      intro l
      rw [p1, tapAt, mixedAt]
      simp only [List.getD_eq_getElem?_getD, window_at (L := L) l t (show (Fl.floor (.fin q)).toUsize < L by omega),
        window_at (L := L) l t (show (Fl.floor (.fin q)).toUsize + 1 < L by omega), Option.getD_some]
      rw [hL, Nat.sub_sub]
    rw [htap, htap] at e
    rw [e, hx]
    rfl

/-- An impulse and 441 samples of silence, and a delay of 10 ms. -/
def tenMs : List ((Fl × Fl) × (Fl × Fl)) :=
  ((.fin 1, .fin 0), (.fin 10, .fin 0)) :: List.replicate 441 ((.fin 0, .fin 0), (.fin 10, .fin 0))

theorem tenMs_before {t k : Nat} (ht : t < 442) :
    before (tenMs.map (fun p => p.1.1)) t k = if k = t then .fin 1 else .fin 0 := by
  have e : tenMs.map (fun p => p.1.1) = .fin 1 :: List.replicate 441 (.fin 0) := by
    rw [tenMs, List.map_cons, List.map_replicate]
  rw [e, before]
  split
  · rename_i h
    split
    · rename_i h2; subst h2; rw [Nat.sub_self]; rfl
    · obtain ⟨n, hn⟩ : ∃ n, t - k = n + 1 := ⟨t - k - 1, by omega⟩
      rw [hn, List.getD_cons_succ, List.getD_eq_getElem?_getD, List.getElem?_replicate]
      split <;> rfl
  · rw [if_neg (by omega)]

theorem mixed_within {xs : List Fl} {t d : Nat} {w : Fl} (hw : Within 0 1 w) (h1 : Within 0 1 (before xs t d))
    (h2 : Within 0 1 (before xs t (d - 1))) : Within 0 2 (mixedAt xs t d w) := by
  have rep2 : f32.Rep 2 := by exact_mod_cast f32_rep_int (n := 2) (by decide)
  have hc : Within 0 1 (.fin 1 -. w) := by
    apply within_sub rfl hw.1 rep0 rep1 (by norm_num) (by norm_num) <;> simp only [Fl.val_fin] <;> linarith [hw.2.1, hw.2.2]
  have m : ∀ a b : Fl, Within 0 1 a → Within 0 1 b → Within 0 1 (a *. b) := by
    intro a b ha hb
    apply within_mul ha.1 hb.1 rep0 rep1 (by norm_num) (by norm_num)
    · exact mul_nonneg ha.2.1 hb.2.1
    · exact mul_le_one₀ ha.2.2 hb.2.1 hb.2.2
  have k1 := m _ _ h1 hw
  have k2 := m _ _ h2 hc
  unfold mixedAt
  apply within_add k1.1 k2.1 rep0 rep2 (by norm_num) (by norm_num) <;> linarith [k1.2.1, k1.2.2, k2.2.1, k2.2.2]

/-- **C56** is false for `apfmsgain` with a reference: with a gain of 0 and a delay of 10 ms, which is 441 samples, an impulse at the
beginning is heard 441 samples later with at most an eighth of its height: the weights of the neighbouring samples are exchanged. -/
theorem c56_apfmsgain_weights_counterexample (P : Plat) (env : Env) (hsr : env.sr = 44100) (name : Name) :
    ∃ outs ys y, play P 442 env (.apfmsgain (.ref name) (.fin 0)) [.index 0, .index 1] (twoFrom false 0 1 true true [tenMs]) = .ok outs ∧
      channel 0 outs = some ys ∧ ys[441]? = some y ∧ y.val ≤ 1 / 8 := by
  have hfl : [tenMs].flatten = tenMs := by simp
  have hlen : tenMs.length = 442 := by rw [tenMs, List.length_cons, List.length_replicate]
  have hten : ∀ x ∈ tenMs, x.2.1 = .fin 10 := by
    intro x hx
    rw [tenMs, List.mem_cons, List.mem_replicate] at hx
    rcases hx with rfl | ⟨-, rfl⟩ <;> rfl
  obtain ⟨outs, ys, h1, h2, -, h3, h4⟩ := c56_apfmsgain_reference_partial P 442 env (by omega) (by omega) name (.fin 0) false true true
    (k := 0) (j := 1) (by decide) [tenMs] (by intro x hx; rw [List.mem_singleton] at hx; rw [hx, hlen])
    (by
      intro x hx
      rw [hfl] at hx
      rw [hten x hx]
      exact ⟨rfl, by norm_num [Fl.val], by norm_num [Fl.val]⟩)
  rw [hfl] at h3 h4
  rw [List.length_map, hlen] at h3 h4
  have hms : ∀ t, t < 442 → before (tenMs.map (fun p => p.2.1)) t 0 = .fin 10 := by
    intro t ht
    have hl : t < tenMs.length := by omega
    rw [before_zero, getD_of (x := .fin 10) (by
      rw [List.getElem?_map, List.getElem?_eq_getElem hl, Option.map_some, hten _ (List.getElem_mem hl)])]
  -- at most 442 samples before, at least 441
  have hd : ∀ {d : Nat} {w : Fl}, |(d : ℚ) - w.val - 10 * env.sr / 1000| ≤ env.sr / 2 ^ 20 → 0 ≤ w.val → w.val ≤ 1 →
      (d = 441 ∧ w.val ≤ 1 / 16) ∨ (d = 442 ∧ 15 / 16 ≤ w.val) := by
    intro d w h a b
    rw [hsr, abs_le] at h
    norm_num at h
    have k1 : (440 : ℚ) < d := by linarith [h.1]
    have k2 : (d : ℚ) < 443 := by linarith [h.2]
    have k1' : 440 < d := by exact_mod_cast k1
    have k2' : d < 443 := by exact_mod_cast k2
    rcases (by omega : d = 441 ∨ d = 442) with rfl | rfl
    · left; refine ⟨rfl, ?_⟩; push_cast at h; linarith [h.1, h.2]
    · right; refine ⟨rfl, ?_⟩; push_cast at h; linarith [h.1, h.2]
  have rep2 : f32.Rep 2 := by exact_mod_cast f32_rep_int (n := 2) (by decide)
  have rep8 : f32.Rep (1 / 8) := ⟨1, -3, by decide, by decide, by rw [pow2_eq]; norm_num⟩
  have w0 : Within 0 1 (.fin 0) := ⟨rfl, by norm_num [Fl.val], by norm_num [Fl.val]⟩
  have w1 : Within 0 1 (.fin 1) := ⟨rfl, by norm_num [Fl.val], by norm_num [Fl.val]⟩
  have hx01 : ∀ t k, t < 442 → Within 0 1 (before (tenMs.map (fun p => p.1.1)) t k) := by
    intro t k ht
    rw [tenMs_before ht]
    split
    · exact w1
    · exact w0
  have hdry : ∀ t, t < 442 → Within 0 0 (Fl.neg (.fin 0) *. before (tenMs.map (fun p => p.1.1)) t 0) := by
    intro t ht
    have hn := Fl.neg_fin (a := .fin 0) rfl
    apply within_mul hn.1 (hx01 t 0 ht).1 rep0 rep0 (by norm_num) (by norm_num) <;> rw [hn.2] <;> simp [Fl.val]
  have hback : ∀ a : Fl, a.isFinite = true → Within 0 0 (.fin 0 *. a) := by
    intro a ha
    apply within_mul rfl ha rep0 rep0 (by norm_num) (by norm_num) <;> simp [Fl.val]
  -- the first two samples
  have hy : ∀ t, t < 2 → ∀ k, Within 0 1 (before ys t k) := by
    have h : ∀ t, t < 2 → ∃ y, ys[t]? = some y ∧ Within 0 0 y := by
      intro t ht
      obtain ⟨d, w, e1, e2, e3, e4, e5⟩ := h4 t (by omega)
      rw [hms t (by omega), Fl.val_fin] at e1
      have hd' : 441 ≤ d := by rcases hd e1 e3 e4 with h | h <;> omega
      refine ⟨_, e5, ?_⟩
      have z : ∀ (l : List Fl) k, 440 ≤ k → before l t k = .fin 0 := by
        intro l k hk; rw [before, if_neg (by omega)]
      have zm : ∀ l : List Fl, Within 0 0 (mixedAt l t d w) := by
        intro l
        have hc : Within 0 1 (.fin 1 -. w) := by
          apply within_sub rfl e2 rep0 rep1 (by norm_num) (by norm_num) <;> simp only [Fl.val_fin] <;> linarith
        rw [mixedAt, z l d (by omega), z l (d - 1) (by omega)]
        have a1 := hback w e2
        have a2 := hback _ hc.1
        apply within_add a1.1 a2.1 rep0 rep0 (by norm_num) (by norm_num) <;> linarith [a1.2.1, a1.2.2, a2.2.1, a2.2.2]
      have b1 := hdry t (by omega)
      have b2 := zm (tenMs.map (fun p => p.1.1))
      have b3 := hback _ (zm ys).1
      have b4 : Within 0 0 (Fl.neg (.fin 0) *. before (tenMs.map (fun p => p.1.1)) t 0 +. mixedAt (tenMs.map (fun p => p.1.1)) t d w) := by
        apply within_add b1.1 b2.1 rep0 rep0 (by norm_num) (by norm_num) <;> linarith [b1.2.1, b1.2.2, b2.2.1, b2.2.2]
      apply within_add b4.1 b3.1 rep0 rep0 (by norm_num) (by norm_num) <;> linarith [b4.2.1, b4.2.2, b3.2.1, b3.2.2]
    intro t ht k
    rw [before]
    split
    · obtain ⟨y, hy, hw⟩ := h (t - k) (by omega)
      rw [getD_of hy]
      exact ⟨hw.1, hw.2.1, by linarith [hw.2.2]⟩
    · exact w0
  obtain ⟨d, w, e1, e2, e3, e4, e5⟩ := h4 441 (by omega)
  rw [hms 441 (by omega), Fl.val_fin] at e1
  refine ⟨outs, ys, _, h1, h2, e5, ?_⟩
  have hw : Within 0 1 w := ⟨e2, e3, e4⟩
  have hc : (Fl.fin 1 -. w).isFinite = true ∧ (Fl.fin 1 -. w).val = f32.rnd (1 - w.val) :=
    Fl.sub_fin rfl e2 (f32_inRange (by rw [Fl.val_fin, abs_of_nonneg (by linarith)]; linarith [show (1 : ℚ) ≤ 2 ^ 100 by norm_num]))
  have hyb : ∀ k, 440 ≤ k → Within 0 1 (before ys 441 k) := by
    intro k hk
    rcases Nat.lt_or_ge 441 k with h | h
    · rw [before, if_neg (by omega)]; exact w0
    · have := hy (441 - k) (by omega) 0
      rw [before_zero] at this
      rw [before, if_pos h]
      exact this
  have hd' : 441 ≤ d := by rcases hd e1 e3 e4 with h | h <;> omega
  have b1 := hdry 441 (by omega)
  have b3 := hback _ (mixed_within hw (hyb d (by omega)) (hyb (d - 1) (by omega))).1
  have b2 : Within 0 (1 / 8) (mixedAt (tenMs.map (fun p => p.1.1)) 441 d w) := by
    have one : ∀ a : Fl, a.isFinite = true → 0 ≤ a.val → a.val ≤ 1 / 8 → Within 0 (1 / 8) (.fin 1 *. a) := by
      intro a ha h0 h8
      apply within_mul rfl ha rep0 rep8 (by norm_num) (by norm_num) <;> simp only [Fl.val_fin] <;> linarith
    rw [mixedAt]
    rcases hd e1 e3 e4 with ⟨rfl, h⟩ | ⟨rfl, h⟩
    · rw [tenMs_before (by omega), tenMs_before (by omega), if_pos rfl, if_neg (by omega)]
      have a1 := one w e2 e3 (by linarith)
      have a2 := hback _ hc.1
      apply within_add a1.1 a2.1 rep0 rep8 (by norm_num) (by norm_num) <;> linarith [a1.2.1, a1.2.2, a2.2.1, a2.2.2]
    · rw [tenMs_before (by omega), tenMs_before (by omega), if_pos rfl, if_neg (by omega)]
      have k := rnd_unit (x := 1 - w.val) (by linarith) (by linarith)
      have k0 := Fmt.rnd_nonneg (f := f32) (x := 1 - w.val) (by linarith)
      rw [abs_le] at k
      have a2 := one _ hc.1 (by rw [hc.2]; exact k0) (by rw [hc.2]; linarith [k.2])
      have a1 := hback w e2
      apply within_add a1.1 a2.1 rep0 rep8 (by norm_num) (by norm_num) <;> linarith [a1.2.1, a1.2.2, a2.2.1, a2.2.2]
  have b4 : Within 0 (1 / 8) (Fl.neg (.fin 0) *. before (tenMs.map (fun p => p.1.1)) 441 0 +. mixedAt (tenMs.map (fun p => p.1.1)) 441 d w) := by
    apply within_add b1.1 b2.1 rep0 rep8 (by norm_num) (by norm_num) <;> linarith [b1.2.1, b1.2.2, b2.2.1, b2.2.2]
  have b5 : Within 0 (1 / 8) (Fl.neg (.fin 0) *. before (tenMs.map (fun p => p.1.1)) 441 0 +. mixedAt (tenMs.map (fun p => p.1.1)) 441 d w +.
      .fin 0 *. mixedAt ys 441 d w) := by
    apply within_add b4.1 b3.1 rep0 rep8 (by norm_num) (by norm_num) <;> linarith [b4.2.1, b4.2.2, b3.2.1, b3.2.2]
  exact b5.2.2

/-! ### Examples -/

def twoBlocks : List (Changes × List (Fl × Fl)) :=
  [([], [(.fin 1, .fin 1), (.fin 0, .fin 0)]), ([(1, .fin (1 / 2))], [(.fin 1, .fin 1), (.fin 0, .fin 0)])]

/-- Two blocks with a gain set before the second: the gain in force at each sample. -/
example : Sized 2 (twoBlocks.map Prod.snd) ∧ (∀ b ∈ twoBlocks, ∀ e ∈ b.1, e.1 ≠ 0) ∧
    (List.range 4).map (fun t => setting 1 (.fin (1 / 4)) [[], [(1, .fin (1 / 2))]] (t / 2)) =
      [.fin (1 / 4), .fin (1 / 4), .fin (1 / 2), .fin (1 / 2)] ∧
    (3 : ℚ) ≤ (Fl.fin 10).val * (44100 : Nat) / 1000 := by
  refine ⟨?_, ?_, by decide +kernel, by norm_num [Fl.val]⟩
  · intro x hx
    simp only [twoBlocks, List.map_cons, List.map_nil, List.mem_cons, List.not_mem_nil, or_false] at hx
    rcases hx with rfl | rfl <;> rfl
  · intro b hb e he
    simp only [twoBlocks, List.mem_cons, List.not_mem_nil, or_false] at hb
    rcases hb with rfl | rfl
    · cases he
    · simp only [List.mem_cons, List.not_mem_nil, or_false] at he
      subst he
      decide

/-- A delay that moves from 5 ms to 2 s. -/
example : Sized 2 [[(((.fin 1, .fin 1), (.fin 5, .fin 0)) : (Fl × Fl) × (Fl × Fl)), ((.fin 0, .fin 0), (.fin 2000, .fin 0))]] ∧
    ∀ x ∈ [[(((.fin 1, .fin 1), (.fin 5, .fin 0)) : (Fl × Fl) × (Fl × Fl)), ((.fin 0, .fin 0), (.fin 2000, .fin 0))]].flatten, Within 1 2900 x.2.1 := by
  refine ⟨?_, ?_⟩
  · intro x hx
    rw [List.mem_singleton] at hx
    subst hx
    rfl
  · intro x hx
    simp only [List.flatten_cons, List.flatten_nil, List.append_nil, List.mem_cons, List.not_mem_nil, or_false] at hx
    rcases hx with rfl | rfl <;> exact ⟨rfl, by norm_num [Fl.val], by norm_num [Fl.val]⟩

end Verif.Props
