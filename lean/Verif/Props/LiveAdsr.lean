import Verif.Props.LiveEnvelope

/-! # Envelopes with a gate, changed while playing (C71) -/

namespace Verif.Props
open Spec

variable {P : Plat} {N : Nat} {env : Env} {k : Nat} {mono : Bool} {bs : List (Changes × List (Fl × Fl))}

/-- Attack, decay, sustain and release. -/
structure AdsrSet where
  attack : Fl
  decay : Fl
  sustain : Fl
  release : Fl

/-- The settings after changes. -/
def AdsrSet.change (p : AdsrSet) (cs : Changes) : AdsrSet :=
  ⟨newValue 0 p.attack cs, newValue 1 p.decay cs, newValue 2 p.sustain cs, newValue 3 p.release cs⟩

theorem adsrSet_at (p : AdsrSet) (cs : List Changes) (k : Nat) :
    (cs.take (k + 1)).foldl AdsrSet.change p =
      ⟨setting 0 p.attack cs k, setting 1 p.decay cs k, setting 2 p.sustain cs k, setting 3 p.release cs k⟩ := by
  simp only [← setting_eq]
  generalize cs.take (k + 1) = l
  induction l generalizing p with
  | nil => rfl
  | cons c l ih => rw [List.foldl_cons, ih]; rfl

/-- What is asked of the settings. -/
structure AdsrSet.Good (p : AdsrSet) : Prop where
  ha : Within 0 (2 ^ 30) p.attack
  hd : Within 0 (2 ^ 30) p.decay
  hs : Within 0 1 p.sustain
  ho : p.sustain.Ok f32
  hr : Within 0 (2 ^ 30) p.release

theorem adsr_send (st : AdsrState) (p : AdsrSet) (cs : Changes) :
    sendMsgs (GNode.prim (P := P) (.adsr ⟨p.attack, p.decay, p.sustain, p.release, st, env.sr, [k]⟩)) (changeMsgs cs) =
      .ok (.prim (.adsr ⟨(p.change cs).attack, (p.change cs).decay, (p.change cs).sustain, (p.change cs).release, st, env.sr, [k]⟩)) := by
  induction cs generalizing p with
  | nil => rfl
  | cons e cs ih =>
    obtain ⟨i, v⟩ := e
    match i with
    | 0 => exact ih { p with attack := v }
    | 1 => exact ih { p with decay := v }
    | 2 => exact ih { p with sustain := v }
    | 3 => exact ih { p with release := v }
    | i + 4 => exact ih p

theorem runM_items {σ ι κ ο : Type} (f : σ → ι → Except Panic (σ × ο)) (g : κ → ι) (s : σ) (xs : List κ) :
    runM (fun s x => f s (g x)) s xs = runM f s (xs.map g) := by
  induction xs generalizing s with
  | nil => rfl
  | cons x xs ih => simp only [runM, List.map_cons, ih]

/-- The states of a loop whose settings depend on the sample. -/
theorem adsrBy_states {π : Type} {a d r : π → Nat} {sus : π → Fl} {zs : List (π × Fl)} (hz : ∀ z ∈ zs, AdsrOk (a z.1) (d z.1) (sus z.1) ∧ r z.1 ≤ 2 ^ 54)
    {ys : List Fl} {e : AdsrState}
    (h : runM (fun s (z : π × Fl) => adsrStep (a z.1) (d z.1) (r z.1) (sus z.1) s z.2) ⟨0, .fin 0, .fin 0, .fin 0, 0⟩ zs = .ok (e, ys)) :
    ∃ st : Nat → AdsrState, st 0 = ⟨0, .fin 0, .fin 0, .fin 0, 0⟩ ∧
      (∀ t, t ≤ zs.length → AdsrInv (st t)) ∧
      ∀ t z, zs[t]? = some z → ∃ y, ys[t]? = some y ∧
        adsrValue (a z.1) (d z.1) (r z.1) (sus z.1) (adsrGate (st t) z.2) = .ok y ∧ Within 0 1 y ∧
        st (t + 1) = { adsrGate (st t) z.2 with lasty := y, lastx := z.2, pos := (adsrGate (st t) z.2).pos + 1 } := by
  obtain ⟨st, h0, _, h2⟩ := runM_states h
  have hinv : ∀ t, t ≤ zs.length → AdsrInv (st t) := by
    intro t ht
    induction t with
    | zero => rw [h0]; exact adsrInv_new
    | succ t ih =>
      obtain ⟨hp, hr⟩ := hz zs[t] (List.getElem_mem _)
      obtain ⟨q, q1, q2, _⟩ := adsr_step hp hr (ih (by omega)) zs[t].2
      obtain ⟨y, _, y2⟩ := h2 t zs[t] (by simp [show t < zs.length by omega])
      rw [q1, Except.ok.injEq] at y2
      rw [y2] at q2
      exact q2
  refine ⟨st, h0, hinv, fun t x hx => ?_⟩
  obtain ⟨hp, hr⟩ := hz x (List.mem_of_getElem? hx)
  have ht := (List.getElem?_eq_some_iff.mp hx).1
  obtain ⟨y, y1, y2⟩ := h2 t x hx
  obtain ⟨q, q1, _, q3⟩ := adsr_step hp hr (hinv t ht.le) x.2
  rw [q1, Except.ok.injEq] at y2
  rw [y2] at q1 q3
  unfold adsrStep at q1
  cases hv : adsrValue (a x.1) (d x.1) (r x.1) (sus x.1) (adsrGate (st t) x.2) with
  | error e => simp [hv, bind, Except.bind] at q1
  | ok v =>
    simp only [hv, bind, Except.bind, Except.ok.injEq, Prod.mk.injEq] at q1
    refine ⟨y, y1, by rw [q1.2], q3, ?_⟩
    rw [← q1.1, q1.2]

/-- What the loop plays. -/
theorem adsrBy_shape {a d r : Nat → Nat} {sus : Nat → Fl} {xs ys : List Fl} {st : Nat → AdsrState} (hlen : ys.length = xs.length)
    (hp : ∀ t, t < xs.length → AdsrOk (a t) (d t) (sus t) ∧ r t ≤ 2 ^ 54) (h0 : st 0 = ⟨0, .fin 0, .fin 0, .fin 0, 0⟩)
    (hinv : ∀ t, t ≤ xs.length → AdsrInv (st t))
    (hstep : ∀ t x, xs[t]? = some x → ∃ y, ys[t]? = some y ∧ adsrValue (a t) (d t) (r t) (sus t) (adsrGate (st t) x) = .ok y ∧ Within 0 1 y ∧
      st (t + 1) = { adsrGate (st t) x with lasty := y, lastx := x, pos := (adsrGate (st t) x).pos + 1 })
    {t : Nat} {y : Fl} (hy : ys[t]? = some y) :
    (Untriggered xs t → y.val = 0) ∧
    (∀ s, HeldSince xs t s →
      (a t + d t < t - s → y = sus t) ∧
      ((∀ z, 1 ≤ s → ys[s - 1]? = some z → z.val = 0) → HeldAt (a t) (d t) (sus t) (t - s) y)) ∧
    (∀ s c, ReleasedSince xs t s → ys[s - 1]? = some c → ReleasedAt (r t) c (t - s) y) := by
  have ht : t < xs.length := by rw [← hlen]; exact (List.getElem?_eq_some_iff.mp hy).1
  have hmem : ∀ u, u < xs.length → ∃ x z, xs[u]? = some x ∧ ys[u]? = some z ∧
      (st (u + 1)).lastx = x ∧ (st (u + 1)).lasty = z := by
    intro u hu
    obtain ⟨z, z1, _, _, z4⟩ := hstep u xs[u] (by simp [hu])
    exact ⟨xs[u], z, by simp [hu], z1, by rw [z4], by rw [z4]⟩
  refine ⟨fun hu => ?_, fun s hh => ?_, fun s c hh hc => ?_⟩
  · have key : ∀ u, u ≤ t → (st u).phase = 0 ∧ Fl.lt (.fin 0) (st u).lastx = false := by
      intro u hut
      induction u with
      | zero => rw [h0]; exact ⟨rfl, by simp [Fl.lt, Fl.val]⟩
      | succ u ih =>
        obtain ⟨i1, i2⟩ := ih (by omega)
        have hn := hu u xs[u] (by omega) (by simp [show u < xs.length by omega])
        obtain ⟨z, _, _, _, z4⟩ := hstep u xs[u] (by simp [show u < xs.length by omega])
        rw [adsrGate_keep (fun h => hn h.1) (fun h => by rw [Positive, i2] at h; cases h.2)] at z4
        rw [z4]
        exact ⟨i1, by unfold Positive at hn; simpa using hn⟩
    obtain ⟨i1, i2⟩ := key t (le_refl _)
    have hn := hu t xs[t] (le_refl _) (by simp [ht])
    obtain ⟨z, z1, z2, _, _⟩ := hstep t xs[t] (by simp [ht])
    rw [adsrGate_keep (fun h => hn h.1) (fun h => by rw [Positive, i2] at h; cases h.2)] at z2
    rw [hy, Option.some.injEq] at z1
    simp only [adsrValue, i1, Except.ok.injEq] at z2
    rw [z1, ← show Fl.fin 0 = z by simpa using z2]
    rfl
  · obtain ⟨e1, e2, e3⟩ := hh
    have hz : IsZero (st s).lastx := by
      cases s with
      | zero => rw [h0]; rfl
      | succ s =>
        obtain ⟨x, _, m1, _, m3, _⟩ := hmem s (by omega)
        rw [m3]; exact e2 x (by omega) m1
    have key : ∀ j, s + j ≤ t → ∃ x z, xs[s + j]? = some x ∧ ys[s + j]? = some z ∧
        adsrHeld (a (s + j)) (d (s + j)) (sus (s + j)) (st s).lasty j = .ok z ∧
        st (s + j + 1) = ⟨j + 1, x, z, (st s).lasty, 1⟩ := by
      intro j hj
      induction j with
      | zero =>
        obtain ⟨z, z1, z2, _, z4⟩ := hstep s xs[s] (by simp [show s < xs.length by omega])
        rw [adsrGate_up (e3 s _ (le_refl _) (by omega) (by simp [show s < xs.length by omega])) hz] at z2 z4
        refine ⟨xs[s], z, by simp [show s < xs.length by omega], z1, ?_, ?_⟩
        · simpa [adsrValue] using z2
        · rw [Nat.add_zero, z4]
      | succ j ih =>
        obtain ⟨x, z, i1, _, _, i4⟩ := ih (by omega)
        have hb : s + (j + 1) < xs.length := by omega
        obtain ⟨w, w1, w2, _, w4⟩ := hstep (s + (j + 1)) xs[s + (j + 1)] (by simp [hb])
        have hst : st (s + (j + 1)) = ⟨j + 1, x, z, (st s).lasty, 1⟩ := i4
        have hx := e3 (s + j) x (by omega) (by omega) i1
        have hx' := e3 (s + (j + 1)) xs[s + (j + 1)] (by omega) hj (by simp [hb])
        rw [adsrGate_keep (fun h => by
            rw [hst, IsZero, positive_not_zero hx] at h; cases h.2)
          (fun h => by rw [IsZero, positive_not_zero hx'] at h; cases h.1), hst] at w2 w4
        exact ⟨xs[s + (j + 1)], w, by simp [hb], w1, by simpa [adsrValue] using w2, w4⟩
    obtain ⟨_, z, _, k2, k3, _⟩ := key (t - s) (by omega)
    rw [Nat.add_sub_cancel' e1] at k2 k3
    rw [hy, Option.some.injEq] at k2
    obtain ⟨w, w1, _, _, w4⟩ := held_within (hp t ht).1 (hinv s (by omega)).1 (t - s)
    rw [k3, Except.ok.injEq] at w1
    rw [k2]
    refine ⟨fun hlt => ?_, fun hq => ?_⟩
    · have := (hp t ht).1.ha
      have := (hp t ht).1.hd
      rw [adsrHeld, if_neg (by omega)] at k3
      have hadd : usizeAdd (a t) (d t) = .ok _ := if_pos (by omega)
      simp only [hadd, bind, Except.bind] at k3
      rw [if_neg (by omega), Except.ok.injEq] at k3
      exact k3.symm
    · rw [w1]
      apply w4
      cases s with
      | zero => rw [h0]; rfl
      | succ s =>
        obtain ⟨_, v, _, m2, _, m4⟩ := hmem s (by omega)
        rw [m4]; exact hq v (by omega) m2
  · obtain ⟨e0, e1, e2, e3⟩ := hh
    obtain ⟨s, rfl⟩ : ∃ s', s = s' + 1 := ⟨s - 1, by omega⟩
    obtain ⟨x0, v, m1, m2, m3, m4⟩ := hmem s (by omega)
    have hpos : Positive (st (s + 1)).lastx := by rw [m3]; exact e2 x0 m1
    rw [Nat.add_sub_cancel] at hc
    rw [hc, Option.some.injEq] at m2
    have hcv : (st (s + 1)).lasty = c := by rw [m4, m2]
    have key : ∀ j, s + 1 + j ≤ t → ∃ x, xs[s + 1 + j]? = some x ∧
        ys[s + 1 + j]? = some (adsrRelease (r (s + 1 + j)) c j) ∧
        st (s + 1 + j + 1) = ⟨j + 1, x, adsrRelease (r (s + 1 + j)) c j, c, 2⟩ := by
      intro j hj
      induction j with
      | zero =>
        have hb : s + 1 < xs.length := by omega
        obtain ⟨z, z1, z2, _, z4⟩ := hstep (s + 1) xs[s + 1] (by simp [hb])
        rw [adsrGate_down (e3 (s + 1) _ (le_refl _) (by omega) (by simp [hb])) hpos] at z2 z4
        have hzv : adsrRelease (r (s + 1 + 0)) c 0 = z := by
          simpa [adsrValue, hcv] using z2
        refine ⟨xs[s + 1], by simp [hb], by rw [hzv]; exact z1, ?_⟩
        rw [hzv, Nat.add_zero, z4, hcv]
      | succ j ih =>
        obtain ⟨x, i1, _, i4⟩ := ih (by omega)
        have hb : s + 1 + (j + 1) < xs.length := by omega
        obtain ⟨w, w1, w2, _, w4⟩ := hstep (s + 1 + (j + 1)) xs[s + 1 + (j + 1)] (by simp [hb])
        have hst : st (s + 1 + (j + 1)) = ⟨j + 1, x, adsrRelease (r (s + 1 + j)) c j, c, 2⟩ := i4
        have hx := e3 (s + 1 + j) x (by omega) (by omega) i1
        have hx' := e3 (s + 1 + (j + 1)) xs[s + 1 + (j + 1)] (by omega) hj (by simp [hb])
        rw [adsrGate_keep (fun h => by rw [Positive, zero_not_positive hx'] at h; cases h.1)
          (fun h => by rw [hst, Positive, zero_not_positive hx] at h; cases h.2), hst] at w2 w4
        have hzv : adsrRelease (r (s + 1 + (j + 1))) c (j + 1) = w := by
          simpa [adsrValue] using w2
        refine ⟨xs[s + 1 + (j + 1)], by simp [hb], by rw [hzv]; exact w1, ?_⟩
        rw [w4, hzv]
    obtain ⟨_, _, k2, _⟩ := key (t - (s + 1)) (by omega)
    rw [Nat.add_sub_cancel' e1, hy, Option.some.injEq] at k2
    have hi := hinv (s + 1) (by omega)
    rw [k2]
    refine (release_within (hp t ht).2 ?_ ?_ _).2.2
    · rw [← hcv]; exact hi.1
    · rw [← hcv]; exact hi.2.1

/-- **C71 (part)**, `adsr`: changed times and a changed sustain level count from the block on before which they are changed, measured from where the gate went
up or down; the envelope does not start over. As for C23, gates that go up while the envelope still sounds are left out of the rise and the fall to the sustain level. -/
theorem c71_adsr_partial (attack decay sus release : Fl) (hs : Sized N (bs.map Prod.snd)) (hsr : env.sr ≤ 2 ^ 24)
    (ha : Within 0 (2 ^ 30) attack) (hd : Within 0 (2 ^ 30) decay) (hr : Within 0 (2 ^ 30) release) (hu : Within 0 1 sus) (ho : sus.Ok f32)
    (hc : ∀ b ∈ bs, ∀ e ∈ b.1, (e.1 < 4 → e.1 ≠ 2 → Within 0 (2 ^ 30) e.2) ∧ (e.1 = 2 → Within 0 1 e.2 ∧ e.2.Ok f32)) :
    ∃ outs ys, ∃ samples : Fl → Nat, playChanged P N env (.adsr attack decay sus release) [.index k] (changedFrom k mono bs) = .ok outs ∧
      channel 0 outs = some ys ∧ channel 1 outs = some ys ∧ ys.length = (lefts (bs.map Prod.snd)).length ∧
      (∀ v, Within 0 (2 ^ 30) v → InSamples env.sr v (samples v)) ∧
      ∀ t y, ys[t]? = some y → ∀ a d su r, a = samples (setting 0 attack (bs.map Prod.fst) (t / N)) →
        d = samples (setting 1 decay (bs.map Prod.fst) (t / N)) → su = setting 2 sus (bs.map Prod.fst) (t / N) →
        r = samples (setting 3 release (bs.map Prod.fst) (t / N)) →
        Within 0 1 y ∧
        (Untriggered (lefts (bs.map Prod.snd)) t → y.val = 0) ∧
        (∀ s, HeldSince (lefts (bs.map Prod.snd)) t s →
          (a + d < t - s → y = su) ∧
          ((∀ z, 1 ≤ s → ys[s - 1]? = some z → z.val = 0) → HeldAt a d su (t - s) y)) ∧
        (∀ s c, ReleasedSince (lefts (bs.map Prod.snd)) t s → ys[s - 1]? = some c → ReleasedAt r c (t - s) y) := by
  have hsec : ∀ v, Within 0 (2 ^ 30) v → InSamples env.sr v (secToSamples env.sr v) ∧ secToSamples env.sr v ≤ 2 ^ 54 := fun v hv =>
    secToSamples_close hsr hv.1 hv.2.1 hv.2.2
  have hgood : AdsrSet.Good ⟨attack, decay, sus, release⟩ := ⟨ha, hd, hu, ho, hr⟩
  have hset : ∀ t, AdsrSet.Good ⟨setting 0 attack (bs.map Prod.fst) t, setting 1 decay (bs.map Prod.fst) t, setting 2 sus (bs.map Prod.fst) t,
      setting 3 release (bs.map Prod.fst) t⟩ := by
    intro t
    have hc' : ∀ c ∈ bs.map Prod.fst, ∀ e ∈ c, (e.1 < 4 → e.1 ≠ 2 → Within 0 (2 ^ 30) e.2) ∧ (e.1 = 2 → Within 0 1 e.2 ∧ e.2.Ok f32) := by
      intro c hcm e he
      obtain ⟨b, hb, rfl⟩ := List.mem_map.mp hcm
      exact hc b hb e he
    have hq := setting_mem (fun v => Within 0 1 v ∧ v.Ok f32) ⟨hu, ho⟩ (fun c h e he h2 => (hc' c h e he).2 h2) t
    exact ⟨setting_mem _ ha (fun c h e he h2 => (hc' c h e he).1 (by omega) (by omega)) t,
      setting_mem _ hd (fun c h e he h2 => (hc' c h e he).1 (by omega) (by omega)) t, hq.1, hq.2,
      setting_mem _ hr (fun c h e he h2 => (hc' c h e he).1 (by omega) (by omega)) t⟩
  have hzat : ∀ (t : Nat) q, (withPar AdsrSet.change ⟨attack, decay, sus, release⟩ (inBlocks k mono bs)).flatten[t]? = some q →
      q.1 = ⟨setting 0 attack (bs.map Prod.fst) (t / N), setting 1 decay (bs.map Prod.fst) (t / N), setting 2 sus (bs.map Prod.fst) (t / N),
        setting 3 release (bs.map Prod.fst) (t / N)⟩ := by
    intro t q hq
    rw [withPar_at (inBlocks_len hs), inBlocks_fst, adsrSet_at] at hq
    cases hx : ((inBlocks k mono bs).map fun b => b.2.2).flatten[t]? with
    | none => rw [hx] at hq; cases hq
    | some x => rw [hx] at hq; cases hq; rfl
  have hitems := withPar_items (upd := AdsrSet.change) (p := ⟨attack, decay, sus, release⟩) (bs := inBlocks k mono bs)
  rw [inBlocks_items] at hitems
  have hrun := fun (ch : Nat) (hch : ∀ (y : List Fl), [y, y][ch]? = some y) =>
    live_general (P := P) (fun (p : AdsrSet) (s : AdsrState) => .prim (.adsr ⟨p.attack, p.decay, p.sustain, p.release, s, env.sr, [k]⟩))
    changeMsgs AdsrSet.change
    (fun p s (x : Fl × Fl) => adsrStep (secToSamples env.sr p.attack) (secToSamples env.sr p.decay) (secToSamples env.sr p.release) p.sustain s x.1)
    id (fun _ => True) (Shaped 2 N) ch (fun y _ => [y, y]) (inBlocks k mono bs) (fun _ _ _ _ => trivial)
    (fun b _ p s => adsr_send s p b.1)
    (fun p s b out hb _ hout => by
      obtain ⟨x, hx, rfl⟩ := List.mem_map.mp hb
      obtain ⟨o1, o2, rfl⟩ := List.length_eq_two.mp hout.1
      have h3 : inputAt [(k, bufsOf mono x.2)] [k] 0 = .ok (bufsOf mono x.2) := by simp [inputAt]
      rw [runM_items (adsrStep (secToSamples env.sr p.attack) (secToSamples env.sr p.decay) (secToSamples env.sr p.release) p.sustain)]
      simp only [procG, procPrim, procAdsr, h3, chan_bufsOf, bind, Except.bind]
      cases runM (adsrStep (secToSamples env.sr p.attack) (secToSamples env.sr p.decay) (secToSamples env.sr p.release) p.sustain) s (x.2.map Prod.fst) with
      | error e => rfl
      | ok w => rfl)
    (fun p b s r out hb hout hr => by
      have hl := runM_length hr
      rw [inBlocks_len hs b hb] at hl
      exact ⟨⟨rfl, by simp [hl]⟩, by rw [List.map_id]; exact hch _⟩)
    ⟨attack, decay, sus, release⟩ ⟨0, .fin 0, .fin 0, .fin 0, 0⟩ _ trivial
    (shaped_fresh N 2 (GNode.prim (P := P) (.adsr (Adsr.new attack decay sus release env.sr))))
  have hmap := runM_items (fun s (z : AdsrSet × Fl) => adsrStep (secToSamples env.sr z.1.attack) (secToSamples env.sr z.1.decay)
    (secToSamples env.sr z.1.release) z.1.sustain s z.2) (fun q : AdsrSet × (Fl × Fl) => (q.1, q.2.1)) ⟨0, .fin 0, .fin 0, .fin 0, 0⟩
    (withPar AdsrSet.change ⟨attack, decay, sus, release⟩ (inBlocks k mono bs)).flatten
  rw [hmap] at hrun
  have hz : ((withPar AdsrSet.change ⟨attack, decay, sus, release⟩ (inBlocks k mono bs)).flatten.map fun q => (q.1, q.2.1)).map Prod.snd =
      lefts (bs.map Prod.snd) := by
    rw [lefts, ← hitems, List.map_map, List.map_map]
    rfl
  have hzat' : ∀ (t : Nat) q, ((withPar AdsrSet.change ⟨attack, decay, sus, release⟩ (inBlocks k mono bs)).flatten.map fun q => (q.1, q.2.1))[t]? = some q →
      q.1 = ⟨setting 0 attack (bs.map Prod.fst) (t / N), setting 1 decay (bs.map Prod.fst) (t / N), setting 2 sus (bs.map Prod.fst) (t / N),
        setting 3 release (bs.map Prod.fst) (t / N)⟩ := by
    intro t q hq
    rw [List.getElem?_map] at hq
    cases hx : (withPar AdsrSet.change ⟨attack, decay, sus, release⟩ (inBlocks k mono bs)).flatten[t]? with
    | none => rw [hx] at hq; cases hq
    | some x => rw [hx] at hq; cases hq; exact hzat t x hx
  revert hrun hz hzat'
  generalize ((withPar AdsrSet.change ⟨attack, decay, sus, release⟩ (inBlocks k mono bs)).flatten.map fun q => (q.1, q.2.1)) = zs
  intro hrun hz hzat'
  have hl : zs.length = (lefts (bs.map Prod.snd)).length := by rw [← hz, List.length_map]
  have hok : ∀ z ∈ zs, AdsrOk (secToSamples env.sr z.1.attack) (secToSamples env.sr z.1.decay) z.1.sustain ∧ secToSamples env.sr z.1.release ≤ 2 ^ 54 := by
    intro z hzm
    obtain ⟨t, ht, rfl⟩ := List.mem_iff_getElem.mp hzm
    have h := hset (t / N)
    rw [← hzat' t _ (List.getElem?_eq_getElem ht)] at h
    exact ⟨⟨(hsec _ h.ha).2, (hsec _ h.hd).2, h.hs, h.ho⟩, (hsec _ h.hr).2⟩
  obtain ⟨q, q1, _⟩ := runM_total (I := AdsrInv)
    (J := fun z : AdsrSet × Fl => AdsrOk (secToSamples env.sr z.1.attack) (secToSamples env.sr z.1.decay) z.1.sustain ∧ secToSamples env.sr z.1.release ≤ 2 ^ 54)
    (fun s (z : AdsrSet × Fl) => adsrStep (secToSamples env.sr z.1.attack) (secToSamples env.sr z.1.decay) (secToSamples env.sr z.1.release) z.1.sustain s z.2)
    (fun s x h hx => by
      obtain ⟨q, q1, q2, _⟩ := adsr_step hx.1 hx.2 h x.2
      exact ⟨q, q1, q2⟩) _ adsrInv_new zs hok
  rw [q1] at hrun
  simp only [loopResult, List.map_id] at hrun
  obtain ⟨o, g1, g2⟩ := chanResult_ok (hrun 0 fun _ => rfl)
  obtain ⟨o', g1', g3⟩ := chanResult_ok (hrun 1 fun _ => rfl)
  rw [g1] at g1'
  cases g1'
  rw [inBlocks_steps] at g1
  obtain ⟨st, h0, hinv, hstep⟩ := adsrBy_states (a := fun p : AdsrSet => secToSamples env.sr p.attack) (d := fun p => secToSamples env.sr p.decay)
    (r := fun p => secToSamples env.sr p.release) (sus := fun p => p.sustain) hok q1
  have hlq := runM_length q1
  refine ⟨o, q.2, secToSamples env.sr, live_ok (adsr_make P N env attack decay sus release k).1 (adsr_make P N env attack decay sus release k).2 g1,
    g2, g3, by rw [hlq, hl], fun v hv => (hsec v hv).1, fun t y hy a d su r ea ed es er => ?_⟩
  have hzx : ∀ (t : Nat) x, (lefts (bs.map Prod.snd))[t]? = some x → ∃ z, zs[t]? = some z ∧ z.2 = x := by
    intro t x hx
    rw [← hz, List.getElem?_map] at hx
    cases hzt : zs[t]? with
    | none => rw [hzt] at hx; cases hx
    | some z => rw [hzt] at hx; cases hx; exact ⟨z, rfl, rfl⟩
  have hstep' : ∀ (t : Nat) x, (lefts (bs.map Prod.snd))[t]? = some x → ∃ y, q.2[t]? = some y ∧
      adsrValue (secToSamples env.sr (setting 0 attack (bs.map Prod.fst) (t / N))) (secToSamples env.sr (setting 1 decay (bs.map Prod.fst) (t / N)))
        (secToSamples env.sr (setting 3 release (bs.map Prod.fst) (t / N))) (setting 2 sus (bs.map Prod.fst) (t / N)) (adsrGate (st t) x) = .ok y ∧ Within 0 1 y ∧
      st (t + 1) = { adsrGate (st t) x with lasty := y, lastx := x, pos := (adsrGate (st t) x).pos + 1 } := by
    intro t x hx
    obtain ⟨z, hzt, rfl⟩ := hzx t x hx
    have := hstep t z hzt
    rwa [hzat' t z hzt] at this
  have key := adsrBy_shape (a := fun t => secToSamples env.sr (setting 0 attack (bs.map Prod.fst) (t / N)))
    (d := fun t => secToSamples env.sr (setting 1 decay (bs.map Prod.fst) (t / N)))
    (r := fun t => secToSamples env.sr (setting 3 release (bs.map Prod.fst) (t / N)))
    (sus := fun t => setting 2 sus (bs.map Prod.fst) (t / N)) (by rw [hlq, hl])
    (fun t _ => ⟨⟨(hsec _ (hset (t / N)).ha).2, (hsec _ (hset (t / N)).hd).2, (hset (t / N)).hs, (hset (t / N)).ho⟩, (hsec _ (hset (t / N)).hr).2⟩)
    h0 (by rw [← hl]; exact hinv) hstep' hy
  subst ea ed es er
  refine ⟨?_, key⟩
  have ht : t < zs.length := by rw [← hlq]; exact (List.getElem?_eq_some_iff.mp hy).1
  obtain ⟨w, w1, _, w3, _⟩ := hstep t _ (List.getElem?_eq_getElem ht)
  rw [hy, Option.some.injEq] at w1
  rw [w1]; exact w3

/-- A gate that goes up, down before the third block; sustain and release are changed before the second block. -/
example : ∃ (env : Env) (attack decay sus release : Fl) (bs : List (Changes × List (Fl × Fl))), Sized 2 (bs.map Prod.snd) ∧ env.sr ≤ 2 ^ 24 ∧
    Within 0 (2 ^ 30) attack ∧ Within 0 (2 ^ 30) decay ∧ Within 0 (2 ^ 30) release ∧ Within 0 1 sus ∧ sus.Ok f32 ∧
    (∀ b ∈ bs, ∀ e ∈ b.1, (e.1 < 4 → e.1 ≠ 2 → Within 0 (2 ^ 30) e.2) ∧ (e.1 = 2 → Within 0 1 e.2 ∧ e.2.Ok f32)) ∧
    Untriggered (lefts (bs.map Prod.snd)) 0 ∧ HeldSince (lefts (bs.map Prod.snd)) 3 1 ∧ ReleasedSince (lefts (bs.map Prod.snd)) 5 4 ∧
    setting 2 sus (bs.map Prod.fst) (3 / 2) = .fin (1 / 2) ∧ setting 3 release (bs.map Prod.fst) (5 / 2) = .fin (1 / 4) := by
  have w : ∀ q : ℚ, 0 ≤ q → q ≤ 1 → Within 0 (2 ^ 30) (Fl.fin q) := fun q h1 h2 => ⟨rfl, h1, le_trans h2 (by norm_num)⟩
  have w1 : Within 0 1 (Fl.fin (1 / 2)) := ⟨rfl, by norm_num [Fl.val], by norm_num [Fl.val]⟩
  have wo : (Fl.fin (1 / 2)).Ok f32 := ⟨rephalf, by rw [f32_maxFin, abs_of_pos] <;> norm_num⟩
  refine ⟨⟨[], 44100, .fin 120, 0⟩, .fin (1 / 8), .fin (1 / 4), .fin 0, .fin (1 / 8),
    [([], [(.fin 0, .fin 0), (.fin 1, .fin 0)]), ([(2, .fin (1 / 2)), (3, .fin (1 / 4))], [(.fin 1, .fin 0), (.fin 1, .fin 0)]),
      ([], [(.fin 0, .fin 0), (.fin 0, .fin 0)])], ?_, by decide,
    w _ (by norm_num) (by norm_num), w _ (by norm_num) (by norm_num), w _ (by norm_num) (by norm_num), ⟨rfl, le_refl _, by norm_num [Fl.val]⟩,
    Fl.zero_ok, ?_, ?_, ⟨by decide, ?_, ?_⟩, ⟨by decide, by decide, ?_, ?_⟩, rfl, rfl⟩
  · intro x hx
    simp only [List.map_cons, List.map_nil, List.mem_cons, List.not_mem_nil, or_false] at hx
    rcases hx with rfl | rfl | rfl <;> rfl
  · intro b hb e he
    simp only [List.mem_cons, List.not_mem_nil, or_false] at hb
    rcases hb with rfl | rfl | rfl
    · cases he
    · simp only [List.mem_cons, List.not_mem_nil, or_false] at he
      rcases he with rfl | rfl
      · exact ⟨fun _ h => absurd rfl h, fun _ => ⟨w1, wo⟩⟩
      · exact ⟨fun _ _ => w _ (by norm_num) (by norm_num), fun h => absurd h (by decide)⟩
    · cases he
  · intro u z h hz
    obtain rfl : u = 0 := by omega
    cases hz; simp [Positive, Fl.lt, Fl.val]
  · intro z _ hz; cases hz; rfl
  · intro u z h1 h2 hz
    have : u = 1 ∨ u = 2 ∨ u = 3 := by omega
    rcases this with rfl | rfl | rfl <;> cases hz <;> simp [Positive, Fl.lt, Fl.val]
  · intro z hz; cases hz; simp [Positive, Fl.lt, Fl.val]
  · intro u z h1 h2 hz
    have : u = 4 ∨ u = 5 := by omega
    rcases this with rfl | rfl <;> cases hz <;> rfl

end Verif.Props
