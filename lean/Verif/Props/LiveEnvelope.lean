import Verif.Props.Live
import Verif.Props.Envelope

/-! # Envelopes changed while playing (C71) -/

namespace Verif.Props
open Spec

variable {P : Plat} {N : Nat} {env : Env} {k : Nat} {mono : Bool} {bs : List (Changes × List (Fl × Fl))}

/-- An envelope whose lengths depend on the sample. -/
theorem percBy_untriggered {π : Type} {a d : π → Nat} {sc : Fl} {zs : List (π × Fl)} {t : Nat} {z : π × Fl} (ht : zs[t]? = some z)
    (h : Untriggered (zs.map Prod.snd) t) :
    (run (fun s (q : π × Fl) => percStep (a q.1) (d q.1) s q.2) (0, sc) zs).2[t]? = some (percShape (a z.1) (d z.1) t *. sc) := by
  obtain ⟨st, h0, _, h2⟩ := run_states (fun s (q : π × Fl) => percStep (a q.1) (d q.1) s q.2) (0, sc) zs
  have hl := (List.getElem?_eq_some_iff.mp ht).1
  have hneg : ∀ (u : Nat) w, u ≤ t → zs[u]? = some w → Fl.lt (.fin 0) w.2 = false := by
    intro u w hu hw
    have := h u w.2 hu (by rw [List.getElem?_map, hw]; rfl)
    simpa [Positive] using this
  have key : ∀ u, u ≤ t → st u = (u, sc) := by
    intro u hu
    induction u with
    | zero => exact h0
    | succ u ih =>
      have hw := List.getElem?_eq_getElem (show u < zs.length by omega)
      rw [(h2 u _ hw).2, ih (by omega)]
      simp [percStep, hneg u _ (by omega) hw]
  rw [(h2 t z ht).1, key t (le_refl _)]
  simp [percStep, hneg t _ (le_refl _) ht]

theorem percBy_triggered {π : Type} {a d : π → Nat} {s0 : Nat × Fl} {zs : List (π × Fl)} {t s : Nat} {x : Fl} {z : π × Fl}
    (ht : zs[t]? = some z) (h : LastTrigger (zs.map Prod.snd) t s x) :
    (run (fun s (q : π × Fl) => percStep (a q.1) (d q.1) s q.2) s0 zs).2[t]? = some (percShape (a z.1) (d z.1) (t - s) *. x) := by
  obtain ⟨st, h0, _, h2⟩ := run_states (fun s (q : π × Fl) => percStep (a q.1) (d q.1) s q.2) s0 zs
  have hl := (List.getElem?_eq_some_iff.mp ht).1
  obtain ⟨hs, hx, hp, hn⟩ := h
  have hneg : ∀ (u : Nat) w, s < u → u ≤ t → zs[u]? = some w → Fl.lt (.fin 0) w.2 = false := by
    intro u w h1 hu hw
    have := hn u w.2 h1 hu (by rw [List.getElem?_map, hw]; rfl)
    simpa [Positive] using this
  have key : ∀ (j : Nat) w, s + j ≤ t → zs[s + j]? = some w →
      (run (fun s (q : π × Fl) => percStep (a q.1) (d q.1) s q.2) s0 zs).2[s + j]? = some (percShape (a w.1) (d w.1) j *. x) ∧
      st (s + j + 1) = (j + 1, x) := by
    intro j
    induction j with
    | zero =>
      intro w hj hw
      rw [List.getElem?_map, show zs[s]? = some w from hw] at hx
      simp only [Option.map_some, Option.some.injEq] at hx
      obtain ⟨g1, g2⟩ := h2 s w hw
      unfold Positive at hp
      rw [Nat.add_zero, g1, g2]
      subst hx
      simp [percStep, hp]
    | succ j ih =>
      intro w hj hw
      obtain ⟨g1, g2⟩ := h2 (s + (j + 1)) w hw
      have hq := hneg (s + (j + 1)) w (by omega) hj hw
      have hst : st (s + (j + 1)) = (j + 1, x) := (ih _ (by omega) (List.getElem?_eq_getElem (show s + j < zs.length by omega))).2
      rw [g1, g2, hst]
      simp [percStep, hq]
  have := (key (t - s) z (by omega) (by rw [Nat.add_sub_cancel' hs]; exact ht)).1
  rwa [Nat.add_sub_cancel' hs] at this

/-- **C71 (part)**, `envperc`: a changed attack or decay counts from the trigger on; the position in the envelope goes on. -/
theorem c71_envperc_partial (attack decay : Fl) (hs : Sized N (bs.map Prod.snd)) (hsr : env.sr ≤ 2 ^ 24)
    (ha : Within 0 (2 ^ 30) attack) (hd : Within 0 (2 ^ 30) decay)
    (hc : ∀ b ∈ bs, ∀ e ∈ b.1, e.1 < 2 → Within 0 (2 ^ 30) e.2)
    (hx : ∀ x ∈ lefts (bs.map Prod.snd), Positive x → x.isFinite = true ∧ x.Ok f32) :
    ∃ outs ys, ∃ samples : Fl → Nat, playChanged P N env (.envperc attack decay) [.index k] (changedFrom k mono bs) = .ok outs ∧
      channel 0 outs = some ys ∧ ys.length = (lefts (bs.map Prod.snd)).length ∧
      channel 1 outs = some (List.replicate ys.length (.fin 0)) ∧
      (∀ v, Within 0 (2 ^ 30) v → InSamples env.sr v (samples v)) ∧
      ∀ t y, ys[t]? = some y → ∀ a d, a = samples (setting 0 attack (bs.map Prod.fst) (t / N)) →
        d = samples (setting 1 decay (bs.map Prod.fst) (t / N)) →
        (∀ s x, LastTrigger (lefts (bs.map Prod.snd)) t s x → PercAt a d (t - s) x y) ∧
        (Untriggered (lefts (bs.map Prod.snd)) t → PercAt a d t (.fin 1) y) := by
  have hsec : ∀ v, Within 0 (2 ^ 30) v → InSamples env.sr v (secToSamples env.sr v) ∧ secToSamples env.sr v ≤ 2 ^ 54 := fun v hv =>
    secToSamples_close hsr hv.1 hv.2.1 hv.2.2
  have key : ∀ (ch : Nat) (pr : Fl → Fl), (∀ y : List Fl, y.length = N → [y, List.replicate N (Fl.fin 0)][ch]? = some (y.map pr)) → _ :=
    fun ch pr hpr => live_pure_inv (P := P) (N := N) (env := env) (c := .envperc attack decay) (msgs := [.index k])
    (fun p (s : Nat × Fl) => .prim (.envperc ⟨p.1, p.2, s.1, s.2, env.sr, [k]⟩)) changeMsgs newPair
    (fun p s (x : Fl × Fl) => percStep (secToSamples env.sr p.1) (secToSamples env.sr p.2) s x.1) pr
    (fun p => Within 0 (2 ^ 30) p.1 ∧ Within 0 (2 ^ 30) p.2) (LeftOnly N) ch
    (fun y o => y :: o.tail) (inBlocks k mono bs) (attack, decay) (0, .fin 1) (envperc_make P N env attack decay k).1
    (envperc_make P N env attack decay k).2
    (fun b hb p hp => by
      obtain ⟨x, hx, rfl⟩ := List.mem_map.mp hb
      exact ⟨newValue_mem _ hp.1 fun e he h => hc x hx e he (by omega), newValue_mem _ hp.2 fun e he h => hc x hx e he (by omega)⟩)
    (fun b _ p s => send_pair (wrap := fun p => .prim (.envperc ⟨p.1, p.2, s.1, s.2, env.sr, [k]⟩)) (fun _ _ => rfl) (fun _ _ => rfl)
      (fun _ _ _ => rfl) p b.1)
    (fun p s b out hb hp ho => by
      obtain ⟨x, hx, rfl⟩ := List.mem_map.mp hb
      obtain ⟨a, -, rfl⟩ := ho
      have h1 := (hsec _ hp.1).2
      have h2 := (hsec _ hp.2).2
      have hadd : usizeAdd (secToSamples env.sr p.1) (secToSamples env.sr p.2) = .ok _ := if_pos (by omega)
      have h3 : inputAt [(k, bufsOf mono x.2)] [k] 0 = .ok (bufsOf mono x.2) := by simp [inputAt]
      rw [run_lefts (percStep (secToSamples env.sr p.1) (secToSamples env.sr p.2))]
      simp [procG, procPrim, procEnvPerc, hadd, h3, chan_bufsOf, bind, Except.bind, reState])
    (fun p b s out hb ho => by
      obtain ⟨a, -, rfl⟩ := ho
      have hl : (run (fun s (x : Fl × Fl) => percStep (secToSamples env.sr p.1) (secToSamples env.sr p.2) s x.1) s b.2.2).2.length = N := by
        rw [run_length]
        exact inBlocks_len hs b hb
      exact ⟨⟨_, hl, rfl⟩, hpr _ hl⟩) ⟨ha, hd⟩
    (leftOnly_fresh N (GNode.prim (P := P) (.envperc (EnvPerc.new attack decay env.sr))))
  obtain ⟨o, h1, h2⟩ := key 0 id fun y _ => by simp
  obtain ⟨o', h1', h3⟩ := key 1 (fun _ => .fin 0) fun y hy => by simp [hy]
  rw [h1] at h1'
  cases h1'
  rw [inBlocks_steps] at h1
  rw [List.map_id] at h2
  have hmap : ∀ (l : List ((Fl × Fl) × (Fl × Fl))) (s : Nat × Fl),
      run (fun s (q : (Fl × Fl) × (Fl × Fl)) => percStep (secToSamples env.sr q.1.1) (secToSamples env.sr q.1.2) s q.2.1) s l =
      run (fun s (q : (Fl × Fl) × Fl) => percStep (secToSamples env.sr q.1.1) (secToSamples env.sr q.1.2) s q.2) s (l.map fun q => (q.1, q.2.1)) := by
    intro l
    induction l with
    | nil => intro s; rfl
    | cons q l ih => intro s; simp only [run, List.map_cons, ih]
  rw [hmap] at h2 h3
  have hitems := withPar_items (upd := newPair) (p := (attack, decay)) (bs := inBlocks k mono bs)
  rw [inBlocks_items] at hitems
  have hz : ((withPar newPair (attack, decay) (inBlocks k mono bs)).flatten.map fun q => (q.1, q.2.1)).map Prod.snd = lefts (bs.map Prod.snd) := by
    rw [lefts, ← hitems, List.map_map, List.map_map]
    rfl
  have hzat : ∀ (t : Nat) q, ((withPar newPair (attack, decay) (inBlocks k mono bs)).flatten.map fun q => (q.1, q.2.1))[t]? = some q →
      q.1 = (setting 0 attack (bs.map Prod.fst) (t / N), setting 1 decay (bs.map Prod.fst) (t / N)) := by
    intro t q hq
    rw [List.getElem?_map, withPar_at (inBlocks_len hs), inBlocks_fst, pair_eq] at hq
    cases hx : ((inBlocks k mono bs).map fun b => b.2.2).flatten[t]? with
    | none => rw [hx] at hq; cases hq
    | some x => rw [hx] at hq; cases hq; rfl
  revert h2 h3 hz hzat
  generalize ((withPar newPair (attack, decay) (inBlocks k mono bs)).flatten.map fun q => (q.1, q.2.1)) = zs
  intro h2 h3 hz hzat
  have hl : zs.length = (lefts (bs.map Prod.snd)).length := by rw [← hz, List.length_map]
  refine ⟨o, _, secToSamples env.sr, h1, h2, by rw [run_length, hl], ?_, fun v hv => (hsec v hv).1, fun t y hy a d ea ed => ?_⟩
  · rw [h3, List.map_const', run_length]
  · have ht : t < zs.length := by
      rw [← run_length]; exact (List.getElem?_eq_some_iff.mp hy).1
    have hzt := List.getElem?_eq_getElem ht
    have hp := hzat t _ hzt
    have hm : ∀ (p : Nat) v, p < 2 → Within 0 (2 ^ 30) v → Within 0 (2 ^ 30) (setting p v (bs.map Prod.fst) (t / N)) := by
      intro p v hp hv
      refine setting_mem (Within 0 (2 ^ 30)) hv (fun c hcm e he h => ?_) _
      obtain ⟨b, hb, rfl⟩ := List.mem_map.mp hcm
      exact hc b hb e he (by omega)
    have a2 := (hsec _ (hm 0 attack (by omega) ha)).2
    have d2 := (hsec _ (hm 1 decay (by omega) hd)).2
    rw [← ea] at a2
    rw [← ed] at d2
    constructor
    · intro s x hsx
      rw [← hz] at hsx
      have := percBy_triggered (a := fun p : Fl × Fl => secToSamples env.sr p.1) (d := fun p => secToSamples env.sr p.2) (s0 := (0, .fin 1)) hzt hsx
      rw [this, Option.some.injEq] at hy
      obtain ⟨_, h4, h5, _⟩ := hsx
      obtain ⟨x1, x2⟩ := hx x (by rw [← hz]; exact List.mem_of_getElem? h4) h5
      rw [← hy, hp, ← ea, ← ed]
      exact perc_at a2 d2 x1 x2 ((positive_fin x1).mp h5).le
    · intro hu
      rw [← hz] at hu
      have := percBy_untriggered (a := fun p : Fl × Fl => secToSamples env.sr p.1) (d := fun p => secToSamples env.sr p.2) (sc := .fin 1) hzt hu
      rw [this, Option.some.injEq] at hy
      rw [← hy, hp, ← ea, ← ed]
      refine perc_at a2 d2 rfl ⟨rep1, ?_⟩ (by norm_num [Fl.val])
      rw [f32_maxFin]; norm_num

/-- A trigger of amplitude 1/2, and an attack that is changed before the second block. -/
example : ∃ (env : Env) (attack decay : Fl) (bs : List (Changes × List (Fl × Fl))), Sized 2 (bs.map Prod.snd) ∧ env.sr ≤ 2 ^ 24 ∧
    Within 0 (2 ^ 30) attack ∧ Within 0 (2 ^ 30) decay ∧ (∀ b ∈ bs, ∀ e ∈ b.1, e.1 < 2 → Within 0 (2 ^ 30) e.2) ∧
    (∀ x ∈ lefts (bs.map Prod.snd), Positive x → x.isFinite = true ∧ x.Ok f32) ∧
    LastTrigger (lefts (bs.map Prod.snd)) 3 1 (.fin (1 / 2)) ∧ setting 0 attack (bs.map Prod.fst) (3 / 2) = .fin (1 / 4) := by
  refine ⟨⟨[], 44100, .fin 120, 0⟩, .fin (1 / 8), .fin (1 / 4),
    [([], [(.fin 0, .fin 0), (.fin (1 / 2), .fin 0)]), ([(0, .fin (1 / 4))], [(.fin 0, .fin 0), (.fin 0, .fin 0)])], ?_, by decide,
    ⟨rfl, by norm_num [Fl.val], by norm_num [Fl.val]⟩, ⟨rfl, by norm_num [Fl.val], by norm_num [Fl.val]⟩, ?_, ?_, ?_, rfl⟩
  · intro x hx
    simp only [List.map_cons, List.map_nil, List.mem_cons, List.not_mem_nil, or_false] at hx
    rcases hx with rfl | rfl <;> rfl
  · intro b hb e he _
    simp only [List.mem_cons, List.not_mem_nil, or_false] at hb
    rcases hb with rfl | rfl
    · cases he
    · simp only [List.mem_cons, List.not_mem_nil, or_false] at he
      subst he
      exact ⟨rfl, by norm_num [Fl.val], by norm_num [Fl.val]⟩
  · intro x hx hp
    simp only [lefts, List.map_cons, List.map_nil, List.flatten_cons, List.flatten_nil, List.append_nil, List.cons_append, List.nil_append,
      List.mem_cons, List.not_mem_nil, or_false] at hx
    rcases hx with rfl | rfl | rfl | rfl
    · simp [Positive, Fl.lt, Fl.val] at hp
    · exact ⟨rfl, rephalf, by rw [f32_maxFin, abs_of_pos] <;> norm_num⟩
    · simp [Positive, Fl.lt, Fl.val] at hp
    · simp [Positive, Fl.lt, Fl.val] at hp
  · refine ⟨by decide, rfl, by norm_num [Positive, Fl.lt, Fl.val], ?_⟩
    intro u z h1 h2 hz
    have : u = 2 ∨ u = 3 := by omega
    rcases this with rfl | rfl <;> cases hz <;> simp [Positive, Fl.lt, Fl.val]

end Verif.Props
