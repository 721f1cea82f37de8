import Verif.Lemmas.LiveCompound
import Verif.Props.Compound

/-! # C71: drums and synths that are changed while they play -/

namespace Verif.Props
open Verif Spec

variable {P : Plat}

/-- Opens a compound node that is changed. -/
theorem playChanged_compound {N : Nat} {env : Env} {c : Comp} {K : Compound} {k : Nat} {steps : List (List (Msg Fl) × Ins)} {outs : List (List Buf)}
    (hmk : makePrim P.libm env.samples env.sr env.bpm env.seed c = none) (hK : makeCompound P.libm N c = some (.ok K))
    (hord : K.order = []) (hkind : K.kind ≠ .plate)
    (h : liveBlocks P (.compound { K with order := [k] }) (List.replicate 2 (List.replicate N (.fin 0))) steps = .ok outs) :
    playChanged P N env c [.index k] steps = .ok outs := by
  have : K.msg P.libm (.index k) = .ok { K with order := [k] } := by
    obtain ⟨kind, graph, dest, input, tags, order⟩ := K
    subst hord
    cases kind with
    | plate => exact absurd rfl hkind
    | _ => rfl
  simp only [playChanged, makeNode, hmk, hK, fresh, bind, Except.bind, liftP, sendMsgs, msgG, this, Functor.map, Except.map, h]

theorem fresh_sz (N : Nat) : Sz N (List.replicate 2 (List.replicate N (.fin 0))) := by
  intro b hb
  simp at hb
  simp [hb]

theorem decay_small {cs : List Changes} (h : ∀ c ∈ cs, ∀ e ∈ c, e.1 = 0 → TimeOk e.2) :
    ∀ c ∈ cs.map asDecay, ∀ e ∈ c, e.1 ≤ 1 → secToSamples 44100 e.2 ≤ 2 ^ 44 := by
  intro c hc e he _
  obtain ⟨c', h1, rfl⟩ := List.mem_map.mp hc
  obtain ⟨e', h2, rfl⟩ := List.mem_map.mp he
  rw [List.mem_filter] at h2
  exact time_le (h c' h1 e' h2.1 (by simpa using h2.2))

/-- **C71 (part)**, kick: a decay that is changed is a change of the envelope of the amplitude, and nothing else changes. -/
theorem c71_bd_partial (P : Plat) (N : Nat) (env : Env) (decay : Fl) (k : Nat) (mono : Bool) (bs : List (Changes × List (Fl × Fl)))
    (hN : 1 ≤ N) (hm : ∀ a b, Within (-1) 1 (P.libm.noise a b)) (hs : Sized N (bs.map Prod.snd)) (hd : TimeOk decay)
    (hv : ∀ c ∈ bs.map Prod.fst, ∀ e ∈ c, e.1 = 0 → TimeOk e.2) :
    ∃ ys, KickChanged P N env.usual decay (bs.map Prod.fst) (leftOf (bs.map Prod.snd)) ys ∧
      playChanged P N env (.bd (.num decay)) [.index k] (changedFrom k mono bs) = .ok (onBothSides ys) := by
  have hX := leftOf_sized hs
  obtain ⟨xs, hxs⟩ : ∃ xs, xs = leftOf (bs.map Prod.snd) := ⟨_, rfl⟩
  have hxl : xs.length = bs.length := by rw [hxs, leftOf, List.length_map, List.length_map]
  have hA : AcyclicTo bdEdges 0 := acyclic_rank
    (fun n => if n = 0 then 9 else if n = 8 then 8 else if n = 3 then 7 else n) (by decide)
  have f8 : Feeds bdEdges 8 0 := .step (b := 0) (by decide) (.refl _)
  have f7 : Feeds bdEdges 7 0 := .step (b := 8) (by decide) f8
  have f6 : Feeds bdEdges 6 0 := .step (b := 7) (by decide) f7
  have f5 : Feeds bdEdges 5 0 := .step (b := 6) (by decide) f6
  have f4 : Feeds bdEdges 4 0 := .step (b := 5) (by decide) f5
  have f3 : Feeds bdEdges 3 0 := .step (b := 8) (by decide) f8
  have f2 : Feeds bdEdges 2 0 := .step (b := 3) (by decide) f3
  have hok0 := makeCompound_ok (m := P.libm) (N := N) (sr := 44100) (ck := false) (c := .bd (.num decay)) (k := ⟨.drum, ⟨bdNodes N decay, [], bdEdges⟩, 0, 2, [3], []⟩) hd (fun x h => by cases h) (congrArg some (newBd_eq P.libm N decay))
  have hok : CompoundOk P.libm N ⟨.drum, ⟨bdNodes N decay, [], bdEdges⟩, 0, 2, [3], [k]⟩ := ⟨hok0.kind, hok0.graph, hok0.dest, hok0.input, hok0.size⟩
  obtain ⟨outs, hplay, sig, s1, s2, s3, s3', s4⟩ := live_parts (tr := asDecay)
    (c := ⟨.drum, ⟨bdNodes N decay, [], bdEdges⟩, 0, 2, [3], [k]⟩) (E := bdEdges) (T := 3) hN hm mono hA
    (by intro j; simp [bdEdges]) f2 f3 (by simp) (by simp) rfl bs hs
    (fun b hb => drum_reaches rfl rfl b.1 (hv b.1 (List.mem_map_of_mem hb)))
    ⟨bdNodes N decay, [], bdEdges⟩ (List.replicate 2 (List.replicate N (.fin 0))) rfl
    (by
      intro e he
      simp only [bdEdges, List.mem_cons, List.not_mem_nil, or_false] at he
      rcases he with rfl | rfl | rfl | rfl | rfl | rfl | rfl | rfl <;> exact ⟨⟨_, rfl⟩, ⟨_, rfl⟩⟩)
    ⟨_, rfl⟩ ⟨_, rfl⟩ ⟨_, _, rfl⟩ (by simp) (fresh_sz N) hok
  rw [← hxs] at s1
  have s1 : sig 2 = xs.map (List.replicate 1) := s1
  have t3 := dec_le (3 / 1000)
  have t4 := dec_le (1 / 100)
  have t4' := dec_le (1 / 10)
  have td := time_le hd
  rw [← hxs] at hX
  have sm : Small 44100 (dec (3 / 1000), decay) := ⟨t3, td⟩
  have p4 : secToSamples 44100 (dec (1 / 100)) + secToSamples 44100 (dec (1 / 10)) < 2 ^ 64 := by omega
  have hcs : (bs.map fun b => asDecay b.1) = ((bs.map Prod.fst).map asDecay) := by simp
  rw [hcs] at s3'
  have e3 := in_percLive (xs := xs) s3' (src := 2) (by edges bdEdges) rfl sm (decay_small hv) (by simp [hxl]) s1 ((s2 3 f3).trans hxl.symm)
  have e4 := in_perc (s3 4 (by simp) (by simp) f4) (src := 2) (by edges bdEdges) rfl (by omega) s1 ((s2 4 f4).trans hxl.symm)
  have e5 := in_mul (.inl rfl) (.inr rfl) (s3 5 (by simp) (by simp) f5) (src := 4) (by edges bdEdges) rfl e4 (by simp [s2 5 f5, hxl])
  have e6 := in_add (.inr rfl) (.inr rfl) (s3 6 (by simp) (by simp) f6) (src := 5) (by edges bdEdges) rfl e5 (by simp [s2 6 f6, hxl])
  have e7 := in_sin (.inr rfl) (s3 7 (by simp) (by simp) f7) (src := 6) (by edges bdEdges) rfl e6 (by simp [s2 7 f7, hxl])
  have e8 := in_mul2 (by decide) (.inl rfl) (.inl rfl) (.inl rfl) (s3 8 (by simp) (by simp) f8) (a := 7) (c := 3) (by edges bdEdges) rfl e7 e3
    (by simp [s2 8 f8, hxl])
  have e0 := dest_out (.inl rfl) (s3 0 (by simp) (by simp) (.refl _)) (src := 8) (by edges bdEdges) rfl e8 (by simp [s2 0 (.refl _), hxl])
    (both_sized (sinBlocks_sized (each_sized (each_sized (percBlocks_sized hX)))) (percLive_sized hX))
  have hres := result_eq e0 s4
  rw [each_each] at hres
  rw [hres] at hplay
  rw [← hxs]
  exact ⟨_, ⟨_, _, _, perc_alone_changed (env := env.usual) sm _ _ (decay_small hv), perc_alone (env := env.usual) p4 _, sin_alone _, rfl⟩,
    playChanged_compound (c := .bd (.num decay)) (K := ⟨.drum, ⟨bdNodes N decay, [], bdEdges⟩, 0, 2, [3], []⟩) rfl (congrArg some (newBd_eq P.libm N decay)) rfl (by simp) hplay⟩

/-- **C71 (part)**, hi-hat: a decay that is changed is a change of the envelope of the amplitude, and nothing else changes. -/
theorem c71_hh_partial (P : Plat) (N : Nat) (env : Env) (decay : Fl) (k : Nat) (mono : Bool) (bs : List (Changes × List (Fl × Fl)))
    (hN : 1 ≤ N) (hm : ∀ a b, Within (-1) 1 (P.libm.noise a b)) (hs : Sized N (bs.map Prod.snd)) (hd : TimeOk decay)
    (hv : ∀ c ∈ bs.map Prod.fst, ∀ e ∈ c, e.1 = 0 → TimeOk e.2) :
    ∃ ys, HatChanged P N env.usual decay (bs.map Prod.fst) (leftOf (bs.map Prod.snd)) ys ∧
      playChanged P N env (.hh (.num decay)) [.index k] (changedFrom k mono bs) = .ok (onBothSides ys) := by
  have hX := leftOf_sized hs
  obtain ⟨xs, hxs⟩ : ∃ xs, xs = leftOf (bs.map Prod.snd) := ⟨_, rfl⟩
  have hxl : xs.length = bs.length := by rw [hxs, leftOf, List.length_map, List.length_map]
  have hA : AcyclicTo hhEdges 0 := acyclic_rank (fun n => if n = 0 then 9 else if n = 5 then 8 else n) (by decide)
  have f5 : Feeds hhEdges 5 0 := .step (b := 0) (by decide) (.refl _)
  have f4 : Feeds hhEdges 4 0 := .step (b := 5) (by decide) f5
  have f3 : Feeds hhEdges 3 0 := .step (b := 4) (by decide) f4
  have f6 : Feeds hhEdges 6 0 := .step (b := 5) (by decide) f5
  have f2 : Feeds hhEdges 2 0 := .step (b := 6) (by decide) f6
  have hok0 := makeCompound_ok (m := P.libm) (N := N) (sr := 44100) (ck := false) (c := .hh (.num decay)) (k := ⟨.drum, ⟨hhNodes N decay, [], hhEdges⟩, 0, 2, [6], []⟩) hd (fun x h => by cases h) (congrArg some (newHh_eq P.libm N decay))
  have hok : CompoundOk P.libm N ⟨.drum, ⟨hhNodes N decay, [], hhEdges⟩, 0, 2, [6], [k]⟩ := ⟨hok0.kind, hok0.graph, hok0.dest, hok0.input, hok0.size⟩
  obtain ⟨outs, hplay, sig, s1, s2, s3, s3', s4⟩ := live_parts (tr := asDecay)
    (c := ⟨.drum, ⟨hhNodes N decay, [], hhEdges⟩, 0, 2, [6], [k]⟩) (E := hhEdges) (T := 6) hN hm mono hA
    (by intro j; simp [hhEdges]) f2 f6 (by simp) (by simp) rfl bs hs
    (fun b hb => drum_reaches rfl rfl b.1 (hv b.1 (List.mem_map_of_mem hb)))
    ⟨hhNodes N decay, [], hhEdges⟩ (List.replicate 2 (List.replicate N (.fin 0))) rfl
    (by
      intro e he
      simp only [hhEdges, List.mem_cons, List.not_mem_nil, or_false] at he
      rcases he with rfl | rfl | rfl | rfl | rfl <;> exact ⟨⟨_, rfl⟩, ⟨_, rfl⟩⟩)
    ⟨_, rfl⟩ ⟨_, rfl⟩ ⟨_, _, rfl⟩ (by simp) (fresh_sz N) hok
  rw [← hxs] at s1
  have s1 : sig 2 = xs.map (List.replicate 1) := s1
  have t3 := dec_le (3 / 1000)
  have td := time_le hd
  rw [← hxs] at hX
  have sm : Small 44100 (dec (3 / 1000), decay) := ⟨t3, td⟩
  have hcs : (bs.map fun b => asDecay b.1) = ((bs.map Prod.fst).map asDecay) := by simp
  rw [hcs] at s3'
  have e6 := in_percLive (xs := xs) s3' (src := 2) (by edges hhEdges) rfl sm (decay_small hv) (by simp [hxl]) s1 ((s2 6 f6).trans hxl.symm)
  have e3 := in_noise (l := xs.length) (s3 3 (by simp) (by simp) f3) (by intro j; simp [hhEdges]) rfl (by rw [s2 3 f3, hxl])
  have e4 := in_rhpf (s3 4 (by simp) (by simp) f4) (src := 3) (by edges hhEdges) rfl e3 (by simp [s2 4 f4, hxl])
  have e5 := in_mul2 (by decide) (.inl rfl) (.inl rfl) (.inr rfl) (s3 5 (by simp) (by simp) f5) (a := 4) (c := 6) (by edges hhEdges) rfl e4 e6
    (by simp [s2 5 f5, hxl])
  have e0 := dest_out (.inr rfl) (s3 0 (by simp) (by simp) (.refl _)) (src := 5) (by edges hhEdges) rfl e5 (by simp [s2 0 (.refl _), hxl])
    (both_sized (rhpfBlocks_sized noiseBlocks_sized) (percLive_sized hX))
  have hres := result_eq e0 s4
  rw [hres] at hplay
  rw [← hxs]
  exact ⟨_, ⟨_, _, _, perc_alone_changed (env := env.usual) sm _ _ (decay_small hv), noise_alone _ _, rhpf_alone _ _ _, rfl⟩,
    playChanged_compound (c := .hh (.num decay)) (K := ⟨.drum, ⟨hhNodes N decay, [], hhEdges⟩, 0, 2, [6], []⟩) rfl (congrArg some (newHh_eq P.libm N decay)) rfl (by simp) hplay⟩

/-- **C71 (part)**, snare: a decay that is changed is a change of the envelope of the amplitude, and nothing else changes. -/
theorem c71_sn_partial (P : Plat) (N : Nat) (env : Env) (decay : Fl) (k : Nat) (mono : Bool) (bs : List (Changes × List (Fl × Fl)))
    (hN : 1 ≤ N) (hm : ∀ a b, Within (-1) 1 (P.libm.noise a b)) (hs : Sized N (bs.map Prod.snd)) (hd : TimeOk decay)
    (hv : ∀ c ∈ bs.map Prod.fst, ∀ e ∈ c, e.1 = 0 → TimeOk e.2) :
    ∃ ys, SnareChanged P N env.usual decay (bs.map Prod.fst) (leftOf (bs.map Prod.snd)) ys ∧
      playChanged P N env (.sn (.num decay)) [.index k] (changedFrom k mono bs) = .ok (onBothSides ys) := by
  have hX := leftOf_sized hs
  obtain ⟨xs, hxs⟩ : ∃ xs, xs = leftOf (bs.map Prod.snd) := ⟨_, rfl⟩
  have hxl : xs.length = bs.length := by rw [hxs, leftOf, List.length_map, List.length_map]
  have hA : AcyclicTo snEdges 0 := acyclic_rank
    (fun n => if n = 0 then 20 else if n = 10 then 19 else if n = 9 then 18 else if n = 8 then 17 else n) (by decide)
  have f10 : Feeds snEdges 10 0 := .step (b := 0) (by decide) (.refl _)
  have f9 : Feeds snEdges 9 0 := .step (b := 10) (by decide) f10
  have f8 : Feeds snEdges 8 0 := .step (b := 9) (by decide) f9
  have f12 : Feeds snEdges 12 0 := .step (b := 8) (by decide) f8
  have f11 : Feeds snEdges 11 0 := .step (b := 12) (by decide) f12
  have f7 : Feeds snEdges 7 0 := .step (b := 8) (by decide) f8
  have f6 : Feeds snEdges 6 0 := .step (b := 7) (by decide) f7
  have f5 : Feeds snEdges 5 0 := .step (b := 6) (by decide) f6
  have f4 : Feeds snEdges 4 0 := .step (b := 5) (by decide) f5
  have f3 : Feeds snEdges 3 0 := .step (b := 10) (by decide) f10
  have f2 : Feeds snEdges 2 0 := .step (b := 3) (by decide) f3
  have hok0 := makeCompound_ok (m := P.libm) (N := N) (sr := 44100) (ck := false) (c := .sn (.num decay)) (k := ⟨.drum, ⟨snNodes N decay, [], snEdges⟩, 0, 2, [3], []⟩) hd (fun x h => by cases h) (congrArg some (newSn_eq P.libm N decay))
  have hok : CompoundOk P.libm N ⟨.drum, ⟨snNodes N decay, [], snEdges⟩, 0, 2, [3], [k]⟩ := ⟨hok0.kind, hok0.graph, hok0.dest, hok0.input, hok0.size⟩
  obtain ⟨outs, hplay, sig, s1, s2, s3, s3', s4⟩ := live_parts (tr := asDecay)
    (c := ⟨.drum, ⟨snNodes N decay, [], snEdges⟩, 0, 2, [3], [k]⟩) (E := snEdges) (T := 3) hN hm mono hA
    (by intro j; simp [snEdges]) f2 f3 (by simp) (by simp) rfl bs hs
    (fun b hb => drum_reaches rfl rfl b.1 (hv b.1 (List.mem_map_of_mem hb)))
    ⟨snNodes N decay, [], snEdges⟩ (List.replicate 2 (List.replicate N (.fin 0))) rfl
    (by
      intro e he
      simp only [snEdges, List.mem_cons, List.not_mem_nil, or_false] at he
      rcases he with rfl | rfl | rfl | rfl | rfl | rfl | rfl | rfl | rfl | rfl | rfl | rfl <;> exact ⟨⟨_, rfl⟩, ⟨_, rfl⟩⟩)
    ⟨_, rfl⟩ ⟨_, rfl⟩ ⟨_, _, rfl⟩ (by simp) (fresh_sz N) hok
  rw [← hxs] at s1
  have s1 : sig 2 = xs.map (List.replicate 1) := s1
  have t3 := dec_le (1 / 1000)
  have t4' := dec_le (1 / 10)
  have td := time_le hd
  rw [← hxs] at hX
  have sm : Small 44100 (dec (1 / 1000), decay) := ⟨t3, td⟩
  have p4 : secToSamples 44100 (dec (1 / 1000)) + secToSamples 44100 (dec (1 / 10)) < 2 ^ 64 := by omega
  have hcs : (bs.map fun b => asDecay b.1) = ((bs.map Prod.fst).map asDecay) := by simp
  rw [hcs] at s3'
  have e3 := in_percLive (xs := xs) s3' (src := 2) (by edges snEdges) rfl sm (decay_small hv) (by simp [hxl]) s1 ((s2 3 f3).trans hxl.symm)
  have e4 := in_perc (s3 4 (by simp) (by simp) f4) (src := 2) (by edges snEdges) rfl (by omega) s1 ((s2 4 f4).trans hxl.symm)
  have e5 := in_mul (.inl rfl) (.inr rfl) (s3 5 (by simp) (by simp) f5) (src := 4) (by edges snEdges) rfl e4 (by simp [s2 5 f5, hxl])
  have e6 := in_add (.inr rfl) (.inr rfl) (s3 6 (by simp) (by simp) f6) (src := 5) (by edges snEdges) rfl e5 (by simp [s2 6 f6, hxl])
  have e7 := in_sin (.inr rfl) (s3 7 (by simp) (by simp) f7) (src := 6) (by edges snEdges) rfl e6 (by simp [s2 7 f7, hxl])
  have e11 := in_noise (l := xs.length) (s3 11 (by simp) (by simp) f11) (by intro j; simp [snEdges]) rfl (by rw [s2 11 f11, hxl])
  have e12 := in_mul (.inl rfl) (.inr rfl) (s3 12 (by simp) (by simp) f12) (src := 11) (by edges snEdges) rfl e11 (by simp [s2 12 f12, hxl])
  have e8 := in_add2 (by decide) (.inl rfl) (.inr rfl) (.inr rfl) (s3 8 (by simp) (by simp) f8) (a := 7) (c := 12) (by edges snEdges) rfl e7 e12
    (by simp [s2 8 f8, hxl])
  have e9 := in_add (.inr rfl) (.inr rfl) (s3 9 (by simp) (by simp) f9) (src := 8) (by edges snEdges) rfl e8 (by simp [s2 9 f9, hxl])
  have e10 := in_mul2 (by decide) (.inr rfl) (.inl rfl) (.inr rfl) (s3 10 (by simp) (by simp) f10) (a := 9) (c := 3) (by edges snEdges) rfl e9 e3
    (by simp [s2 10 f10, hxl])
  have e0 := dest_out (.inr rfl) (s3 0 (by simp) (by simp) (.refl _)) (src := 10) (by edges snEdges) rfl e10 (by simp [s2 0 (.refl _), hxl])
    (both_sized (each_sized (both_sized (sinBlocks_sized (each_sized (each_sized (percBlocks_sized hX))))
      (each_sized noiseBlocks_sized))) (percLive_sized hX))
  have hres := result_eq e0 s4
  rw [each_each, each_both, both_each] at hres
  rw [hres] at hplay
  rw [← hxs]
  exact ⟨_, ⟨_, _, _, _, perc_alone_changed (env := env.usual) sm _ _ (decay_small hv), perc_alone (env := env.usual) p4 _, sin_alone _, noise_alone _ _, rfl⟩,
    playChanged_compound (c := .sn (.num decay)) (K := ⟨.drum, ⟨snNodes N decay, [], snEdges⟩, 0, 2, [3], []⟩) rfl (congrArg some (newSn_eq P.libm N decay)) rfl (by simp) hplay⟩

/-- **C71 (part)**, synths: an attack or decay that is changed is a change of the envelope, and nothing else changes. -/
theorem c71_synth_partial (P : Plat) (N : Nat) (env : Env) (w : Wave) (attack decay : Fl) (k : Nat) (mono : Bool) (bs : List (Changes × List (Fl × Fl)))
    (hN : 1 ≤ N) (hm : ∀ a b, Within (-1) 1 (P.libm.noise a b)) (hs : Sized N (bs.map Prod.snd)) (ha : TimeOk attack) (hd : TimeOk decay)
    (hv : ∀ c ∈ bs.map Prod.fst, ∀ e ∈ c, e.1 ≤ 1 → TimeOk e.2) :
    ∃ ys, NoteChanged P N env.usual w attack decay (bs.map Prod.fst) (leftOf (bs.map Prod.snd)) ys ∧
      playChanged P N env (synthComp w attack decay) [.index k] (changedFrom k mono bs) = .ok (onBothSides ys) := by
  have hX := leftOf_sized hs
  obtain ⟨xs, hxs⟩ : ∃ xs, xs = leftOf (bs.map Prod.snd) := ⟨_, rfl⟩
  have hxl : xs.length = bs.length := by rw [hxs, leftOf, List.length_map, List.length_map]
  have hA : AcyclicTo synthEdges 0 := acyclic_rank
    (fun n => if n = 0 then 20 else if n = 4 then 19 else if n = 3 then 18 else n) (by decide)
  have f4 : Feeds synthEdges 4 0 := .step (b := 0) (by decide) (.refl _)
  have f3 : Feeds synthEdges 3 0 := .step (b := 4) (by decide) f4
  have f6 : Feeds synthEdges 6 0 := .step (b := 3) (by decide) f3
  have f5 : Feeds synthEdges 5 0 := .step (b := 4) (by decide) f4
  have f2 : Feeds synthEdges 2 0 := .step (b := 5) (by decide) f5
  have hok0 := makeCompound_ok (m := P.libm) (N := N) (sr := 44100) (ck := false) (c := synthComp w attack decay) (k := ⟨.synth, ⟨synthNodes N w attack decay, [], synthEdges⟩, 0, 2, [5], []⟩) (by cases w <;> exact ⟨ha, hd⟩) (fun x h => by cases w <;> cases h) (synth_made P N w attack decay)
  have hok : CompoundOk P.libm N ⟨.synth, ⟨synthNodes N w attack decay, [], synthEdges⟩, 0, 2, [5], [k]⟩ := ⟨hok0.kind, hok0.graph, hok0.dest, hok0.input, hok0.size⟩
  obtain ⟨outs, hplay, sig, s1, s2, s3, s3', s4⟩ := live_parts (tr := id)
    (c := ⟨.synth, ⟨synthNodes N w attack decay, [], synthEdges⟩, 0, 2, [5], [k]⟩) (E := synthEdges) (T := 5) hN hm mono hA
    (by intro j; simp [synthEdges]) f2 f5 (by simp) (by simp) rfl bs hs
    (fun b hb => synth_reaches rfl rfl b.1 (hv b.1 (List.mem_map_of_mem hb)))
    ⟨synthNodes N w attack decay, [], synthEdges⟩ (List.replicate 2 (List.replicate N (.fin 0))) rfl
    (by
      intro e he
      simp only [synthEdges, List.mem_cons, List.not_mem_nil, or_false] at he
      rcases he with rfl | rfl | rfl | rfl | rfl | rfl <;> exact ⟨⟨_, rfl⟩, ⟨_, rfl⟩⟩)
    ⟨_, rfl⟩ ⟨_, rfl⟩ ⟨_, _, rfl⟩ (by simp) (fresh_sz N) hok
  rw [← hxs] at s1
  have s1 : sig 2 = xs.map (List.replicate 1) := s1
  have ta := time_le ha
  have td := time_le hd
  rw [← hxs] at hX
  have sm : Small 44100 (attack, decay) := ⟨ta, td⟩
  have hsm : ∀ c ∈ bs.map Prod.fst, ∀ e ∈ c, e.1 ≤ 1 → secToSamples 44100 e.2 ≤ 2 ^ 44 := fun c hc e he h1 => time_le (hv c hc e he h1)
  have hcs : (bs.map fun b => id b.1) = (bs.map Prod.fst) := by simp
  rw [hcs] at s3'
  have e5 := in_percLive (xs := xs) s3' (src := 2) (by edges synthEdges) rfl sm hsm (by simp [hxl]) s1 ((s2 5 f5).trans hxl.symm)
  have e6 := in_mul (.inl rfl) (.inr rfl) (s3 6 (by simp) (by simp) f6) (src := 2) (by edges synthEdges) rfl s1 (by simp [s2 6 f6, hxl])
  have e3 := in_osc (.inr rfl) (s3 3 (by simp) (by simp) f3) (src := 6) (by edges synthEdges) rfl e6 (by simp [s2 3 f3, hxl])
  have e4 := in_mul2 (by decide) (.inl rfl) (.inl rfl) (.inr rfl) (s3 4 (by simp) (by simp) f4) (a := 3) (c := 5) (by edges synthEdges) rfl e3 e5
    (by simp [s2 4 f4, hxl])
  have e0 := dest_out (.inr rfl) (s3 0 (by simp) (by simp) (.refl _)) (src := 4) (by edges synthEdges) rfl e4 (by simp [s2 0 (.refl _), hxl])
    (both_sized (oscBlocks_sized (each_sized hX)) (percLive_sized hX))
  have hres := result_eq e0 s4
  rw [hres] at hplay
  rw [← hxs]
  exact ⟨_, ⟨_, _, perc_alone_changed (env := env.usual) sm _ _ hsm, osc_alone _ _, rfl⟩,
    playChanged_compound (c := synthComp w attack decay) (K := ⟨.synth, ⟨synthNodes N w attack decay, [], synthEdges⟩, 0, 2, [5], []⟩) (by cases w <;> rfl) (synth_made P N w attack decay) rfl (by simp) hplay⟩

/-! ### Examples -/

/-- A click and two changes before the next block, one of a setting that does not exist. -/
def changedClick : List (Changes × List (Fl × Fl)) :=
  [([], [(.fin 1, .fin 0), (.fin 0, .fin 0), (.fin 0, .fin 0)]),
   ([(0, dec (1 / 10)), (5, .nan)], [(.fin 0, .fin 0), (.fin 1, .fin 0), (.fin 0, .fin 0)])]

theorem changedClick_sized : Sized 3 (changedClick.map Prod.snd) := by
  intro x hx
  simp only [changedClick, List.map_cons, List.map_nil, List.mem_cons, List.not_mem_nil, or_false] at hx
  rcases hx with rfl | rfl <;> rfl

theorem changedClick_ok {p : Nat → Prop} (h : ¬ p 5) : ∀ c ∈ changedClick.map Prod.fst, ∀ e ∈ c, p e.1 → TimeOk e.2 := by
  intro c hc e he hp
  simp only [changedClick, List.map_cons, List.map_nil, List.mem_cons, List.not_mem_nil, or_false] at hc
  rcases hc with rfl | rfl
  · cases he
  · simp only [List.mem_cons, List.not_mem_nil, or_false] at he
    rcases he with rfl | rfl
    · exact tenth_ok
    · exact absurd hp h

example : ∃ ys, KickChanged Demo.plat 3 ⟨[], 44100, .fin 120, 0⟩ (dec (1 / 2)) [[], [(0, dec (1 / 10)), (5, .nan)]] (leftOf (changedClick.map Prod.snd)) ys ∧
    playChanged Demo.plat 3 ⟨[], 44100, .fin 120, 0⟩ (.bd (.num (dec (1 / 2)))) [.index 7] (changedFrom 7 false changedClick) = .ok (onBothSides ys) :=
  c71_bd_partial _ _ ⟨[], 44100, .fin 120, 0⟩ _ 7 false changedClick (by omega) demo_noise changedClick_sized
    (by unfold TimeOk; decide +kernel) (changedClick_ok (p := (· = 0)) (by decide))

example : ∃ ys, HatChanged hatPlat 3 ⟨[], 44100, .fin 120, 0⟩ (dec (1 / 2)) [[], [(0, dec (1 / 10)), (5, .nan)]] (leftOf (changedClick.map Prod.snd)) ys ∧
    playChanged hatPlat 3 ⟨[], 48000, .fin 120, 0⟩ (.hh (.num (dec (1 / 2)))) [.index 7] (changedFrom 7 true changedClick) = .ok (onBothSides ys) :=
  c71_hh_partial _ _ ⟨[], 48000, .fin 120, 0⟩ _ 7 true changedClick (by omega) hat_noise changedClick_sized
    (by unfold TimeOk; decide +kernel) (changedClick_ok (p := (· = 0)) (by decide))

example : ∃ ys, SnareChanged hatPlat 3 ⟨[], 44100, .fin 120, 0⟩ (dec (1 / 2)) [[], [(0, dec (1 / 10)), (5, .nan)]] (leftOf (changedClick.map Prod.snd)) ys ∧
    playChanged hatPlat 3 ⟨[], 44100, .fin 120, 0⟩ (.sn (.num (dec (1 / 2)))) [.index 7] (changedFrom 7 false changedClick) = .ok (onBothSides ys) :=
  c71_sn_partial _ _ ⟨[], 44100, .fin 120, 0⟩ _ 7 false changedClick (by omega) hat_noise changedClick_sized
    (by unfold TimeOk; decide +kernel) (changedClick_ok (p := (· = 0)) (by decide))

example : ∃ ys, NoteChanged Demo.plat 3 ⟨[], 44100, .fin 120, 0⟩ .squ (dec (1 / 2)) (dec (1 / 2)) [[], [(0, dec (1 / 10)), (5, .nan)]]
      (leftOf (changedClick.map Prod.snd)) ys ∧
    playChanged Demo.plat 3 ⟨[], 44100, .fin 120, 0⟩ (.squsynth (dec (1 / 2)) (dec (1 / 2))) [.index 7] (changedFrom 7 false changedClick) =
      .ok (onBothSides ys) :=
  c71_synth_partial _ _ ⟨[], 44100, .fin 120, 0⟩ .squ _ _ 7 false changedClick (by omega) demo_noise changedClick_sized
    (by unfold TimeOk; decide +kernel) (by unfold TimeOk; decide +kernel) (changedClick_ok (p := (· ≤ 1)) (by decide))

-- The change is heard: the envelopes of two decays, hit in the second block.
example : percLive 44100 (.fin 0) (dec (1 / 2)) [([], [.fin 1, .fin 0]), ([(1, dec (1 / 10000))], [.fin 1, .fin 0, .fin 0])] ≠
    percLive 44100 (.fin 0) (dec (1 / 2)) [([], [.fin 1, .fin 0]), ([], [.fin 1, .fin 0, .fin 0])] := by decide +kernel

end Verif.Props
