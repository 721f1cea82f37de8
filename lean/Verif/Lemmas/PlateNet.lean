import Verif.Lemmas.PlateStream

/-! The reverb `plate` as a network of streams (helpers for C68). -/

namespace Verif.Props
open Verif Spec

variable {P : Plat} {E : List (Nat × Nat)} {g : Patch} {sig : Nat → List (List Buf)} {n N : Nat}

theorem part_keep (hp : PartPlays P E g sig n) {d : NodeData Prim Buf} (hg : g.node? n = some d) (hb : Sz N d.buffers)
    (hs : ∀ k, (k, n) ∈ E → ∀ o ∈ sig k, Sz N o) : ∀ o ∈ sig n, o.length = d.buffers.length ∧ Sz N o := by
  obtain ⟨d', inputs, h1, h2, h3, h4⟩ := hp
  rw [hg] at h1
  cases h1
  have hi : ∀ i ∈ inputs, SzIns N i := by
    intro i hi e he
    obtain ⟨t, ht⟩ := List.mem_iff_getElem?.mp hi
    obtain ⟨k1, k2⟩ := h4 t i ht
    exact hs e.1 ((k1.2 e.1).mp (List.mem_map.mpr ⟨e, he, rfl⟩)).1 _ (List.mem_of_getElem? (k2 e.1 e.2 he))
  clear h4 h2 hg
  generalize sig n = outs at h3 ⊢
  obtain ⟨nd, bs⟩ := d
  simp only at h3 hb ⊢
  induction inputs generalizing nd bs outs with
  | nil => cases h3; simp
  | cons i inputs ih =>
    simp only [runBlocks, procG] at h3
    cases hq : procPrim P.libm nd i bs with
    | error e => rw [hq] at h3; cases h3
    | ok r =>
      obtain ⟨nd', o⟩ := r
      obtain ⟨⟨k1, k2⟩, -, -⟩ := procPrim_keep (hi i (by simp)) hb hq
      rw [hq] at h3
      simp only [reState] at h3
      split at h3
      · cases h3
      · rename_i rest h5
        cases h3
        intro o' ho'
        rcases List.mem_cons.mp ho' with rfl | ho'
        · exact ⟨k1, k2⟩
        · rw [← k1]
          exact ih (fun i hi' => hi i (by simp [hi'])) rest nd' o k2 h5 o' ho'

/-- A node without memory. -/
theorem part_pure {ι : Type} (hp : PartPlays P E g sig n) (node : Prim) (G : ι → List Buf) (R : Ins → ι → Prop)
    (I : List Buf → Prop) {b : List Buf} (hg : g.node? n = some ⟨node, b⟩) (hI : I b) {xs : List ι}
    (hl : (sig n).length = xs.length)
    (hR : ∀ (t : Nat) i x, InputsOf E n i → (∀ k b, (k, b) ∈ i → (sig k)[t]? = some b) → xs[t]? = some x → R i x)
    (h : ∀ i x out, R i x → I out → procPrim P.libm node i out = .ok (node, G x) ∧ I (G x)) : sig n = xs.map G := by
  obtain ⟨d, inputs, h1, h2, h3, h4⟩ := hp
  rw [hg] at h1
  cases h1
  have hF : List.Forall₂ R inputs xs := forall₂_of_get (h2.trans hl) (fun t i x hi hx =>
    hR t i x (h4 t i hi).1 (h4 t i hi).2 hx)
  obtain ⟨outs, k1, k2⟩ := part_run (P := P) (fun _ : Unit => node) (fun _ x => ((), G x)) R I (fun y o => o = y)
    (fun _ i x out hr ho => ⟨_, (h i x out hr ho).1, (h i x out hr ho).2, rfl⟩) hF () b hI
  have : sig n = outs := by simpa using h3.symm.trans k1
  rw [this]
  rw [run_map] at k2
  have : ∀ {a c : List (List Buf)}, List.Forall₂ (fun y o => o = y) a c → c = a := by
    intro a c h
    induction h with
    | nil => rfl
    | cons h _ ih => rw [h, ih]
  exact this k2

/-- The graph of a new reverb. -/
abbrev plateStart (m : Libm) (N : Nat) (mix : Fl) : Patch := ⟨plateSlots m N mix, [], plateEdges⟩

theorem plateStart_ok (m : Libm) (N : Nat) (mix : Fl) : PlateGraph m N (plateStart m N mix) :=
  (newPlate_ok (newPlate_eq m N mix)).graph

/-- The numbers of channels. -/
def plateChans : List Nat := [2, 2] ++ List.replicate 48 1 ++ [2]

theorem plateStart_mixes (m : Libm) (N : Nat) (mix : Fl) : Mixes (plateStart m N mix) mix := by
  intro e he
  simp only [mixers, List.mem_cons, List.not_mem_nil, or_false] at he
  rcases he with rfl | rfl | rfl | rfl <;> exact ⟨_, rfl⟩

theorem plateStart_chans (m : Libm) (N : Nat) (mix : Fl) :
    (plateSlots m N mix).map (fun o => o.map (fun d => d.buffers.length)) = plateChans.map some := by
  kernel_rfl

theorem plateStart_mono {m : Libm} {mix : Fl} {d : NodeData Prim Buf} (h : (plateStart m N mix).node? n = some d)
    (h1 : 2 ≤ n) (h2 : n < 50) : d.buffers.length = 1 := by
  have e := plateStart_chans m N mix
  have hx := congrArg (fun l => l[n]?) e
  simp only [List.getElem?_map] at hx
  simp only [Graph.node?] at h
  rw [Option.join_eq_some_iff] at h
  rw [h] at hx
  have : plateChans[n]? = some 1 := by
    have : ∀ n, n < 50 → 2 ≤ n → plateChans[n]? = some 1 := by decide +kernel
    exact this n h2 h1
  rw [this] at hx
  simpa using hx

theorem channels_zip : ∀ (a b : List Buf), a.length = b.length →
    channel 0 ((a.zip b).map (fun p => [p.1, p.2])) = some a.flatten ∧
    channel 1 ((a.zip b).map (fun p => [p.1, p.2])) = some b.flatten := by
  intro a
  induction a with
  | nil => intro b hb; cases b with
    | nil => exact ⟨rfl, rfl⟩
    | cons => cases hb
  | cons x a ih => intro b hb; cases b with
    | nil => cases hb
    | cons y b =>
      obtain ⟨h1, h2⟩ := ih b (by simpa using hb)
      simp [channel, h1, h2]

theorem mod_range {v : Fl} (h : Within (-1) 1 v) : Within 24 35 (v *. .fin (11 / 2) +. .fin (59 / 2)) := by
  have r1 : f32.Rep (11 / 2) := ⟨11, -1, by decide, by decide, by rw [pow2_eq]; norm_num⟩
  have r2 : f32.Rep 24 := by exact_mod_cast f32_rep_int (n := 24) (by decide)
  have r3 : f32.Rep 35 := by exact_mod_cast f32_rep_int (n := 35) (by decide)
  have h1 : Within (-(11 / 2)) (11 / 2) (v *. .fin (11 / 2)) := by
    apply within_mul h.1 rfl (Fmt.rep_neg r1) r1 (by norm_num) (by norm_num)
    · rw [Fl.val_fin]; have := h.2.1; linarith
    · rw [Fl.val_fin]; have := h.2.2; linarith
  apply within_add h1.1 rfl r2 r3 (by norm_num) (by norm_num)
  · rw [Fl.val_fin]; have := h1.2.1; linarith
  · rw [Fl.val_fin]; have := h1.2.2; linarith

/-- The output of the reverb. -/
theorem scaled_blocks {a : Nat} {w : Nat → Fl} {xs ys : List Fl} (hN : 1 ≤ N) (hl : (sig n).length = (sig a).length) (h : ScalesBlocks sig n a w)
    (ha : Flow N (sig a) xs) (hy : Flow N (sig n) ys) : ScaledBy (fun t => w (t / N)) xs ys := by
  obtain ⟨bx, x1, x2, x3⟩ := ha
  obtain ⟨bY, y1, -, y3⟩ := hy
  have hb : bY = bx.mapIdx fun t b => b.map (· *. w t) := by
    apply List.ext_getElem?
    intro t
    rw [List.getElem?_mapIdx]
    cases hx : bx[t]? with
    | none =>
      have h1 : bY.length = bx.length := by rwa [x1, y1, List.length_map, List.length_map] at hl
      rw [List.getElem?_eq_none_iff] at hx
      rw [Option.map_none, List.getElem?_eq_none_iff]
      omega
    | some b =>
      have := h t b (by rw [x1, List.getElem?_map, hx]; rfl)
      rw [y1, List.getElem?_map] at this
      cases hq : bY[t]? with
      | none => rw [hq] at this; cases this
      | some c =>
        rw [hq] at this
        exact congrArg some (List.cons.inj (Option.some.inj this)).1
  rw [x3, y3, hb]
  unfold ScaledBy
  clear hb y3 x3 y1 x1 h hl
  induction bx generalizing w with
  | nil => rfl
  | cons b bx ih =>
    have hbl : b.length = N := x2 b (by simp)
    rw [List.mapIdx_cons, List.flatten_cons, List.flatten_cons, List.mapIdx_append]
    congr 1
    · apply List.ext_getElem?
      intro t
      rw [List.getElem?_map, List.getElem?_mapIdx]
      by_cases ht : t < N
      · beta_reduce
        rw [Nat.div_eq_of_lt ht]
      · rw [List.getElem?_eq_none_iff.mpr (by omega)]
        rfl
    · rw [ih (w := fun t => w (t + 1)) (fun b hb => x2 b (by simp [hb]))]
      congr 1
      funext t x
      beta_reduce
      rw [hbl, Nat.add_div_right _ (by omega)]

theorem plate_net {k : Nat} {ord : List Nat} {mix : Fl} (hN : 1 ≤ N)
    (hm : ∀ a b, Within (-1) 1 (P.libm.noise a b)) (hsin : SinBounded P.libm) (hord : ord[0]? = some k)
    {steps : List (Changes × Ins)} {xs : List Buf} (hF : List.Forall₂ (fun s x => LeftIs k s.2 x) steps xs) (hs : Sized N xs) {out : List Buf}
    {outs : List (List Buf)} (ho : out.length = 2)
    (h : liveBlocks P (.compound ⟨.plate, plateStart P.libm N mix, 0, 2, [41, 47, 43, 49], ord⟩) out
      (steps.map fun s => (changeMsgs s.1, s.2)) = .ok outs) :
    ∃ L l r, PlateNet P.libm N (fun t => setting 0 mix (steps.map Prod.fst) (t / N)) xs.flatten L l r ∧ channel 0 outs = some l ∧ channel 1 outs = some r := by
  obtain ⟨sig, s1, s2, s3, s3', s4, s5, s6, s7⟩ := plate_parts hN hm hsin hord steps xs hF hs _ mix _ _ (plateStart_ok P.libm N mix)
    (plateStart_mixes P.libm N mix) ⟨List.replicate N (.fin 0), rfl⟩ ho h
  have hone : ∀ n, 2 ≤ n → n < 50 → n ∉ [41, 47, 43, 49] → ∀ o ∈ sig n, o.length = 1 ∧ Sz N o := by
    intro n hn1 hn2 hmx
    obtain ⟨d, hd⟩ := (plateStart_ok P.libm N mix).full n (by omega)
    have hc := plateStart_mono hd hn1 hn2
    have hz := ((plateStart_ok P.libm N mix).inner n d hd).sz
    by_cases h2 : n = 2
    · subst h2
      intro o ho
      refine ⟨?_, s5 2 (by decide) o ho⟩
      rw [s1] at ho
      obtain ⟨b, -, rfl⟩ := List.mem_map.mp ho
      rfl
    · rw [← hc]
      by_cases h15 : n = 15
      · subst h15
        obtain ⟨d14, hd14⟩ := (plateStart_ok P.libm N mix).full 14 (by decide)
        refine part_keep (sig := fun n => if n = 14 then d14.buffers :: sig 14 else sig n) (s4 d14 hd14) hd hz ?_
        intro k hk o ho
        by_cases hk14 : k = 14
        · simp only [if_pos hk14] at ho
          rcases List.mem_cons.mp ho with rfl | ho
          · exact ((plateStart_ok P.libm N mix).inner 14 d14 hd14).sz
          · exact s5 14 (by decide) o ho
        · simp only [if_neg hk14] at ho
          exact s5 k (plate_bound hk).1 o ho
      · exact part_keep (s3 n (by
          have : ∀ n, n < 50 → 2 ≤ n → n ∈ plateOrder := by decide +kernel
          exact this n hn2 hn1) h2 h15 hmx) hd hz (fun k hk o ho => s5 k (plate_bound hk).1 o ho)
  have hmono : ∀ n, ∃ ys, 2 ≤ n → n < 50 → Flow N (sig n) ys := by
    intro n
    by_cases hn : 2 ≤ n ∧ n < 50
    · have : ∀ o ∈ sig n, o.length = 1 ∧ Sz N o := by
        by_cases hmx : n ∈ [41, 47, 43, 49]
        · intro o ho
          refine ⟨?_, s5 n (by omega) o ho⟩
          obtain ⟨i, a, w, hi, ha⟩ : ∃ i a w, (mixers mix)[i]? = some (n, a, w) ∧ 2 ≤ a ∧ a < 50 ∧ a ∉ [41, 47, 43, 49] := by
            simp only [List.mem_cons, List.not_mem_nil, or_false] at hmx
            rcases hmx with rfl | rfl | rfl | rfl
            · exact ⟨0, 40, _, rfl, by decide⟩
            · exact ⟨1, 46, _, rfl, by decide⟩
            · exact ⟨2, 2, _, rfl, by decide⟩
            · exact ⟨3, 2, _, rfl, by decide⟩
          obtain ⟨t, ht⟩ := List.mem_iff_getElem?.mp ho
          have htl : t < (sig a).length := by
            rw [s2 a, ← s2 n]
            exact (List.getElem?_eq_some_iff.mp ht).1
          have hoa := (hone a ha.1 ha.2.1 ha.2.2 _ (List.getElem_mem htl)).1
          obtain ⟨b, hb⟩ := List.length_eq_one_iff.mp hoa
          have := s3' i n a w hi t b (by rw [List.getElem?_eq_getElem htl, hb])
          rw [ht] at this
          rw [Option.some.inj this]
          rfl
        · exact hone n hn.1 hn.2 hmx
      obtain ⟨ys, hy⟩ := flow_of this
      exact ⟨ys, fun _ _ => hy⟩
    · exact ⟨[], fun h1 h2 => absurd ⟨h1, h2⟩ hn⟩
  choose st hst using hmono
  have hst2 : st 2 = xs.flatten := by
    obtain ⟨bs, e1, -, e3⟩ := hst 2 (by decide) (by decide)
    rw [e3]
    rw [s1] at e1
    have := congrArg (List.map (fun o : List Buf => o.headD [])) e1
    simp only [List.map_map, Function.comp_def, List.headD_cons, List.map_id'] at this
    rw [this]
  have hall : ∀ n ∈ plateOrder, n ≠ 2 → n ≠ 15 → n ∉ [41, 47, 43, 49] → PartPlays P plateEdges (plateStart P.libm N mix) sig n := s3
  have hlen : ∀ a b, (sig a).length = (sig b).length := fun a b => by rw [s2, s2]
  have hlst : ∀ a b, 2 ≤ a → a < 50 → 2 ≤ b → b < 50 → (st a).length = (st b).length := fun a b a1 a2 b1 b2 => by
    rw [(hst a a1 a2).length, (hst b b1 b2).length, hlen a b]
  have htake : ∀ a n, 2 ≤ a → a < 50 → Flow N ((sig a).take (sig n).length) (st a) := fun a n a1 a2 => by
    rw [hlen n a, List.take_length]
    exact hst a a1 a2
  have dn : ∀ {n a d : Nat}, n ∈ plateOrder → n ≠ 2 → n ≠ 15 → n ∉ [41, 47, 43, 49] → 2 ≤ n → n < 50 → 2 ≤ a → a < 50 → 1 ≤ d →
      (∀ x ∈ plateSrc n, x = a) → a ∈ plateSrc n →
      (plateStart P.libm N mix).node? n = some (fresh N 1 (.delayn ⟨line d, d, [a]⟩)) → Delayed d (st a) (st n) :=
    fun h1 h2 h3 h4 n1 n2 a1 a2 hd e1 e2 hg =>
      flow_line hd (hall _ h1 h2 h3 h4) (src_single e1 e2) hg (hlen _ _).le (htake _ _ a1 a2) (hst _ n1 n2)
  have ap : ∀ {n a d : Nat} {gain : Fl}, n ∈ plateOrder → n ≠ 2 → n ≠ 15 → n ∉ [41, 47, 43, 49] → 2 ≤ n → n < 50 → 2 ≤ a → a < 50 → 1 ≤ d →
      (∀ x ∈ plateSrc n, x = a) → a ∈ plateSrc n →
      (plateStart P.libm N mix).node? n = some (fresh N 1 (.apf ⟨gain, line d, line d, 44100, [a]⟩)) →
      AllPassEq gain d (st a) (st n) :=
    fun h1 h2 h3 h4 n1 n2 a1 a2 hd e1 e2 hg =>
      flow_apf hd (hall _ h1 h2 h3 h4) (src_single e1 e2) hg (hlen _ _) (hst _ a1 a2) (hst _ n1 n2)
  have po : ∀ {n a : Nat} {q : ℚ}, n ∈ plateOrder → n ≠ 2 → n ≠ 15 → n ∉ [41, 47, 43, 49] → 2 ≤ n → n < 50 → 2 ≤ a → a < 50 →
      (∀ x ∈ plateSrc n, x = a) → a ∈ plateSrc n →
      (plateStart P.libm N mix).node? n = some (fresh N 1 (.onepole ⟨.fin 1 -. poleB P.libm (dec q), poleB P.libm (dec q), .fin 0, [a]⟩)) →
      Damped P.libm q (st a) (st n) :=
    fun h1 h2 h3 h4 n1 n2 a1 a2 e1 e2 hg =>
      flow_pole (hall _ h1 h2 h3 h4) (src_single e1 e2) hg (hlen _ _) (hst _ a1 a2) (hst _ n1 n2)
  have mu : ∀ {n a : Nat} {v : Fl} {ord : List Nat}, n ∈ plateOrder → n ≠ 2 → n ≠ 15 → n ∉ [41, 47, 43, 49] → 2 ≤ n → n < 50 → 2 ≤ a → a < 50 →
      (∀ x ∈ plateSrc n, x = a) → a ∈ plateSrc n →
      (plateStart P.libm N mix).node? n = some (fresh N 1 (.mul ⟨v, ord⟩)) → Scaled v (st a) (st n) :=
    fun h1 h2 h3 h4 n1 n2 a1 a2 e1 e2 hg =>
      flow_mul (hall _ h1 h2 h3 h4) (src_single e1 e2) hg (hlen _ _) (hst _ a1 a2) (hst _ n1 n2)
  have su : ∀ {n : Nat} {as : List Nat}, n ∈ plateOrder → n ≠ 2 → n ≠ 15 → n ∉ [41, 47, 43, 49] → 2 ≤ n → n < 50 → as.Nodup →
      (∀ a ∈ as, 2 ≤ a ∧ a < 50) → (∀ x ∈ plateSrc n, x ∈ as) → (∀ x ∈ as, x ∈ plateSrc n) →
      (plateStart P.libm N mix).node? n = some (fresh N 1 .sum) → Mixed (as.map st) (st n) :=
    fun h1 h2 h3 h4 n1 n2 hnd ha e1 e2 hg =>
      flow_sum hN hnd (hall _ h1 h2 h3 h4) (src_list e1 e2) hg (fun a h => hst a (ha a h).1 (ha a h).2) (hst _ n1 n2)
        (fun a h => hlst _ _ (ha a h).1 (ha a h).2 n1 n2)
  have sc : ∀ (i n a : Nat) w, (mixers mix)[i]? = some (n, a, w) → ∀ W : Fl → Fl,
      (∀ v, (((mixers v)[i]?).map fun e => e.2.2).getD (.fin 0) = W v) → 2 ≤ n → n < 50 → 2 ≤ a → a < 50 →
      ScaledBy (fun t => W (setting 0 mix (steps.map Prod.fst) (t / N))) (st a) (st n) := by
    intro i n a w hi W hW n1 n2 a1 a2
    have := scaled_blocks hN (hlen n a) (s3' i n a w hi) (hst a a1 a2) (hst n n1 n2)
    simpa only [hW, setting_eq] using this
  obtain ⟨b42, l1, l2, l3⟩ := hst 42 (by decide) (by decide)
  obtain ⟨b48, r1, r2, r3⟩ := hst 48 (by decide) (by decide)
  have hbl : b42.length = b48.length := by
    have := hlen 42 48
    rwa [l1, r1, List.length_map, List.length_map] at this
  have hzl : ∀ n, (sig n).length = (b42.zip b48).length := by
    intro n
    rw [hlen n 42, l1, List.length_map, List.length_zip, ← hbl, Nat.min_self]
  have ba : sig 50 = (b42.zip b48).map (fun p => [p.1, p.2]) := by
    refine part_pure (hall 50 (by decide) (by decide) (by decide) (by decide)) (.balance [42, 48]) _
      (fun i p => i = [(42, [p.1]), (48, [p.2])] ∨ i = [(48, [p.2]), (42, [p.1])]) (fun o => o.length = 2) rfl rfl (hzl 50) ?_ ?_
    · intro t i p hi hk hp
      rw [List.getElem?_zip_eq_some] at hp
      obtain ⟨u, v, huv⟩ := inputsOf_two hi (by decide) (src_two (n := 50) (a := 42) (b := 48) (by decide +kernel)
        (by decide +kernel) (by decide +kernel))
      have k1 := hk 42 u (by rcases huv with rfl | rfl <;> simp)
      have k2 := hk 48 v (by rcases huv with rfl | rfl <;> simp)
      rw [Flow.get l1 k1 hp.1, Flow.get r1 k2 hp.2] at huv
      exact huv
    · intro i p out hi ho
      match out, ho with
      | [o1, o2], _ =>
        refine ⟨?_, rfl⟩
        rcases hi with rfl | rfl <;> simp [procPrim, procBalance, inputAt, chan, setStereo, sameNode, bind, Except.bind]
  have de : sig 0 = (b42.zip b48).map (fun p => [p.1.map (.fin 0 +. ·), p.2.map (.fin 0 +. ·)]) := by
    refine part_pure (hall 0 (by decide) (by decide) (by decide) (by decide)) .sum2 _
      (fun i p => i = [(50, [p.1, p.2])] ∧ p.1.length = N ∧ p.2.length = N) (fun o => o.length = 2 ∧ ∀ b ∈ o, b.length = N)
      rfl ⟨rfl, fun b hb => by rw [List.eq_of_mem_replicate hb, List.length_replicate]⟩ (hzl 0) ?_ ?_
    · intro t i p hi hk hp
      obtain ⟨u, rfl⟩ := inputsOf_one hi (src_single (n := 0) (a := 50) (by decide +kernel) (by decide +kernel))
      have k1 := hk 50 u (by simp)
      rw [ba, List.getElem?_map, hp] at k1
      cases k1
      rw [List.getElem?_zip_eq_some] at hp
      exact ⟨rfl, l2 _ (List.mem_of_getElem? hp.1), r2 _ (List.mem_of_getElem? hp.2)⟩
    · rintro i p out ⟨rfl, hp1, hp2⟩ ⟨ho, hb⟩
      match out, ho with
      | [o1, o2], _ =>
        have h1 := hb o1 (by simp)
        have h2 := hb o2 (by simp)
        have key : ∀ {a x : Buf}, a.length = N → x.length = N → addBuf (silent a) x = x.map (.fin 0 +. ·) := by
          intro a x ha hx
          rw [← hx] at ha
          clear hx
          induction a generalizing x with
          | nil => cases x with
            | nil => rfl
            | cons y x => simp at ha
          | cons z a ih => cases x with
            | nil => simp at ha
            | cons y x =>
              have := ih (x := x) (by simpa using ha)
              simp only [addBuf, silent, List.map_cons, List.zipWith_cons_cons] at *
              rw [this]
        refine ⟨?_, rfl, ?_⟩
        · simp [procPrim, procSum2, sum2From, sum2Chan, sameNode, bind, Except.bind, key h1 hp1, key h2 hp2, pure, Except.pure]
        · intro b hb
          simp only [List.mem_cons, List.not_mem_nil, or_false] at hb
          rcases hb with rfl | rfl <;> simpa
  have hout : outs = ((b42.map (List.map (.fin 0 +. ·))).zip (b48.map (List.map (.fin 0 +. ·)))).map (fun p => [p.1, p.2]) := by
    have : ∀ {s outs : List (List Buf)}, List.Forall₂ (fun s o => ∃ l r, s[0]? = some l ∧ s[1]? = some r ∧ o = [l, r]) s outs →
        (∀ o ∈ s, o.length = 2) → outs = s := by
      intro s outs h
      induction h with
      | nil => intro _; rfl
      | @cons a b s outs h _ ih =>
        intro hs
        rw [ih (fun o ho => hs o (by simp [ho]))]
        obtain ⟨l, r, e1, e2, e3⟩ := h
        match a, hs a (by simp) with
        | [u, v], _ =>
          cases e1
          cases e2
          rw [e3]
    rw [this s7 (by rw [de]; intro o ho; obtain ⟨p, -, rfl⟩ := List.mem_map.mp ho; rfl), de, List.zip_map, List.map_map]
    rfl
  obtain ⟨c1, c2⟩ := channels_zip (b42.map (List.map (.fin 0 +. ·))) (b48.map (List.map (.fin 0 +. ·))) (by simp [hbl])
  rw [← hout, ← List.map_flatten] at c1 c2
  have e34 : dec (3 / 4) = .fin (3 / 4) := by decide +kernel
  have e58 : dec (5 / 8) = .fin (5 / 8) := by decide +kernel
  have e12 : dec (1 / 2) = .fin (1 / 2) := by decide +kernel
  have e44 : Fl.ofNat f32 44100 = .fin 44100 := by decide +kernel
  have hmod1 := flow_sin (hall 11 (by decide) (by decide) (by decide) (by decide)) (by
      have : ∀ e ∈ plateEdges, e.2 ≠ 11 := by decide +kernel
      exact fun k hk => this _ hk rfl) rfl (hst 11 (by decide) (by decide))
  rw [e44] at hmod1
  have hmod2 : Scaled (.fin (11 / 2)) (st 11) (st 12) := (mu (n := 12) (by decide) (by decide) (by decide) (by decide) (by decide) (by decide) (by decide) (by decide) (by decide +kernel) (by decide +kernel) rfl)
  have hmod3 := flow_add (hall 13 (by decide) (by decide) (by decide) (by decide)) (src_single (a := 12) (by decide +kernel) (by decide +kernel)) rfl (hlen 13 12)
    (hst 12 (by decide) (by decide)) (hst 13 (by decide) (by decide))
  have hm11 : ∀ v ∈ st 11, Within (-1) 1 v := by
    obtain ⟨bs, e1, -, e3⟩ := hst 11 (by decide) (by decide)
    intro v hv
    rw [e3] at hv
    obtain ⟨b, hb, hv⟩ := List.mem_flatten.mp hv
    exact s6 [b] (by rw [e1]; exact List.mem_map.mpr ⟨b, hb, rfl⟩) b (by simp) v hv
  have hm13 : st 13 = (st 11).map (fun v => v *. .fin (11 / 2) +. .fin (59 / 2)) := by
    rw [hmod3, hmod2, List.map_map]
    rfl
  have hm : ∀ v ∈ st 13, Within 24 35 v := by
    intro v hv
    rw [hm13] at hv
    obtain ⟨u, hu, rfl⟩ := List.mem_map.mp hv
    exact mod_range (hm11 u hu)
  have wo : ∀ {n a : Nat} {gain : Fl}, n ∈ plateOrder → n ≠ 2 → n ≠ 15 → n ∉ [41, 47, 43, 49] → 2 ≤ n → n < 50 → 2 ≤ a → a < 50 → a ≠ 13 →
      (∀ x ∈ plateSrc n, x = a ∨ x = 13) → a ∈ plateSrc n → 13 ∈ plateSrc n →
      (plateStart P.libm N mix).node? n = some (fresh N 1 (.apf ⟨gain, line 4410, line 4410, 44100, [a, 13]⟩)) →
      WobbleEq gain (st 13) (st a) (st n) :=
    fun h1 h2 h3 h4 n1 n2 a1 a2 hac e1 e2 e3 hg =>
      flow_wobble (hall _ h1 h2 h3 h4) hac (src_two e1 e2 e3) hg (hlen _ _) (hlen _ _) (hst _ a1 a2)
        (hst 13 (by decide) (by decide)) (hst _ n1 n2) hm
  have hab : Delayed (2800 + N) (st 14) (st 15) := by
    have hp := s4 (fresh N 1 (.delayn ⟨line 394, 394, [10]⟩)) rfl
    have hf := hst 14 (by decide) (by decide)
    have hf' : Flow N ([List.replicate N (.fin 0)] :: sig 14) (List.replicate N (.fin 0) ++ st 14) := by
      obtain ⟨bs, e1, e2, e3⟩ := hf
      refine ⟨List.replicate N (.fin 0) :: bs, by rw [e1]; rfl, ?_, by rw [e3]; rfl⟩
      intro b hb
      rcases List.mem_cons.mp hb with rfl | hb
      · simp
      · exact e2 b hb
    have := flow_line (a := 14) (d := 2800) (by decide) hp (src_single (by decide +kernel) (by decide +kernel)) rfl (by simp [hlen 15 14])
      (xs := (List.replicate N (Fl.fin 0) ++ st 14).take ((sig 15).length * N)) hf'.take (hst 15 (by decide) (by decide))
    have hl14 : (st 14).length = (sig 15).length * N := by rw [hf.length, hlen 14 15]
    rw [← hl14] at this
    refine ⟨hlst 15 14 (by decide) (by decide) (by decide) (by decide), ?_⟩
    intro t ht
    have h2 := this.2 t (by simp; omega)
    rw [h2]
    by_cases h28 : t < 2800
    · rw [if_pos h28, if_pos (by omega)]
    · rw [if_neg h28, List.getElem?_take_of_lt (by omega)]
      by_cases hN2 : t < 2800 + N
      · rw [if_pos hN2, List.getElem?_append_left (by simp; omega), List.getElem?_replicate, if_pos (by omega)]
      · rw [if_neg hN2, List.getElem?_append_right (by simp; omega), List.length_replicate, Nat.sub_sub]
  rw [← hst2]
  refine ⟨⟨st 3, st 4, st 5, st 6, st 7, st 8, st 9, st 10, st 13, st 14, st 15, st 16, st 17, st 18, st 19, st 20, st 21, st 22,
    st 23, st 24, st 25, st 26, st 27, st 28, st 29, st 30, st 31, st 32, st 33, st 34, st 35, st 36, st 37, st 38, st 39, st 40,
    st 41, st 43, st 42, st 44, st 45, st 46, st 47, st 49, st 48⟩, _, _,
    { wet1 := (po (n := 3) (by decide) (by decide) (by decide) (by decide) (by decide) (by decide) (by decide) (by decide) (by decide +kernel) (by decide +kernel) rfl)
      wet2 := flow_ms (a := 3) (by decide) (hall 4 (by decide) (by decide) (by decide) (by decide)) (src_single (by decide +kernel) (by decide +kernel)) rfl (hlen _ _).le
        (htake _ _ (by decide) (by decide)) (hst 4 (by decide) (by decide))
      wet3 := e34 ▸ (ap (n := 5) (d := 210) (by decide) (by decide) (by decide) (by decide) (by decide) (by decide) (by decide) (by decide) (by decide) (by decide +kernel) (by decide +kernel) rfl)
      wet4 := e34 ▸ (ap (n := 6) (d := 158) (by decide) (by decide) (by decide) (by decide) (by decide) (by decide) (by decide) (by decide) (by decide) (by decide +kernel) (by decide +kernel) rfl)
      wet5 := e58 ▸ (ap (n := 7) (d := 560) (by decide) (by decide) (by decide) (by decide) (by decide) (by decide) (by decide) (by decide) (by decide) (by decide +kernel) (by decide +kernel) rfl)
      wet6 := e58 ▸ (ap (n := 8) (d := 410) (by decide) (by decide) (by decide) (by decide) (by decide) (by decide) (by decide) (by decide) (by decide) (by decide +kernel) (by decide +kernel) rfl)
      wet7 := flow_add2 (a := 8) (c := 37) (hall 9 (by decide) (by decide) (by decide) (by decide)) (by decide)
        (src_two (by decide +kernel) (by decide +kernel) (by decide +kernel)) rfl (hlen _ _) (hlen _ _)
        (hst 8 (by decide) (by decide)) (hst 37 (by decide) (by decide)) (hst 9 (by decide) (by decide))
      mod3 := by
        rw [hm13, hlst 2 11 (by decide) (by decide) (by decide) (by decide)]
        conv_lhs => rw [hmod1]
        rw [List.map_map]
        rfl
      wet8 := wo (n := 10) (by decide) (by decide) (by decide) (by decide) (by decide) (by decide) (by decide) (by decide) (by decide)
        (by decide +kernel) (by decide +kernel) (by decide +kernel) rfl
      aa := (dn (n := 14) (d := 394) (by decide) (by decide) (by decide) (by decide) (by decide) (by decide) (by decide) (by decide) (by decide) (by decide +kernel) (by decide +kernel) rfl)
      ab := hab
      ac := (dn (n := 16) (d := 1204) (by decide) (by decide) (by decide) (by decide) (by decide) (by decide) (by decide) (by decide) (by decide) (by decide +kernel) (by decide +kernel) rfl)
      ba1 := (dn (n := 17) (d := 2000) (by decide) (by decide) (by decide) (by decide) (by decide) (by decide) (by decide) (by decide) (by decide) (by decide +kernel) (by decide +kernel) rfl)
      ba2 := (po (n := 18) (by decide) (by decide) (by decide) (by decide) (by decide) (by decide) (by decide) (by decide) (by decide +kernel) (by decide +kernel) rfl)
      ba3 := e12 ▸ (ap (n := 19) (d := 334) (by decide) (by decide) (by decide) (by decide) (by decide) (by decide) (by decide) (by decide) (by decide) (by decide +kernel) (by decide +kernel) rfl)
      bb := e12 ▸ (ap (n := 20) (d := 1577) (by decide) (by decide) (by decide) (by decide) (by decide) (by decide) (by decide) (by decide) (by decide) (by decide +kernel) (by decide +kernel) rfl)
      bc := e12 ▸ wo (n := 21) (by decide) (by decide) (by decide) (by decide) (by decide) (by decide) (by decide) (by decide) (by decide) (by decide +kernel) (by decide +kernel) (by decide +kernel) rfl
      ca := (dn (n := 22) (d := 179) (by decide) (by decide) (by decide) (by decide) (by decide) (by decide) (by decide) (by decide) (by decide) (by decide +kernel) (by decide +kernel) rfl)
      cb := (dn (n := 23) (d := 2679) (by decide) (by decide) (by decide) (by decide) (by decide) (by decide) (by decide) (by decide) (by decide) (by decide +kernel) (by decide +kernel) rfl)
      cc1 := (dn (n := 24) (d := 3500) (by decide) (by decide) (by decide) (by decide) (by decide) (by decide) (by decide) (by decide) (by decide) (by decide +kernel) (by decide +kernel) rfl)
      cc2 := (mu (n := 25) (by decide) (by decide) (by decide) (by decide) (by decide) (by decide) (by decide) (by decide) (by decide +kernel) (by decide +kernel) rfl)
      da1 := (ap (n := 26) (d := 1323) (by decide) (by decide) (by decide) (by decide) (by decide) (by decide) (by decide) (by decide) (by decide) (by decide +kernel) (by decide +kernel) rfl)
      da2 := (dn (n := 27) (d := 522) (by decide) (by decide) (by decide) (by decide) (by decide) (by decide) (by decide) (by decide) (by decide) (by decide +kernel) (by decide +kernel) rfl)
      db := (dn (n := 28) (d := 2400) (by decide) (by decide) (by decide) (by decide) (by decide) (by decide) (by decide) (by decide) (by decide) (by decide +kernel) (by decide +kernel) rfl)
      dc := (dn (n := 29) (d := 2400) (by decide) (by decide) (by decide) (by decide) (by decide) (by decide) (by decide) (by decide) (by decide) (by decide +kernel) (by decide +kernel) rfl)
      ea1 := (po (n := 30) (by decide) (by decide) (by decide) (by decide) (by decide) (by decide) (by decide) (by decide) (by decide +kernel) (by decide +kernel) rfl)
      ea2 := (ap (n := 31) (d := 273) (by decide) (by decide) (by decide) (by decide) (by decide) (by decide) (by decide) (by decide) (by decide) (by decide +kernel) (by decide +kernel) rfl)
      eb := (ap (n := 32) (d := 1539) (by decide) (by decide) (by decide) (by decide) (by decide) (by decide) (by decide) (by decide) (by decide) (by decide +kernel) (by decide +kernel) rfl)
      fa1 := (ap (n := 33) (d := 899) (by decide) (by decide) (by decide) (by decide) (by decide) (by decide) (by decide) (by decide) (by decide) (by decide +kernel) (by decide +kernel) rfl)
      fa2 := (dn (n := 34) (d := 1578) (by decide) (by decide) (by decide) (by decide) (by decide) (by decide) (by decide) (by decide) (by decide) (by decide +kernel) (by decide +kernel) rfl)
      fb := (dn (n := 35) (d := 2378) (by decide) (by decide) (by decide) (by decide) (by decide) (by decide) (by decide) (by decide) (by decide) (by decide +kernel) (by decide +kernel) rfl)
      fb1 := (dn (n := 36) (d := 2500) (by decide) (by decide) (by decide) (by decide) (by decide) (by decide) (by decide) (by decide) (by decide) (by decide +kernel) (by decide +kernel) rfl)
      fb2 := (mu (n := 37) (by decide) (by decide) (by decide) (by decide) (by decide) (by decide) (by decide) (by decide) (by decide +kernel) (by decide +kernel) rfl)
      lsub := (su (n := 38) (as := [20, 28, 31, 34]) (by decide) (by decide) (by decide) (by decide) (by decide) (by decide) (by decide) (by decide) (by decide +kernel) (by decide +kernel) rfl)
      lsub2 := (mu (n := 39) (by decide) (by decide) (by decide) (by decide) (by decide) (by decide) (by decide) (by decide) (by decide +kernel) (by decide +kernel) rfl)
      left := (su (n := 40) (as := [14, 15, 23, 39]) (by decide) (by decide) (by decide) (by decide) (by decide) (by decide) (by decide) (by decide) (by decide +kernel) (by decide +kernel) rfl)
      leftwet := sc 0 41 40 _ rfl _ (fun _ => rfl) (by decide) (by decide) (by decide) (by decide)
      leftdry := sc 2 43 2 _ rfl _ (fun _ => rfl) (by decide) (by decide) (by decide) (by decide)
      leftmix := (su (n := 42) (as := [43, 41]) (by decide) (by decide) (by decide) (by decide) (by decide) (by decide) (by decide) (by decide) (by decide +kernel) (by decide +kernel) rfl)
      rsub := (su (n := 44) (as := [32, 15, 19, 22]) (by decide) (by decide) (by decide) (by decide) (by decide) (by decide) (by decide) (by decide) (by decide +kernel) (by decide +kernel) rfl)
      rsub2 := (mu (n := 45) (by decide) (by decide) (by decide) (by decide) (by decide) (by decide) (by decide) (by decide) (by decide +kernel) (by decide +kernel) rfl)
      right := (su (n := 46) (as := [27, 28, 35, 45]) (by decide) (by decide) (by decide) (by decide) (by decide) (by decide) (by decide) (by decide) (by decide +kernel) (by decide +kernel) rfl)
      rightwet := sc 1 47 46 _ rfl _ (fun _ => rfl) (by decide) (by decide) (by decide) (by decide)
      rightdry := sc 3 49 2 _ rfl _ (fun _ => rfl) (by decide) (by decide) (by decide) (by decide)
      rightmix := (su (n := 48) (as := [49, 47]) (by decide) (by decide) (by decide) (by decide) (by decide) (by decide) (by decide) (by decide) (by decide +kernel) (by decide +kernel) rfl)
      l := by rw [l3]
      r := by rw [r3]
    }, c1, c2⟩

end Verif.Props
