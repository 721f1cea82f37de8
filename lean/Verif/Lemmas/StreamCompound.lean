import Verif.Lemmas.CompoundParts
import Verif.Lemmas.Stream

/-! Drums and synths treat blocks sample by sample (helpers for C34). -/

namespace Verif
open Spec Props

/-- A map from streams to streams that some loop computes. -/
def Machine (F : List Fl → List Fl) : Prop :=
  ∃ (σ : Type) (s0 : σ) (step : σ → Fl → σ × Fl), ∀ xs, F xs = (run step s0 xs).2

theorem Machine.of_run {σ : Type} (step : σ → Fl → σ × Fl) (s0 : σ) : Machine (fun xs => (run step s0 xs).2) :=
  ⟨σ, s0, step, fun _ => rfl⟩

theorem Machine.comp {F G : List Fl → List Fl} (hF : Machine F) (hG : Machine G) : Machine (fun xs => F (G xs)) := by
  obtain ⟨σ, s, f, h1⟩ := hF
  obtain ⟨τ, t, g, h2⟩ := hG
  refine ⟨σ × τ, (s, t), fun p x => (((f p.1 (g p.2 x).2).1, (g p.2 x).1), (f p.1 (g p.2 x).2).2), ?_⟩
  intro xs
  beta_reduce
  rw [h1, h2]
  clear h1 h2
  induction xs generalizing s t with
  | nil => rfl
  | cons x xs ih => simp only [run, List.cons.injEq, true_and]; exact ih _ _

theorem Machine.map (f : Fl → Fl) : Machine (List.map f) :=
  ⟨Unit, (), fun s x => (s, f x), fun xs => by
    induction xs with
    | nil => rfl
    | cons x xs ih => simp only [List.map_cons, run, ih]⟩

theorem Machine.zip (f : Fl → Fl → Fl) {F G : List Fl → List Fl} (hF : Machine F) (hG : Machine G) :
    Machine (fun xs => List.zipWith f (F xs) (G xs)) := by
  obtain ⟨σ, s, u, h1⟩ := hF
  obtain ⟨τ, t, v, h2⟩ := hG
  refine ⟨σ × τ, (s, t), fun p x => (((u p.1 x).1, (v p.2 x).1), f (u p.1 x).2 (v p.2 x).2), ?_⟩
  intro xs
  beta_reduce
  rw [h1, h2]
  clear h1 h2
  induction xs generalizing s t with
  | nil => rfl
  | cons x xs ih => simp only [run, List.zipWith_cons_cons, List.cons.injEq, true_and]; exact ih _ _

/-- A map from blocks to blocks that does to the samples what a loop does. -/
def Streams (G : Nat → List Buf → List Buf) : Prop :=
  ∃ F, Machine F ∧ ∀ N xs, Sized N xs → Sized N (G N xs) ∧ (G N xs).length = xs.length ∧ (G N xs).flatten = F xs.flatten

theorem run_flatten {σ : Type} (step : σ → Fl → σ × Fl) (s : σ) (xs : List Buf) :
    (run (fun s x => run step s x) s xs).2.flatten = (run step s xs.flatten).2 := by
  induction xs generalizing s with
  | nil => rfl
  | cons x xs ih =>
    rw [List.flatten_cons, run_append]
    simp only [run, List.flatten_cons, ih]

theorem Streams.run {σ : Type} (step : σ → Fl → σ × Fl) (s : σ) :
    Streams (fun _ xs => (Verif.run (fun s x => Verif.run step s x) s xs).2) :=
  ⟨_, .of_run step s, fun _ _ h => ⟨run_sized (fun _ _ => run_length _ _ _) h, run_length _ _ _, run_flatten _ _ _⟩⟩

theorem Streams.comp {F G : Nat → List Buf → List Buf} (hF : Streams F) (hG : Streams G) : Streams (fun N xs => F N (G N xs)) := by
  obtain ⟨f, f1, f2⟩ := hF
  obtain ⟨g, g1, g2⟩ := hG
  refine ⟨_, f1.comp g1, fun N xs h => ?_⟩
  obtain ⟨h1, h2, h3⟩ := g2 N xs h
  obtain ⟨k1, k2, k3⟩ := f2 N _ h1
  exact ⟨k1, k2.trans h2, by rw [k3, h3]⟩

theorem Streams.each (f : Fl → Fl) : Streams (fun _ xs => Spec.each f xs) :=
  ⟨_, .map f, fun _ _ h => ⟨each_sized h, each_length, by unfold Spec.each; rw [List.map_flatten]⟩⟩

theorem Streams.id : Streams (fun _ xs => xs) :=
  ⟨_, .map _root_.id, fun _ _ h => ⟨h, rfl, by simp⟩⟩

theorem zipWith_flatten {N : Nat} (f : Fl → Fl → Fl) : ∀ (a b : List Buf), Sized N a → Sized N b →
    (both f a b).flatten = List.zipWith f a.flatten b.flatten := by
  intro a
  induction a with
  | nil => intro b _ _; rfl
  | cons x a ih =>
    intro b ha hb
    cases b with
    | nil => simp [both]
    | cons y b =>
      have := ih b (fun z hz => ha z (by simp [hz])) (fun z hz => hb z (by simp [hz]))
      simp only [both, List.zipWith_cons_cons, List.flatten_cons] at this ⊢
      rw [this, List.zipWith_append (by rw [ha x (by simp), hb y (by simp)])]

theorem Streams.both (f : Fl → Fl → Fl) {F G : Nat → List Buf → List Buf} (hF : Streams F) (hG : Streams G) :
    Streams (fun N xs => Spec.both f (F N xs) (G N xs)) := by
  obtain ⟨u, f1, f2⟩ := hF
  obtain ⟨v, g1, g2⟩ := hG
  refine ⟨_, f1.zip f g1, fun N xs h => ?_⟩
  obtain ⟨h1, h2, h3⟩ := g2 N xs h
  obtain ⟨k1, k2, k3⟩ := f2 N _ h
  exact ⟨both_sized k1 h1, by rw [both_length, k2, h2, Nat.min_self], by rw [zipWith_flatten f _ _ k1 h1, h3, k3]⟩

theorem run_const {σ : Type} {step : σ → Fl → σ × Fl} (h : ∀ s x, step s x = step s (.fin 0)) :
    ∀ (a b : Buf) (s : σ), a.length = b.length → Verif.run step s a = Verif.run step s b := by
  intro a
  induction a with
  | nil => intro b s hl; cases b with
    | nil => rfl
    | cons => simp at hl
  | cons x a ih =>
    intro b s hl
    cases b with
    | nil => simp at hl
    | cons y b =>
      simp only [Verif.run]
      rw [h s x, h s y, ih b _ (by simpa using hl)]

theorem Streams.noise (m : Libm) (seed : Nat) : Streams (fun N xs => noiseBlocks m seed N xs.length) := by
  refine ⟨_, .of_run (noiseStep m seed) 0, fun N xs h => ⟨noiseBlocks_sized, noiseBlocks_length, ?_⟩⟩
  unfold noiseBlocks
  generalize 0 = k
  induction xs generalizing k with
  | nil => rfl
  | cons x xs ih =>
    rw [List.flatten_cons, run_append]
    simp only [List.length_cons, List.replicate_succ, Verif.run, List.flatten_cons]
    have : noiseBlock m seed N k () = Verif.run (noiseStep m seed) k x :=
      run_const (fun _ _ => rfl) _ _ _ (by rw [List.length_replicate, h x (by simp)])
    rw [this, ih (fun y hy => h y (by simp [hy]))]

theorem bdSig_streams (m : Libm) (decay : Fl) : Streams (fun N xs => bdSig m N decay xs) :=
  .both _ (.comp (.run _ _) (.comp (.each _) (.run _ _))) (.run _ _)

theorem hhSig_streams (m : Libm) (decay : Fl) : Streams (fun N xs => hhSig m N decay xs) :=
  .both _ (.comp (.run _ _) (.noise m 42)) (.run _ _)

theorem snSig_streams (m : Libm) (decay : Fl) : Streams (fun N xs => snSig m N decay xs) :=
  .both _ (.both _ (.comp (.run _ _) (.comp (.each _) (.run _ _))) (.noise m 42)) (.run _ _)

theorem synthSig_streams (w : Wave) (a d : Fl) : Streams (fun _ xs => synthSig w a d xs) :=
  .both _ (.comp (.run _ _) (.each _)) (.run _ _)

/-! ### As nodes -/

theorem stream_both {N : Nat} : ∀ (ys : List Buf), Sized N ys →
    stream N (onBothSides ys) = ys.flatten.map (fun y => [.fin 0 +. y, .fin 0 +. y]) := by
  intro ys
  induction ys with
  | nil => intro _; rfl
  | cons y ys ih =>
    intro h
    have h1 := ih (fun z hz => h z (by simp [hz]))
    simp only [stream, onBothSides, List.map_cons, List.flatMap_cons, List.flatten_cons, List.map_append] at h1 ⊢
    rw [h1]
    congr 1
    have hl := h y (by simp)
    apply List.ext_getElem?
    intro t
    simp only [List.getElem?_map]
    by_cases ht : t < N
    · rw [List.getElem?_range ht, List.getElem?_eq_getElem (by omega)]
      simp [frame, List.getD_eq_getElem?_getD, List.getElem?_eq_getElem (show t < y.length by omega)]
    · rw [List.getElem?_eq_none (by simp; omega), List.getElem?_eq_none (by omega)]; rfl

/-- Samples of the left channel of the only input. -/
theorem left_frames {N : Nat} {o : List Buf} {x : Buf} (hx : o[0]? = some x) (hl : x.length = N) :
    (slotFrames N [o]).map (fun fr => samp fr 0 0) = x := by
  unfold slotFrames
  rw [List.map_map]
  conv => rhs; rw [buf_range hl]
  refine List.map_congr_left (fun t _ => ?_)
  simp only [Function.comp]
  rw [samp_frames]
  simp [List.getD_eq_getElem?_getD, hx]

theorem runM_ok {σ ι ο : Type} (f : σ → ι → σ × ο) (s : σ) (xs : List ι) :
    runM (fun s x => .ok (f s x)) s xs = .ok (run f s xs) := by
  induction xs generalizing s with
  | nil => rfl
  | cons x xs ih => simp only [runM, run, ih]

/-- The inputs of a compound node. -/
theorem slots_left {N c : Nat} {D : List Nat} (hc : c = 1 ∨ c = 2) {ins : List Ins} {bs : List (List (List Buf))}
    (h : List.Forall₂ (fun inp bufs => Slots N [c] D bufs inp) ins bs) :
    ∃ xs, Sized N xs ∧ (∀ k, D = [k] → List.Forall₂ (LeftIs k) ins xs) ∧
      (bs.flatMap (slotFrames N)).map (fun fr => samp fr 0 0) = xs.flatten := by
  induction h with
  | nil => exact ⟨[], fun _ h => (by cases h), fun _ _ => .nil, rfl⟩
  | @cons inp bufs ins bs hS _ ih =>
    obtain ⟨xs, h1, h2, h3⟩ := ih
    obtain ⟨d, o, rfl, rfl, rfl, ho, hsz⟩ := hS.one
    have hne : 0 < o.length := by omega
    have hx : o[0]? = some o[0] := List.getElem?_eq_getElem hne
    refine ⟨o[0] :: xs, ?_, ?_, ?_⟩
    · intro y hy
      rcases List.mem_cons.mp hy with rfl | hy
      · exact hsz _ (List.getElem_mem hne)
      · exact h1 y hy
    · rintro k hk
      cases hk
      exact .cons ⟨o, rfl, hx⟩ (h2 _ rfl)
    · rw [List.flatMap_cons, List.map_append, h3, List.flatten_cons, left_frames hx (hsz _ (List.getElem_mem hne))]

/-- What is known of the drums and synths: on one input they play a signal that does not depend on the blocks. -/
def PlaysSig (P : Plat) (K : Nat → List Nat → Compound) : Prop :=
  ∃ G, Streams G ∧ ∀ N ord k ins xs outs, ord[0]? = some k → List.Forall₂ (LeftIs k) ins xs → Sized N xs →
    runBlocks (procG P) (.compound (K N ord)) (List.replicate 2 (List.replicate N (.fin 0))) ins = .ok outs →
    outs = onBothSides (G N xs)

theorem unfed_run {P : Plat} {K : Compound} (hp : K.kind ≠ .plate) : ∀ (ins : List Ins), (∀ i, i ∈ ins → i.length ≠ 1) → ∀ out,
    runBlocks (procG P) (.compound K) out ins = .ok (ins.map (fun _ => out)) := by
  intro ins
  induction ins with
  | nil => intro _ _; rfl
  | cons i ins ih =>
    intro h out
    have h1 : procCompound P.libm P.ho K i out = .ok (K, out) := by
      unfold procCompound
      split
      · exact absurd (by assumption) hp
      · rename_i e _; exact absurd rfl (h [e] (by simp))
      · rfl
    simp only [runBlocks, procG, h1, reState, ih (fun j hj => h j (by simp [hj])) out, List.map_cons]

theorem forall₂_mem {α β : Type} {R : α → β → Prop} {l : List α} {m : List β} (h : List.Forall₂ R l m) :
    ∀ x, x ∈ l → ∃ y, y ∈ m ∧ R x y := by
  induction h with
  | nil => intro x hx; cases hx
  | cons h _ ih =>
    intro x hx
    rcases List.mem_cons.mp hx with rfl | hx
    · exact ⟨_, by simp, h⟩
    · obtain ⟨y, hy, hr⟩ := ih x hx
      exact ⟨y, by simp [hy], hr⟩

/-- A compound node as a loop over all the samples. -/
theorem compound_loop {P : Plat} {K : Nat → List Nat → Compound} {chans sel : List Nat} (hK : PlaysSig P K) (hk : ∀ N ord, (K N ord).kind ≠ .plate)
    (hord : ∀ N, (K N []).order = [])
    (hs : ∀ j, j ∈ sel → j < chans.length) (hw : ∀ c, c ∈ chans → c = 1 ∨ c = 2) :
    ∃ (σ ο : Type) (s0 : σ) (f : σ → Frame → Except Panic (σ × ο)) (w : ο → Fl),
      ∀ N D bs ins outs, 0 < N → List.Forall₂ (fun inp bufs => Slots N chans D bufs inp) ins bs →
        runBlocks (procG P) (.compound (K N (sel.map (fun j => D.getD j 0))))
          (List.replicate 2 (List.replicate N (.fin 0))) ins = .ok outs →
        ∃ s' ys, runM f s0 (bs.flatMap (slotFrames N)) = .ok (s', ys) ∧ stream N outs = ys.map (fun y => [w y, w y]) ∧
          ∀ o, o ∈ outs → o.length = 2 := by
  by_cases h1 : chans.length = 1
  · obtain ⟨c, rfl⟩ := List.length_eq_one_iff.mp h1
    obtain ⟨G, ⟨F, ⟨σ, s0, step, hF⟩, hG⟩, hplay⟩ := hK
    refine ⟨σ, Fl, s0, fun s fr => .ok (step s (samp fr 0 0)), fun y => .fin 0 +. y, ?_⟩
    intro N D bs ins outs hN hS h
    obtain ⟨xs, k1, k2, k3⟩ := slots_left (hw c (by simp)) hS
    have hrun : runM (fun s fr => .ok (step s (samp fr 0 0))) s0 (bs.flatMap (slotFrames N)) = .ok (run step s0 xs.flatten) := by
      rw [← k3, run_over, runM_ok (fun s fr => step s (samp fr 0 0))]
    refine ⟨_, _, hrun, ?_⟩
    cases hS with
    | nil =>
      cases h
      have := k2 0
      have hxs : xs.flatten = [] := by rw [← k3]; rfl
      rw [hxs]
      exact ⟨rfl, fun o ho => by cases ho⟩
    | @cons inp bufs ins bs hS1 hS2 =>
      obtain ⟨d, o, rfl, rfl, rfl, ho, hsz⟩ := hS1.one
      cases sel with
      | nil =>
        exfalso
        simp only [runBlocks, procG] at h
        have : procCompound P.libm P.ho (K N []) [(d, o)] (List.replicate 2 (List.replicate N (.fin 0))) = .error .indexOutOfBounds := by
          have h1 := hk N []
          have h2 := hord N
          generalize K N [] = c at h1 h2
          obtain ⟨kind, graph, dest, input, tags, order⟩ := c
          subst h2
          cases kind with
          | plate => exact absurd rfl h1
          | _ => rfl
        rw [List.map_nil, this] at h
        cases h
      | cons j sel =>
        have hj : j = 0 := by have := hs j (by simp); simpa using this
        subst hj
        have := hplay N _ d _ xs outs rfl (k2 d rfl) k1 h
        obtain ⟨g1, g2, g3⟩ := hG N xs k1
        subst this
        refine ⟨?_, ?_⟩
        · rw [stream_both _ g1, g3, hF]
        · intro o ho
          simp only [onBothSides, List.mem_map] at ho
          obtain ⟨y, _, rfl⟩ := ho
          rfl
  · refine ⟨Unit, Unit, (), fun _ _ => .ok ((), ()), fun _ => .fin 0, ?_⟩
    intro N D bs ins outs hN hS h
    refine ⟨(), List.replicate (bs.flatMap (slotFrames N)).length (), ?_, ?_, ?_⟩
    · generalize bs.flatMap (slotFrames N) = l
      induction l with
      | nil => rfl
      | cons x l ih => simp only [runM, ih, List.length_cons, List.replicate_succ]
    all_goals
      rw [unfed_run (hk N _) ins (by
        intro i hi h'
        obtain ⟨bufs, _, hb⟩ := forall₂_mem hS i hi
        have := hb.perm.length_eq
        rw [List.length_zip, hb.len, Nat.min_self, h'] at this
        have h2 := congrArg List.length hb.chans
        rw [List.length_map] at h2
        omega)] at h
      cases h
    · have hlen := hS.length_eq
      clear hS h1
      induction ins generalizing bs with
      | nil => cases bs with
        | nil => rfl
        | cons => simp at hlen
      | cons i ins ih =>
        cases bs with
        | nil => simp at hlen
        | cons b bs =>
          have := ih (bs := bs) (by simpa using hlen)
          simp only [stream, List.map_cons, List.flatMap_cons] at this ⊢
          rw [this, List.length_append, List.replicate_add, List.map_append]
          congr 1
          apply List.ext_getElem?
          intro t
          by_cases ht : t < N
          · rw [List.getElem?_map, List.getElem?_range ht, List.getElem?_map, List.getElem?_replicate]
            simp [slotFrames, ht, frame, List.getD_eq_getElem?_getD]
          · rw [List.getElem?_eq_none (by simp; omega), List.getElem?_eq_none (by simp [slotFrames]; omega)]
    · intro o ho
      obtain ⟨_, _, rfl⟩ := List.mem_map.mp ho
      simp

/-- The drums and synths whose times are not too long. -/
def DrumOk : Comp → Prop
  | .bd (.num d) | .hh (.num d) | .sn (.num d) => TimeOk d
  | .sawsynth a d | .squsynth a d | .trisynth a d => TimeOk a ∧ TimeOk d
  | _ => False

theorem synth_playsSig (P : Plat) (w : Wave) (a d : Fl) (ha : TimeOk a) (hd : TimeOk d) :
    PlaysSig P (fun N ord => ⟨.synth, ⟨synthNodes N w a d, [], synthEdges⟩, 0, 2, [5], ord⟩) :=
  ⟨_, synthSig_streams w a d, fun N ord k ins xs outs h1 h2 h3 h => synth_run P N w a d ord k h1 ins xs h2 h3 ha hd outs h⟩

theorem drum_playsSig (P : Plat) (c : Comp) (h : DrumOk c) : ∃ K : Nat → List Nat → Compound,
    (∀ N, makeCompound P.libm N c = some (.ok (K N []))) ∧ PlaysSig P K ∧ (∀ N ord, (K N ord).kind ≠ .plate) ∧
    (∀ N ord, { K N [] with order := ord } = K N ord) ∧ ∀ N ord, (K N ord).order = ord := by
  have syn : ∀ w a d, TimeOk a ∧ TimeOk d → ∃ K : Nat → List Nat → Compound,
      (∀ N, makeCompound P.libm N (synthComp w a d) = some (.ok (K N []))) ∧ PlaysSig P K ∧ (∀ N ord, (K N ord).kind ≠ .plate) ∧
      (∀ N ord, { K N [] with order := ord } = K N ord) ∧ ∀ N ord, (K N ord).order = ord := by
    intro w a d h
    exact ⟨_, fun N => synth_made P N w a d, synth_playsSig P w a d h.1 h.2, by simp, fun _ _ => rfl, fun _ _ => rfl⟩
  cases c with
  | bd p => cases p with
    | num d => exact ⟨fun N ord => ⟨.drum, ⟨bdNodes N d, [], bdEdges⟩, 0, 2, [3], ord⟩,
        fun N => congrArg some (newBd_eq P.libm N d), ⟨_, bdSig_streams P.libm d, fun N ord k ins xs outs h1 h2 h3 h' =>
          bd_run P N d ord k h1 ins xs h2 h3 h outs h'⟩, by simp, fun _ _ => rfl, fun _ _ => rfl⟩
    | ref _ => exact h.elim
  | hh p => cases p with
    | num d => exact ⟨fun N ord => ⟨.drum, ⟨hhNodes N d, [], hhEdges⟩, 0, 2, [6], ord⟩,
        fun N => congrArg some (newHh_eq P.libm N d), ⟨_, hhSig_streams P.libm d, fun N ord k ins xs outs h1 h2 h3 h' =>
          hh_run P N d ord k h1 ins xs h2 h3 h outs h'⟩, by simp, fun _ _ => rfl, fun _ _ => rfl⟩
    | ref _ => exact h.elim
  | sn p => cases p with
    | num d => exact ⟨fun N ord => ⟨.drum, ⟨snNodes N d, [], snEdges⟩, 0, 2, [3], ord⟩,
        fun N => congrArg some (newSn_eq P.libm N d), ⟨_, snSig_streams P.libm d, fun N ord k ins xs outs h1 h2 h3 h' =>
          sn_run P N d ord k h1 ins xs h2 h3 h outs h'⟩, by simp, fun _ _ => rfl, fun _ _ => rfl⟩
    | ref _ => exact h.elim
  | sawsynth a d => exact syn .saw a d h
  | squsynth a d => exact syn .squ a d h
  | trisynth a d => exact syn .tri a d h
  | _ => exact h.elim

end Verif
