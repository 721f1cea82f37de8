import Verif.Lemmas.StreamDelay
import Verif.Lemmas.StreamCompound

/-! Nodes that treat blocks sample by sample, over many blocks (helpers). -/

namespace Verif
open Spec

/-- One sample of the output of a node: silence on the channels that are never written. -/
def outFrame {ο : Type} (w : Nat → Option (ο → Fl)) (C : Nat) (y : ο) : List Fl :=
  (List.range C).map (fun c => match w c with | some f => f y | none => .fin 0)

/-- The channels that are not written hold zeros. -/
def Quiet {ο : Type} (w : Nat → Option (ο → Fl)) (N : Nat) (out : List Buf) : Prop :=
  ∀ (c : Nat) (b : Buf), out[c]? = some b → w c = none → b = List.replicate N (.fin 0)

theorem put_length {ο : Type} {w : Nat → Option (ο → Fl)} {ys : List ο} {out : List Buf} : (put w ys out).length = out.length := by
  simp [put]

theorem put_getElem? {ο : Type} {w : Nat → Option (ο → Fl)} {ys : List ο} {out : List Buf} {c : Nat} :
    (put w ys out)[c]? = (out[c]?).map (fun b => match w c with | some f => ys.map f | none => b) := by
  simp only [put, List.getElem?_mapIdx]
  rfl

theorem put_quiet {ο : Type} {w : Nat → Option (ο → Fl)} {N : Nat} {ys : List ο} {out : List Buf} (h : Quiet w N out) :
    Quiet w N (put w ys out) := by
  intro c b hb hw
  rw [put_getElem?] at hb
  cases ho : out[c]? with
  | none => rw [ho] at hb; cases hb
  | some o =>
    rw [ho] at hb
    simp only [hw, Option.map_some, Option.some.injEq] at hb
    exact hb ▸ h c o ho hw

theorem put_sized {ο : Type} {w : Nat → Option (ο → Fl)} {N : Nat} {ys : List ο} {out : List Buf}
    (h : ∀ b, b ∈ out → b.length = N) (hy : ys.length = N) : ∀ b, b ∈ put w ys out → b.length = N := by
  intro b hb
  obtain ⟨c, hc⟩ := List.mem_iff_getElem?.mp hb
  rw [put_getElem?] at hc
  cases ho : out[c]? with
  | none => rw [ho] at hc; cases hc
  | some o =>
    rw [ho] at hc
    simp only [Option.map_some, Option.some.injEq] at hc
    rw [← hc]
    split
    · rw [List.length_map, hy]
    · exact h o (List.mem_of_getElem? ho)

theorem put_frames {ο : Type} {w : Nat → Option (ο → Fl)} {N C : Nat} {ys : List ο} {out : List Buf} (h : Quiet w N out)
    (hC : out.length = C) (hy : ys.length = N) : (List.range N).map (frame (put w ys out)) = ys.map (outFrame w C) := by
  apply List.ext_getElem?
  intro t
  by_cases ht : t < N
  · rw [List.getElem?_map, List.getElem?_range ht, List.getElem?_map, List.getElem?_eq_getElem (by omega)]
    simp only [Option.map_some, Option.some.injEq]
    apply List.ext_getElem?
    intro c
    simp only [frame, outFrame, List.getElem?_map, put_getElem?]
    by_cases hc : c < C
    · rw [List.getElem?_range hc, List.getElem?_eq_getElem (by omega)]
      simp only [Option.map_some, Option.some.injEq]
      cases hw : w c with
      | some f => simp [List.getD_eq_getElem?_getD, List.getElem?_eq_getElem (show t < ys.length by omega)]
      | none =>
        simp only
        rw [h c _ (List.getElem?_eq_getElem (by omega)) hw]
        simp [List.getD_eq_getElem?_getD, ht]
    · rw [List.getElem?_eq_none (by omega), List.getElem?_eq_none (by simp; omega)]; rfl
  · rw [List.getElem?_eq_none (by simp; omega), List.getElem?_eq_none (by simp; omega)]

/-- Many blocks are one loop over all their samples. -/
theorem run_stream {P : Plat} {σ ο : Type} {wrap : List Nat → σ → Prim} {f : σ → Frame → Except Panic (σ × ο)}
    {w : Nat → Option (ο → Fl)} {chans D : List Nat} {C N : Nat} {l : List Nat}
    (hf : ∀ bufs ins out s r, Slots N chans D bufs ins → out.length = C → (∀ b, b ∈ out → b.length = N) →
      procPrim P.libm (wrap l s) ins out = .ok r →
      ∃ s' ys, runM f s (slotFrames N bufs) = .ok (s', ys) ∧ r = (wrap l s', put w ys out)) :
    ∀ {ins : List Ins} {bs : List (List (List Buf))} {s : σ} {out : List Buf} {outs : List (List Buf)},
    List.Forall₂ (fun inp bufs => Slots N chans D bufs inp) ins bs → out.length = C → (∀ b, b ∈ out → b.length = N) →
    Quiet w N out → runBlocks (procG P) (.prim (wrap l s)) out ins = .ok outs →
    ∃ s' ys, runM f s (bs.flatMap (slotFrames N)) = .ok (s', ys) ∧ stream N outs = ys.map (outFrame w C) ∧
      ∀ o, o ∈ outs → o.length = C := by
  intro ins bs s out outs hF
  induction hF generalizing s out outs with
  | nil => intro _ _ _ h; cases h; exact ⟨s, [], rfl, rfl, fun o ho => by cases ho⟩
  | @cons inp bufs ins bs hS _ ih =>
    intro hC hsz hq h
    simp only [runBlocks] at h
    split at h
    · cases h
    · rename_i n' out' h1
      obtain ⟨n1, o1, hp, he⟩ := reState_back h1
      cases he
      obtain ⟨s', ys, h2, h3⟩ := hf bufs inp out s _ hS hC hsz hp
      cases h3
      split at h
      · cases h
      · rename_i r hr
        cases h
        have hy : ys.length = N := by rw [runM_length h2]; simp [slotFrames]
        obtain ⟨s2, zs, h4, h5, h6⟩ := ih (put_length.trans hC) (put_sized hsz hy) (put_quiet hq) hr
        refine ⟨s2, ys ++ zs, ?_, ?_, ?_⟩
        · rw [List.flatMap_cons, runM_append, h2]
          simp only [h4]
        · simp only [stream, List.flatMap_cons] at h5 ⊢
          rw [h5, put_frames hq hC hy, List.map_append]
        · intro o ho
          rcases List.mem_cons.mp ho with rfl | ho
          · exact put_length.trans hC
          · exact h6 o ho

/-! ### Two runs -/

theorem agree_tail {α : Type} {x y : α} {a b : List α} (h : Agree (x :: a) (y :: b)) : x = y ∧ Agree a b :=
  ⟨h 0 x y rfl rfl, fun t u v hu hv => h (t + 1) u v hu hv⟩

theorem agree_cons {α : Type} {x : α} {a b : List α} (h : Agree a b) : Agree (x :: a) (x :: b) := by
  intro t u v hu hv
  cases t with
  | zero => cases hu; cases hv; rfl
  | succ t => exact h t u v hu hv

theorem agree_map {α β : Type} {a b : List α} (g : α → β) (h : Agree a b) : Agree (a.map g) (b.map g) := by
  intro t u v hu hv
  rw [List.getElem?_map] at hu hv
  cases ha : a[t]? with
  | none => rw [ha] at hu; cases hu
  | some x =>
    cases hb : b[t]? with
    | none => rw [hb] at hv; cases hv
    | some y =>
      rw [ha] at hu; rw [hb] at hv
      cases hu; cases hv
      rw [h t x y ha hb]

/-- A loop only depends on what it has seen. -/
theorem runM_agree {σ ι ο : Type} {f : σ → ι → Except Panic (σ × ο)} : ∀ {a b : List ι} {s : σ} {p q : σ × List ο},
    runM f s a = .ok p → runM f s b = .ok q → Agree a b → Agree p.2 q.2 := by
  intro a
  induction a with
  | nil => intro b s p q h _ _; cases h; intro t x y hx; cases hx
  | cons x a ih =>
    intro b s p q hp hq hab
    cases b with
    | nil => cases hq; intro t x y _ hy; cases hy
    | cons y b =>
      obtain ⟨rfl, hab'⟩ := agree_tail hab
      simp only [runM] at hp hq
      split at hp
      · cases hp
      · rename_i r hr
        split at hp
        · cases hp
        · rename_i u hu
          cases hp
          rw [hr] at hq
          simp only at hq
          split at hq
          · cases hq
          · rename_i v hv
            cases hq
            exact agree_cons (ih hu hv hab')

/-! ### Positions -/

theorem flatMap_at {α β : Type} {f : α → List β} {N : Nat} (hN : 0 < N) (hf : ∀ x, (f x).length = N) : ∀ (l : List α) (t : Nat),
    (l.flatMap f)[t]? = (l[t / N]?).bind (fun x => (f x)[t % N]?) := by
  intro l
  induction l with
  | nil => intro t; simp
  | cons x l ih =>
    intro t
    rw [List.flatMap_cons]
    by_cases ht : t < N
    · rw [List.getElem?_append_left (by rw [hf]; exact ht), Nat.div_eq_of_lt ht, Nat.mod_eq_of_lt ht]
      simp
    · rw [List.getElem?_append_right (by rw [hf]; omega), hf, ih]
      obtain ⟨d, rfl⟩ := Nat.exists_eq_add_of_le (Nat.le_of_not_lt ht)
      rw [Nat.add_sub_cancel_left, Nat.add_div_left _ hN, Nat.add_mod_left, List.getElem?_cons_succ]

theorem stream_at {N : Nat} (hN : 0 < N) (s : List (List Buf)) (t : Nat) :
    (stream N s)[t]? = (s[t / N]?).map (fun o => frame o (t % N)) := by
  rw [stream, flatMap_at hN (by simp)]
  cases s[t / N]? with
  | none => rfl
  | some o =>
    simp [List.getElem?_range (Nat.mod_lt t hN)]

theorem stream_length {N : Nat} (s : List (List Buf)) : (stream N s).length = s.length * N := by
  simp [stream, List.length_flatMap]

/-- The frames that a node sees are made of the streams of its sources. -/
theorem frames_at {N : Nat} (hN : 0 < N) {sigs : List (List (List Buf))} {bs : List (List (List Buf))}
    (h : ∀ (t : Nat) bufs, bs[t]? = some bufs → List.Forall₂ (fun s b => s[t]? = some b) sigs bufs) {t : Nat} {fr : Frame}
    (hfr : (bs.flatMap (slotFrames N))[t]? = some fr) : List.Forall₂ (fun s x => (stream N s)[t]? = some x) sigs fr := by
  rw [flatMap_at hN (by simp [slotFrames])] at hfr
  cases hb : bs[t / N]? with
  | none => rw [hb] at hfr; cases hfr
  | some bufs =>
    rw [hb] at hfr
    simp only [Option.bind_some, slotFrames, List.getElem?_map, List.getElem?_range (Nat.mod_lt t hN), Option.map_some,
      Option.some.injEq] at hfr
    subst hfr
    have := h _ _ hb
    rw [List.forall₂_map_right_iff]
    refine List.Forall₂.imp ?_ this
    intro s b hs
    rw [stream_at hN, hs]
    rfl

theorem frames_agree {N M : Nat} (hN : 0 < N) (hM : 0 < M) {sigs sigs' bs bs' : List (List (List Buf))}
    (h : ∀ (t : Nat) bufs, bs[t]? = some bufs → List.Forall₂ (fun s b => s[t]? = some b) sigs bufs)
    (h' : ∀ (t : Nat) bufs, bs'[t]? = some bufs → List.Forall₂ (fun s b => s[t]? = some b) sigs' bufs)
    (ha : List.Forall₂ (fun s s' => Agree (stream N s) (stream M s')) sigs sigs') :
    Agree (bs.flatMap (slotFrames N)) (bs'.flatMap (slotFrames M)) := by
  intro t x y hx hy
  have h1 := frames_at hN h hx
  have h2 := frames_at hM h' hy
  clear h h' hx hy
  induction ha generalizing x y with
  | nil => cases h1; cases h2; rfl
  | @cons s s' ss ss' hs _ ih =>
    cases h1 with
    | cons a1 b1 =>
      cases h2 with
      | cons a2 b2 => rw [hs t _ _ a1 a2, ih _ _ b1 b2]

/-! ### The wiring messages -/

theorem Prim.reorder_self {n : Prim} : n.reorder n.order = n := by cases n <;> rfl

theorem Prim.reorder_reorder {n : Prim} {k l : List Nat} : (n.reorder k).reorder l = n.reorder l := by cases n <;> rfl

theorem Prim.reorder_set {n : Prim} {l : List Nat} (h : n.keepsOrder = true) : n.reorder l = n.setOrder l := by
  cases n <;> first | rfl | cases h

theorem msgPrim_reorder {m : Libm} {n n' : Prim} {g : Msg Fl} (hg : IsWiring g)
    (h : msgPrim m n g = .ok n') : ∃ l, n' = n.reorder l := by
  by_cases hk : n.keepsOrder = true
  · exact ⟨_, (msgPrim_set hg hk h).trans (Prim.reorder_set hk).symm⟩
  · have key : ∀ {α : Type} {f : List Nat → α} {b : Bool} {o : List Nat} {c : α → Prim},
        c <$> (do let o ← orderMsg b o g; .ok (f o)) = Except.ok n' → ∃ o', n' = c (f o') := by
      intro α f b o c h
      generalize orderMsg b o g = x at h
      cases x with
      | error e => cases h
      | ok o' => cases h; exact ⟨o', rfl⟩
    cases g with
    | setToNumber p v => exact absurd hg (by simp [IsWiring])
    | setToSymbol p v => exact absurd hg (by simp [IsWiring])
    | setBPM v => exact absurd hg (by simp [IsWiring])
    | index i =>
      cases n <;> first
        | exact absurd rfl hk
        | (cases h; exact ⟨[], rfl⟩)
        | (obtain ⟨o', rfl⟩ := key h; exact ⟨_, rfl⟩)
    | indexOrder p i =>
      cases n <;> first
        | exact absurd rfl hk
        | (cases h; exact ⟨[], rfl⟩)
        | (obtain ⟨o', rfl⟩ := key h; exact ⟨_, rfl⟩)
    | resetOrder =>
      cases n <;> first
        | exact absurd rfl hk
        | (cases h; exact ⟨[], rfl⟩)
        | (cases h; exact ⟨_, Prim.reorder_self.symm⟩)

theorem sendMsgs_reorder {P : Plat} {msgs : List (Msg Fl)} : ∀ {n : Prim} {n' : GNode P}, (∀ g, g ∈ msgs → IsWiring g) →
    sendMsgs (.prim n) msgs = .ok n' → ∃ l, n' = .prim (n.reorder l) := by
  induction msgs with
  | nil => intro n n' _ h; cases h; exact ⟨n.order, by rw [Prim.reorder_self]⟩
  | cons g msgs ih =>
    intro n n' hg h
    simp only [sendMsgs, msgG] at h
    cases h1 : msgPrim P.libm n g with
    | error e => rw [h1] at h; cases h
    | ok n1 =>
      rw [h1] at h
      obtain ⟨l, rfl⟩ := msgPrim_reorder (hg g (by simp)) h1
      obtain ⟨k, rfl⟩ := ih (fun g hg' => hg g (by simp [hg'])) h
      exact ⟨k, by rw [Prim.reorder_reorder]⟩

/-! ### Components -/

theorem selectSamples_mem {samples : List (Name × Sample)} : ∀ {es : Events} {l : List (Sample × Fl)},
    selectSamples samples es = .ok l → ∀ e, e ∈ l → ∃ p, p ∈ samples ∧ p.2 = e.1 := by
  intro es
  induction es with
  | nil => intro l h e he; cases h; cases he
  | cons a es ih =>
    intro l h e he
    obtain ⟨v, t⟩ := a
    simp only [selectSamples] at h
    split at h
    · cases h
    · rename_i s hs
      rw [except_bind_ok] at h
      obtain ⟨r, hr, h⟩ := h
      cases h
      rcases List.mem_cons.mp he with rfl | he
      · exact ⟨(_, s), lookup_mem hs, rfl⟩
      · exact ih hr e he

theorem makePrim_loop {m : Libm} {samples : List (Name × Sample)} {sr : Nat} {bpm : Fl} {seed : Nat} {c : Comp} {C : Nat}
    {n : Prim} {sel chans : List Nat} (h : makePrim m samples sr bpm seed c = some (.ok (C, n)))
    (hf : BlockFree samples c chans.length) (hs : ∀ j, j ∈ sel → j < chans.length) (hw : ∀ c, c ∈ chans → c = 1 ∨ c = 2) :
    PrimLoop m n sel chans C := by
  cases c with
  | psampler e span =>
    cases span with
    | none => cases h
    | some v =>
      have h := Option.some.inj h
      rw [except_bind_ok] at h
      obtain ⟨l, hl, h⟩ := h
      cases h
      refine psampler_loop ⟨fun v hv => (by cases hv), ?_⟩
      intro x hx
      obtain ⟨p, hp, hx2⟩ := selectSamples_mem hl x hx
      rw [← hx2]
      exact hf p hp
  | points ps span l =>
    have h := Option.some.inj h
    rw [except_bind_ok] at h
    obtain ⟨p, _, h⟩ := h
    cases h
    exact points_loop
  | patternSynth s span =>
    have h := Option.some.inj h
    rw [except_bind_ok] at h
    obtain ⟨p, _, h⟩ := h
    cases h
    exact patSynth_loop
  | sp sym =>
    have h := Option.some.inj h
    split at h
    · cases h
    · rw [except_bind_ok] at h
      obtain ⟨p, _, h⟩ := h
      cases h
      exact sampler_loop
  | lpf s q =>
    cases s <;> first
      | (cases h; exact rlpf_loop hf)
      | cases h
  | apfmsgain d g =>
    have h := Option.some.inj h
    rw [except_bind_ok] at h
    obtain ⟨p, _, h⟩ := h
    cases h
    exact apf_loop hs
  | delayn p => cases p <;> (cases h; exact delayn_loop)
  | delayms p =>
    cases h
    refine delayms_loop hs hw rfl (r1 := _) (r2 := _) rfl ?_
    simp only [DelayMs.new]
    omega
  | msgsynth _ _ _ => cases h; exact msgSynth_loop
  | balance _ _ => cases h; exact balance_loop hs
  | rhpf _ _ => cases h; exact rhpf_loop hf
  | envperc _ _ => cases h; exact envperc_loop hs
  | adsr _ _ _ _ => cases h; exact adsr_loop hs
  | tri _ => cases h; exact osc_loop hs
  | squ _ => cases h; exact osc_loop hs
  | saw _ => cases h; exact osc_loop hs
  | sin _ => cases h; exact sin_loop hs (by omega)
  | imp _ => cases h; exact imp_loop
  | mul _ => cases h; exact mul_loop hs
  | pan _ => cases h; exact pan_loop hs
  | noise _ => cases h; exact noise_loop rfl
  | onepole _ => cases h; exact onepole_loop hs
  | add _ => cases h; exact add_loop hs
  | constsig _ => cases h; exact constSig_loop
  | get _ => cases h; exact pass_loop hf
  | seq _ => cases h; exact seq_loop (List.length_eq_zero_iff.mp hf)
  | mix _ => cases h; exact sum2_loop hf hw
  | arrange _ => cases h; exact arrange_loop hs hf
  | bd v => cases h
  | sn v => cases h
  | hh v => cases h
  | sawsynth _ _ => cases h
  | squsynth _ _ => cases h
  | trisynth _ _ => cases h
  | _ => exact hf.elim

theorem notes_keeps {c : Comp} : c.keeps = true ↔ NotesInputs c := by
  cases c <;> simp [Comp.keeps, NotesInputs]

/-- Drums and synths, when they play. -/
theorem drum_opens {P : Plat} {N : Nat} {env : Env} {c : Comp} {K : Nat → List Nat → Compound} {l : List Nat} {ins : List Ins}
    {outs : List (List Buf)} (hp : makePrim P.libm env.samples env.sr env.bpm env.seed c = none)
    (hK : makeCompound P.libm N c = some (.ok (K N []))) (hset : ∀ N ord, { K N [] with order := ord } = K N ord)
    (hord : ∀ N ord, (K N ord).order = ord)
    (h : play P N env c (l.map .index) ins = .ok outs) :
    runBlocks (procG P) (.compound (K N l)) (List.replicate 2 (List.replicate N (.fin 0))) ins = .ok outs := by
  have := sendMsgs_index (P := P) (srcs := l) (n := .compound (K N [])) trivial
  simp only [play, makeNode, hp, hK, fresh, bind, Except.bind, liftP, this] at h
  have h1 : (GNode.compound (K N []) : GNode P).setOrder ((GNode.compound (K N []) : GNode P).order ++ l) = .compound (K N l) := by
    show GNode.compound { K N [] with order := (K N []).order ++ l } = _
    rw [hord, List.nil_append, hset]
  rw [h1] at h
  split at h
  · cases h
  · cases h; assumption

theorem drum_not_prim {c : Comp} (h : DrumOk c) (m : Libm) (samples : List (Name × Sample)) (sr : Nat) (bpm : Fl) (seed : Nat) :
    makePrim m samples sr bpm seed c = none ∧ NotesInputs c := by
  cases c <;> first | exact h.elim | exact ⟨rfl, trivial⟩

theorem blockFree_class {samples : List (Name × Sample)} {c : Comp} {n : Nat} (h : BlockFree samples c n) (m : Libm) (sr : Nat)
    (bpm : Fl) (seed : Nat) : (∃ r, makePrim m samples sr bpm seed c = some r) ∨ DrumOk c := by
  cases c <;> first
    | exact .inl ⟨_, rfl⟩
    | exact h.elim
    | exact .inr h
    | skip
  case delayn v => cases v <;> exact .inl ⟨_, rfl⟩
  case lpf v q => cases v <;> exact .inl ⟨_, rfl⟩
  case psampler e v => cases v <;> exact .inl ⟨_, rfl⟩
  case bd v => cases v <;> exact .inr h
  case sn v => cases v <;> exact .inr h
  case hh v => cases v <;> exact .inr h

/-- A component playing in blocks, as a loop over all the samples. -/
theorem play_loop {P : Plat} {env : Env} {c : Comp} {sel chans : List Nat} (hf : BlockFree env.samples c chans.length)
    (hs : ∀ j, j ∈ sel → j < chans.length) (hw : ∀ c, c ∈ chans → c = 1 ∨ c = 2) :
    (∃ C, ∃ (σ ο : Type) (s0 : σ) (f : σ → Frame → Except Panic (σ × ο)) (w : Nat → Option (ο → Fl)),
      ∀ N D bs ins msgs outs, 0 < N → List.Forall₂ (fun inp bufs => Slots N chans D bufs inp) ins bs →
        (∀ g, g ∈ msgs → IsWiring g) → (NotesInputs c → msgs = (sel.map (fun j => D.getD j 0)).map .index) →
        play P N env c msgs ins = .ok outs →
        ∃ s' ys, runM f s0 (bs.flatMap (slotFrames N)) = .ok (s', ys) ∧ stream N outs = ys.map (outFrame w C) ∧
          ∀ o, o ∈ outs → o.length = C) := by
  cases hp : makePrim P.libm env.samples env.sr env.bpm env.seed c with
  | none =>
    rcases blockFree_class hf P.libm env.sr env.bpm env.seed with ⟨r, hr⟩ | hd
    · rw [hr] at hp; cases hp
    · obtain ⟨K, k1, k2, k3, k4, k5⟩ := drum_playsSig P c hd
      obtain ⟨σ, ο, s0, f, w, h1⟩ := compound_loop k2 k3 (fun N => k5 N []) hs hw
      refine ⟨2, σ, ο, s0, f, fun _ => some w, ?_⟩
      intro N D bs ins msgs outs hN hS hm hnotes h
      rw [hnotes (drum_not_prim hd P.libm env.samples env.sr env.bpm env.seed).2] at h
      obtain ⟨s', ys, r1, r2, r3⟩ := h1 N D bs ins outs hN hS (drum_opens hp (k1 N) k4 k5 h)
      exact ⟨s', ys, r1, r2, r3⟩
  | some r =>
    cases r with
    | error e =>
      refine ⟨0, Unit, Unit, (), fun _ _ => .ok ((), ()), fun _ => none, ?_⟩
      intro N D bs ins msgs outs _ _ _ _ h
      simp only [play, makeNode, hp, bind, Except.bind] at h
      cases h
    | ok q =>
      obtain ⟨C, n⟩ := q
      obtain ⟨σ, ο, wrap, s0, f, w, h1, h2⟩ := makePrim_loop hp hf hs hw
      refine ⟨C, σ, ο, s0, f, w, ?_⟩
      intro N D bs ins msgs outs hN hS hm hnotes h
      simp only [play, makeNode, hp, bind, Except.bind] at h
      split at h
      · cases h
      · rename_i n' hn'
        split at h
        · cases h
        · rename_i r hr
          cases h
          have hl : ∃ l, n' = .prim (n.reorder l) ∧ (n.keepsOrder = true → l = sel.map (fun j => D.getD j 0)) := by
            by_cases hk : n.keepsOrder = true
            · have hnc := notes_keeps.mp ((makePrim_class hp).1.symm.trans hk)
              refine ⟨sel.map (fun j => D.getD j 0), ?_, fun _ => rfl⟩
              rw [hnotes hnc] at hn'
              have := sendMsgs_index (P := P) (srcs := sel.map (fun j => D.getD j 0)) (n := .prim n) hk
              rw [Prim.reorder_set hk]
              have h0 : (GNode.prim n : GNode P).order = [] := makePrim_order hp hk
              rw [h0, List.nil_append] at this
              have := hn'.symm.trans this
              cases this
              rfl
            · obtain ⟨l, hl⟩ := sendMsgs_reorder hm hn'
              exact ⟨l, hl, fun h => absurd h hk⟩
          obtain ⟨l, rfl, hl⟩ := hl
          rw [← h1 l] at hr
          obtain ⟨s', ys, k1, k2⟩ := run_stream (P := P) (fun bufs ins out s r hS hC hsz hr => h2 N D bufs ins out l s r hN hS hC hsz hl hr)
            hS (by simp) (fun b hb => by rw [List.eq_of_mem_replicate hb]; simp)
            (fun c b hb _ => List.eq_of_mem_replicate (List.mem_of_getElem? hb)) hr
          exact ⟨s', ys, k1, k2⟩

end Verif
