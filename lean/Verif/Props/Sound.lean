import Verif.Lemmas.Channels
import Verif.Lemmas.SetOrder
import Verif.Props.Arith
import Verif.Props.Compose
import Verif.Props.Glicol
import Verif.Spec.Sound
import Verif.Lemmas.Told

/-! # What a program sounds like (C49, C50) -/

namespace Verif.Props
open Verif Spec Parse

variable {P : Plat} {N : Nat} {fe : Name → Option Fl}

/-! ### The node of the built-in chain -/

theorem stays_input {L : Lang} (hL : ParserWf L) {N : Nat} {S : L.Data → Prop} (hS : Stays L S)
    (h0 : S (freshData N 2 L.pass)) {e : Engine L} (hr : CleanReach L e) (hN : e.N = N) :
    ∀ c n d, lookup e.index inputName = some c → c[0]? = some n → e.graph.node? n = some d → S d := by
  induction hr with
  | new N' =>
    have hN : N' = N := hN
    subst hN
    intro c n d hc hn hd
    cases hc
    cases hn
    cases hd
    exact h0
  | @step e e1 op hr hA happ ih =>
    have hNe : e.N = N := (apply_N hL hr.reachable happ).symm.trans hN
    have ih := ih hNe
    have hI := inv_reachable hL hr.reachable
    have hlive : ∀ c n, lookup e.index inputName = some c → c[0]? = some n → ∃ d, e.graph.node? n = some d :=
      fun c n hc hn => (hI.live n).mpr (.inr (.inr (mem_flat.mpr ⟨_, c, lookup_mem hc, List.mem_of_getElem? hn⟩)))
    cases op with
    | update τ code =>
      simp only [Op.apply, except_bind_ok] at happ
      obtain ⟨⟨e2, r⟩, h1, happ⟩ := happ
      cases happ
      unfold Engine.updateWithCode at h1
      rw [except_bind_ok] at h1
      obtain ⟨p, hpp, h1⟩ := h1
      split at h1
      · cases h1; exact ih
      · rename_i new
        have hw := hL code new hpp
        cases r with
        | none =>
          obtain ⟨diff, t1, gone1, t2, gone2, g3, cr, g5, ha⟩ := accepted hI hw h1
          have hno : inputName ∉ oldKeys e := by
            intro h
            obtain ⟨a, ha, hka⟩ := mem_oldKeys.mp h
            exact clean_noInput hL hr a ha hka
          have hsu := staged_untouched hI hw ha.staged (hA new hpp).noInput hno
          intro c n d hc hn hd
          change lookup e2.index inputName = some c at hc
          change e2.graph.node? n = some d at hd
          have hc : lookup e.index inputName = some c := hsu ▸ hc
          rcases accepted_nodes ha hd with ⟨d0, k1, k2, k3⟩ | ⟨k1, _⟩
          · have := hS.rewire k3 (b := d0.buffers) (ih c n d0 hc hn k1)
            rw [← k2] at this
            exact this
          · obtain ⟨x, hx⟩ := hlive c n hc hn
            rw [k1] at hx
            cases hx
        | some x =>
          have hs := (sameEngine_of_rejected hI hw h1).1
          intro c n d hc hn hd
          change lookup e2.index inputName = some c at hc
          change e2.graph.node? n = some d at hd
          rw [hs.index] at hc
          rw [hs.nodes] at hd
          exact ih c n d hc hn hd
    | sendMsg m =>
      intro c n d hc hn hd
      obtain ⟨d0, k1, k2⟩ := (hS.sendMsg happ).2 _ d hd
      have : e1.index = e.index := by rw [(onlyNodes_sendMsg happ).eq]
      exact k2 (ih c n d0 (this ▸ hc) hn k1)
    | setBpm v =>
      obtain ⟨h1, _, h3⟩ := setBpm_nodes happ
      intro c n d hc hn hd
      have hidx : e1.index = e.index := by rw [h1]
      have := h3 n
      cases hx : e.graph.node? n with
      | none => rw [hx] at this; rw [this] at hd; cases hd
      | some d0 =>
        rw [hx] at this
        obtain ⟨n', hn', hn''⟩ := this
        rw [hn''] at hd
        cases hd
        exact hS.msg _ _ _ (ih c n d0 (hidx ▸ hc) hn hx) hn'
    | setSr v => cases happ; exact ih
    | setSeed v => cases happ; exact ih
    | setTrackAmp v => cases happ; exact ih
    | addSample n s => cases happ; exact ih
    | nextBlock ho buf =>
      simp only [Op.apply, except_bind_ok] at happ
      obtain ⟨⟨e2, out⟩, h1, happ⟩ := happ
      cases happ
      obtain ⟨e3, g, d, h2, h3, _, _, rfl⟩ := nextBlock_ok h1
      intro c n d' hc hn hd'
      have hp := (process_inv (J := fun _ _ => True) (R := fun d d' => S d → S d') (fun _ h => h)
        (fun _ _ _ h1 h2 h => h2 (h1 h))
        (fun _ d ins n' b' _ _ h3 => ⟨trivial, fun hd => hS.proc _ _ _ _ hd h3⟩) (fun _ _ _ => trivial) h3).2
      obtain ⟨d1, k1, k2⟩ := hp.2 _ d' hd'
      obtain ⟨d0, j1, j2⟩ := (hS.copyInputs h2).2 _ d1 k1
      have : e3.index = e.index := by rw [(onlyNodes_copyInputs h2).eq]
      exact k2 (j2 (ih c n d0 (this ▸ hc) hn j1))
    | reset =>
      cases happ
      intro c n d hc
      cases hc

/-! ### References -/

theorem ends_sublist (f : Name × List Nat → Bool) : ∀ t : Table,
    ((t.filter f).filterMap (fun e => e.2.getLast?)).Sublist (flat t)
  | [] => List.Sublist.refl _
  | x :: t => by
    have ih := ends_sublist f t
    have hflat : flat (x :: t) = x.2 ++ flat t := rfl
    rw [hflat, List.filter_cons]
    split
    · cases hl : x.2.getLast? with
      | none =>
        rw [List.filterMap_cons_none (f := fun e : Name × List Nat => e.2.getLast?) hl]
        exact ih.trans (List.sublist_append_right _ _)
      | some a =>
        rw [List.filterMap_cons_some (f := fun e : Name × List Nat => e.2.getLast?) hl]
        exact (List.singleton_sublist.mpr (List.mem_of_getLast? hl)).append ih
    · exact ih.trans (List.sublist_append_right _ _)

theorem sourceList_places {L : Lang} {e : Engine L} {a : Ast L.Comp} {b : Bool} (hX : Ctx e a b) {rs : List Name}
    {srcs : List Nat} (h : SourceList e.index rs srcs) :
    ∃ qs, RefPlaces a b rs qs ∧ List.Forall₂ (Sits e) qs srcs := by
  induction h with
  | nil => exact ⟨[], .nil, .nil⟩
  | @named r rs c x srcs hd hm hl _ ih =>
    obtain ⟨qs, h1, h2⟩ := ih
    have hne : c ≠ [] := by rintro rfl; cases hl
    obtain ⟨n, hn⟩ : ∃ n, c.length = n + 1 := ⟨c.length - 1, by have := List.length_pos_iff.mpr hne; omega⟩
    refine ⟨.at r n :: qs, .named hd (hX.chain.mpr ⟨c, hm, hn⟩) h1, .cons (.at hm ?_) h2⟩
    rw [List.getLast?_eq_getElem?, hn] at hl
    exact hl
  | @pattern base rs l srcs hd hp _ ih =>
    obtain ⟨qs, h1, h2⟩ := ih
    have hmem : ∀ x, x ∈ l ↔ ∃ k n c, base <+: k ∧ (k, c) ∈ e.index ∧ c.length = n + 1 ∧ c[n]? = some x := by
      intro x
      rw [hp.mem_iff, List.mem_filterMap]
      constructor
      · rintro ⟨⟨k, c⟩, hk, hx⟩
        obtain ⟨hk, hb⟩ := List.mem_filter.mp hk
        have hne : c ≠ [] := by rintro rfl; cases hx
        obtain ⟨n, hn⟩ : ∃ n, c.length = n + 1 := ⟨c.length - 1, by have := List.length_pos_iff.mpr hne; omega⟩
        refine ⟨k, n, c, List.isPrefixOf_iff_prefix.mp hb, hk, hn, ?_⟩
        rw [List.getLast?_eq_getElem?, hn] at hx
        exact hx
      · rintro ⟨k, n, c, hb, hk, hn, hx⟩
        refine ⟨(k, c), List.mem_filter.mpr ⟨hk, List.isPrefixOf_iff_prefix.mpr hb⟩, ?_⟩
        rw [List.getLast?_eq_getElem?, hn]
        exact hx
    have hnd : l.Nodup := by
      have := hX.inv.flatNodup
      rw [List.nodup_cons, List.nodup_cons] at this
      exact hp.nodup_iff.mpr ((ends_sublist _ _).nodup this.2.2)
    have hall : ∀ x, x ∈ l → ∃ q, Sits e q x := by
      intro x hx
      obtain ⟨k, n, c, _, hk, _, hx⟩ := (hmem x).mp hx
      exact ⟨_, .at hk hx⟩
    classical
    let place : Nat → Place := fun k => if hk : ∃ q, Sits e q k then hk.choose else .dest
    have hpl : ∀ {k q}, Sits e q k → place k = q := by
      intro k q hs
      have hk : ∃ q, Sits e q k := ⟨q, hs⟩
      simp only [place, hk, dif_pos]
      exact sits_place hX.inv hk.choose_spec hs
    refine ⟨l.map place ++ qs, .pattern hd ?_ ?_ h1, ?_⟩
    · rw [List.nodup_map_iff_inj_on hnd]
      intro x hx y hy hxy
      obtain ⟨q, hq⟩ := hall x hx
      obtain ⟨q', hq'⟩ := hall y hy
      rw [hpl hq, hpl hq'] at hxy
      subst hxy
      exact sits_node hX.inv hq hq'
    · intro q
      constructor
      · intro hq
        obtain ⟨x, hx, rfl⟩ := List.mem_map.mp hq
        obtain ⟨k, n, c, h1, h2, h3, h4⟩ := (hmem x).mp hx
        exact ⟨k, n, h1, hX.chain.mpr ⟨c, h2, h3⟩, hpl (.at h2 h4)⟩
      · rintro ⟨k, n, h1, h2, rfl⟩
        obtain ⟨c, h3, h4⟩ := hX.chain.mp h2
        have hx : c[n]? = some (c[n]'(by omega)) := List.getElem?_eq_getElem (by omega)
        exact List.mem_map.mpr ⟨_, (hmem _).mpr ⟨k, n, c, h1, h3, h4, hx⟩, hpl (.at h3 hx)⟩
    · refine List.rel_append ?_ h2
      rw [List.forall₂_map_left_iff, List.forall₂_same]
      intro x hx
      obtain ⟨q, hq⟩ := hall x hx
      rw [hpl hq]
      exact hq

/-! ### C49 -/

theorem leads_from_dest {C : Type} {refs : C → List Name} {a : Ast C} {b : Bool} {q : Place}
    (h : Leads refs a b .dest q) : q = .dest := by
  cases h with
  | refl => rfl
  | step hf _ => cases hf

theorem feed_pass {exts : List (List Buf)} : ∀ {bufs : List Buf} {outs : List (List Buf)}, bufs.length = 2 →
    feedBlocks (procG P) (.prim .pass) bufs exts = .ok outs →
    ∀ (t : Nat) (ext : List Buf), exts[t]? = some ext → 2 ≤ ext.length → outs[t]? = some (ext.take 2) := by
  induction exts with
  | nil => intro bufs outs _ _ t ext h; cases h
  | cons x xs ih =>
    intro bufs outs hl h t ext ht h2
    have hp : procG P (.prim .pass) [] (fill x bufs) = .ok (.prim .pass, fill x bufs) := rfl
    simp only [feedBlocks, hp] at h
    cases hr : feedBlocks (procG P) (.prim .pass) (fill x bufs) xs with
    | error e => rw [hr] at h; cases h
    | ok r =>
      rw [hr] at h
      cases h
      cases t with
      | zero =>
        simp only [List.getElem?_cons_zero, Option.some.injEq] at ht
        subst ht
        have : (List.take 2 x).length = 2 := by simp; omega
        simp [fill, this, hl]
      | succ t =>
        have hlf : (fill x bufs).length = 2 := by simp [fill, hl]
        exact ih hlf hr t ext ht h2

theorem forall₂_imp_mem {α β : Type} {R S : α → β → Prop} {l : List α} {m : List β} (h : List.Forall₂ R l m)
    (himp : ∀ x y, x ∈ l → y ∈ m → R x y → S x y) : List.Forall₂ S l m := by
  induction h with
  | nil => exact .nil
  | cons hxy _ ih =>
    exact .cons (himp _ _ (by simp) (by simp) hxy) (ih (fun x y hx hy => himp x y (by simp [hx]) (by simp [hy])))

theorem forall₂_left {α β : Type} {R : α → β → Prop} {l : List α} {m : List β} (h : List.Forall₂ R l m) :
    ∀ x, x ∈ l → ∃ y, y ∈ m ∧ R x y := by
  induction h with
  | nil => intro x hx; cases hx
  | @cons a b l m hab _ ih =>
    intro x hx
    rcases List.mem_cons.mp hx with rfl | hx
    · exact ⟨b, by simp, hab⟩
    · obtain ⟨y, hy, h⟩ := ih x hx
      exact ⟨y, by simp [hy], h⟩

theorem mapM_forall₂ {α β γ : Type} {f : α → Option β} {R : α → γ → Prop} {l : List α} {m : List γ}
    (h : List.Forall₂ R l m) : ∀ {vs : List β}, l.mapM f = some vs →
    List.Forall₂ (fun q v => ∃ x, R x q ∧ f x = some v) m vs := by
  induction h with
  | nil => intro vs h; cases h; exact .nil
  | @cons a b l m hab _ ih =>
    intro vs h
    rw [List.mapM_cons] at h
    cases ha : f a with
    | none => rw [ha] at h; cases h
    | some v =>
      rw [ha] at h
      cases hl : l.mapM f with
      | none => rw [hl] at h; cases h
      | some vs' =>
        rw [hl] at h
        cases h
        exact .cons ⟨a, hab, ha⟩ (ih hl)

/-- **C49** (partial), for texts. If a text is accepted and blocks are rendered after it, then the blocks returned are
the signal of the output in a system of signals in which every component plays as if it were alone, on exactly the
signals that the text sends to it (`Sounds`). Missing: programs with repeated components. -/
theorem c49_texts_sound_as_written_partial {T : P.ext.State → Prop} (hx : ExtShape P N T)
    {e0 e1 e2 : Engine (glicol P N (parse fe))} (hr : CleanReach _ e0) (hN : e0.N = N) (τ : TableOrder) (code : Name)
    (new : Ast Comp) (hparse : parse fe code = .ok (some new)) (hc : CleanProg (glicol P N (parse fe)) new)
    (hu : e0.updateWithCode τ code = .ok (e1, none)) (steps : List (HashOrder × List Buf)) (outs : List (List Buf))
    (h : Plays e1 steps e2 outs) (b : Bool) (hb : b = true ↔ ['~', 'i', 'n', 'p', 'u', 't'] ∈ e1.index.map Prod.fst) :
    ∃ start sig, outs = sig .dest ∧ Sounds e0 e1 new b (steps.map Prod.snd) start sig := by
  have hL := glicol_parserWf P N fe
  obtain ⟨start, sig, h1, h2, h3⟩ := composes_held hL (glicol_eqLaws P N _) (glicol_refLaws P N _) hr τ code new hparse
    hc (glicol_refWf hparse) hu steps outs h b hb
  have hr1 : CleanReach _ e1 := .step (.update τ code) hr (by
    intro p hp
    have hp : parse fe code = .ok (some p) := hp
    rw [hparse] at hp
    cases hp
    exact hc) (by simp only [Op.apply, hu]; rfl)
  have hI1 := inv_reachable hL hr1.reachable
  have hN1 : e1.N = N :=
    (apply_N hL hr.reachable (op := .update τ code) (by simp only [Op.apply, hu]; rfl)).trans hN
  have hu' : e0.updateAst τ new = .ok (e1, none) := by
    unfold Engine.updateWithCode at hu
    have hp : (glicol P N (parse fe)).parse code = .ok (some new) := hparse
    rw [hp] at hu
    exact hu
  have hast : e1.ast = some new := by
    obtain ⟨diff, t1, gone1, t2, gone2, g3, cr, g5, ha⟩ := accepted (inv_reachable hL hr.reachable) (hL code new hparse) hu'
    exact congrArg Engine.ast ha.eq
  have hX : Ctx e1 new b := ⟨hI1, hast, mirrors_clean hL (glicol_eqLaws P N _) hr1, hI1.ast new hast,
    clean_noInput hL hr1 new hast, input_one hL hr1, hb,
    (inForce_clean hL (glicol_eqLaws P N _) (glicol_refLaws P N _) hr1).edges new hast (glicol_refWf hparse)⟩
  have hwide : ∀ p, Leads Comp.refs new b p .dest → ∀ x, x ∈ sig p → Wide N x := by
    intro p hp x hxs
    obtain ⟨e', n, node, k1, k2, k3⟩ := h3 p hp x hxs
    exact wide_reach hx hL k1.reachable (k2.trans hN1) n _ k3
  refine ⟨start, sig, h1, ?_, h2.length, hwide, ?_, ?_, ?_⟩
  · intro p n q m hp hq
    exact ⟨fun h => sits_node hI1 hp (h ▸ hq), fun h => sits_place hI1 hp (h ▸ hq)⟩
  · intro t ht
    obtain ⟨d, inputs, k1, k2, k3, k4⟩ := h2.output
    obtain ⟨hnode, hlen⟩ := dest_sum2 hL hr1.reachable d k1
    have hbuf := wide_reach hx hL hr1.reachable hN1 _ d k1
    have key : ∀ (t : Nat) inp, inputs[t]? = some inp → ∃ srcs : List Place, srcs.Nodup ∧
        (∀ q, q ∈ srcs ↔ Flow Comp.refs new b q .dest) ∧
        List.Forall₂ (fun x q => (sig q)[t]? = some x.2) inp srcs := by
      intro t inp ht
      obtain ⟨srcs, s1, s2, s3⟩ := k4 t inp ht
      refine ⟨srcs, s1, ?_, forall₂_imp_mem s3 ?_⟩
      · intro q
        rw [s2]
        constructor
        · exact fun h => h.1
        · intro hf
          refine ⟨hf, ?_⟩
          rintro rfl
          cases hf
      · rintro x q _ hq ⟨_, h | ⟨hl, h⟩⟩
        · exact h
        · exact absurd (leads_from_dest hl) ((s2 q).mp hq).2
    have hmix : ∀ i, i ∈ inputs → MixIn N i := by
      intro i hi e he
      obtain ⟨t, ht⟩ := List.mem_iff_getElem?.mp hi
      obtain ⟨srcs, _, s2, s3⟩ := key t i ht
      obtain ⟨q, hq, hqe⟩ := forall₂_left s3 e he
      exact hwide q (.step ((s2 q).mp hq) (.refl _)) _ (List.mem_of_getElem? hqe)
    rw [hnode] at k3
    obtain ⟨outs', g1, g2, g3, g4⟩ := sum2_blocks P N inputs hmix d.buffers ⟨hlen, hbuf.2⟩
    have k3 : runBlocks (procG P) (.prim .sum2) d.buffers inputs = .ok (sig .dest) := k3
    have hout : sig .dest = outs' := Except.ok.inj (k3.symm.trans g1)
    have hti : t < inputs.length := by rw [k2]; exact ht
    have hinp := List.getElem?_eq_getElem hti
    obtain ⟨srcs, s1, s2, s3⟩ := key t _ hinp
    have hto : t < outs'.length := by rw [g2]; exact hti
    refine ⟨srcs, s1, s2, outs'[t], (congrArg (fun l : List (List Buf) => l[t]?) hout).trans (List.getElem?_eq_getElem hto),
      (g3 _ (List.getElem_mem hto)).1, ?_⟩
    intro c s hc' hs
    obtain ⟨o, y, vs, m1, m2, m3, m4⟩ := g4 t _ c s hinp hc' hs
    rw [List.getElem?_eq_getElem hto, Option.some.injEq] at m1
    subst m1
    refine ⟨vs, y, ?_, m2, m4⟩
    refine (mapM_forall₂ s3 m3).imp ?_
    rintro q v ⟨x, h1, h2⟩
    exact ⟨x.2, h1, h2⟩
  · intro hp t ext
    obtain ⟨n, d, k1, k2, k3⟩ := h2.input hp
    cases k1 with
    | «at» m1 m2 =>
      obtain ⟨hn, hl⟩ := stays_input hL stays_pass (N := N) ⟨rfl, rfl⟩ hr1 hN1 _ _ d
        (lookup_of_mem hI1.keysNodup m1) m2 k2
      rw [hn] at k3
      exact feed_pass (P := P) hl k3 t ext
  · intro k comps i c old hk hi hlead hold hnew
    obtain ⟨d, node, refs, srcs, left, inputs, k1, _, k3, k4, k5, _, k7, k8, k9⟩ :=
      h2.component k comps i c old hk hi hlead hold
    have k1 : makeNode P N e0.samples e0.sr e0.bpm e0.seed c = .ok (d, refs) := k1 hnew
    have hrefs := makeNode_refs k1
    obtain ⟨qs, q1, q2⟩ := sourceList_places hX k3
    refine ⟨refs, qs, srcs, left, inputs, ?_, ?_, q1, q2, k4, k7, k9, ?_, ?_⟩
    · intro r
      rw [hrefs]
      exact makeRefs_mem c r
    · rw [hrefs]
      exact makeRefs_told c
    · refine play_ok k1 ?_ k8
      rw [← sendMsgs_foldl]
      exact k5
    · intro hn
      have hkeep : c.keeps = true := by
        cases c <;> first | rfl | exact hn.elim
      obtain ⟨n1, n2⟩ := makeNode_order hkeep k1
      refine play_ok k1 (wiring_canonical n1 n2 ?_ k5) k8
      rintro rfl
      cases k3
      rfl

/-! ### Single components in a program -/

section
variable {prs : Name → Except Panic (Option (Ast Comp))} {e0 e1 : Engine (glicol P N prs)} {new : Ast Comp} {b : Bool}
  {exts : List (List Buf)} {start : Place → List Buf} {sig : Place → List (List Buf)}

theorem chain_unique (hw : ProgWf new) (hin : ['~', 'i', 'n', 'p', 'u', 't'] ∉ new.map Prod.fst) {k : Name} {n m : Nat}
    (h1 : Chain new b k n) (h2 : Chain new b k m) : n = m := by
  cases h1 with
  | prog hk =>
    cases h2 with
    | prog hk' => rw [Option.some.inj ((lookup_of_mem hw.1 hk).symm.trans (lookup_of_mem hw.1 hk'))]
    | input _ => exact absurd (List.mem_map.mpr ⟨_, hk, rfl⟩) hin
  | input _ =>
    generalize hq : ['~', 'i', 'n', 'p', 'u', 't'] = q at h2
    cases h2 with
    | prog hk => subst hq; exact absurd (List.mem_map.mpr ⟨_, hk, rfl⟩) hin
    | input _ => rfl

/-- What flows into a component. -/
theorem flow_into (hw : ProgWf new) {k : Name} {comps : List Comp} {i : Nat} {c : Comp} (hk : (k, comps) ∈ new)
    (hi : comps[i]? = some c) {q : Place} : Flow Comp.refs new b q (.at k i) ↔
      (∃ j, i = j + 1 ∧ q = .at k j) ∨ ∃ r k' n, r ∈ c.refs ∧ Means r k' ∧ Chain new b k' (n + 1) ∧ q = .at k' n := by
  constructor
  · intro h
    cases h with
    | next hc hi => exact .inl ⟨_, rfl, rfl⟩
    | ref hk' hi' hr hm hc =>
      have := Option.some.inj ((lookup_of_mem hw.1 hk).symm.trans (lookup_of_mem hw.1 hk'))
      subst this
      rw [hi] at hi'
      cases hi'
      exact .inr ⟨_, _, _, hr, hm, hc, rfl⟩
  · rintro (⟨j, rfl, rfl⟩ | ⟨r, k', n, hr, hm, hc, rfl⟩)
    · exact .next (.prog hk) (List.getElem?_eq_some_iff.mp hi).1
    · exact .ref hk hi hr hm hc

/-- **C49**: a new component at the beginning of its chain and without references produces what it produces alone. -/
theorem c49_source (h : Sounds e0 e1 new b exts start sig) (hw : ProgWf new) {k : Name} {comps : List Comp} {c : Comp}
    (hk : (k, comps) ∈ new) (hi : comps[0]? = some c) (hlead : Leads Comp.refs new b (.at k 0) .dest)
    {old : List Comp} (hold : IsOld e0 k old) (hnew : ∀ o, o ∈ old → Comp.eq o c = false) (hrefs : c.refs = []) :
    play P N ⟨e0.samples, e0.sr, e0.bpm, e0.seed⟩ c [] (noInput exts.length) = .ok (sig (.at k 0)) := by
  obtain ⟨refs, qs, srcs, left, inputs, h1, _, h3, h4, h5, h6, h7, h8, _⟩ := h.component k comps 0 c old hk hi hlead hold hnew
  have hr : refs = [] := List.eq_nil_iff_forall_not_mem.mpr (fun r hr => by
    have := (h1 r).mp hr
    rw [hrefs] at this
    cases this)
  subst hr
  have hleft : left = none := by
    cases left with
    | none => rfl
    | some n =>
      obtain ⟨j, hj, _⟩ := (h5 n).mp rfl
      cases hj
  subst hleft
  have hin : inputs = noInput exts.length := by
    refine List.eq_replicate_iff.mpr ⟨h6, ?_⟩
    intro inp hinp
    obtain ⟨t, ht⟩ := List.mem_iff_getElem?.mp hinp
    obtain ⟨ps, _, s2, s3⟩ := h7 t inp ht
    cases s3 with
    | nil => rfl
    | @cons x q xs qs _ _ =>
      exfalso
      rcases (flow_into hw hk hi).mp ((s2 q).mp (by simp)).1 with ⟨j, hj, _⟩ | ⟨r, _, _, hr, _⟩
      · cases hj
      · rw [hrefs] at hr
        cases hr
  rw [hin] at h8
  exact h8

/-- **C49**: a new component without references turns the signal of its left neighbour into its own, as it does alone,
unless its own signal leads back to the neighbour. -/
theorem c49_effect (h : Sounds e0 e1 new b exts start sig) (hw : ProgWf new) {k : Name} {comps : List Comp} {i : Nat}
    {c : Comp} (hk : (k, comps) ∈ new) (hi : comps[i + 1]? = some c)
    (hlead : Leads Comp.refs new b (.at k (i + 1)) .dest) {old : List Comp} (hold : IsOld e0 k old)
    (hnew : ∀ o, o ∈ old → Comp.eq o c = false) (hrefs : c.refs = [])
    (hloop : ¬ Leads Comp.refs new b (.at k (i + 1)) (.at k i)) (hnotes : NotesInputs c) :
    exts = [] ∨ ∃ n, play P N ⟨e0.samples, e0.sr, e0.bpm, e0.seed⟩ c [.index n]
      ((sig (.at k i)).map (fun x => [(n, x)])) = .ok (sig (.at k (i + 1))) := by
  obtain ⟨refs, qs, srcs, left, inputs, h1, _, h3, h4, h5, h6, h7, _, h8⟩ :=
    h.component k comps (i + 1) c old hk hi hlead hold hnew
  have hr : refs = [] := List.eq_nil_iff_forall_not_mem.mpr (fun r hr => by
    have := (h1 r).mp hr
    rw [hrefs] at this
    cases this)
  subst hr
  cases h3
  cases h4
  have hflow : ∀ q, Flow Comp.refs new b q (.at k (i + 1)) ↔ q = .at k i := by
    intro q
    rw [flow_into hw hk hi]
    constructor
    · rintro (⟨j, hj, rfl⟩ | ⟨r, _, _, hr, _⟩)
      · cases hj; rfl
      · rw [hrefs] at hr; cases hr
    · rintro rfl
      exact .inl ⟨i, rfl, rfl⟩
  have hlen : (sig (.at k i)).length = exts.length := h.length _ (.step ((hflow _).mpr rfl) hlead)
  have key : ∀ (t : Nat) inp, inputs[t]? = some inp → ∃ n x, inp = [(n, x)] ∧ Sits e1 (.at k i) n ∧
      (sig (.at k i))[t]? = some x := by
    intro t inp ht
    obtain ⟨ps, s1, s2, s3⟩ := h7 t inp ht
    have hps : ps = [.at k i] := by
      refine List.perm_singleton.mp ((List.perm_ext_iff_of_nodup s1 (List.nodup_singleton _)).mpr ?_)
      intro q
      rw [s2, hflow, List.mem_singleton]
      constructor
      · exact fun h => h.1
      · rintro rfl
        exact ⟨rfl, by simp⟩
    subst hps
    cases s3 with
    | @cons x _ xs _ hx hxs =>
      cases hxs
      refine ⟨x.1, x.2, rfl, hx.1, ?_⟩
      rcases hx.2 with h | ⟨hl, _⟩
      · exact h
      · exact absurd hl hloop
  by_cases he : exts = []
  · exact .inl he
  · right
    have h0 : 0 < inputs.length := by rw [h6]; exact List.length_pos_iff.mpr he
    obtain ⟨n, _, _, hs, _⟩ := key 0 _ (List.getElem?_eq_getElem h0)
    refine ⟨n, ?_⟩
    have hleft : left = some n := (h5 n).mpr ⟨i, rfl, hs⟩
    subst hleft
    have hin : inputs = (sig (.at k i)).map (fun x => [(n, x)]) := by
      refine List.ext_getElem (by rw [h6, List.length_map, hlen]) ?_
      intro t ht1 ht2
      obtain ⟨m, x, hx, hs', hsig⟩ := key t _ (List.getElem?_eq_getElem ht1)
      have := (h.numbers _ _ _ _ hs hs').mp rfl
      subst this
      rw [hx, List.getElem_map]
      obtain ⟨_, hsig⟩ := List.getElem?_eq_some_iff.mp hsig
      rw [hsig]
    have := h8 hnotes
    rw [hin] at this
    exact this

/-! ### C50 -/

/-- `apply_op` on two blocks. -/
theorem applyOp_blocks (op : Fl → Fl → Fl) (v : Fl) (k j : Nat) (hkj : k ≠ j) {x y : List Buf} (hx : Wide N x)
    (hy : Wide N y) {inp : Ins} (hinp : inp = [(k, x), (j, y)] ∨ inp = [(j, y), (k, x)]) {out : List Buf}
    (ho : out.length = 2) :
    ∃ o, applyOp op [k, j] v inp out = .ok o ∧ o.length = 2 ∧ ∀ c s a d, c < 2 → sideAt c s x = some a →
      sideAt c s y = some d → ∃ z, o[c]? = some z ∧ z[s]? = some (op a d) := by
  have e1 : (k == j) = false := beq_false_of_ne hkj
  have e2 : (j == k) = false := beq_false_of_ne (fun h => hkj h.symm)
  obtain ⟨p, q, rfl⟩ := List.length_eq_two.mp ho
  have fin : ∀ x0 x1 y0 y1 : Buf, (∀ c s, c < 2 → sideAt c s x = if c = 0 then x0[s]? else x1[s]?) →
      (∀ c s, c < 2 → sideAt c s y = if c = 0 then y0[s]? else y1[s]?) →
      ∀ c s a d, c < 2 → sideAt c s x = some a → sideAt c s y = some d →
      ∃ z, [List.zipWith op x0 y0, List.zipWith op x1 y1][c]? = some z ∧ z[s]? = some (op a d) := by
    intro x0 x1 y0 y1 h1 h2 c s a d hc ha hd
    rw [h1 c s hc] at ha
    rw [h2 c s hc] at hd
    have : c = 0 ∨ c = 1 := by omega
    rcases this with rfl | rfl
    · simp only [if_true] at ha hd
      exact ⟨_, rfl, by simp [List.getElem?_zipWith, ha, hd]⟩
    · simp only [Nat.one_ne_zero, if_false] at ha hd
      exact ⟨_, rfl, by simp [List.getElem?_zipWith, ha, hd]⟩
  have one : ∀ (l : Buf) c s, c < 2 → sideAt c s [l] = if c = 0 then l[s]? else l[s]? := by
    intro l c s _
    simp [sideAt]
  have two : ∀ (l r : Buf) c s, c < 2 → sideAt c s [l, r] = if c = 0 then l[s]? else r[s]? := by
    intro l r c s _
    simp [sideAt]
  rcases hx.1 with h | h
  · obtain ⟨x0, rfl⟩ := List.length_eq_one_iff.mp h
    rcases hy.1 with h | h
    · obtain ⟨y0, rfl⟩ := List.length_eq_one_iff.mp h
      refine ⟨_, ?_, rfl, fin x0 x0 y0 y0 (one x0) (one y0)⟩
      rcases hinp with rfl | rfl <;>
        simp [applyOp, inputAt, chan, bind, Except.bind, setRight, rightOf, List.find?, e1, e2]
    · obtain ⟨y0, y1, rfl⟩ := List.length_eq_two.mp h
      refine ⟨_, ?_, rfl, fin x0 x0 y0 y1 (one x0) (two y0 y1)⟩
      rcases hinp with rfl | rfl <;>
        simp [applyOp, inputAt, chan, bind, Except.bind, setRight, rightOf, List.find?, e1, e2]
  · obtain ⟨x0, x1, rfl⟩ := List.length_eq_two.mp h
    rcases hy.1 with h | h
    · obtain ⟨y0, rfl⟩ := List.length_eq_one_iff.mp h
      refine ⟨_, ?_, rfl, fin x0 x1 y0 y0 (two x0 x1) (one y0)⟩
      rcases hinp with rfl | rfl <;>
        simp [applyOp, inputAt, chan, bind, Except.bind, setRight, rightOf, List.find?, e1, e2]
    · obtain ⟨y0, y1, rfl⟩ := List.length_eq_two.mp h
      refine ⟨_, ?_, rfl, fin x0 x1 y0 y1 (two x0 x1) (two y0 y1)⟩
      rcases hinp with rfl | rfl <;>
        simp [applyOp, inputAt, chan, bind, Except.bind, setRight, rightOf, List.find?, e1, e2]

theorem perm_pair {α : Type} {l : List α} {a b : α} (h : l.Perm [a, b]) : l = [a, b] ∨ l = [b, a] := by
  obtain ⟨x, y, rfl⟩ := List.length_eq_two.mp h.length_eq
  have hx : x ∈ [a, b] := h.mem_iff.mp (by simp)
  simp only [List.mem_cons, List.not_mem_nil, or_false] at hx
  rcases hx with rfl | rfl
  · left
    rw [List.perm_singleton.mp ((List.perm_cons x).mp h)]
  · right
    rw [List.perm_singleton.mp ((List.perm_cons x).mp (h.trans (List.Perm.swap _ _ _)))]

theorem arith_blocks {isMul : Bool} {a : Arith} {R : Nat → List Buf → Prop} :
    ∀ {inputs : List Ins} {m : Nat} {out : List Buf} {outs : List (List Buf)}, out.length = 2 →
      (∀ (t : Nat) inp (out : List Buf), inputs[t]? = some inp → out.length = 2 →
        ∃ o, applyOp (arithOp isMul) a.order a.val inp out = .ok o ∧ o.length = 2 ∧ R (m + t) o) →
      runBlocks (procG P) (arithNode P isMul a) out inputs = .ok outs →
      ∀ (t : Nat) o, outs[t]? = some o → R (m + t) o := by
  intro inputs
  induction inputs with
  | nil => intro m out outs _ _ h t o ht; cases h; cases ht
  | cons i is ih =>
    intro m out outs ho hR h t o ht
    obtain ⟨o', h1, h2, h3⟩ := hR 0 i out rfl ho
    simp only [runBlocks, arith_proc, h1] at h
    cases hr : runBlocks (procG P) (arithNode P isMul a) o' is with
    | error e => rw [hr] at h; cases h
    | ok r =>
      rw [hr] at h
      cases h
      cases t with
      | zero => cases ht; exact h3
      | succ t =>
        rw [List.getElem?_cons_succ] at ht
        have := ih (m := m + 1) h2 (fun t inp out h1 h2 => by
          have := hR (t + 1) inp out h1 h2
          rwa [show m + (t + 1) = m + 1 + t by omega] at this) hr t o ht
        rwa [show m + (t + 1) = m + 1 + t by omega]

/-- **C50** (partial). In a program, `x >> mul ~a` and `x >> add ~a` (chosen by `isMul`) combine the two signals sample
by sample and side by side, with f32 multiplication and addition; a mono signal is heard on both sides. (The
component is new, `~a` is another place than `x`, and the result does not lead back to either of them.) Missing:
kept components and feedback. -/
theorem c50_arithmetic_partial (h : Sounds e0 e1 new b exts start sig) (hw : ProgWf new) {k : Name}
    {comps : List Comp} {i : Nat} {isMul : Bool} {r : Name} {n : Nat} (hk : (k, comps) ∈ new)
    (hi : comps[i + 1]? = some (arithComp isMul (.ref r))) (hlead : Leads Comp.refs new b (.at k (i + 1)) .dest)
    {old : List Comp} (hold : IsOld e0 k old) (hnew : ∀ o, o ∈ old → Comp.eq o (arithComp isMul (.ref r)) = false)
    (hr : '.' ∉ r) (hch : Chain new b r (n + 1)) (hin : ['~', 'i', 'n', 'p', 'u', 't'] ∉ new.map Prod.fst)
    (hne : Place.at r n ≠ .at k i)
    (hloop : ¬ Leads Comp.refs new b (.at k (i + 1)) (.at k i))
    (hloop' : ¬ Leads Comp.refs new b (.at k (i + 1)) (.at r n)) :
    ∀ (t : Nat) o x y, (sig (.at k (i + 1)))[t]? = some o → (sig (.at k i))[t]? = some x → (sig (.at r n))[t]? = some y →
      ∀ c s v w, c < 2 → sideAt c s x = some v → sideAt c s y = some w →
        ∃ z, o[c]? = some z ∧ z[s]? = some (arithOp isMul v w) := by
  obtain ⟨refs, qs, srcs, left, inputs, _, h2, h3, h4, h5, h6, h7, _, h8⟩ :=
    h.component k comps (i + 1) _ old hk hi hlead hold hnew
  have hun : ∀ m, Chain new b r m → m = n + 1 := fun m hm => chain_unique hw hin hm hch
  have hcr : (arithComp isMul (.ref r)).refs = [r] := by cases isMul <;> rfl
  have hrefs : refs = [r] := by
    rw [h2]; cases isMul <;> rfl
  subst hrefs
  have h8 := h8 (by cases isMul <;> trivial)
  have hflow : ∀ q, Flow Comp.refs new b q (.at k (i + 1)) ↔ q = .at k i ∨ q = .at r n := by
    intro q
    rw [flow_into hw hk hi, hcr]
    constructor
    · rintro (⟨j, hj, rfl⟩ | ⟨r', k', n', hr', hm, hc, rfl⟩)
      · cases hj; exact .inl rfl
      · rw [List.mem_singleton] at hr'
        subst hr'
        generalize hrr : r' = r at hm
        cases hm with
        | named _ =>
          subst hrr
          have := hun _ hc
          cases this
          exact .inr rfl
        | pattern _ _ =>
          subst hrr
          exact absurd (by simp) hr
    · rintro (rfl | rfl)
      · exact .inl ⟨i, rfl, rfl⟩
      · exact .inr ⟨r, r, n, by simp, .named hr, hch, rfl⟩
  intro t o x y hto htx hty
  have hlx : Leads Comp.refs new b (.at k i) .dest := .step ((hflow _).mpr (.inl rfl)) hlead
  have hly : Leads Comp.refs new b (.at r n) .dest := .step ((hflow _).mpr (.inr rfl)) hlead
  -- the two sources and their numbers
  have hq : qs = [.at r n] := by
    generalize hl : [r] = l at h3
    cases h3 with
    | nil => cases hl
    | named _ hc hrest =>
      cases hl
      cases hrest
      have := hun _ hc
      cases this
      rfl
    | pattern _ _ _ _ =>
      cases hl
      exact absurd (by simp) hr
  subst hq
  obtain ⟨j, hj, rfl⟩ : ∃ j, Sits e1 (.at r n) j ∧ srcs = [j] := by
    cases h4 with
    | cons h1 h2 => cases h2; exact ⟨_, h1, rfl⟩
  have htl : t < exts.length := by rw [← h.length _ hlead]; exact (List.getElem?_eq_some_iff.mp hto).1
  have key : ∀ (t : Nat) inp, inputs[t]? = some inp → ∃ m x y, Sits e1 (.at k i) m ∧ (sig (.at k i))[t]? = some x ∧
      (sig (.at r n))[t]? = some y ∧ (inp = [(m, x), (j, y)] ∨ inp = [(j, y), (m, x)]) := by
    intro t inp ht
    obtain ⟨ps, s1, s2, s3⟩ := h7 t inp ht
    have hps : ps.Perm [.at k i, .at r n] := by
      refine (List.perm_ext_iff_of_nodup s1 (by simp [hne.symm])).mpr ?_
      intro q
      rw [s2, hflow]
      simp only [List.mem_cons, List.not_mem_nil, or_false]
      constructor
      · exact fun h => h.1
      · intro hq
        refine ⟨hq, ?_⟩
        rintro rfl
        rcases hq with hq | hq
        · simp at hq
        · rw [hq] at hloop'
          exact hloop' (.refl _)
    have hnow : ∀ {x : Nat × List Buf} {q : Place}, ¬ Leads Comp.refs new b (.at k (i + 1)) q → ((sig q)[t]? = some x.2 ∨
        (Leads Comp.refs new b (.at k (i + 1)) q ∧ (start q :: sig q)[t]? = some x.2)) → (sig q)[t]? = some x.2 := by
      rintro x q hn (h | ⟨hl, _⟩)
      · exact h
      · exact absurd hl hn
    rcases perm_pair hps with rfl | rfl
    · cases s3 with
      | cons hx hxs =>
        cases hxs with
        | cons hy hys =>
          cases hys
          rename_i x y
          refine ⟨x.1, x.2, y.2, hx.1, hnow hloop hx.2, hnow hloop' hy.2, .inl ?_⟩
          rw [(h.numbers _ _ _ _ hj hy.1).mp rfl]
    · cases s3 with
      | cons hy hxs =>
        cases hxs with
        | cons hx hys =>
          cases hys
          rename_i y x
          refine ⟨x.1, x.2, y.2, hx.1, hnow hloop hx.2, hnow hloop' hy.2, .inr ?_⟩
          rw [(h.numbers _ _ _ _ hj hy.1).mp rfl]
  obtain ⟨m, hm⟩ : ∃ m, Sits e1 (.at k i) m := by
    obtain ⟨m, _, _, hm, _⟩ := key t _ (List.getElem?_eq_getElem (h6 ▸ htl))
    exact ⟨m, hm⟩
  have hleft : left = some m := (h5 m).mpr ⟨i, rfl, hm⟩
  subst hleft
  have hmj : m ≠ j := fun hmj => hne ((h.numbers _ _ _ _ hj hm).mpr hmj.symm)
  -- the blocks
  obtain ⟨mk1, mk2⟩ := arith_make P N ⟨e0.samples, e0.sr, e0.bpm, e0.seed⟩ isMul (.ref r) [m, j]
  have hrun : runBlocks (procG P) (arithNode P isMul ⟨(NumRef.ref r).value (.fin 0), [m, j]⟩)
      (fresh N 2 (arithNode P isMul (arith ((NumRef.ref r).value (.fin 0))))).buffers inputs =
      .ok (sig (.at k (i + 1))) := by
    have h8 : play P N ⟨e0.samples, e0.sr, e0.bpm, e0.seed⟩ (arithComp isMul (.ref r)) ([m, j].map .index) inputs =
      .ok (sig (.at k (i + 1))) := h8
    unfold play at h8
    rw [mk1] at h8
    simp only at h8
    have mk2' : sendMsgs (fresh N 2 (arithNode P isMul (arith ((NumRef.ref r).value (.fin 0))))).node
      ([m, j].map .index) = .ok (arithNode P isMul ⟨(NumRef.ref r).value (.fin 0), [m, j]⟩) := mk2
    rw [mk2'] at h8
    simp only at h8
    split at h8
    · cases h8
    · rename_i h9
      cases h8
      exact h9
  have := arith_blocks (R := fun t o => ∀ x y, (sig (.at k i))[t]? = some x → (sig (.at r n))[t]? = some y →
      ∀ c s v w, c < 2 → sideAt c s x = some v → sideAt c s y = some w →
        ∃ z, o[c]? = some z ∧ z[s]? = some (arithOp isMul v w)) (m := 0) (by simp [fresh]) ?_ hrun t o hto
  · rw [Nat.zero_add] at this
    exact this x y htx hty
  · intro t inp out ht ho
    obtain ⟨m', x, y, hm', hx, hy, hinp⟩ := key t inp ht
    have := (h.numbers _ _ _ _ hm hm').mp rfl
    subst this
    obtain ⟨o, o1, o2, o3⟩ := applyOp_blocks (arithOp isMul) ((NumRef.ref r).value (.fin 0)) m j hmj
      (h.shape _ hlx x (List.mem_of_getElem? hx)) (h.shape _ hly y (List.mem_of_getElem? hy)) hinp ho
    refine ⟨o, o1, o2, ?_⟩
    intro x' y' hx' hy'
    rw [Nat.zero_add] at hx' hy'
    rw [hx] at hx'
    rw [hy] at hy'
    cases hx'
    cases hy'
    exact o3

end

/-- The text `~a: constsig 2; o: constsig 3 >> mul ~a` in a new engine, and two blocks after it. -/
example (fe : Name → Option Fl) :
    ExtShape Demo.plat 2 (fun _ => True) ∧
    CleanReach _ (Engine.new (glicol Demo.plat 2 (parse fe)) 2) ∧ parse fe demoText = .ok (some demoTextProg) ∧
    CleanProg (glicol Demo.plat 2 (parse fe)) demoTextProg ∧
    ∃ e1 e2, (Engine.new (glicol Demo.plat 2 (parse fe)) 2).updateWithCode .ident demoText = .ok (e1, none) ∧
      Plays e1 [(.ident, []), (.rev, [])] e2 [[[.fin 6, .fin 6], [.fin 6, .fin 6]], [[.fin 6, .fin 6], [.fin 6, .fin 6]]] ∧
      ['~', 'i', 'n', 'p', 'u', 't'] ∈ e1.index.map Prod.fst := by
  refine ⟨⟨fun _ _ _ _ _ => trivial, fun _ _ _ _ _ _ => trivial, ?_⟩, .new 2, demoText_parses fe, demoText_clean .., ?_⟩
  · intro s o ins b s' b' _ _ hb h
    cases h
    exact ⟨trivial, rfl, hb⟩
  · let isSix : List Buf → Bool := fun out => decide (out = [[.fin 6, .fin 6], [.fin 6, .fin 6]])
    have hsix : ∀ out, isSix out = true → out = [[.fin 6, .fin 6], [.fin 6, .fin 6]] := fun out h => of_decide_eq_true h
    let f : Engine (glicol Demo.plat 2 (parse fe)) → Bool := fun e =>
      decide (['~', 'i', 'n', 'p', 'u', 't'] ∈ e.index.map Prod.fst) &&
      match nextBlockFuel 1000 .ident e [] with
      | some (.ok (e', out)) => isSix out &&
        match nextBlockFuel 1000 .rev e' [] with
        | some (.ok (_, out')) => isSix out'
        | _ => false
      | _ => false
    obtain ⟨e1, ⟨e1', h4, h5⟩, hi⟩ := Demo.observeText (P := Demo.plat) (N := 2) (parse := parse fe) (codes := [demoText])
      f (by kernel_rfl)
    cases h5
    simp only [f, Bool.and_eq_true, decide_eq_true_eq] at hi
    obtain ⟨hi, h6⟩ := hi
    split at h6
    · rename_i e2 out hb
      simp only [Bool.and_eq_true] at h6
      obtain ⟨h8, h7⟩ := h6
      replace h8 : out = [[.fin 6, .fin 6], [.fin 6, .fin 6]] := hsix out h8
      subst h8
      split at h7
      · rename_i e3 out' hb'
        replace h7 : out' = [[.fin 6, .fin 6], [.fin 6, .fin 6]] := hsix out' h7
        subst h7
        exact ⟨e1, e3, h4, .cons (nextBlockFuel_spec hb) (.cons (nextBlockFuel_spec hb') (.nil _)), hi⟩
      · cases h7
    · cases h6

theorem demo_leads {p : Place} (h : Leads Comp.refs demoTextProg true (.at c!"o" 1) p) : p = .at c!"o" 1 ∨ p = .dest := by
  have hd : ∀ q r, q = Place.dest → ¬ Flow Comp.refs demoTextProg true q r := by
    intro q r hq hf
    cases hf <;> cases hq
  cases h with
  | refl => exact .inl rfl
  | step hf hl =>
    right
    generalize hq : Place.at c!"o" 1 = q at hf
    have hlen : ∀ n, Chain demoTextProg true c!"o" n → n = 2 := by
      intro n hc
      generalize hk : c!"o" = k at hc
      cases hc with
      | prog hm =>
        simp only [demoTextProg, List.mem_cons, Prod.mk.injEq, List.not_mem_nil, or_false] at hm
        rcases hm with ⟨rfl, rfl⟩ | ⟨rfl, rfl⟩
        · simp at hk
        · rfl
      | input => simp at hk
    cases hf with
    | next hc hlt => cases hq; have := hlen _ hc; omega
    | out hc _ =>
      cases hl with
      | refl => rfl
      | step hf _ => exact absurd hf (hd _ _ rfl)
    | @ref k k' r comps c i n hm hi hr hmeans hc =>
      cases hq
      exfalso
      simp only [demoTextProg, List.mem_cons, Prod.mk.injEq, List.not_mem_nil, or_false] at hm
      have hr' : r = c!"~a" := by
        rcases hm with ⟨rfl, rfl⟩ | ⟨rfl, rfl⟩
        · rcases i with _ | i
          · cases hi; simp [Comp.refs] at hr
          · cases hi
        · rcases i with _ | _ | i
          · cases hi; simp [Comp.refs] at hr
          · cases hi; simpa [Comp.refs, NumRef.refs] using hr
          · cases hi
      subst hr'
      generalize hk : c!"o" = k1 at hmeans
      generalize hk2 : c!"~a" = k2 at hmeans
      cases hmeans with
      | named _ => subst hk; simp at hk2
      | pattern _ _ =>
        have := congrArg List.getLast? hk2
        simp at this

/-- What the theorems about single components ask of the program and of an engine that has none yet: the product
leads to the output, and not back to its operands. -/
example : ProgWf demoTextProg ∧ (c!"o", [.constsig (.fin 3), arithComp true (.ref c!"~a")]) ∈ demoTextProg ∧
    Leads Comp.refs demoTextProg true (.at c!"o" 1) .dest ∧ Leads Comp.refs demoTextProg true (.at c!"~a" 0) .dest ∧
    IsOld (Engine.new (glicol Demo.plat 2 (parse fe)) 2) c!"o" [] ∧ Chain demoTextProg true c!"~a" 1 ∧
    ['~', 'i', 'n', 'p', 'u', 't'] ∉ demoTextProg.map Prod.fst ∧
    ¬ Leads Comp.refs demoTextProg true (.at c!"o" 1) (.at c!"o" 0) ∧
    ¬ Leads Comp.refs demoTextProg true (.at c!"o" 1) (.at c!"~a" 0) := by
  have hl : Leads Comp.refs demoTextProg true (.at c!"o" 1) .dest :=
    .step (.out (.prog (comps := [.constsig (.fin 3), .mul (.ref c!"~a")]) (by simp [demoTextProg])) (by decide)) (.refl _)
  refine ⟨glicol_parserWf Demo.plat 2 (fun _ => none) demoText demoTextProg (demoText_parses (fun _ => none)), by simp [demoTextProg, arithComp], hl, ?_, ?_,
    .prog (comps := [.constsig (.fin 2)]) (by simp [demoTextProg]), by decide, ?_, ?_⟩
  · exact .step (.ref (comps := [.constsig (.fin 3), .mul (.ref c!"~a")]) (r := c!"~a") (by simp [demoTextProg]) rfl
      (by simp [Comp.refs, NumRef.refs]) (.named (by decide)) (.prog (comps := [.constsig (.fin 2)]) (by simp [demoTextProg]))) hl
  · exact .inr ⟨rfl, fun a h => by cases h⟩
  · intro h
    rcases demo_leads h with h | h <;> cases h
  · intro h
    rcases demo_leads h with h | h <;> cases h

end Verif.Props
