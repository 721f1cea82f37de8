import Verif.Props.Order

/-! # The program in force: its references resolve and its connections are made -/

namespace Verif.Props
open Verif Spec

variable {L : Lang}

/-- The references of the program in force resolve, and the connections are those it calls for. -/
structure InForce (e : Engine L) : Prop where
  refs : ∀ a, e.ast = some a → ∀ r, progRefs L a r → refCheck e.index a [r] = none
  edges : ∀ a, e.ast = some a → (∀ r, progRefs L a r → RefWf r) →
    ∀ x y, (x, y) ∈ e.graph.edges ↔ Wanted L e.dest e.index a x y

theorem InForce.of_eq {e e' : Engine L} (h : InForce e) (h1 : e'.ast = e.ast)
    (h2 : e'.index = e.index) (h3 : e'.dest = e.dest) (h4 : e'.graph.edges = e.graph.edges) :
    InForce e' := by
  refine ⟨?_, ?_⟩
  · rw [h1, h2]; exact h.refs
  · rw [h1, h2, h3, h4]; exact h.edges

theorem InForce.of_none {e : Engine L} (h : e.ast = none) : InForce e :=
  ⟨fun a ha => (by rw [h] at ha; cases ha), fun a ha => (by rw [h] at ha; cases ha)⟩

theorem refCheck_all {t : Table} {new : Ast L.Comp} {rs : List Name} :
    refCheck t new rs = none ↔ ∀ r, r ∈ rs → refCheck t new [r] = none := by
  induction rs with
  | nil => simp [refCheck]
  | cons r rs ih =>
    generalize hb : (if hasDots r then t.any (fun e => (stripDots r).isPrefixOf e.1)
      else (lookup new r).isSome || (lookup t r).isSome) = b
    have hone : refCheck t new [r] = none ↔ b = true := by
      simp only [refCheck, hb]
      cases b <;> simp
    have hcons : refCheck t new (r :: rs) = none ↔ b = true ∧ refCheck t new rs = none := by
      rw [refCheck]
      simp only [hb]
      cases b <;> simp
    rw [hcons, ih, ← hone]
    simp

theorem refCheck_congr {t : Table} {new new' : Ast L.Comp} (h : ∀ k, lookup new k = lookup new' k) :
    ∀ {rs : List Name}, refCheck t new rs = refCheck t new' rs := by
  intro rs
  induction rs with
  | nil => rfl
  | cons r rs ih => simp only [refCheck, h, ih]

theorem progRefs_flat (hq : EqLaws L) (hl : RefLaws L) {e : Engine L} {new : Ast L.Comp}
    (hc : CleanProg L new) {diff : Diff L}
    (hd : diffAll (L.make e.samples e.sr e.bpm e.seed) e.ast new = .ok diff) (r : Name) :
    r ∈ diff.refpairs.flatMap (·.1) ↔ progRefs L new r := by
  rw [List.mem_flatMap]
  constructor
  · rintro ⟨⟨refs, k, i⟩, hm, hr⟩
    obtain ⟨comps, comp, h1, h2, h3⟩ := (refpair_iff hq hl hc hd k i r).mp ⟨refs, hm, hr⟩
    exact ⟨k, comps, comp, h1, List.mem_of_getElem? h2, h3⟩
  · rintro ⟨k, comps, c, h1, h2, h3⟩
    obtain ⟨i, hi⟩ := List.getElem?_of_mem h2
    obtain ⟨refs, h4, h5⟩ := (refpair_iff hq hl hc hd k i r).mpr ⟨comps, c, h1, hi, h3⟩
    exact ⟨_, h4, h5⟩

theorem inForce_clean (hL : ParserWf L) (hq : EqLaws L) (hl : RefLaws L) {e : Engine L}
    (hr : CleanReach L e) : InForce e := by
  induction hr with
  | new N => exact .of_none rfl
  | @step e e1 op hr hA happ ih =>
    have hI := inv_reachable hL hr.reachable
    cases op with
    | update τ code =>
      simp only [Op.apply, except_bind_ok] at happ
      obtain ⟨⟨e2, r⟩, h1, happ⟩ := happ
      cases happ
      have h1' := h1
      unfold Engine.updateWithCode at h1
      rw [except_bind_ok] at h1
      obtain ⟨p, hpp, h1⟩ := h1
      split at h1
      · cases h1; exact ih
      · rename_i new
        have hw := hL code new hpp
        cases r with
        | none =>
          obtain ⟨diff, t1, gone1, t2, gone2, g3, cr, g5, ha⟩ := accepted hI hw h1
          have hast : e2.ast = some new := by rw [ha.eq]
          refine ⟨?_, ?_⟩
          · intro a hae r hr'
            rw [hast] at hae
            cases hae
            exact refCheck_all.mp ha.check r
              ((progRefs_flat hq hl (hA new hpp) ha.staged.diffEq r).mpr hr')
          · intro a hae hrw x y
            rw [hast] at hae
            cases hae
            exact c06_connections_exact_partial hL hq hl hr τ code new hpp (hA new hpp) hrw h1' x y
        | some x =>
          have hs := (sameEngine_of_rejected hI hw h1).1
          exact ih.of_eq hs.ast hs.index hs.dest hs.edges
    | sendMsg m =>
      have := onlyNodes_sendMsg happ
      exact ih.of_eq (by rw [this.eq]) (by rw [this.eq]) (by rw [this.eq]) this.shape.edges
    | setBpm v =>
      obtain ⟨h1, h2, h3⟩ := setBpm_nodes happ
      exact ih.of_eq (by rw [h1]) (by rw [h1]) (by rw [h1]) h2.edges
    | setSr v => cases happ; exact ih.of_eq rfl rfl rfl rfl
    | setSeed v => cases happ; exact ih.of_eq rfl rfl rfl rfl
    | setTrackAmp v => cases happ; exact ih.of_eq rfl rfl rfl rfl
    | addSample n s => cases happ; exact ih.of_eq rfl rfl rfl rfl
    | nextBlock ho buf =>
      simp only [Op.apply, except_bind_ok] at happ
      obtain ⟨⟨e2, out⟩, h1, happ⟩ := happ
      cases happ
      obtain ⟨e3, g, d, h2, h3, _, _, rfl⟩ := nextBlock_ok h1
      have h4 := onlyNodes_copyInputs h2
      refine ih.of_eq ?_ ?_ ?_ ?_
      · show e3.ast = e.ast; rw [h4.eq]
      · show e3.index = e.index; rw [h4.eq]
      · show e3.dest = e.dest; rw [h4.eq]
      · exact (h4.shape.trans (sameShape_process h3)).edges
    | reset => cases happ; exact .of_none rfl

/-! ### Sending the program in force again -/

theorem enumFrom_mem {β : Type} {i : Nat} {c : β} {l : List β} (h : (i, c) ∈ enumFrom 0 l) : c ∈ l :=
  List.mem_of_getElem? (mem_enumFrom.mp h).2

theorem enumFrom_of_mem {β : Type} {c : β} {l : List β} (h : c ∈ l) : ∃ i, (i, c) ∈ enumFrom 0 l := by
  obtain ⟨i, hi⟩ := List.getElem?_of_mem h
  exact ⟨i, mem_enumFrom.mpr ⟨Nat.zero_le _, hi⟩⟩

theorem diffChain_same {mk : L.Comp → Except Stop (L.Data × List Name)} {a : Ast L.Comp} {k : Name}
    {comps : List L.Comp} (hl : lookup a k = some comps) (hs : ∀ c, c ∈ comps → L.compEq c c = true) :
    ∃ rps, diffChain mk (some a) k comps = .ok ⟨[], rps, []⟩ := by
  have hf : (enumFrom 0 comps).filter (fun p => !comps.any (fun c => L.compEq c p.2)) = [] := by
    rw [List.filter_eq_nil_iff]
    rintro ⟨i, c⟩ hm
    have hc := enumFrom_mem hm
    have : comps.any (fun c' => L.compEq c' c) = true :=
      List.any_eq_true.mpr ⟨c, hc, hs c hc⟩
    simp [this]
  have hrm : (diffOld L k comps (enumFrom 0 comps)).2 = [] := by
    rw [diffOld_spec.1, List.map_eq_nil_iff, List.filter_eq_nil_iff]
    rintro ⟨i, c⟩ hm
    have hc := enumFrom_mem hm
    obtain ⟨j, hj⟩ := enumFrom_of_mem hc
    have : (findEq L.compEq c comps).isSome = true := by
      unfold findEq
      rw [List.find?_isSome]
      exact ⟨_, hj, hs c hc⟩
    simp only [Option.isNone_iff_eq_none]
    intro h0
    rw [h0] at this
    cases this
  refine ⟨(diffOld L k comps (enumFrom 0 comps)).1, ?_⟩
  unfold diffChain
  simp only [Option.bind_some, hl, hf, hrm, addNodes, bind, Except.bind, List.append_nil]

theorem diffAll_same {mk : L.Comp → Except Stop (L.Data × List Name)} {a : Ast L.Comp} :
    ∀ {new : Ast L.Comp}, (∀ k comps, (k, comps) ∈ new → lookup a k = some comps) →
    (∀ k comps c, (k, comps) ∈ new → c ∈ comps → L.compEq c c = true) →
    ∃ rps, diffAll mk (some a) new = .ok ⟨[], rps, []⟩ := by
  intro new
  induction new with
  | nil => intro _ _; exact ⟨[], rfl⟩
  | cons x new ih =>
    obtain ⟨k, comps⟩ := x
    intro h1 h2
    obtain ⟨r1, e1⟩ := diffChain_same (mk := mk) (h1 k comps (by simp))
      (fun c hc => h2 k comps c (by simp) hc)
    obtain ⟨r2, e2⟩ := ih (fun k c hm => h1 k c (List.mem_cons_of_mem _ hm))
      (fun k cs c hm hc => h2 k cs c (List.mem_cons_of_mem _ hm) hc)
    refine ⟨r1 ++ r2, ?_⟩
    simp only [diffAll, e1, e2, bind, Except.bind, Diff.append, List.append_nil]

theorem dropChains_same {new : Ast L.Comp} {t : Table} : ∀ {ks : List Name},
    (∀ k, k ∈ ks → (lookup new k).isSome = true) → dropChains new ks t = .ok (t, []) := by
  intro ks
  induction ks with
  | nil => intro _; rfl
  | cons k ks ih =>
    intro h
    simp only [dropChains, h k (by simp), if_true]
    exact ih (fun k hk => h k (List.mem_cons_of_mem _ hk))

end Verif.Props
