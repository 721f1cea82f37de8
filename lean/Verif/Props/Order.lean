import Verif.Lemmas.Wire
import Verif.Props.Mirror

/-! # C47: inputs are wired in the written order -/

namespace Verif.Props
open Verif Spec

variable {L : Lang}

theorem diffOld_pairs_nodup (hq : EqLaws L) {name : Name} {new : List L.Comp}
    {l : List (Nat × L.Comp)} (hl : (l.map (·.2)).Pairwise (fun a b => L.compEq a b = false)) :
    ((diffOld L name new l).1.map (·.2.2)).Nodup := by
  induction l with
  | nil => simp [diffOld]
  | cons p l ih =>
    obtain ⟨j, c⟩ := p
    simp only [List.map_cons, List.pairwise_cons] at hl
    obtain ⟨hc, hl⟩ := hl
    cases hf : findEq L.compEq c new with
    | none => simpa only [diffOld, hf] using ih hl
    | some ic =>
      obtain ⟨i, c'⟩ := ic
      simp only [diffOld, hf]
      by_cases he : (L.refs c').isEmpty = true
      · simpa only [he, if_true, List.nil_append] using ih hl
      · simp only [he, Bool.false_eq_true, if_false, List.cons_append, List.nil_append,
          List.map_cons, List.nodup_cons]
        refine ⟨?_, ih hl⟩
        intro hm
        obtain ⟨rp, hrp, hi⟩ := List.mem_map.mp hm
        obtain ⟨j2, o2, i2, c2, hm2, hf2, _, rfl⟩ := (diffOld_spec.2 _).mp hrp
        simp only at hi
        subst hi
        obtain ⟨h1, h2⟩ := findEq_some hf
        obtain ⟨h3, h4⟩ := findEq_some hf2
        rw [h1] at h3
        cases h3
        have := hc o2 (List.mem_map.mpr ⟨_, hm2, rfl⟩)
        rw [hq.trans _ _ _ h2 (hq.symm _ _ h4)] at this
        cases this


theorem oldChain_eq {old : Option (Ast L.Comp)} {k : Name} {c : List L.Comp}
    (h : old.bind (fun o => lookup o k) = some c) : oldChain old k = c := by
  simp [oldChain, h]

theorem snd_enumFrom {β : Type} {n : Nat} {l : List β} : (enumFrom n l).map (·.2) = l := by
  induction l generalizing n with
  | nil => rfl
  | cons b l ih => simp [enumFrom, ih]

theorem diffChain_pairs_nodup (hq : EqLaws L) {mk : L.Comp → Except Stop (L.Data × List Name)}
    {old : Option (Ast L.Comp)} {k : Name} (hold : Distinct L.compEq (oldChain old k))
    {c : List L.Comp} {d : Diff L}
    (h : diffChain mk old k c = .ok d) : (d.refpairs.map (·.2.2)).Nodup := by
  have hnd : ((enumFrom 0 c).map (·.1)).Nodup := by
    rw [enumFrom_fst]
    exact List.nodup_range' ..
  unfold diffChain at h
  split at h
  · exact (addNodes_pairs h).nodup hnd
  · rename_i oldC ho
    rw [oldChain_eq ho] at hold
    rw [except_bind_ok] at h
    obtain ⟨d', hd', h⟩ := h
    simp only [Except.ok.injEq] at h
    subst h
    simp only [List.map_append]
    rw [List.nodup_append]
    refine ⟨diffOld_pairs_nodup hq (by rw [snd_enumFrom]; exact hold),
      (addNodes_pairs hd').nodup (((List.filter_sublist).map _).nodup hnd), ?_⟩
    intro i hi i' hi' hii
    subst hii
    obtain ⟨rp, hrp, rfl⟩ := List.mem_map.mp hi
    obtain ⟨rp', hrp', he⟩ := List.mem_map.mp hi'
    obtain ⟨j, o, i, c', hm, hf, _, rfl⟩ := (diffOld_spec.2 _).mp hrp
    obtain ⟨i2, c2, nd, refs, hm2, _, _, rfl⟩ := ((addNodes_spec hd').2.2 _).mp hrp'
    simp only at he
    subst he
    obtain ⟨h1, h2⟩ := findEq_some hf
    rw [List.mem_filter] at hm2
    obtain ⟨hm2, hm3⟩ := hm2
    have h3 := (mem_enumFrom.mp hm2).2
    simp only [Nat.sub_zero] at h3
    rw [h1] at h3
    cases h3
    have : oldC.any (fun o => L.compEq o c') = true :=
      List.any_eq_true.mpr ⟨o, List.mem_of_getElem? (mem_enumFrom.mp hm).2, h2⟩
    simp [this] at hm3

theorem diffAll_pairs_nodup (hq : EqLaws L) {mk : L.Comp → Except Stop (L.Data × List Name)}
    {old : Option (Ast L.Comp)} (hold : ∀ k, Distinct L.compEq (oldChain old k))
    {new : Ast L.Comp} (hn : (new.map Prod.fst).Nodup) : ∀ {d : Diff L},
    diffAll mk old new = .ok d → (d.refpairs.map (·.2)).Nodup := by
  induction new with
  | nil =>
    intro d h
    simp only [diffAll, Except.ok.injEq] at h
    subst h
    simp
  | cons p new ih =>
    intro d h
    obtain ⟨k, c⟩ := p
    simp only [diffAll, except_bind_ok] at h
    obtain ⟨dk, hk, d', hd', h⟩ := h
    simp only [Except.ok.injEq] at h
    subst h
    simp only [List.map_cons, List.nodup_cons] at hn
    have hname := diffChain_refpair_name hk
    simp only [Diff.append, List.map_append]
    rw [List.nodup_append]
    refine ⟨?_, ih hn.2 hd', ?_⟩
    · have := diffChain_pairs_nodup hq (hold k) hk
      rw [List.nodup_iff_pairwise_ne, List.pairwise_map] at this ⊢
      exact this.imp (fun h hab => h (by rw [hab]))
    · rintro ⟨n, i⟩ h1 b h2 rfl
      obtain ⟨⟨r, n', i'⟩, hm, he⟩ := List.mem_map.mp h1
      cases he
      obtain ⟨⟨r2, n2, i2⟩, hm2, he⟩ := List.mem_map.mp h2
      cases he
      obtain ⟨k', c', dk', hk', hdk', hrp⟩ := (diffAll_mem hd').2.1 _ hm2
      have e1 := hname _ _ _ hm
      have e2 := diffChain_refpair_name hdk' _ _ _ hrp
      subst e1
      subst e2
      exact hn.1 (List.mem_map.mpr ⟨_, hk', rfl⟩)

/-- The references listed for a position of the new program. -/
theorem refpair_refs {e : Engine L} {new : Ast L.Comp} (hp : ProgWf new) {diff : Diff L}
    (hd : diffAll (L.make e.samples e.sr e.bpm e.seed) e.ast new = .ok diff) {k : Name}
    {comps : List L.Comp} {i : Nat} {comp : L.Comp} (hk : (k, comps) ∈ new)
    (hi : comps[i]? = some comp) {refs : List Name} (hm : (refs, k, i) ∈ diff.refpairs) :
    refs ≠ [] ∧
    (inOld e.ast k comp = true ∧ refs = L.refs comp ∨
      inOld e.ast k comp = false ∧ ∃ nd, L.make e.samples e.sr e.bpm e.seed comp = .ok (nd, refs)) := by
  obtain ⟨k', comps', dk, hk', hdk, hrp⟩ := (diffAll_mem hd).2.1 _ hm
  have e1 := diffChain_refpair_name hdk _ _ _ hrp
  subst e1
  have e2 : comps' = comps := by
    have h1 := lookup_of_mem hp.names hk
    rw [lookup_of_mem hp.names hk'] at h1
    cases h1
    rfl
  subst e2
  have key : ∀ {l : List (Nat × L.Comp)} {d' : Diff L}, (∀ p, p ∈ l → p ∈ enumFrom 0 comps') →
      addNodes (L.make e.samples e.sr e.bpm e.seed) k l = .ok d' → (refs, k, i) ∈ d'.refpairs →
      refs ≠ [] ∧ (i, comp) ∈ l ∧ ∃ nd, L.make e.samples e.sr e.bpm e.seed comp = .ok (nd, refs) := by
    intro l d' hsub hadd hm'
    obtain ⟨i', x, nd, refs', hx, hmk, hne, heq⟩ := ((addNodes_spec hadd).2.2 _).mp hm'
    cases heq
    have := (mem_enumFrom.mp (hsub _ hx)).2
    simp only [Nat.sub_zero] at this
    rw [hi] at this
    cases this
    exact ⟨hne, hx, nd, hmk⟩
  unfold diffChain at hdk
  split at hdk
  · rename_i hno
    obtain ⟨h1, _, h2⟩ := key (fun _ h => h) hdk hrp
    exact ⟨h1, .inr ⟨by simp [inOld, oldChain, hno], h2⟩⟩
  · rename_i oldC ho
    rw [except_bind_ok] at hdk
    obtain ⟨d', hd', hdk⟩ := hdk
    simp only [Except.ok.injEq] at hdk
    subst hdk
    rcases List.mem_append.mp hrp with hrp | hrp
    · obtain ⟨j, o, i', c', hmo, hf, hne, heq⟩ := (diffOld_spec.2 _).mp hrp
      cases heq
      obtain ⟨this, heq⟩ := findEq_some hf
      rw [hi] at this
      cases this
      refine ⟨hne, .inl ⟨?_, rfl⟩⟩
      rw [inOld, oldChain_eq ho, List.any_eq_true]
      exact ⟨o, List.mem_of_getElem? (mem_enumFrom.mp hmo).2, heq⟩
    · obtain ⟨h1, h3, h2⟩ := key (fun p h => (List.mem_filter.mp h).1) hd' hrp
      refine ⟨h1, .inr ⟨?_, h2⟩⟩
      rw [inOld, oldChain_eq ho]
      have := (List.mem_filter.mp h3).2
      simpa using this

theorem mapM_getLast {l : Table} : ∀ {r : List Nat}, l.mapM (fun e => lastOf e.2) = .ok r →
    r = l.filterMap (fun e => e.2.getLast?) := by
  induction l with
  | nil =>
    intro r h
    cases h
    rfl
  | cons e l ih =>
    intro r h
    rw [List.mapM_cons, except_bind_ok] at h
    obtain ⟨a, ha, h⟩ := h
    rw [except_bind_ok] at h
    obtain ⟨as, has, h⟩ := h
    cases h
    rw [List.filterMap_cons, lastOf_ok.mp ha, ih has]

theorem sourceList_of {t t' : Table} (hperm : t'.Perm t) {rs : List Name} {lss : List (List Nat)}
    (hw : ∀ r ∈ rs, RefWf r) (h : List.Forall₂ (fun r l => refSources t' r = .ok l) rs lss) :
    SourceList t rs lss.flatten := by
  induction h with
  | nil => exact .nil
  | @cons r l rs lss hrl _ ih =>
    have ih := ih (fun r hr => hw r (List.mem_cons_of_mem _ hr))
    simp only [List.flatten_cons]
    rcases hw r (by simp) with hr | ⟨base, hb, rfl⟩
    · unfold refSources at hrl
      simp only [hasDots_of_noDot hr, Bool.false_eq_true, if_false] at hrl
      split at hrl
      · cases hrl
      · rename_i chain hl
        simp only [except_bind_ok] at hrl
        obtain ⟨a, ha, hrl⟩ := hrl
        cases hrl
        exact .named hr (hperm.mem_iff.mp (lookup_mem hl)) (lastOf_ok.mp ha) ih
    · unfold refSources at hrl
      simp only [hasDots_pattern, if_true, stripDots_pattern hb] at hrl
      rw [mapM_getLast hrl]
      exact .pattern hb ((hperm.filter _).filterMap _) ih

theorem flat_unique {t : Table} (hn : (flat t).Nodup) {k k' : Name} {c c' : List Nat} {i i' b : Nat}
    (h1 : (k, c) ∈ t) (h2 : (k', c') ∈ t) (h3 : c[i]? = some b) (h4 : c'[i']? = some b) :
    (k, c) = (k', c') ∧ i = i' := by
  induction t with
  | nil => cases h1
  | cons e t ih =>
    have hn' : (e.2 ++ flat t).Nodup := by simpa [flat] using hn
    rw [List.nodup_append] at hn'
    obtain ⟨hn1, hn2, hdis⟩ := hn'
    have key : ∀ {k : Name} {c : List Nat} {i : Nat} {k' : Name} {c' : List Nat} {i' : Nat}, e = (k, c) → (k', c') ∈ t → c[i]? = some b → c'[i']? = some b →
        False := by
      intro k c i k' c' i' he hm hi hi'
      subst he
      exact hdis b (List.mem_of_getElem? hi) b (mem_flat.mpr ⟨k', c', hm, List.mem_of_getElem? hi'⟩) rfl
    rcases List.mem_cons.mp h1 with h1 | h1 <;> rcases List.mem_cons.mp h2 with h2 | h2
    · rw [← h1] at h2
      cases h2
      refine ⟨rfl, ?_⟩
      rw [← h1] at hn1
      obtain ⟨l1, g1⟩ := List.getElem?_eq_some_iff.mp h3
      obtain ⟨l2, g2⟩ := List.getElem?_eq_some_iff.mp h4
      rw [List.nodup_iff_pairwise_ne, List.pairwise_iff_getElem] at hn1
      rcases Nat.lt_trichotomy i i' with hlt | heq | hlt
      · exact absurd (g1.trans g2.symm) (hn1 i i' l1 l2 hlt)
      · exact heq
      · exact absurd (g2.trans g1.symm) (hn1 i' i l2 l1 hlt)
    · exact (key h1.symm h2 h3 h4).elim
    · exact (key h2.symm h1 h4 h3).elim
    · exact ih hn2 h1 h2

/-- The wiring messages sent to the node at position `i` of the chain `c`. -/
def wireMsgs (L : Lang) (refs : List Name) (srcs : List Nat) (left : Option Nat) :
    List (Msg L.Num) :=
  (if refs = [] then [] else .resetOrder :: srcs.map .index) ++ left.toList.map (.indexOrder 0)

theorem wire_order {K R : L.Node → Prop} {ord : L.Node → List Nat} (ho : OrderLaws L K R ord)
    {refs : List Name} {srcs : List Nat} {left : Option Nat} {n n' : L.Node} (hK : K n')
    (hR : R n' ∨ refs = [])
    (hs : refs = [] → srcs = [])
    (h : (wireMsgs L refs srcs left).foldlM L.msg n = .ok n') :
    (refs ≠ [] → ord n' = left.toList ++ srcs) ∧ (left.toList ++ srcs) <+: ord n' := by
  have hleft : ∀ {n n' : L.Node}, (left.toList.map (Msg.indexOrder 0)).foldlM L.msg n = .ok n' →
      K n' → ord n' = left.toList ++ ord n ∧ K n ∧ (R n' → R n) := by
    intro n n' h hK
    cases left with
    | none => cases h; exact ⟨rfl, hK, id⟩
    | some a =>
      simp only [Option.toList_some, List.map_cons, List.map_nil, List.foldlM_cons, except_bind_ok] at h
      obtain ⟨n1, h1, h2⟩ := h
      cases h2
      have hk := ho.keep _ _ (.indexOrder 0 a) trivial h1
      exact ⟨ho.front _ _ _ (hk.1.mp hK) h1, hk.1.mp hK, hk.2.mp⟩
  have hidx : ∀ {srcs : List Nat} {n n' : L.Node}, (srcs.map Msg.index).foldlM L.msg n = .ok n' →
      K n' → ord n' = ord n ++ srcs ∧ K n ∧ (R n' → R n) := by
    intro srcs
    induction srcs with
    | nil => intro n n' h hK; cases h; exact ⟨by simp, hK, id⟩
    | cons a as ih =>
      intro n n' h hK
      simp only [List.map_cons, List.foldlM_cons, except_bind_ok] at h
      obtain ⟨n1, h1, h2⟩ := h
      obtain ⟨h3, h4, h5⟩ := ih h2 hK
      have hk := ho.keep _ _ (.index a) trivial h1
      exact ⟨by rw [h3, ho.index _ _ _ (hk.1.mp h4) h1]; simp, hk.1.mp h4, fun h => hk.2.mp (h5 h)⟩
  unfold wireMsgs at h
  rw [List.foldlM_append, except_bind_ok] at h
  obtain ⟨n1, h1, h2⟩ := h
  obtain ⟨h3, hK1, hR1⟩ := hleft h2 hK
  by_cases hr : refs = []
  · rw [hs hr]
    refine ⟨fun h => absurd hr h, ?_⟩
    rw [h3, List.append_nil]
    exact List.prefix_append _ _
  · rw [if_neg hr] at h1
    simp only [List.foldlM_cons, except_bind_ok] at h1
    obtain ⟨n0, h4, h5⟩ := h1
    obtain ⟨h6, hK0, hR0⟩ := hidx h5 hK1
    have hk := ho.keep _ _ .resetOrder trivial h4
    have hR' := hR.resolve_right hr
    rw [ho.reset _ _ (hk.1.mp hK0) (hk.2.mp (hR0 (hR1 hR'))) h4] at h6
    rw [h3, h6]
    exact ⟨fun _ => rfl, List.prefix_refl _⟩

/-- The state from which a node starts in an accepted update, and the messages by which it is wired: a component
with an equal in the old chain starts from an old node and is wired to its references as written; any other starts
as built, and is wired to the references reported by `makenode`. -/
theorem wired_update (hL : ParserWf L) (hq : EqLaws L) (hl : RefLaws L)
    {e e' : Engine L} (hr : CleanReach L e) {τ : TableOrder} {code : Name} {new : Ast L.Comp}
    (hparse : L.parse code = .ok (some new)) (hc : CleanProg L new)
    (hrw : ∀ r, progRefs L new r → RefWf r)
    (h : e.updateWithCode τ code = .ok (e', none))
    {k : Name} {comps : List L.Comp} {nodes : List Nat} {i b : Nat} {comp : L.Comp} {d : L.Data}
    (hk : (k, comps) ∈ new) (hi : comps[i]? = some comp) (hn : (k, nodes) ∈ e'.index)
    (hb : nodes[i]? = some b) (hd : e'.graph.node? b = some d) :
    ∃ d0 rs srcs,
      (inOld e.ast k comp = true → rs = L.refs comp ∧ e.graph.node? b = some d0) ∧
      (inOld e.ast k comp = false → L.make e.samples e.sr e.bpm e.seed comp = .ok (d0, rs)) ∧
      SourceList e'.index rs srcs ∧ d.buffers = d0.buffers ∧
      (wireMsgs L rs srcs (if i = 0 then none else nodes[i - 1]?)).foldlM L.msg d0.node = .ok d.node := by
  have hI := inv_reachable hL hr.reachable
  have hm := mirrors_clean hL hq hr
  unfold Engine.updateWithCode at h
  rw [hparse] at h
  have h : e.updateAst τ new = .ok (e', none) := h
  have hp := hL code new hparse
  obtain ⟨diff, t1, gone1, t2, gone2, g3, cr, g5, ha⟩ := accepted hI hp h
  have f := ha.facts
  obtain ⟨l1, l2, _⟩ := ha.live hI
  have hperm := τ.perm e'.index
  simp only [List.nodup_cons, List.mem_cons, not_or] at l1
  obtain ⟨⟨_, hdest⟩, _, hflat⟩ := l1
  have hbflat : b ∈ flat e'.index := mem_flat.mpr ⟨k, nodes, hn, List.mem_of_getElem? hb⟩
  have hbd : e.dest ≠ b := by rintro rfl; exact hdest hbflat
  have hflatO : (flat (τ.ord e'.index)).Nodup := by
    have : (flat (τ.ord e'.index)).Perm (flat e'.index) := by
      unfold flat
      exact hperm.flatMap_right _
    exact this.nodup_iff.mpr hflat
  obtain ⟨d0, hd0⟩ := (l2 b).mpr (.inr (.inr hbflat))
  have hlook : lookup (τ.ord e'.index) k = some nodes := by
    rw [lookup_perm hperm f.keysT3]
    exact lookup_of_mem f.keysT3 hn
  -- a pair about node `b` is a pair about position `i` of chain `k`
  have hpos : ∀ q ∈ diff.refpairs, pairNode (τ.ord e'.index) q = some b → q.2 = (k, i) := by
    rintro ⟨refs, k', i'⟩ hq hqb
    unfold pairNode at hqb
    obtain ⟨c', hc', hb'⟩ := Option.bind_eq_some_iff.mp hqb
    obtain ⟨h1, h2⟩ := flat_unique hflat (hperm.mem_iff.mp (lookup_mem hc')) hn hb' hb
    cases h1
    subst h2
    rfl
  have hnode : ∀ refs, pairNode (τ.ord e'.index) (refs, k, i) = some b := by
    intro refs
    simp [pairNode, hlook, hb]
  -- where the node comes from
  have horig : ∃ rs, (inOld e.ast k comp = true → rs = L.refs comp ∧ e.graph.node? b = some d0) ∧
      (inOld e.ast k comp = false → L.make e.samples e.sr e.bpm e.seed comp = .ok (d0, rs)) := by
    have hd0' : (removeAll g3 (gone1 ++ gone2)).node? b = some d0 := hd0
    obtain ⟨_, r2, _⟩ := removeAll_spec (ids := gone1 ++ gone2) f.wf
    rw [r2] at hd0'
    have hd3 : g3.node? b = some d0 := by
      split at hd0'
      · cases hd0'
      · exact hd0'
    obtain ⟨r, r1, q2, q3, q4⟩ :=
      (staged_table hq hI hm hp hc.dupFree (hm.noClash hc) ha.staged k).2 comps hk
    have hrn : r = nodes := by
      rw [lookup_of_mem f.keysT3 hn] at r1
      exact (Option.some.inj r1).symm
    subst hrn
    cases hio : inOld e.ast k comp with
    | true =>
      refine ⟨L.refs comp, fun _ => ⟨rfl, ?_⟩, (fun h => by cases h)⟩
      have hin : b ∈ ((comps.zip r).filter (fun x => inOld e.ast k x.1)).map (·.2) :=
        List.mem_map.mpr ⟨(comp, b), List.mem_filter.mpr ⟨mem_zip_get hi hb, hio⟩, rfl⟩
      rw [q3] at hin
      unfold keptNodes at hin
      obtain ⟨⟨o, b'⟩, hob, rfl⟩ := List.mem_map.mp hin
      have hbo := (List.of_mem_zip (List.mem_filter.mp hob).1).2
      have hlive : e.graph.Live b' := by
        refine (hI.live _).mpr (.inr (.inr ?_))
        cases hlo : lookup e.index k with
        | none => rw [hlo] at hbo; cases hbo
        | some c => rw [hlo] at hbo; exact mem_flat.mpr ⟨k, c, lookup_mem hlo, hbo⟩
      have hncr : b' ∉ cr := by
        intro hcr
        obtain ⟨x, hx⟩ := hlive
        rw [(f.cr _ hcr).1] at hx
        cases hx
      rw [← f.nodes _ hncr]
      exact hd3
    | false =>
      have hin : (comp, b) ∈ (comps.zip r).filter (fun x => !inOld e.ast k x.1) := by
        rw [List.mem_filter]
        exact ⟨mem_zip_get hi hb, by simp only [hio, Bool.not_false]⟩
      have hfst := zip_filter_fst (fun c => !inOld e.ast k c) comps r q2.symm
      rw [← hfst, List.forall₂_map_left_iff, List.forall₂_map_right_iff, List.forall₂_same] at q4
      obtain ⟨_, nd, refs, hmk, hg3⟩ := q4 (comp, b) hin
      simp only at hg3 hmk
      rw [hd3] at hg3
      cases hg3
      exact ⟨refs, (fun h => by cases h), fun _ => hmk⟩
  obtain ⟨rs, hrs1, hrs2⟩ := horig
  have hrsm : ∀ r, r ∈ rs ↔ r ∈ L.refs comp := by
    intro r
    cases hio : inOld e.ast k comp with
    | true => rw [(hrs1 hio).1]
    | false => exact hl.made _ _ _ _ _ _ _ (hrs2 hio) r
  -- what the reference loop sends
  have hpairs : ∃ srcs, SourceList e'.index rs srcs ∧
      GotAt b ((removeAll g3 (gone1 ++ gone2)).clearEdges) g5 (wireMsgs L rs srcs none) := by
    by_cases hex : ∃ refs, (refs, k, i) ∈ diff.refpairs
    · obtain ⟨refs, hmem⟩ := hex
      have hnd := diffAll_pairs_nodup hq (fun k => (oldChain_facts hm k).2.2) hp.names ha.staged.diffEq
      obtain ⟨hne, hrefs⟩ := refpair_refs hp ha.staged.diffEq hk hi hmem
      have hrefs : refs = rs := by
        rcases hrefs with ⟨h0, h1⟩ | ⟨h0, nd, h1⟩
        · rw [h1, (hrs1 h0).1]
        · rw [hrs2 h0] at h1
          cases h1
          rfl
      have hpr := ha.pairs
      obtain ⟨pre, post, hsplit⟩ := List.append_of_mem hmem
      rw [hsplit] at hpr hnd
      have hother : ∀ q, q ∈ pre ∨ q ∈ post → pairNode (τ.ord e'.index) q ≠ some b := by
        intro q hq hqb
        have h1 := hpos q (by rw [hsplit]; rcases hq with hq | hq <;> simp [hq]) hqb
        simp only [List.map_append, List.map_cons] at hnd
        rw [List.nodup_append, List.nodup_cons] at hnd
        rcases hq with hq | hq
        · exact hnd.2.2 _ (List.mem_map.mpr ⟨q, hq, rfl⟩) q.2 (by simp [h1]) rfl
        · exact hnd.2.1.1 (by rw [← h1]; exact List.mem_map.mpr ⟨q, hq, rfl⟩)
      obtain ⟨lss, h2, h3⟩ := got_connectPairs_one (hnode refs) (fun q hq => hother q (.inr hq))
        (fun q hq => hother q (.inl hq)) (by simp) hpr
      refine ⟨lss.flatten, ?_, ?_⟩
      · rw [← hrefs]
        refine sourceList_of hperm ?_ h2
        intro r hr
        exact hrw r ⟨k, comps, comp, hk, List.mem_of_getElem? hi, (hrsm r).mp (hrefs ▸ hr)⟩
      · rw [← hrefs]
        simpa [wireMsgs, hne] using h3
    · have hnil : rs = [] := by
        rw [List.eq_nil_iff_forall_not_mem]
        intro r hr
        rw [hrsm] at hr
        obtain ⟨refs, h1, _⟩ := (refpair_iff hq hl hc ha.staged.diffEq k i r).mpr
          ⟨comps, comp, hk, hi, hr⟩
        exact hex ⟨refs, h1⟩
      rw [hnil]
      refine ⟨[], .nil, ?_⟩
      have := got_connectPairs_none (j := b) (by
        rintro ⟨refs, q⟩ hq hqb
        have := hpos _ hq hqb
        simp only at this
        subst this
        exact hex ⟨refs, hq⟩) ha.pairs
      simpa [wireMsgs] using this
  obtain ⟨srcs, hsrc, hg1⟩ := hpairs
  have htab : GotAt b g5 e'.graph
      ((if i = 0 then none else nodes[i - 1]?).toList.map (.indexOrder 0)) := by
    obtain ⟨c1, c2⟩ := got_connectTable hbd hflatO ha.table
    cases i with
    | zero =>
      have := c2 (by
        intro k' c' j hmem hj
        have := (flat_unique hflat (hperm.mem_iff.mp hmem) hn hj hb).2
        omega)
      simpa using this
    | succ i =>
      obtain ⟨a, h1, h2⟩ := c1 k nodes i (hperm.mem_iff.mpr hn) hb
      simpa [h1] using h2
  obtain ⟨n, hn', hfold⟩ := (hg1.trans htab) d0 hd0
  rw [hd] at hn'
  cases hn'
  refine ⟨d0, rs, srcs, hrs1, hrs2, hsrc, rfl, ?_⟩
  rw [← hfold]
  simp [wireMsgs]

/-- **C47** (partial). For programs without repeated components: after a successful update the
input list kept by the node at position `i` of a chain starts with its left neighbour followed by
the nodes of the references of its component in the order they are written, and if there are
references it holds nothing else, in particular nothing from earlier programs. This holds for the
nodes that empty their list on request (`R`) and for components without references. Missing: repeated
components, nodes that do not (drum components with a reference, see `c47_drum_reference_counterexample`), and components (`seq`) for which `makenode` reports the references in another order
than `all_references` (see `c16_seq_sources_counterexample`). -/
theorem c47_input_order_partial (hL : ParserWf L) (hq : EqLaws L) (hl : RefLaws L)
    {K R : L.Node → Prop} {ord : L.Node → List Nat} (ho : OrderLaws L K R ord)
    {e e' : Engine L} (hr : CleanReach L e) (τ : TableOrder) (code : Name) (new : Ast L.Comp)
    (hparse : L.parse code = .ok (some new)) (hc : CleanProg L new)
    (hrw : ∀ r, progRefs L new r → RefWf r)
    (h : e.updateWithCode τ code = .ok (e', none))
    (k : Name) (comps : List L.Comp) (nodes : List Nat) (i b : Nat) (comp : L.Comp) (d : L.Data)
    (hk : (k, comps) ∈ new) (hi : comps[i]? = some comp) (hn : (k, nodes) ∈ e'.index)
    (hb : nodes[i]? = some b) (hd : e'.graph.node? b = some d) (hK : K d.node)
    (hR : R d.node ∨ L.refs comp = [])
    (hmk : ∀ nd rs, L.make e.samples e.sr e.bpm e.seed comp = .ok (nd, rs) → rs = L.refs comp) :
    ∃ srcs, SourceList e'.index (L.refs comp) srcs ∧
      (L.refs comp ≠ [] →
        ord d.node = (if i = 0 then [] else (nodes[i - 1]?).toList) ++ srcs) ∧
      ((if i = 0 then [] else (nodes[i - 1]?).toList) ++ srcs) <+: ord d.node := by
  obtain ⟨d0, rs, srcs, h1, h2, hsrc, _, hfold⟩ := wired_update hL hq hl hr hparse hc hrw h hk hi hn hb hd
  have hrs : rs = L.refs comp := by
    cases hio : inOld e.ast k comp with
    | true => exact (h1 hio).1
    | false => exact hmk _ _ (h2 hio)
  subst hrs
  have := wire_order ho (refs := L.refs comp) (srcs := srcs)
    (left := if i = 0 then none else nodes[i - 1]?) (n := d0.node) (n' := d.node) hK hR (by
      intro h0; rw [h0] at hsrc; cases hsrc; rfl) (by
      rw [← hfold])
  refine ⟨srcs, hsrc, ?_⟩
  by_cases h0 : i = 0
  · simpa [h0] using this
  · simpa [h0] using this

theorem toy_orderLaws : OrderLaws Toy.lang (fun _ => True) (fun _ => True) Toy.Node.wires := by
  refine ⟨fun _ _ _ _ _ => ⟨Iff.rfl, Iff.rfl⟩, ?_, ?_, ?_⟩
  · intro n n' a _ h; cases h; rfl
  · intro n n' a _ h; cases h; rfl
  · intro n n' _ _ h; cases h; rfl

/-- After `o: 1 >> 2 ~a` has become `o: 1 >> 5 >> 2 ~a` the hypotheses hold for the component `2 ~a`:
its node 4, wired to `[3, 5]` before, now has the inputs 6 (the new neighbour) and 5 (`~a`). -/
example : CleanReach Toy.lang Toy.e1 ∧ CleanProg Toy.lang Toy.prog2 ∧ RefLaws Toy.lang ∧
    OrderLaws Toy.lang (fun _ => True) (fun _ => True) Toy.Node.wires ∧
    (Toy.e1.graph.node? 4).map (·.node.wires) = some [3, 5] ∧
    ∃ e', Toy.e1.updateWithCode .ident Toy.t2 = .ok (e', none) ∧
      (Toy.nameO, [3, 6, 4]) ∈ e'.index ∧
      (e'.graph.node? 4).map (·.node.wires) = some [6, 5] ∧
      SourceList e'.index [Toy.nameA] [5] :=
  ⟨toy_clean1, toy_cleanProg2, toy_refLaws, toy_orderLaws, rfl, _, rfl, by decide, rfl,
    .named (c := [5]) (by decide) (by decide) rfl .nil⟩

end Verif.Props
