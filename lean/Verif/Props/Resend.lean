import Verif.Lemmas.InForce

/-! # C16: sending the program in force again -/

namespace Verif.Props
open Verif Spec

variable {L : Lang}

/-- What is known after the program in force was sent again. -/
theorem resend (hL : ParserWf L) (hq : EqLaws L) (hl : RefLaws L) (hw : WiringTotal L)
    {e : Engine L} (hr : CleanReach L e) (τ : TableOrder) {code : Name} {a new : Ast L.Comp}
    (hast : e.ast = some a) (hperm : new.Perm a) (hparse : L.parse code = .ok (some new))
    (hself : ∀ k comps c, (k, comps) ∈ new → c ∈ comps → L.compEq c c = true) :
    CleanProg L new ∧ ∃ e' rps g5, e.updateWithCode τ code = .ok (e', none) ∧
      Accepted τ e new e' ⟨[], rps, []⟩ e.index [] e.index [] e.graph [] g5 ∧ e'.index = e.index := by
  have hI := inv_reachable hL hr.reachable
  have hm := mirrors_clean hL hq hr
  have hp := hL code new hparse
  have hn : (keys a).Nodup := (hperm.map Prod.fst).nodup_iff.mp hp.names
  have hc : CleanProg L new := by
    refine ⟨?_, ?_⟩
    · intro k c hk
      exact hm.dupFree a hast k c (hperm.mem_iff.mp hk)
    · intro hk
      exact clean_noInput hL hr a hast ((hperm.map Prod.fst).mem_iff.mp hk)
  refine ⟨hc, ?_⟩
  obtain ⟨rps, hd⟩ := diffAll_same (mk := L.make e.samples e.sr e.bpm e.seed) (a := a) (new := new)
    (fun k comps hk => lookup_of_mem hn (hperm.mem_iff.mp hk)) hself
  rw [← hast] at hd
  have hs : Staged e new ⟨[], rps, []⟩ e.index [] e.index [] e.graph e.index [] := by
    refine ⟨hd, dropChains_same ?_, rfl, rfl⟩
    intro k hk
    obtain ⟨o, ho, hk⟩ := mem_oldKeys.mp hk
    rw [hast] at ho
    cases ho
    obtain ⟨v, hv⟩ := mem_keys.mp hk
    rw [lookup_of_mem hp.names (hperm.mem_iff.mpr hv)]
    rfl
  have hcheck : refCheck e.index new (rps.flatMap (·.1)) = none := by
    rw [refCheck_all]
    intro r hr'
    obtain ⟨k, comps, c, h1, h2, h3⟩ := (progRefs_flat hq hl hc hd r).mp hr'
    rw [refCheck_congr (fun k => lookup_perm hperm hn k)]
    exact (inForce_clean hL hq hl hr).refs a hast r ⟨k, comps, c, hperm.mem_iff.mp h1, h2, h3⟩
  obtain ⟨⟨e', r⟩, hu⟩ := updateAst_total (τ := τ) hw hq hI hm hp hc (by rw [hd]; intro p h; cases h)
  have huc : e.updateWithCode τ code = .ok (e', r) := by
    unfold Engine.updateWithCode
    rw [hparse]
    exact hu
  rcases updateAst_cases hu with ⟨x, hx, _⟩ | ⟨diff, t1, gone1, t2, gone2, g3, t3, cr, hs', hrest⟩
  · rw [hd] at hx; cases hx
  · have h1 := hs'.diffEq
    rw [hd] at h1
    cases h1
    have h2 := hs'.chains
    rw [hs.chains] at h2
    cases h2
    have h3 := hs'.nodes
    rw [hs.nodes] at h3
    cases h3
    have h4 := hs'.ins
    rw [hs.ins] at h4
    cases h4
    rcases hrest with ⟨x, hx, _⟩ | ⟨_, ⟨g5, x, hx, _⟩ | ⟨g5, g6, h5, h6, rfl, rfl⟩⟩
    · rw [hcheck] at hx; cases hx
    · have f := staged_facts hI hp hs
      obtain ⟨refs, name, pos, hmem, hlk⟩ := connectPairs_err hx
      have hk := f.newT3 _ (f.refNames _ _ _ hmem)
      rw [lookup_perm (τ.perm e.index) f.keysT3, lookup_none] at hlk
      exact absurd hk hlk
    · exact ⟨_, rps, g5, huc, ⟨hs, staged_facts hI hp hs, hcheck, h5, h6, rfl⟩, rfl⟩

theorem wanted_perm {dest : Nat} {t : Table} {p q : Ast L.Comp} (h : p.Perm q) {x y : Nat}
    (hw : Wanted L dest t p x y) : Wanted L dest t q x y := by
  cases hw with
  | chain h1 h2 => exact .chain h1 h2
  | out h1 h2 h3 => exact .out h1 h2 h3
  | ref h1 h2 h3 h4 h5 h6 => exact .ref (h.mem_iff.mp h1) h2 h3 h4 h5 h6

/-- **C16** (partial). After every history in which no program repeated a component within a chain or
redefined `~input`: when the program in force is sent again (the parser may list its chains in
another order), the update is accepted; the chain table is the same; the same nodes exist with the
same output and, up to wiring messages, the same state; the same pairs of nodes are connected; and
all settings are the same. Missing: programs with repeated components, for which it is false
(`c06_repeated_component_counterexample`), components that are not equal to themselves (NaN), and
the statement on the order in which inputs are read (`c16_resend_keeps_inputs_partial`). -/
theorem c16_resend_is_noop_partial (hL : ParserWf L) (hq : EqLaws L) (hl : RefLaws L)
    (hw : WiringTotal L) {e : Engine L} (hr : CleanReach L e) (τ : TableOrder) (code : Name)
    (a new : Ast L.Comp) (hast : e.ast = some a) (hperm : new.Perm a)
    (hparse : L.parse code = .ok (some new))
    (hself : ∀ k comps c, (k, comps) ∈ new → c ∈ comps → L.compEq c c = true)
    (hrw : ∀ r, progRefs L new r → RefWf r) :
    ∃ e', e.updateWithCode τ code = .ok (e', none) ∧
      e' = { e with graph := e'.graph, temp := [], ast := some new } ∧
      (∀ i d, e.graph.node? i = some d →
        ∃ n', e'.graph.node? i = some ⟨n', d.buffers⟩ ∧ Rewire L d.node n') ∧
      (∀ i, e.graph.node? i = none → e'.graph.node? i = none) ∧
      ∀ x y, (x, y) ∈ e'.graph.edges ↔ (x, y) ∈ e.graph.edges := by
  obtain ⟨hc, e', rps, g5, h1, h2, h3⟩ := resend hL hq hl hw hr τ hast hperm hparse hself
  have hI := inv_reachable hL hr.reachable
  refine ⟨e', h1, ?_, ?_, ?_, ?_⟩
  · have := h2.eq
    rw [h3] at this
    rw [this]
    have hb : e.backup = e.index := hI.backup
    cases e
    simp only at hb
    subst hb
    rfl
  · intro i d hd
    obtain ⟨n, h4, h5⟩ := h2.adds.rewired.some i d hd
    exact ⟨n, h4, h5⟩
  · intro i hi
    exact h2.adds.rewired.none i hi
  · intro x y
    rw [c06_connections_exact_partial hL hq hl hr τ code new hparse hc hrw h1,
      (inForce_clean hL hq hl hr).edges a hast (fun r ⟨k, cs, c, p1, p2, p3⟩ =>
        hrw r ⟨k, cs, c, hperm.mem_iff.mpr p1, p2, p3⟩), h3]
    have hdest : e'.dest = e.dest := by rw [h2.eq]
    rw [hdest]
    exact ⟨wanted_perm hperm, wanted_perm hperm.symm⟩

theorem sourceList_unique {t : Table} (hn : (keys t).Nodup) {rs : List Name} {s1 s2 : List Nat}
    (hp : ∀ r, r ∈ rs → '.' ∉ r) (h1 : SourceList t rs s1) (h2 : SourceList t rs s2) : s1 = s2 := by
  induction h1 generalizing s2 with
  | nil => cases h2; rfl
  | named a1 a2 a3 _ ih =>
    cases h2 with
    | named b1 b2 b3 b4 =>
      have := lookup_of_mem hn a2
      rw [lookup_of_mem hn b2] at this
      cases this
      rw [a3] at b3
      cases b3
      rw [ih (fun r hr => hp r (List.mem_cons_of_mem _ hr)) b4]
    | pattern => exact absurd a1 (by simp)
  | pattern => exact absurd (hp _ (List.mem_cons_self ..)) (by simp)

theorem rewire_keeps {K R : L.Node → Prop} {ord : L.Node → List Nat} (ho : OrderLaws L K R ord)
    {n n' : L.Node} (h : Rewire L n n') : (K n' ↔ K n) ∧ (R n' ↔ R n) := by
  induction h with
  | refl => exact ⟨Iff.rfl, Iff.rfl⟩
  | step m1 m2 _ ih =>
    have hk := ho.keep _ _ _ m1 m2
    exact ⟨ih.1.trans hk.1, ih.2.trans hk.2⟩

/-- **C16** (partial), inputs. A program is accepted and then sent again. For a component without
pattern references (`base..`) whose node empties its input list on request (or that has no
references): the node first reads its left neighbour and then its references in the order written,
both before and after; a node with references keeps exactly the same list. Missing: repeated
components, pattern references (read in hash order), and components for which `makenode` reports the
references in another order (`seq`), for which it is false (`c16_seq_sources_counterexample`). -/
theorem c16_resend_keeps_inputs_partial (hL : ParserWf L) (hq : EqLaws L) (hl : RefLaws L)
    (hw : WiringTotal L) {K R : L.Node → Prop} {ord : L.Node → List Nat} (ho : OrderLaws L K R ord)
    {e e1 : Engine L} (hr : CleanReach L e) (τ τ' : TableOrder) (code : Name) (new : Ast L.Comp)
    (hparse : L.parse code = .ok (some new)) (hc : CleanProg L new)
    (hself : ∀ k comps c, (k, comps) ∈ new → c ∈ comps → L.compEq c c = true)
    (hrw : ∀ r, progRefs L new r → RefWf r)
    (h : e.updateWithCode τ code = .ok (e1, none)) :
    ∃ e2, e1.updateWithCode τ' code = .ok (e2, none) ∧ e2.index = e1.index ∧
      ∀ (k : Name) (comps : List L.Comp) (nodes : List Nat) (i b : Nat) (comp : L.Comp) (d1 d2 : L.Data),
        (k, comps) ∈ new → comps[i]? = some comp → (k, nodes) ∈ e1.index → nodes[i]? = some b →
        e1.graph.node? b = some d1 → e2.graph.node? b = some d2 → K d1.node →
        (R d1.node ∨ L.refs comp = []) → (∀ r, r ∈ L.refs comp → '.' ∉ r) →
        (∀ nd rs, L.make e.samples e.sr e.bpm e.seed comp = .ok (nd, rs) → rs = L.refs comp) →
        ∃ srcs, SourceList e1.index (L.refs comp) srcs ∧
          (if i = 0 then [] else (nodes[i - 1]?).toList) ++ srcs <+: ord d1.node ∧
          (if i = 0 then [] else (nodes[i - 1]?).toList) ++ srcs <+: ord d2.node ∧
          (L.refs comp ≠ [] → ord d2.node = ord d1.node) := by
  have hr1 : CleanReach L e1 := .step (.update τ code) hr
    (fun p hp => by rw [hparse] at hp; cases hp; exact hc)
    (by simp only [Op.apply, h, bind, Except.bind])
  have hp := hL code new hparse
  have hI := inv_reachable hL hr.reachable
  have hast : e1.ast = some new ∧ e1.samples = e.samples ∧ e1.sr = e.sr ∧ e1.bpm = e.bpm ∧
      e1.seed = e.seed := by
    have h' := h
    unfold Engine.updateWithCode at h'
    rw [hparse] at h'
    obtain ⟨diff, t1, gone1, t2, gone2, g3, cr, g5, ha⟩ := accepted hI hp h'
    rw [ha.eq]
    exact ⟨rfl, rfl, rfl, rfl, rfl⟩
  obtain ⟨_, e2, rps, g5, h1, h2, h3⟩ := resend hL hq hl hw hr1 τ' hast.1 (List.Perm.refl _) hparse hself
  refine ⟨e2, h1, h3, ?_⟩
  intro k comps nodes i b comp d1 d2 hk hi hn hb hd1 hd2 hK hR hdot hmk
  have hkeep : (K d2.node ↔ K d1.node) ∧ (R d2.node ↔ R d1.node) := by
    obtain ⟨n, h4, h5⟩ := h2.adds.rewired.some b d1 hd1
    rw [hd2] at h4
    cases h4
    exact rewire_keeps ho h5
  obtain ⟨s1, a1, a2, a3⟩ := c47_input_order_partial hL hq hl ho hr τ code new hparse hc hrw h k comps
    nodes i b comp d1 hk hi hn hb hd1 hK hR hmk
  obtain ⟨s2, b1, b2, b3⟩ := c47_input_order_partial hL hq hl ho hr1 τ' code new hparse hc hrw h1 k comps
    nodes i b comp d2 hk hi (h3 ▸ hn) hb hd2 (hkeep.1.mpr hK) (hR.imp hkeep.2.mpr id)
    (by rw [hast.2.1, hast.2.2.1, hast.2.2.2.1, hast.2.2.2.2]; exact hmk)
  rw [h3] at b1
  have hI1 := inv_reachable hL hr1.reachable
  have := sourceList_unique hI1.keysNodup hdot a1 b1
  subst this
  exact ⟨s1, a1, a3, b3, fun hne => (b2 hne).trans (a2 hne).symm⟩

theorem toy_cleanProg1 : CleanProg Toy.lang Toy.prog1 := by
  refine ⟨?_, by decide⟩
  have : ∀ e ∈ Toy.prog1, Distinct Toy.lang.compEq e.2 := by
    intro e he
    simp only [Toy.prog1, List.mem_cons, List.not_mem_nil, or_false] at he
    rcases he with rfl | rfl <;> simp [Distinct, Toy.lang]
  exact fun k c h => this (k, c) h

theorem toy_parse1 : Toy.lang.parse Toy.t1 = .ok (some Toy.prog1) := rfl

/-- The hypotheses hold for the example program, which has references. -/
example : ∃ e', Toy.e1.updateWithCode .rev Toy.t1 = .ok (e', none) ∧
    e'.index = Toy.e1.index ∧ (Toy.nameO, [3, 4]) ∈ e'.index ∧
    ((5, 4) ∈ e'.graph.edges ↔ (5, 4) ∈ Toy.e1.graph.edges) ∧ (5, 4) ∈ Toy.e1.graph.edges := by
  have hself : ∀ k comps c, (k, comps) ∈ Toy.prog1 → c ∈ comps → Toy.lang.compEq c c = true :=
    fun _ _ _ _ _ => toy_eq.mpr rfl
  have hrw : ∀ r, progRefs Toy.lang Toy.prog1 r → RefWf r := by
    rintro r ⟨k, comps, c, h1, h2, h3⟩
    left
    have : ∀ x ∈ Toy.prog1, ∀ c ∈ x.2, ∀ r ∈ c.2, '.' ∉ r := by decide
    exact this (k, comps) h1 c h2 r h3
  obtain ⟨e', h1, h2, _, _, h3⟩ := c16_resend_is_noop_partial Toy.parserWf toy_eqLaws toy_refLaws
    toy_wiring toy_clean1 .rev Toy.t1 Toy.prog1 Toy.prog1 rfl (List.Perm.refl _) toy_parse1 hself hrw
  obtain ⟨e2, h4, h5, _⟩ := c16_resend_keeps_inputs_partial Toy.parserWf toy_eqLaws toy_refLaws
    toy_wiring toy_orderLaws (e := Toy.e0) (.new 2) .ident .rev Toy.t1 Toy.prog1 toy_parse1
    toy_cleanProg1 hself hrw Toy.e1_eq
  have hi : e'.index = Toy.e1.index := by rw [h2]
  exact ⟨e', h1, hi, by rw [hi]; decide, h3 5 4, by decide⟩

end Verif.Props
