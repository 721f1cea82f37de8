import Verif.Lemmas.Places
import Verif.Spec.Demo
import Verif.Lemmas.KernelRfl

/-!
# C17: hash iteration orders

The parser's program, the chain table and the set of chains are hash maps, whose iteration order is
arbitrary. Two engines that differ only by that accept the same programs, and afterwards again differ only
in the numbers of nodes.
-/

namespace Verif.Props
open Verif Spec

variable {L : Lang}

/-! ### The nodes of an update -/

/-- Where the node at position `i` of a chain came from: a position of the old chain that does not depend
on the node numbers. -/
theorem kept_pos {comps old : List L.Comp} {nodes oldNodes : List Nat} (h1 : nodes.length = comps.length)
    (h2 : oldNodes.length = old.length)
    (h : sel (fun c => old.any (fun o => L.compEq o c)) comps nodes =
      sel (fun o => comps.any (fun c => L.compEq o c)) old oldNodes)
    {i : Nat} {c : L.Comp} (hc : comps[i]? = some c) (hin : old.any (fun o => L.compEq o c) = true) :
    ∃ i' : Nat, i' < old.length ∧ ∀ nodes oldNodes : List Nat, nodes.length = comps.length →
      oldNodes.length = old.length →
      sel (fun c => old.any (fun o => L.compEq o c)) comps nodes =
        sel (fun o => comps.any (fun c => L.compEq o c)) old oldNodes →
      nodes[i]? = oldNodes[i']? := by
  obtain ⟨j, hj⟩ := sel_rank (β := Nat) (p := fun c => old.any (fun o => L.compEq o c)) hc hin
  have hi : i < nodes.length := by
    obtain ⟨hl, _⟩ := List.getElem?_eq_some_iff.mp hc
    omega
  have hlt : j < (old.filter (fun o => comps.any (fun c => L.compEq o c))).length := by
    rw [← sel_length h2, ← h]
    by_contra hge
    have := hj nodes h1
    rw [List.getElem?_eq_none (by omega), List.getElem?_eq_getElem hi] at this
    cases this
  obtain ⟨i', a, g1, _, g3⟩ := sel_unrank (β := Nat) hlt
  refine ⟨i', (List.getElem?_eq_some_iff.mp g1).1, fun ns os k1 k2 k3 => ?_⟩
  rw [← hj ns k1, k3, g3 os k2]

theorem accepted_node {τ : TableOrder} {e e' : Engine L} {new : Ast L.Comp}
    {diff t1 gone1 t2 gone2 g3 created g5} (hI : Inv e)
    (h : Accepted τ e new e' diff t1 gone1 t2 gone2 g3 created g5) {i : Nat}
    (hi : i = e.dest ∨ i = e.input) : Survives e.graph e'.graph i := by
  have hlive : e.graph.Live i := (hI.live i).mpr (hi.elim .inl (fun h => .inr (.inl h)))
  obtain ⟨d, hd⟩ := hlive
  have f := h.facts
  obtain ⟨_, r2, _⟩ := removeAll_spec (ids := gone1 ++ gone2) f.wf
  have hcr : i ∉ created := by
    intro hc; rw [(f.cr i hc).1] at hd; cases hd
  have hg : i ∉ gone1 ++ gone2 := fun hg => by
    have := ((h.live hI).2.2 i hg).2.2.2
    rcases hi with hi | hi
    · exact this.1 hi
    · exact this.2 hi
  have h4 : ((removeAll g3 (gone1 ++ gone2)).clearEdges).node? i = some d := by
    show (removeAll g3 (gone1 ++ gone2)).node? i = some d
    rw [r2]
    simp only [hg, if_false]
    rw [f.nodes i hcr]
    exact hd
  obtain ⟨n, h5, h6⟩ := h.adds.rewired.some i d h4
  exact ⟨d, n, hd, h5, h6⟩

/-- What is known about an accepted update of a clean program. -/
structure Updated (e e' : Engine L) (new : Ast L.Comp) : Prop where
  inv : Inv e
  inv' : Inv e'
  settings : e'.N = e.N ∧ e'.samples = e.samples ∧ e'.bpm = e.bpm ∧ e'.sr = e.sr ∧ e'.seed = e.seed ∧
    e'.trackAmp = e.trackAmp
  ast : e'.ast = some new
  dest : e'.dest = e.dest ∧ Survives e.graph e'.graph e.dest
  input : e'.input = e.input ∧ Survives e.graph e'.graph e.input
  chain : ∀ k comps old, (k, comps) ∈ new → IsOld e k old →
    ∃ nodes oldNodes, (k, nodes) ∈ e'.index ∧ nodes.length = comps.length ∧
      oldNodes.length = old.length ∧ (old ≠ [] → (k, oldNodes) ∈ e.index) ∧
      sel (fun c => old.any (fun o => L.compEq o c)) comps nodes =
        sel (fun o => comps.any (fun c => L.compEq o c)) old oldNodes ∧
      (∀ (i : Nat) c n, comps[i]? = some c → nodes[i]? = some n →
        old.any (fun o => L.compEq o c) = false →
        e.graph.node? n = none ∧ BuiltFrom e e'.graph c n) ∧
      (∀ n, n ∈ nodes → e.graph.Live n → Survives e.graph e'.graph n)
  builtin : ∀ k c, k ∉ keys new → ((k, c) ∈ e'.index ↔ k ∉ oldKeys e ∧ (k, c) ∈ e.index)
  builtinNode : ∀ k c n, k ∉ keys new → (k, c) ∈ e'.index → n ∈ c → Survives e.graph e'.graph n

theorem updated (hL : ParserWf L) (hq : EqLaws L) {e e' : Engine L} (hr : CleanReach L e)
    {τ : TableOrder} {code : Name} {new : Ast L.Comp} (hparse : L.parse code = .ok (some new))
    (hc : CleanProg L new) (h : e.updateWithCode τ code = .ok (e', none)) : Updated e e' new := by
  have hI := inv_reachable hL hr.reachable
  have hm := mirrors_clean hL hq hr
  have hchain := @chain_of_update L hL hq e e' hr τ code new hparse hc h
  unfold Engine.updateWithCode at h
  rw [hparse] at h
  have h : e.updateAst τ new = .ok (e', none) := h
  have hp := hL code new hparse
  have hI' := inv_of_accepted hI hp h
  obtain ⟨diff, t1, gone1, t2, gone2, g3, cr, g5, ha⟩ := accepted hI hp h
  have hb : ∀ k c, k ∉ keys new → ((k, c) ∈ e'.index ↔ k ∉ oldKeys e ∧ (k, c) ∈ e.index) := by
    intro k c hk
    have := (staged_table hq hI hm hp hc.dupFree (hm.noClash hc) ha.staged k).1 hk
    constructor
    · intro hmem
      rw [lookup_of_mem hI'.keysNodup hmem] at this
      split at this
      · cases this
      · rename_i ho
        exact ⟨ho, lookup_mem this.symm⟩
    · rintro ⟨ho, hmem⟩
      rw [if_neg ho, lookup_of_mem hI.keysNodup hmem] at this
      exact lookup_mem this
  refine ⟨hI, hI', ?_, by rw [ha.eq], ⟨by rw [ha.eq], accepted_node hI ha (.inl rfl)⟩,
    ⟨by rw [ha.eq], accepted_node hI ha (.inr rfl)⟩, ?_, hb, ?_⟩
  · exact ⟨by rw [ha.eq], by rw [ha.eq], by rw [ha.eq],
      by rw [ha.eq], by rw [ha.eq], by rw [ha.eq]⟩
  · exact fun k comps old hk hold => hchain hk hold
  · intro k c n hk hmem hn
    have h1 := (hb k c hk).mp hmem
    exact accepted_survives hI ha (mem_flat.mpr ⟨k, c, hmem, hn⟩)
      ((hI.live n).mpr (.inr (.inr (mem_flat.mpr ⟨k, c, h1.2, hn⟩))))

/-- The chains of the program in force are the same. -/
theorem isOld_perm {e1 e2 : Engine L} (hc : Corresponds e1 e2) {k : Name} {old : List L.Comp}
    (h : IsOld e1 k old) : IsOld e2 k old := by
  rcases hc.ast with ⟨h1, h2⟩ | ⟨a, b, h1, h2, hp⟩
  · rcases h with ⟨a, ha, _⟩ | ⟨rfl, _⟩
    · rw [h1] at ha; cases ha
    · exact .inr ⟨rfl, fun a ha => by rw [h2] at ha; cases ha⟩
  · rcases h with ⟨a', ha, hm⟩ | ⟨rfl, hn⟩
    · rw [h1] at ha; cases ha
      exact .inl ⟨b, h2, hp.mem_iff.mp hm⟩
    · refine .inr ⟨rfl, fun b' hb hm => ?_⟩
      rw [h2] at hb; cases hb
      exact hn a h1 ((hp.map Prod.fst).mem_iff.mpr hm)

theorem oldKeys_perm {e1 e2 : Engine L} (hc : Corresponds e1 e2) (k : Name) : k ∈ oldKeys e1 ↔ k ∈ oldKeys e2 := by
  rw [mem_oldKeys, mem_oldKeys]
  rcases hc.ast with ⟨h1, h2⟩ | ⟨a, b, h1, h2, hp⟩
  · simp [h1, h2]
  · simp only [h1, h2, Option.some.injEq, exists_eq_left']
    exact (hp.map Prod.fst).mem_iff

theorem exists_isOld (e : Engine L) (k : Name) : ∃ old, IsOld e k old := by
  cases ha : e.ast with
  | none => exact ⟨[], .inr ⟨rfl, fun a h => by rw [ha] at h; cases h⟩⟩
  | some a =>
    by_cases hk : k ∈ keys a
    · obtain ⟨old, ho⟩ := mem_keys.mp hk
      exact ⟨old, .inl ⟨a, ha, ho⟩⟩
    · refine ⟨[], .inr ⟨rfl, fun b hb => ?_⟩⟩
      rw [ha] at hb; cases hb; exact hk

/-- Nodes at the same place after the two updates come from the same place, or were built from the same
component. -/
theorem same_origin {e1 e2 e1' e2' : Engine L} {new1 new2 : Ast L.Comp} (hp : new1.Perm new2)
    (hc : Corresponds e1 e2) (u1 : Updated e1 e1' new1) (u2 : Updated e2 e2' new2) {p : Place} {n1 n2 : Nat}
    (s1 : Sits e1' p n1) (s2 : Sits e2' p n2) :
    (∃ q, Sits e1 q n1 ∧ Sits e2 q n2 ∧ Survives e1.graph e1'.graph n1 ∧ Survives e2.graph e2'.graph n2) ∨
    (∃ c, e1.graph.node? n1 = none ∧ e2.graph.node? n2 = none ∧ BuiltFrom e1 e1'.graph c n1 ∧
      BuiltFrom e2 e2'.graph c n2) := by
  cases s1 with
  | dest =>
    cases s2
    rw [u1.dest.1, u2.dest.1]
    exact .inl ⟨.dest, .dest, .dest, u1.dest.2, u2.dest.2⟩
  | input =>
    cases s2
    rw [u1.input.1, u2.input.1]
    exact .inl ⟨.input, .input, .input, u1.input.2, u2.input.2⟩
  | @«at» k c1 i _ a1 b1 =>
    cases s2 with
    | @«at» _ c2 _ _ a2 b2 =>
      by_cases hk : k ∈ keys new1
      · obtain ⟨comps, hmem⟩ := mem_keys.mp hk
        obtain ⟨old, hold⟩ := exists_isOld e1 k
        obtain ⟨ns1, os1, x1, x2, x3, x4, x5, x6, x7⟩ := u1.chain k comps old hmem hold
        obtain ⟨ns2, os2, y1, y2, y3, y4, y5, y6, y7⟩ :=
          u2.chain k comps old (hp.mem_iff.mp hmem) (isOld_perm hc hold)
        have e1 := lookup_of_mem u1.inv'.keysNodup a1
        rw [lookup_of_mem u1.inv'.keysNodup x1] at e1
        cases e1
        have e2 := lookup_of_mem u2.inv'.keysNodup a2
        rw [lookup_of_mem u2.inv'.keysNodup y1] at e2
        cases e2
        have hi : i < comps.length := by
          have := (List.getElem?_eq_some_iff.mp b1).1; omega
        have hci : comps[i]? = some comps[i] := List.getElem?_eq_getElem hi
        cases hin : old.any (fun o => L.compEq o comps[i]) with
        | true =>
          obtain ⟨i', hi', hpos⟩ := kept_pos x2 x3 x5 hci hin
          have hne : old ≠ [] := by rintro rfl; simp at hi'
          have g1 := hpos _ os1 x2 x3 x5
          have g2 := hpos _ os2 y2 y3 y5
          rw [b1] at g1
          rw [b2] at g2
          have k1 : Sits _ (.at k i') n1 := .at (x4 hne) g1.symm
          have k2 : Sits _ (.at k i') n2 := .at (y4 hne) g2.symm
          exact .inl ⟨_, k1, k2, x7 _ (List.mem_of_getElem? b1) (sits_live u1.inv k1),
            y7 _ (List.mem_of_getElem? b2) (sits_live u2.inv k2)⟩
        | false =>
          obtain ⟨f1, f2⟩ := x6 i _ n1 hci b1 hin
          obtain ⟨f3, f4⟩ := y6 i _ n2 hci b2 hin
          exact .inr ⟨_, f1, f3, f2, f4⟩
      · have hk2 : k ∉ keys new2 := fun h => hk ((hp.map Prod.fst).mem_iff.mpr h)
        have k1 : Sits e1 (.at k i) n1 := .at ((u1.builtin k c1 hk).mp a1).2 b1
        have k2 : Sits e2 (.at k i) n2 := .at ((u2.builtin k c2 hk2).mp a2).2 b2
        exact .inl ⟨_, k1, k2, u1.builtinNode k c1 n1 hk a1 (List.mem_of_getElem? b1),
          u2.builtinNode k c2 n2 hk2 a2 (List.mem_of_getElem? b2)⟩

/-- The same places exist after the two updates. -/
theorem same_places {e1 e2 e1' e2' : Engine L} {new1 new2 : Ast L.Comp} (hp : new1.Perm new2)
    (hc : Corresponds e1 e2) (u1 : Updated e1 e1' new1) (u2 : Updated e2 e2' new2) {p : Place}
    (h : ∃ n, Sits e1' p n) : ∃ n, Sits e2' p n := by
  obtain ⟨n, s1⟩ := h
  cases s1 with
  | dest => exact ⟨_, .dest⟩
  | input => exact ⟨_, .input⟩
  | @«at» k c1 i _ a1 b1 =>
    by_cases hk : k ∈ keys new1
    · obtain ⟨comps, hmem⟩ := mem_keys.mp hk
      obtain ⟨old, hold⟩ := exists_isOld e1 k
      obtain ⟨ns1, os1, x1, x2, _⟩ := u1.chain k comps old hmem hold
      obtain ⟨ns2, os2, y1, y2, _⟩ := u2.chain k comps old (hp.mem_iff.mp hmem) (isOld_perm hc hold)
      have e1 := lookup_of_mem u1.inv'.keysNodup a1
      rw [lookup_of_mem u1.inv'.keysNodup x1] at e1
      cases e1
      have hi : i < ns2.length := by
        have := (List.getElem?_eq_some_iff.mp b1).1; omega
      exact ⟨_, .at y1 (List.getElem?_eq_getElem hi)⟩
    · have hk2 : k ∉ keys new2 := fun h => hk ((hp.map Prod.fst).mem_iff.mpr h)
      obtain ⟨ho, hm⟩ := (u1.builtin k c1 hk).mp a1
      obtain ⟨n2, s2⟩ := (hc.places (.at k i)).mp ⟨_, .at hm b1⟩
      cases s2 with
      | «at» a2 b2 =>
        exact ⟨n2, .at ((u2.builtin k _ hk2).mpr ⟨fun h => ho ((oldKeys_perm hc k).mpr h), a2⟩) b2⟩

theorem Corresponds.symm {e1 e2 : Engine L} (h : Corresponds e1 e2) : Corresponds e2 e1 := by
  refine ⟨h.N.symm, h.samples.symm, h.bpm.symm, h.sr.symm, h.seed.symm, h.trackAmp.symm, ?_,
    fun p => (h.places p).symm, ?_, ?_⟩
  · rcases h.ast with ⟨h1, h2⟩ | ⟨a, b, h1, h2, hp⟩
    · exact .inl ⟨h2, h1⟩
    · exact .inr ⟨b, a, h2, h1, hp.symm⟩
  · intro p n1 n2 s1 s2
    obtain ⟨d1, d2, n0, g1, g2, g3, g4, g5⟩ := h.states p n2 n1 s2 s1
    exact ⟨d2, d1, n0, g2, g1, g3.symm, g5, g4⟩
  · intro p q a1 b1 a2 b2 s1 s2 s3 s4
    exact (h.edges p q a2 b2 a1 b1 s3 s4 s1 s2).symm

theorem Rewire.trans {n0 n1 n2 : L.Node} (h : Rewire L n0 n1) (h' : Rewire L n1 n2) : Rewire L n0 n2 := by
  induction h with
  | refl => exact h'
  | step a b _ ih => exact .step a b (ih h')

/-! ### Acceptance -/

theorem diffAll_ok_iff {mk : L.Comp → Except Stop (L.Data × List Name)} {old : Option (Ast L.Comp)} :
    ∀ {new : Ast L.Comp}, (∃ d, diffAll mk old new = .ok d) ↔
      ∀ k comps, (k, comps) ∈ new → ∃ d, diffChain mk old k comps = .ok d := by
  intro new
  induction new with
  | nil => simp [diffAll]
  | cons x new ih =>
    obtain ⟨k, comps⟩ := x
    constructor
    · rintro ⟨d, hd⟩
      simp only [diffAll, except_bind_ok] at hd
      obtain ⟨d1, h1, d2, h2, _⟩ := hd
      intro k' comps' hm
      rcases List.mem_cons.mp hm with hm | hm
      · cases hm; exact ⟨d1, h1⟩
      · exact ih.mp ⟨d2, h2⟩ k' comps' hm
    · intro h
      obtain ⟨d1, h1⟩ := h k comps (by simp)
      obtain ⟨d2, h2⟩ := ih.mpr (fun k c hm => h k c (List.mem_cons_of_mem _ hm))
      refine ⟨d1.append d2, ?_⟩
      simp only [diffAll, h1, h2, bind, Except.bind]

/-- A clean program is accepted exactly if its nodes can be built and its references resolve. -/
theorem accepts_iff (hL : ParserWf L) (hq : EqLaws L) (hl : RefLaws L) (hw : WiringTotal L) {e : Engine L}
    (hr : CleanReach L e) {τ : TableOrder} {code : Name} {new : Ast L.Comp}
    (hparse : L.parse code = .ok (some new)) (hc : CleanProg L new)
    (hrw : ∀ r, progRefs L new r → RefWf r) :
    (∃ e', e.updateWithCode τ code = .ok (e', none)) ↔
      (∃ d, diffAll (L.make e.samples e.sr e.bpm e.seed) e.ast new = .ok d) ∧
      ∀ r, progRefs L new r → Resolves (available e new) r := by
  have hI := inv_reachable hL hr.reachable
  have hm := mirrors_clean hL hq hr
  have hp := hL code new hparse
  have hu : e.updateWithCode τ code = e.updateAst τ new := by
    unfold Engine.updateWithCode
    rw [hparse]
    rfl
  rw [hu]
  constructor
  · rintro ⟨e', h⟩
    obtain ⟨diff, t1, gone1, t2, gone2, g3, cr, g5, ha⟩ := accepted hI hp h
    refine ⟨⟨diff, ha.staged.diffEq⟩, fun r hr => ?_⟩
    have f := ha.facts
    have hrefs := diff_refs hq hl ha.staged.diffEq
    exact (refCheck_spec (rs := diff.refpairs.flatMap (·.1)) (mem_available f) f.newT3
      (fun r hr => hrw r ((hrefs r).mp hr))).1.mp ha.check r ((hrefs r).mpr hr)
  · rintro ⟨⟨d, hd⟩, hres⟩
    obtain ⟨⟨e', res⟩, h⟩ := updateAst_total (τ := τ) hw hq hI hm hp hc (fun p hx => by rw [hd] at hx; cases hx)
    refine ⟨e', ?_⟩
    rw [h]
    rcases updateAst_cases h with ⟨x, hx, _⟩ | ⟨diff, t1, gone1, t2, gone2, g3, t3, cr, hs, hcase⟩
    · rw [hd] at hx; cases hx
    · have f := staged_facts hI hp hs
      have hrefs := diff_refs hq hl hs.diffEq
      obtain ⟨_, s2⟩ := refCheck_spec (rs := diff.refpairs.flatMap (·.1))
        (mem_available f) f.newT3 (fun r hr => hrw r ((hrefs r).mp hr))
      rcases hcase with ⟨y, hy, rfl, _⟩ | ⟨hn, ⟨g5, y, h5, _⟩ | ⟨g5, g6, _, _, rfl, _⟩⟩
      · obtain ⟨u1, u2⟩ := s2 y hy
        exact absurd (hres y ((hrefs y).mp u1)) u2
      · obtain ⟨refs, name, pos, hm, hlk⟩ := connectPairs_err h5
        have hk := f.newT3 _ (f.refNames _ _ _ hm)
        rw [lookup_perm (τ.perm t3) f.keysT3, lookup_none] at hlk
        exact absurd hk hlk
      · rfl

theorem progRefs_perm {p1 p2 : Ast L.Comp} (h : p1.Perm p2) {r : Name} (hr : progRefs L p1 r) :
    progRefs L p2 r := by
  obtain ⟨k, comps, c, h1, h2, h3⟩ := hr
  exact ⟨k, comps, c, h.mem_iff.mp h1, h2, h3⟩

theorem resolves_mono {a b : List Name} (h : ∀ k, k ∈ a → k ∈ b) {r : Name} (hr : Resolves a r) :
    Resolves b r := by
  cases hr with
  | named h1 h2 => exact .named h1 (h _ h2)
  | pattern h1 h2 h3 => exact .pattern h1 (h _ h2) h3

theorem cleanProg_perm {p1 p2 : Ast L.Comp} (h : p1.Perm p2) (hc : CleanProg L p1) : CleanProg L p2 :=
  ⟨fun k c hm => hc.distinct k c (h.mem_iff.mpr hm),
   fun hm => hc.noInput ((h.map Prod.fst).mem_iff.mpr hm)⟩

/-- One direction of the equivalence of acceptance. -/
theorem accepts_mono (hL : ParserWf L) (hq : EqLaws L) (hl : RefLaws L) (hw : WiringTotal L)
    {e1 e2 : Engine L} (hr1 : CleanReach L e1) (hr2 : CleanReach L e2) (hc : Corresponds e1 e2)
    (τ1 τ2 : TableOrder) {code1 code2 : Name} {new1 new2 : Ast L.Comp}
    (hparse1 : L.parse code1 = .ok (some new1)) (hparse2 : L.parse code2 = .ok (some new2))
    (hp : new1.Perm new2) (hclean : CleanProg L new1) (hrw : ∀ r, progRefs L new1 r → RefWf r)
    (h : ∃ e', e1.updateWithCode τ1 code1 = .ok (e', none)) :
    ∃ e', e2.updateWithCode τ2 code2 = .ok (e', none) := by
  have hI1 := inv_reachable hL hr1.reachable
  have hI2 := inv_reachable hL hr2.reachable
  have hm1 := mirrors_clean hL hq hr1
  rw [accepts_iff hL hq hl hw hr1 hparse1 hclean hrw] at h
  rw [accepts_iff hL hq hl hw hr2 hparse2 (cleanProg_perm hp hclean)
    (fun r hr => hrw r (progRefs_perm hp.symm hr))]
  obtain ⟨h1, h2⟩ := h
  rw [diffAll_ok_iff] at h1 ⊢
  refine ⟨fun k comps hm => ?_, fun r hr => ?_⟩
  · obtain ⟨d, hd⟩ := h1 k comps (hp.mem_iff.mpr hm)
    refine ⟨d, ?_⟩
    have hold : e1.ast.bind (fun o => lookup o k) = e2.ast.bind (fun o => lookup o k) := by
      rcases hc.ast with ⟨g1, g2⟩ | ⟨a, b, g1, g2, hab⟩
      · rw [g1, g2]
      · rw [g1, g2]
        exact lookup_perm hab (hI2.ast b g2).names k
    unfold diffChain at hd ⊢
    rw [← hold, ← hc.samples, ← hc.sr, ← hc.bpm, ← hc.seed]
    exact hd
  · refine resolves_mono ?_ (h2 r (progRefs_perm hp.symm hr))
    intro k hk
    have hast : ∀ e : Engine L, k ∈ (e.ast.getD []).map Prod.fst ↔ k ∈ oldKeys e := by
      intro e
      unfold oldKeys
      cases e.ast <;> simp
    unfold available at hk ⊢
    rw [List.mem_append, List.mem_filter] at hk ⊢
    simp only [Bool.not_eq_true', decide_eq_false_iff_not, hast] at hk ⊢
    rcases hk with hk | ⟨hk, ho⟩
    · exact .inl ((hp.map Prod.fst).mem_iff.mp hk)
    · refine .inr ⟨?_, fun h => ho ((oldKeys_perm hc k).mpr h)⟩
      obtain ⟨c, hkc⟩ := mem_keys.mp hk
      obtain ⟨c2, hc2⟩ := samePlaces_chain (fun p => (hc.places p).mp) hkc (chain_ne hI1 hm1 hkc)
      exact mem_keys.mpr ⟨c2, hc2⟩

/-- **C17** (partial). Let two engines, reached with clean programs, differ at most in the numbering of
their nodes and the orders of their hash tables, and send them the same program, its chains in any order
and with any iteration order of the chain table. Then both accept it or neither does. If they do, they again
differ at most in that: the same chains and settings, at each place the same state up to wiring, and the
same connections. A node kept from a place by one is kept from that place by the other.
Missing: programs with repeated components; which of several errors is reported does depend on the order
(`c17_error_counterexample`). -/
theorem c17_hash_order_partial (hL : ParserWf L) (hq : EqLaws L) (hl : RefLaws L) (hw : WiringTotal L)
    {e1 e2 : Engine L} (hr1 : CleanReach L e1) (hr2 : CleanReach L e2) (hc : Corresponds e1 e2)
    (τ1 τ2 : TableOrder) (code1 code2 : Name) (new1 new2 : Ast L.Comp)
    (hparse1 : L.parse code1 = .ok (some new1)) (hparse2 : L.parse code2 = .ok (some new2))
    (hp : new1.Perm new2) (hclean : CleanProg L new1) (hrw : ∀ r, progRefs L new1 r → RefWf r) :
    ((∃ e', e1.updateWithCode τ1 code1 = .ok (e', none)) ↔
      ∃ e', e2.updateWithCode τ2 code2 = .ok (e', none)) ∧
    ∀ e1' e2', e1.updateWithCode τ1 code1 = .ok (e1', none) → e2.updateWithCode τ2 code2 = .ok (e2', none) →
      Corresponds e1' e2' ∧
      ∀ p n1 n2, Sits e1' p n1 → Sits e2' p n2 → ∀ q, Sits e1 q n1 ↔ Sits e2 q n2 := by
  have hclean2 := cleanProg_perm hp hclean
  have hrw2 : ∀ r, progRefs L new2 r → RefWf r := fun r hr => hrw r (progRefs_perm hp.symm hr)
  refine ⟨⟨accepts_mono hL hq hl hw hr1 hr2 hc τ1 τ2 hparse1 hparse2 hp hclean hrw,
    accepts_mono hL hq hl hw hr2 hr1 (Corresponds.symm hc) τ2 τ1 hparse2 hparse1 hp.symm hclean2 hrw2⟩, ?_⟩
  intro e1' e2' ha1 ha2
  have u1 := updated hL hq hr1 hparse1 hclean ha1
  have u2 := updated hL hq hr2 hparse2 hclean2 ha2
  have hplaces : ∀ p, (∃ n, Sits e1' p n) ↔ ∃ n, Sits e2' p n := fun p =>
    ⟨same_places hp hc u1 u2, same_places hp.symm (Corresponds.symm hc) u2 u1⟩
  obtain ⟨x1, x2, x3, x4, x5, x6⟩ := u1.settings
  obtain ⟨y1, y2, y3, y4, y5, y6⟩ := u2.settings
  refine ⟨⟨?_, ?_, ?_, ?_, ?_, ?_, .inr ⟨_, _, u1.ast, u2.ast, hp⟩, hplaces, ?_, ?_⟩, ?_⟩
  · rw [x1, y1, hc.N]
  · rw [x2, y2, hc.samples]
  · rw [x3, y3, hc.bpm]
  · rw [x4, y4, hc.sr]
  · rw [x5, y5, hc.seed]
  · rw [x6, y6, hc.trackAmp]
  · intro p n1 n2 s1 s2
    rcases same_origin hp hc u1 u2 s1 s2 with ⟨q, k1, k2, ⟨d1, m1, v1, v2, v3⟩, ⟨d2, m2, w1, w2, w3⟩⟩ |
      ⟨c, _, _, ⟨nd1, r1, m1, v1, v2, v3⟩, ⟨nd2, r2, m2, w1, w2, w3⟩⟩
    · obtain ⟨b1, b2, n0, z1, z2, z3, z4, z5⟩ := hc.states q n1 n2 k1 k2
      rw [v1] at z1
      rw [w1] at z2
      cases z1
      cases z2
      exact ⟨_, _, n0, v2, w2, z3, Rewire.trans z4 v3, Rewire.trans z5 w3⟩
    · rw [hc.samples, hc.sr, hc.bpm, hc.seed, w1] at v1
      cases v1
      exact ⟨_, _, _, v2, w2, rfl, v3, w3⟩
  · intro p q a1 b1 a2 b2 s1 s2 s3 s4
    rw [c06_connections_exact_partial hL hq hl hr1 τ1 code1 new1 hparse1 hclean hrw ha1,
      c06_connections_exact_partial hL hq hl hr2 τ2 code2 new2 hparse2 hclean2 hrw2 ha2]
    exact ⟨wanted_places u1.inv' u2.inv' hplaces hp s1 s2 s3 s4,
      wanted_places u2.inv' u1.inv' (fun p => (hplaces p).symm) hp.symm s3 s4 s1 s2⟩
  · intro p n1 n2 s1 s2 q
    rcases same_origin hp hc u1 u2 s1 s2 with ⟨q', k1, k2, _⟩ | ⟨c, f1, f2, _⟩
    · constructor
      · intro h
        rw [sits_place u1.inv h k1]
        exact k2
      · intro h
        rw [sits_place u2.inv h k2]
        exact k1
    · constructor
      · intro h
        exact absurd (sits_live u1.inv h) (Graph.not_live.mpr f1)
      · intro h
        exact absurd (sits_live u2.inv h) (Graph.not_live.mpr f2)

/-- An engine corresponds to itself. -/
theorem corresponds_refl {e : Engine L} (hI : Inv e) : Corresponds e e := by
  refine ⟨rfl, rfl, rfl, rfl, rfl, rfl, ?_, fun p => Iff.rfl, ?_, ?_⟩
  · cases h : e.ast with
    | none => exact .inl ⟨rfl, rfl⟩
    | some a => exact .inr ⟨a, a, rfl, rfl, .refl a⟩
  · intro p n1 n2 s1 s2
    have := sits_node hI s1 s2
    subst this
    obtain ⟨d, hd⟩ := sits_live hI s1
    exact ⟨d, d, d.node, hd, hd, rfl, .refl _, .refl _⟩
  · intro p q a1 b1 a2 b2 s1 s2 s3 s4
    rw [sits_node hI s1 s3, sits_node hI s2 s4]

/-- Two orders of the same program and two orders of the chain table: different node numbers, both accepted. -/
example : ParserWf Toy.lang ∧ EqLaws Toy.lang ∧ RefLaws Toy.lang ∧ WiringTotal Toy.lang ∧
    CleanReach Toy.lang Toy.e1 ∧ Corresponds Toy.e1 Toy.e1 ∧
    Toy.lang.parse Toy.t2 = .ok (some Toy.prog2) ∧ Toy.lang.parse Toy.t5 = .ok (some Toy.prog5) ∧
    Toy.prog2.Perm Toy.prog5 ∧ CleanProg Toy.lang Toy.prog2 ∧
    (∃ e', Toy.e1.updateWithCode .ident Toy.t2 = .ok (e', none) ∧ (Toy.nameP, [7]) ∈ e'.index) ∧
    (∃ e', Toy.e1.updateWithCode .rev Toy.t5 = .ok (e', none) ∧ (Toy.nameP, [6]) ∈ e'.index) :=
  ⟨Toy.parserWf, toy_eqLaws, toy_refLaws, toy_wiring, toy_clean1,
    corresponds_refl (inv_reachable Toy.parserWf Toy.reach1), rfl, rfl, by decide, toy_cleanProg2,
    ⟨_, rfl, by decide⟩, ⟨_, rfl, by decide⟩⟩

/-- Which of two errors is reported depends on the order: for `o: sin ~a; p: sin ~b` the missing chain is
`~a` or `~b`. -/
theorem c17_error_counterexample (P : Plat) (N : Nat) :
    ∃ (progs : List (Name × Ast Comp)) (p1 p2 : Ast Comp) (e : Engine (glicol P N (Demo.table progs))),
      Demo.table progs ['x'] = .ok (some p1) ∧ Demo.table progs ['y'] = .ok (some p2) ∧ p1.Perm p2 ∧
      CleanReach _ e ∧
      (∃ e', e.updateWithCode .ident ['x'] = .ok (e', some (.nonExistReference ['~', 'a']))) ∧
      (∃ e', e.updateWithCode .ident ['y'] = .ok (e', some (.nonExistReference ['~', 'b']))) := by
  refine ⟨[(['x'], [(['o'], [.sin (.ref ['~', 'a'])]), (['p'], [.sin (.ref ['~', 'b'])])]),
    (['y'], [(['p'], [.sin (.ref ['~', 'b'])]), (['o'], [.sin (.ref ['~', 'a'])])])], _, _,
    Engine.new _ N, rfl, rfl, .swap _ _ _, .new N, ⟨_, rfl⟩, ⟨_, rfl⟩⟩

end Verif.Props
