import Verif.Props.Flow
import Verif.Props.Order
import Verif.Spec.Compose

/-!
# C49: a program is the composition of its components
-/

namespace Verif.Props
open Verif Spec

variable {L : Lang}

theorem nextBlock_same {ho : HashOrder} {e e' : Engine L} {ins out : List (List L.Num)}
    (h : e.nextBlock ho ins = .ok (e', out)) :
    e'.ast = e.ast ∧ e'.index = e.index ∧ e'.dest = e.dest ∧ e'.input = e.input := by
  obtain ⟨e1, g, dd, h1, h2, h3, rfl, rfl⟩ := nextBlock_ok h
  have hon := onlyNodes_copyInputs h1
  exact ⟨by show e1.ast = _; rw [hon.eq], by show e1.index = _; rw [hon.eq], by show e1.dest = _; rw [hon.eq],
    by show e1.input = _; rw [hon.eq]⟩

theorem sits_same {e e' : Engine L} (h1 : e'.index = e.index) (h2 : e'.dest = e.dest) (h3 : e'.input = e.input)
    {p : Place} {n : Nat} (h : Sits e' p n) : Sits e p n := by
  cases h with
  | dest => rw [h2]; exact .dest
  | input => rw [h3]; exact .input
  | «at» k1 k2 => exact .at (h1 ▸ k1) k2

theorem sits_block {ho : HashOrder} {e e' : Engine L} {ins out : List (List L.Num)}
    (h : e.nextBlock ho ins = .ok (e', out)) {p : Place} {n : Nat} : Sits e' p n ↔ Sits e p n := by
  obtain ⟨_, h1, h2, h3⟩ := nextBlock_same h
  exact ⟨sits_same h1 h2 h3, sits_same h1.symm h2.symm h3.symm⟩

/-- Nothing flows into the built-in chain. -/
theorem flow_input {refs : L.Comp → List Name} {a : Ast L.Comp} {b : Bool} (hin : inputName ∉ a.map Prod.fst)
    {p : Place} : ¬ Flow refs a b p (.at ['~', 'i', 'n', 'p', 'u', 't'] 0) := by
  intro h
  generalize hq : Place.at ['~', 'i', 'n', 'p', 'u', 't'] 0 = q at h
  cases h with
  | next => cases hq
  | out => cases hq
  | ref hm =>
    cases hq
    exact hin (List.mem_map.mpr ⟨_, hm, rfl⟩)

theorem leads_input {refs : L.Comp → List Name} {a : Ast L.Comp} {b : Bool} (hin : inputName ∉ a.map Prod.fst)
    {p q : Place} (h : Leads refs a b p q) (hq : q = .at ['~', 'i', 'n', 'p', 'u', 't'] 0) : p = q := by
  induction h with
  | refl => rfl
  | step hf hl ih =>
    rw [ih hq, hq] at hf
    exact absurd hf (flow_input hin)

/-- Several blocks compute the program in force. -/
theorem plays_compute (hL : ParserWf L) (hq : EqLaws L) (hl : RefLaws L) {a : Ast L.Comp}
    (hrw : ∀ r, progRefs L a r → RefWf r) {b : Bool} {steps : List (HashOrder × List (List L.Num))}
    {e e' : Engine L} {outs : List (List (List L.Num))} (h : Plays e steps e' outs) :
    ∀ (_ : CleanReach L e) (_ : e.ast = some a) (_ : b = true ↔ ['~', 'i', 'n', 'p', 'u', 't'] ∈ e.index.map Prod.fst)
      (start : Place → List (List L.Num))
      (_ : ∀ q n d, Leads L.refs a b q .dest → Sits e q n → e.graph.node? n = some d → start q = d.buffers),
    ∃ sig : Place → List (List (List L.Num)), outs = sig .dest ∧
      (∀ p, Leads L.refs a b p .dest → (sig p).length = steps.length) ∧
      (∀ p n d, Leads L.refs a b p .dest → p ≠ .at ['~', 'i', 'n', 'p', 'u', 't'] 0 → Sits e p n →
        e.graph.node? n = some d → ∃ inputs, inputs.length = steps.length ∧
          runBlocks L.proc d.node d.buffers inputs = .ok (sig p) ∧
          Hears (Flow L.refs a b) (Leads L.refs a b) (Sits e) start sig p inputs) ∧
      (∀ n d, Leads L.refs a b (.at ['~', 'i', 'n', 'p', 'u', 't'] 0) .dest →
        Sits e (.at ['~', 'i', 'n', 'p', 'u', 't'] 0) n → e.graph.node? n = some d →
        feedBlocks L.proc d.node d.buffers (steps.map Prod.snd) = .ok (sig (.at ['~', 'i', 'n', 'p', 'u', 't'] 0))) ∧
      ∀ p, Leads L.refs a b p .dest → ∀ x, x ∈ sig p → ∃ e' n node, CleanReach L e' ∧ e'.N = e.N ∧
        e'.graph.node? n = some ⟨node, x⟩ := by
  induction h with
  | nil e =>
    intro hr hast hb start hst
    refine ⟨fun _ => [], rfl, fun _ _ => rfl, ?_, fun _ _ _ _ _ => rfl, fun _ _ _ h => by cases h⟩
    intro p n d _ _ _ _
    exact ⟨[], rfl, rfl, fun t inp h => by simp at h⟩
  | @cons e e1 e2 ho ins out steps outs hblk hrest ih =>
    intro hr hast hb start hst
    obtain ⟨sig1, prev1, hout, hsig1⟩ := c48_block_computes_the_program_partial hL hq hl hr a hast hrw ho ins out hblk b hb
    obtain ⟨s1, s2, s3, s4⟩ := nextBlock_same hblk
    have hr1 : CleanReach L e1 := .step (.nextBlock ho ins) hr trivial (by
      simp only [Op.apply, hblk]; rfl)
    have hN1 : e1.N = e.N := apply_N hL hr.reachable (op := .nextBlock ho ins) (by simp only [Op.apply, hblk]; rfl)
    have hI := inv_reachable hL hr.reachable
    have hin : inputName ∉ a.map Prod.fst := clean_noInput hL hr a hast
    obtain ⟨sigR, hout2, hlen, hR, hRi, hRh⟩ := ih hr1 (s1.trans hast) (by rw [s2]; exact hb) sig1 (by
      intro q n d hq hs hd
      obtain ⟨m, node, node', bufs, inputs, srcs, c1, c2, c3, c3', c4, c5, _⟩ := hsig1 q hq
      have := sits_node hI c1 ((sits_block hblk).mp hs)
      subst this
      rw [c5] at hd
      cases hd
      rfl)
    refine ⟨fun p => sig1 p :: sigR p, by rw [hout, hout2], fun p hp => by simp [hlen p hp], ?_, ?_, ?_⟩
    · intro p n d hp hpi hs hd
      obtain ⟨m, node, node', bufs, inputs, srcs, c1, c2, c3, c3', c4, c5, c6, c7, c8, c9⟩ := hsig1 p hp
      have := sits_node hI c1 hs
      subst this
      rw [c2] at hd
      cases hd
      obtain ⟨inputsR, r1, r2, r3⟩ := hR p m ⟨node', sig1 p⟩ hp hpi c4 c5
      refine ⟨inputs :: inputsR, by simp [r1], ?_, ?_⟩
      · rw [c3 hpi] at c6
        simp only [runBlocks, c6]
        simp only at r2
        rw [r2]
      · intro t inp ht
        cases t with
        | zero =>
          simp only [List.getElem?_cons_zero, Option.some.injEq] at ht
          subst ht
          refine ⟨srcs, c7, c8, ?_⟩
          have hmem : ∀ q ∈ srcs, Leads L.refs a b q .dest := fun q hqs => .step ((c8 q).mp hqs).1 hp
          have hne : ∀ q ∈ srcs, q ≠ p := fun q hqs => ((c8 q).mp hqs).2
          clear c8 c7 c6
          induction c9 with
          | nil => exact .nil
          | @cons x q xs qs hx _ ih2 =>
            refine .cons ⟨hx.1, ?_⟩ (ih2 (fun q hq => hmem q (List.mem_cons_of_mem _ hq))
              (fun q hq => hne q (List.mem_cons_of_mem _ hq)))
            rcases hx.2 with h | ⟨h1, h2⟩
            · exact .inl (by rw [h]; rfl)
            · refine .inr ⟨h1, ?_⟩
              obtain ⟨mq, nodeq, _, bufsq, _, _, d1, d2, d3, _⟩ := hsig1 q (hmem q (by simp))
              rw [hst q mq _ (hmem q (by simp)) d1 d2, h2]
              have hqi : q ≠ .at ['~', 'i', 'n', 'p', 'u', 't'] 0 := by
                intro hqi
                exact hne q (by simp) (leads_input hin h1 hqi).symm
              rw [d3 hqi]
              rfl
        | succ t =>
          rw [List.getElem?_cons_succ] at ht
          obtain ⟨srcs', q1, q2, q3⟩ := r3 t inp ht
          refine ⟨srcs', q1, q2, q3.imp ?_⟩
          intro x q hx
          refine ⟨(sits_block hblk).mp hx.1, ?_⟩
          simpa only [List.getElem?_cons_succ] using hx.2
    · intro n d hp hs hd
      obtain ⟨m, node, node', bufs, inputs, srcs, c1, c2, c3, c3', c4, c5, c6, c7, c8, c9⟩ := hsig1 _ hp
      have := sits_node hI c1 hs
      subst this
      rw [c2] at hd
      cases hd
      have hR := hRi m ⟨node', _⟩ hp c4 c5
      have h0 : inputs = [] := by
        cases c9 with
        | nil => rfl
        | @cons x q xs qs _ _ => exact absurd ((c8 q).mp (by simp)).1 (flow_input hin)
      rw [h0, c3' rfl] at c6
      simp only [List.map_cons, feedBlocks, c6]
      simp only at hR
      rw [hR]
    · intro p hp x hx
      rcases List.mem_cons.mp hx with rfl | hx
      · obtain ⟨m, node, node', bufs, inputs, srcs, c1, c2, c3, c3', c4, c5, _⟩ := hsig1 p hp
        exact ⟨e1, m, node', hr1, hN1, c5⟩
      · obtain ⟨e', n, node, k1, k2, k3⟩ := hRh p hp x hx
        exact ⟨e', n, node, k1, k2.trans hN1, k3⟩

/-- C49, and every block heard is held by some node at some time. -/
theorem composes_held (hL : ParserWf L) (hq : EqLaws L) (hl : RefLaws L) {e0 e1 e2 : Engine L}
    (hr : CleanReach L e0) (τ : TableOrder) (code : Name) (new : Ast L.Comp)
    (hparse : L.parse code = .ok (some new)) (hc : CleanProg L new) (hrw : ∀ r, progRefs L new r → RefWf r)
    (hu : e0.updateWithCode τ code = .ok (e1, none))
    (steps : List (HashOrder × List (List L.Num))) (outs : List (List (List L.Num))) (h : Plays e1 steps e2 outs)
    (b : Bool) (hb : b = true ↔ ['~', 'i', 'n', 'p', 'u', 't'] ∈ e1.index.map Prod.fst) :
    ∃ start sig, outs = sig .dest ∧ Composes e0 e1 new b (steps.map Prod.snd) start sig ∧
      ∀ p, Leads L.refs new b p .dest → ∀ x, x ∈ sig p → ∃ e' n node, CleanReach L e' ∧ e'.N = e1.N ∧
        e'.graph.node? n = some ⟨node, x⟩ := by
  classical
  have hI := inv_reachable hL hr.reachable
  have hr1 : CleanReach L e1 := .step (.update τ code) hr (by
    intro p hp
    rw [hparse] at hp
    cases hp
    exact hc) (by simp only [Op.apply, hu]; rfl)
  have hI1 := inv_reachable hL hr1.reachable
  have hu' : e0.updateAst τ new = .ok (e1, none) := by
    unfold Engine.updateWithCode at hu
    rw [hparse] at hu
    exact hu
  obtain ⟨diff, t1, gone1, t2, gone2, g3, cr, g5, ha⟩ := accepted hI (hL code new hparse) hu'
  have hast : e1.ast = some new := congrArg Engine.ast ha.eq
  let start : Place → List (List L.Num) := fun p =>
    if hp : ∃ d n, Sits e1 p n ∧ e1.graph.node? n = some d then hp.choose.buffers else []
  have hstart : ∀ {p n d}, Sits e1 p n → e1.graph.node? n = some d → start p = d.buffers := by
    intro p n d hs hd
    have hp : ∃ d n, Sits e1 p n ∧ e1.graph.node? n = some d := ⟨d, n, hs, hd⟩
    simp only [start, hp, dif_pos]
    obtain ⟨n', h1, h2⟩ := hp.choose_spec
    rw [sits_node hI1 h1 hs, hd] at h2
    rw [← Option.some.inj h2]
  obtain ⟨sig, h1, h2, h3, h4, h5⟩ := plays_compute hL hq hl hrw h hr1 hast hb start (fun q n d _ hs hd => hstart hs hd)
  refine ⟨start, sig, h1, ⟨by simpa using h2, ?_, ?_, ?_⟩, h5⟩
  · obtain ⟨d, hd⟩ := (hI1.live e1.dest).mpr (.inl rfl)
    obtain ⟨inputs, k1, k2, k3⟩ := h3 .dest e1.dest d (.refl _) (by simp) .dest hd
    exact ⟨d, inputs, hd, by simpa using k1, k2, k3⟩
  · intro hp
    have hch : ∃ nodes, (inputName, nodes) ∈ e1.index ∧ nodes.length = 1 := by
      have hchain : ∃ n, Chain new b inputName n := by
        cases hp with
        | step hf _ =>
          cases hf with
          | next hc => exact ⟨_, hc⟩
          | out hc => exact ⟨_, hc⟩
          | ref _ _ _ _ hc => exact ⟨_, hc⟩
      obtain ⟨n, hn⟩ := hchain
      have hbt : b = true := by
        generalize hq : inputName = q at hn
        cases hn with
        | prog hm => subst hq; exact absurd (List.mem_map.mpr ⟨_, hm, rfl⟩) hc.noInput
        | input h => exact h
      obtain ⟨⟨k, nodes⟩, n1, n2⟩ := List.mem_map.mp (hb.mp hbt)
      cases n2
      exact ⟨nodes, n1, input_one hL hr1 nodes (lookup_of_mem hI1.keysNodup n1)⟩
    obtain ⟨nodes, n1, n2⟩ := hch
    have hs : Sits e1 (.at ['~', 'i', 'n', 'p', 'u', 't'] 0) (nodes[0]'(by omega)) :=
      .at n1 (List.getElem?_eq_getElem (by omega))
    obtain ⟨d, hd⟩ := (hI1.live _).mpr (.inr (.inr (mem_flat.mpr ⟨_, _, n1, List.getElem_mem (n2.symm ▸ Nat.zero_lt_one)⟩)))
    exact ⟨_, d, hs, hd, h4 _ d hp hs hd⟩
  · intro k comps i c old hk hi hlead hold
    obtain ⟨nodes, n1, n2, n3⟩ := (c02_table_mirrors_program_partial hL hq hr τ code new hparse hc hu).2 k comps old hk hold
    obtain ⟨hil, _⟩ := List.getElem?_eq_some_iff.mp hi
    have hb : nodes[i]? = some (nodes[i]'(by omega)) := List.getElem?_eq_getElem (by omega)
    generalize nodes[i]'(by omega) = x at hb
    obtain ⟨d, hd⟩ := (hI1.live x).mpr (.inr (.inr (mem_flat.mpr ⟨k, nodes, n1, List.mem_of_getElem? hb⟩)))
    obtain ⟨d0, rs, srcs, w1, w2, w3, w4, w5⟩ := wired_update hL hq hl hr hparse hc hrw hu hk hi n1 hb hd
    have hio : inOld e0.ast k c = old.any (fun o => L.compEq o c) := by
      rw [inOld, isOld_oldChain hI hold]
    have hne : Place.at k i ≠ .at ['~', 'i', 'n', 'p', 'u', 't'] 0 := by
      intro he
      cases he
      exact hc.noInput (List.mem_map.mpr ⟨_, hk, rfl⟩)
    obtain ⟨inputs, k1, k2, k3⟩ := h3 (.at k i) x d hlead hne (.at n1 hb) hd
    refine ⟨d0, d.node, rs, srcs, if i = 0 then none else nodes[i - 1]?, inputs, ?_, ?_, w3, ?_, w5, ?_, by simpa using k1, ?_, k3⟩
    · intro hno
      refine w2 (hio.trans ?_)
      rw [List.any_eq_false]
      intro o ho
      simp [hno o ho]
    · rintro ⟨o, ho, hoc⟩
      obtain ⟨v1, v2⟩ := w1 (hio.trans (List.any_eq_true.mpr ⟨o, ho, hoc⟩))
      refine ⟨v1, fun hord => ?_⟩
      obtain ⟨j, o', oldNodes, j1, j2, j3, j4⟩ := (n3 i c x hi hb).2 ⟨o, ho, hoc⟩ hord
      exact ⟨j, o', x, j1, j2, .at j3 j4, v2⟩
    · intro n
      cases i with
      | zero => simp
      | succ i =>
        simp only [Nat.add_one_ne_zero, if_false, Nat.add_sub_cancel]
        constructor
        · intro hn; exact ⟨i, rfl, .at n1 hn⟩
        · rintro ⟨j, hj, hs⟩
          cases hj
          cases hs with
          | «at» m1 m2 =>
            have := Option.some.inj ((lookup_of_mem hI1.keysNodup n1).symm.trans (lookup_of_mem hI1.keysNodup m1))
            rw [this]
            exact m2
    · rw [hstart (.at n1 hb) hd, w4]
    · rw [← w4]
      exact k2

/-- **C49** (partial). A program is the composition of its components: if an update is accepted and blocks are
rendered after it, then the blocks returned are the signal of the output in a system of signals in which every
component that can be heard behaves as if it were alone (`Composes`). So neither the rest of the program nor
the order in which the engine visits the nodes has any influence. Missing: programs with repeated components. -/
theorem c49_program_is_composition_partial (hL : ParserWf L) (hq : EqLaws L) (hl : RefLaws L) {e0 e1 e2 : Engine L}
    (hr : CleanReach L e0) (τ : TableOrder) (code : Name) (new : Ast L.Comp)
    (hparse : L.parse code = .ok (some new)) (hc : CleanProg L new) (hrw : ∀ r, progRefs L new r → RefWf r)
    (hu : e0.updateWithCode τ code = .ok (e1, none))
    (steps : List (HashOrder × List (List L.Num))) (outs : List (List (List L.Num))) (h : Plays e1 steps e2 outs)
    (b : Bool) (hb : b = true ↔ ['~', 'i', 'n', 'p', 'u', 't'] ∈ e1.index.map Prod.fst) :
    ∃ start sig, outs = sig .dest ∧ Composes e0 e1 new b (steps.map Prod.snd) start sig := by
  obtain ⟨start, sig, h1, h2, _⟩ := composes_held hL hq hl hr τ code new hparse hc hrw hu steps outs h b hb
  exact ⟨start, sig, h1, h2⟩

/-- A change of program that keeps a component, followed by two blocks. -/
example : ParserWf Toy.lang ∧ EqLaws Toy.lang ∧ RefLaws Toy.lang ∧ CleanReach Toy.lang Toy.e1 ∧
    Toy.lang.parse Toy.t2 = .ok (some Toy.prog2) ∧ CleanProg Toy.lang Toy.prog2 ∧
    (∀ r, progRefs Toy.lang Toy.prog2 r → RefWf r) ∧
    (∃ e1 e2 outs, Toy.e1.updateWithCode .ident Toy.t2 = .ok (e1, none) ∧
      Plays e1 [(.ident, []), (.rev, [])] e2 outs ∧ ['~', 'i', 'n', 'p', 'u', 't'] ∈ e1.index.map Prod.fst) := by
  refine ⟨Toy.parserWf, toy_eqLaws, toy_refLaws, toy_clean1, rfl, toy_cleanProg2, ?_, _, _, _, rfl,
    .cons (nextBlockFuel_spec (k := 1000) rfl) (.cons (nextBlockFuel_spec (k := 1000) rfl) (.nil _)), by decide⟩
  rintro r ⟨k, comps, c, hk, hc, hr⟩
  have hall : ∀ e ∈ Toy.prog2, ∀ c ∈ e.2, ∀ r ∈ c.2, '.' ∉ r ∨ r = Toy.patA := by decide
  rcases hall (k, comps) hk c hc r hr with h | rfl
  · exact .inl h
  · exact .inr ⟨Toy.nameA, by decide, rfl⟩

end Verif.Props
