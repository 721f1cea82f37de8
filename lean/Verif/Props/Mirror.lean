import Verif.Lemmas.Total
import Verif.Props.Engine

/-! # C02, C03, C05, C06: what an accepted update does

The statements hold for programs without repeated components in a chain; the general statements
are false, see `Verif/Props/EngineBugs.lean`. -/

namespace Verif.Props
open Verif Spec

variable {L : Lang}

theorem isOld_oldChain {e : Engine L} (hI : Inv e) {k : Name} {old : List L.Comp}
    (h : IsOld e k old) : oldChain e.ast k = old := by
  unfold oldChain
  rcases h with ⟨a, ha, hm⟩ | ⟨rfl, h⟩
  · rw [ha]
    simp only [Option.bind_some]
    rw [lookup_of_mem (hI.ast a ha).names hm]
    rfl
  · cases ha : e.ast with
    | none => rfl
    | some a =>
      simp only [Option.bind_some]
      rw [lookup_none.mpr (h a ha)]
      rfl

theorem accepted_survives {τ : TableOrder} {e e' : Engine L} {new : Ast L.Comp}
    {diff t1 gone1 t2 gone2 g3 created g5} (hI : Inv e)
    (h : Accepted τ e new e' diff t1 gone1 t2 gone2 g3 created g5) {i : Nat}
    (hi : i ∈ flat e'.index) (hl : e.graph.Live i) : Survives e.graph e'.graph i := by
  obtain ⟨d, hd⟩ := hl
  have f := h.facts
  obtain ⟨_, r2, _⟩ := removeAll_spec (ids := gone1 ++ gone2) f.wf
  have hcr : i ∉ created := by
    intro hc; rw [(f.cr i hc).1] at hd; cases hd
  have ht2 : i ∈ flat t2 := by
    rw [f.permT3.mem_iff, List.mem_append] at hi
    exact hi.resolve_right hcr
  have hg : i ∉ gone1 ++ gone2 := fun hg => ((h.live hI).2.2 i hg).2.1 ht2
  have h4 : ((removeAll g3 (gone1 ++ gone2)).clearEdges).node? i = some d := by
    show (removeAll g3 (gone1 ++ gone2)).node? i = some d
    rw [r2]
    simp only [hg, if_false]
    rw [f.nodes i hcr]
    exact hd
  obtain ⟨n, h5, h6⟩ := h.adds.rewired.some i d h4
  exact ⟨d, n, hd, h5, h6⟩

theorem accepted_born {τ : TableOrder} {e e' : Engine L} {new : Ast L.Comp}
    {diff t1 gone1 t2 gone2 g3 created g5} (hI : Inv e)
    (h : Accepted τ e new e' diff t1 gone1 t2 gone2 g3 created g5) {i : Nat} {nd : L.Data}
    (hi : i ∈ created) (hn : g3.node? i = some nd) :
    e.graph.node? i = none ∧ ∃ n, e'.graph.node? i = some ⟨n, nd.buffers⟩ ∧ Rewire L nd.node n := by
  have f := h.facts
  obtain ⟨_, r2, _⟩ := removeAll_spec (ids := gone1 ++ gone2) f.wf
  have hg : i ∉ gone1 ++ gone2 := fun hg => ((h.live hI).2.2 i hg).2.2.1 hi
  have h4 : ((removeAll g3 (gone1 ++ gone2)).clearEdges).node? i = some nd := by
    show (removeAll g3 (gone1 ++ gone2)).node? i = some nd
    rw [r2]
    simp only [hg, if_false]
    exact hn
  obtain ⟨n, h5, h6⟩ := h.adds.rewired.some i nd h4
  exact ⟨(f.cr i hi).1, n, h5, h6⟩

theorem mem_zip_get {α β : Type} {l : List α} {m : List β} {i : Nat} {a : α} {b : β}
    (h1 : l[i]? = some a) (h2 : m[i]? = some b) : (a, b) ∈ l.zip m := by
  rw [List.mem_iff_getElem?]
  exact ⟨i, by rw [List.getElem?_zip_eq_some]; exact ⟨h1, h2⟩⟩

theorem get_of_mem_zip {α β : Type} {l : List α} {m : List β} {a : α} {b : β}
    (h : (a, b) ∈ l.zip m) : ∃ i : Nat, l[i]? = some a ∧ m[i]? = some b := by
  rw [List.mem_iff_getElem?] at h
  obtain ⟨i, hi⟩ := h
  rw [List.getElem?_zip_eq_some] at hi
  exact ⟨i, hi⟩

theorem zip_filter_fst {α β : Type} (p : α → Bool) : ∀ (l : List α) (m : List β),
    l.length = m.length → ((l.zip m).filter (fun x => p x.1)).map (·.1) = l.filter p := by
  intro l
  induction l with
  | nil => intro m _; rfl
  | cons a l ih =>
    intro m h
    cases m with
    | nil => simp at h
    | cons b m =>
      simp only [List.zip_cons_cons, List.filter_cons]
      have := ih m (by simpa using h)
      by_cases hp : p a = true
      · simp only [hp, if_true, List.map_cons, this]
      · simp only [hp, Bool.false_eq_true, if_false, this]

/-- Two pair lists with the same second components and related first components. -/
theorem forall₂_pairs {α β γ : Type} {R : α → γ → Prop} : ∀ {A : List (α × β)} {B : List (γ × β)},
    A.map (·.2) = B.map (·.2) → List.Forall₂ R (A.map (·.1)) (B.map (·.1)) →
    List.Forall₂ (fun a b => R a.1 b.1 ∧ a.2 = b.2) A B := by
  intro A
  induction A with
  | nil =>
    intro B h1 _
    cases B with
    | nil => exact .nil
    | cons b B => simp at h1
  | cons a A ih =>
    intro B h1 h2
    cases B with
    | nil => simp at h1
    | cons b B =>
      simp only [List.map_cons, List.cons.injEq] at h1
      simp only [List.map_cons] at h2
      cases h2 with
      | cons hab ht => exact .cons ⟨hab, h1.1⟩ (ih h1.2 ht)

theorem forall₂_mem_left {α β : Type} {R : α → β → Prop} {l : List α} {m : List β}
    (h : List.Forall₂ R l m) : ∀ a, a ∈ l → ∃ b, b ∈ m ∧ R a b := by
  induction h with
  | nil => intro a ha; cases ha
  | cons hab _ ih =>
    intro a ha
    rcases List.mem_cons.mp ha with rfl | ha
    · exact ⟨_, by simp, hab⟩
    · obtain ⟨b, hb, hr⟩ := ih a ha
      exact ⟨b, List.mem_cons_of_mem _ hb, hr⟩

theorem forall₂_mem_right {α β : Type} {R : α → β → Prop} {l : List α} {m : List β}
    (h : List.Forall₂ R l m) : ∀ b, b ∈ m → ∃ a, a ∈ l ∧ R a b := by
  induction h with
  | nil => intro a ha; cases ha
  | cons hab _ ih =>
    intro a ha
    rcases List.mem_cons.mp ha with rfl | ha
    · exact ⟨_, by simp, hab⟩
    · obtain ⟨b, hb, hr⟩ := ih a ha
      exact ⟨b, List.mem_cons_of_mem _ hb, hr⟩

/-- Everything about one chain of an accepted update. -/
theorem chain_of_update (hL : ParserWf L) (hq : EqLaws L) {e e' : Engine L} (hr : CleanReach L e)
    {τ : TableOrder} {code : Name} {new : Ast L.Comp} (hparse : L.parse code = .ok (some new))
    (hc : CleanProg L new) (h : e.updateWithCode τ code = .ok (e', none)) {k : Name}
    {comps old : List L.Comp} (hk : (k, comps) ∈ new) (hold : IsOld e k old) :
    ∃ nodes oldNodes, (k, nodes) ∈ e'.index ∧ nodes.length = comps.length ∧
      oldNodes.length = old.length ∧ (old ≠ [] → (k, oldNodes) ∈ e.index) ∧
      ((comps.zip nodes).filter (fun x => old.any (fun o => L.compEq o x.1))).map (·.2) =
        ((old.zip oldNodes).filter (fun x => comps.any (fun c => L.compEq x.1 c))).map (·.2) ∧
      (∀ (i : Nat) c n, comps[i]? = some c → nodes[i]? = some n →
        old.any (fun o => L.compEq o c) = false →
        e.graph.node? n = none ∧ BuiltFrom e e'.graph c n) ∧
      (∀ n, n ∈ nodes → e.graph.Live n → Survives e.graph e'.graph n) := by
  have hI := inv_reachable hL hr.reachable
  have hm := mirrors_clean hL hq hr
  unfold Engine.updateWithCode at h
  rw [hparse] at h
  have h : e.updateAst τ new = .ok (e', none) := h
  have hp := hL code new hparse
  obtain ⟨diff, t1, gone1, t2, gone2, g3, cr, g5, ha⟩ := accepted hI hp h
  obtain ⟨r, r1, r2, r3, r4⟩ :=
    (staged_table hq hI hm hp hc.dupFree (hm.noClash hc) ha.staged k).2 comps hk
  have ho := isOld_oldChain hI hold
  obtain ⟨o1, o2, _⟩ := oldChain_facts hm k
  have hoN : ∃ oldNodes, oldNodes.length = old.length ∧ (old ≠ [] → (k, oldNodes) ∈ e.index) ∧
      keptNodes e k comps =
        ((old.zip oldNodes).filter (fun x => comps.any (fun c => L.compEq x.1 c))).map (·.2) := by
    by_cases hkold : k ∈ oldKeys e
    · obtain ⟨c, hc1, hc2⟩ := o2 hkold
      rw [ho] at hc2
      refine ⟨c, hc2, fun _ => lookup_mem hc1, ?_⟩
      simp [keptNodes, hc1, ho, inNew]
    · have := o1 hkold
      rw [ho] at this
      subst this
      exact ⟨[], rfl, fun h => absurd rfl h, by simp [keptNodes, ho]⟩
  obtain ⟨oldNodes, hlen, hmem, hkept⟩ := hoN
  refine ⟨r, oldNodes, lookup_mem r1, r2, hlen, hmem, ?_, ?_, ?_⟩
  · rw [← hkept, ← r3]
    simp only [inOld, ho]
  · intro i c n hci hni hno
    have hin : (c, n) ∈ (comps.zip r).filter (fun x => !inOld e.ast k x.1) := by
      rw [List.mem_filter]
      exact ⟨mem_zip_get hci hni, by simp only [inOld, ho, hno, Bool.not_false]⟩
    have hfst := zip_filter_fst (fun c => !inOld e.ast k c) comps r r2.symm
    rw [← hfst, List.forall₂_map_left_iff, List.forall₂_map_right_iff] at r4
    rw [List.forall₂_same] at r4
    obtain ⟨hcr, nd, refs, hmk, hg3⟩ := r4 (c, n) hin
    obtain ⟨b1, n', b2, b3⟩ := accepted_born hI ha hcr hg3
    exact ⟨b1, nd, refs, n', hmk, b2, b3⟩
  · intro n hn hlive
    exact accepted_survives hI ha (mem_flat.mpr ⟨k, r, lookup_mem r1, hn⟩) hlive

/-! ### C02 -/

theorem clean_noInput (hL : ParserWf L) {e : Engine L} (hr : CleanReach L e) :
    ∀ a, e.ast = some a → inputName ∉ keys a := by
  induction hr with
  | new N => intro a ha; cases ha
  | @step e0 e1 op hr0 hc0 happ ih =>
    intro a ha
    have hI0 := inv_reachable hL hr0.reachable
    cases op with
    | update τ code =>
      simp only [Op.apply, except_bind_ok] at happ
      obtain ⟨⟨e2, r⟩, h1, happ⟩ := happ
      cases happ
      unfold Engine.updateWithCode at h1
      rw [except_bind_ok] at h1
      obtain ⟨p, hp, h1⟩ := h1
      split at h1
      · cases h1; exact ih a ha
      · rename_i new
        cases r with
        | none =>
          obtain ⟨_, _, _, _, _, _, _, _, hacc⟩ := accepted hI0 (hL code new hp) h1
          rw [congrArg Engine.ast hacc.eq] at ha
          cases ha
          exact (hc0 _ hp).noInput
        | some x =>
          have hs := (sameEngine_of_rejected hI0 (hL code new hp) h1).1
          exact ih a (by rw [← hs.ast]; exact ha)
    | sendMsg m =>
      have := (onlyNodes_sendMsg happ).eq
      exact ih a (by rw [this] at ha; exact ha)
    | setBpm v =>
      have := (setBpm_nodes happ).1
      exact ih a (by rw [this] at ha; exact ha)
    | setSr v => cases happ; exact ih a ha
    | setSeed v => cases happ; exact ih a ha
    | setTrackAmp v => cases happ; exact ih a ha
    | addSample n s => cases happ; exact ih a ha
    | nextBlock ho buf =>
      simp only [Op.apply, except_bind_ok] at happ
      obtain ⟨⟨e2, out⟩, h1, happ⟩ := happ
      cases happ
      obtain ⟨e3, g, d, h2, _, _, _, rfl⟩ := nextBlock_ok h1
      have := (onlyNodes_copyInputs h2).eq
      exact ih a (by
        have ha : e3.ast = some a := ha
        rw [this] at ha; exact ha)
    | reset => cases happ; cases ha


/-- **C02** (partial). For programs without repeated components: after a successful update the table
has exactly the chains of the program (and `~input` as before), each with one node per component;
a component without an equal in the old chain has a freshly built node, and if the kept components
are in the old relative order, a component with an equal in the old chain has the node the old
equal component had. Missing in general: repeated components, and re-ordering, where the code
leaves the nodes in the old order (`c02_reorder_counterexample`). -/
theorem c02_table_mirrors_program_partial (hL : ParserWf L) (hq : EqLaws L) {e e' : Engine L}
    (hr : CleanReach L e) (τ : TableOrder) (code : Name) (new : Ast L.Comp)
    (hparse : L.parse code = .ok (some new)) (hc : CleanProg L new)
    (h : e.updateWithCode τ code = .ok (e', none)) :
    (∀ k, k ∈ e'.index.map Prod.fst ↔ k ∈ new.map Prod.fst ∨
      (k = ['~', 'i', 'n', 'p', 'u', 't'] ∧ k ∈ e.index.map Prod.fst)) ∧
    ∀ k comps old, (k, comps) ∈ new → IsOld e k old →
      ∃ nodes, (k, nodes) ∈ e'.index ∧ nodes.length = comps.length ∧
        ∀ (i : Nat) c n, comps[i]? = some c → nodes[i]? = some n →
          ((∀ o, o ∈ old → L.compEq o c = false) →
            e.graph.node? n = none ∧ BuiltFrom e e'.graph c n) ∧
          ((∃ o, o ∈ old ∧ L.compEq o c = true) → OrderKept L.compEq old comps →
            ∃ (j : Nat) (o : L.Comp) (oldNodes : List Nat), old[j]? = some o ∧ L.compEq o c = true ∧ (k, oldNodes) ∈ e.index ∧
              oldNodes[j]? = some n) := by
  refine ⟨?_, ?_⟩
  · intro k
    have hI := inv_reachable hL hr.reachable
    have hm := mirrors_clean hL hq hr
    unfold Engine.updateWithCode at h
    rw [hparse] at h
    have h : e.updateAst τ new = .ok (e', none) := h
    have hp := hL code new hparse
    obtain ⟨diff, t1, gone1, t2, gone2, g3, cr, g5, ha⟩ := accepted hI hp h
    have f := ha.facts
    show k ∈ keys e'.index ↔ k ∈ keys new ∨ (k = inputName ∧ k ∈ keys e.index)
    rw [f.memT3]
    constructor
    · rintro (⟨h1, h2 | h2⟩ | ⟨p, hp⟩)
      · exact .inr ⟨hm.onlyInput k h1 h2, h1⟩
      · exact .inl h2
      · exact .inl (f.addNames k p hp)
    · rintro (h1 | ⟨h1, h2⟩)
      · exact (f.memT3 k).mp (f.newT3 k h1)
      · subst h1
        by_cases ho : inputName ∈ oldKeys e
        · exfalso
          obtain ⟨a, ha, hka⟩ := mem_oldKeys.mp ho
          exact clean_noInput hL hr a ha hka
        · exact .inl ⟨h2, .inl ho⟩
  · intro k comps old hk hold
    obtain ⟨nodes, oldNodes, h1, h2, h3, h4, h5, h6, _⟩ :=
      chain_of_update hL hq hr hparse hc h hk hold
    refine ⟨nodes, h1, h2, ?_⟩
    intro i c n hci hni
    refine ⟨?_, ?_⟩
    · intro hno
      refine h6 i c n hci hni ?_
      rw [List.any_eq_false]
      intro o ho
      simp [hno o ho]
    · rintro ⟨o, ho, hoc⟩ hord
      have hA := zip_filter_fst (fun c => old.any (fun o => L.compEq o c)) comps nodes h2.symm
      have hB := zip_filter_fst (fun o => comps.any (fun c => L.compEq o c)) old oldNodes h3.symm
      unfold OrderKept at hord
      rw [← hA, ← hB] at hord
      have hF := forall₂_pairs h5.symm hord
      have hin : (c, n) ∈ (comps.zip nodes).filter (fun x => old.any (fun o => L.compEq o x.1)) := by
        rw [List.mem_filter]
        exact ⟨mem_zip_get hci hni, List.any_eq_true.mpr ⟨o, ho, hoc⟩⟩
      obtain ⟨⟨o', n'⟩, hm', heq, hn'⟩ := forall₂_mem_right hF (c, n) hin
      simp only at heq hn'
      subst hn'
      obtain ⟨j, j1, j2⟩ := get_of_mem_zip (List.mem_filter.mp hm').1
      refine ⟨j, o', oldNodes, j1, heq, h4 ?_, j2⟩
      rintro rfl
      cases ho

/-- The example engine playing `prog1` was reached cleanly. -/
theorem toy_clean1 : CleanReach Toy.lang Toy.e1 :=
  .step (.update TableOrder.ident Toy.t1) (.new 2) (by
    intro p hp
    have : p = Toy.prog1 := by
      have h1 : Toy.lang.parse Toy.t1 = .ok (some Toy.prog1) := rfl
      rw [h1] at hp
      cases hp
      rfl
    subst this
    refine ⟨?_, by decide⟩
    have : ∀ e ∈ Toy.prog1, Distinct Toy.lang.compEq e.2 := by
      intro e he
      simp only [Toy.prog1, List.mem_cons, List.not_mem_nil, or_false] at he
      rcases he with rfl | rfl <;> simp [Distinct, Toy.lang]
    exact fun k c h => this (k, c) h) (by
    show (do let (e', _) ← Toy.e0.updateWithCode TableOrder.ident Toy.t1; .ok e') = Except.ok Toy.e1
    rw [Toy.e1_eq]; rfl)

theorem toy_cleanProg2 : CleanProg Toy.lang Toy.prog2 := by
  refine ⟨?_, by decide⟩
  have : ∀ e ∈ Toy.prog2, Distinct Toy.lang.compEq e.2 := by
    intro e he
    simp only [Toy.prog2, List.mem_cons, List.not_mem_nil, or_false] at he
    rcases he with rfl | rfl | rfl <;> simp [Distinct, Toy.lang]
  exact fun k c h => this (k, c) h

/-- From `o: 1 >> 2 ~a` to `o: 1 >> 5 >> 2 ~a`: the hypotheses hold, the kept components keep nodes 3
and 4 around the fresh node 6. -/
example : CleanReach Toy.lang Toy.e1 ∧ CleanProg Toy.lang Toy.prog2 ∧
    Toy.lang.parse Toy.t2 = .ok (some Toy.prog2) ∧
    IsOld Toy.e1 Toy.nameO [(1, []), (2, [Toy.nameA])] ∧
    OrderKept Toy.lang.compEq [(1, []), (2, [Toy.nameA])] [(1, []), (5, []), (2, [Toy.nameA])] ∧
    ∃ e', Toy.e1.updateWithCode .ident Toy.t2 = .ok (e', none) ∧
      (Toy.nameO, [3, 6, 4]) ∈ e'.index ∧ Toy.e1.graph.node? 6 = none := by
  refine ⟨toy_clean1, toy_cleanProg2, rfl, .inl ⟨Toy.prog1, rfl, List.Mem.head _⟩, ?_, _, rfl,
    by decide, by decide⟩
  simp [OrderKept, Toy.lang, Toy.nameA]

/-! ### C03 -/

/-- **C03** (partial). For programs without repeated components: across a successful update, the node
of an old component that has an equal in the new chain stays in the graph and in the chain, with
the same output buffers and the same state up to wiring messages; if the kept components are in the
old relative order it is the node of the equal new component. Missing: repeated components. -/
theorem c03_kept_component_keeps_node_partial (hL : ParserWf L) (hq : EqLaws L) {e e' : Engine L}
    (hr : CleanReach L e) (τ : TableOrder) (code : Name) (new : Ast L.Comp)
    (hparse : L.parse code = .ok (some new)) (hc : CleanProg L new)
    (h : e.updateWithCode τ code = .ok (e', none)) (a : Ast L.Comp) (hast : e.ast = some a)
    (k : Name) (old comps : List L.Comp) (hk : (k, comps) ∈ new) (hold : (k, old) ∈ a) (j i : Nat)
    (o c : L.Comp) (hj : old[j]? = some o) (hi : comps[i]? = some c) (hoc : L.compEq o c = true) :
    ∃ n oldNodes nodes, (k, oldNodes) ∈ e.index ∧ oldNodes[j]? = some n ∧ (k, nodes) ∈ e'.index ∧
      n ∈ nodes ∧ Survives e.graph e'.graph n ∧
      (OrderKept L.compEq old comps → nodes[i]? = some n) := by
  have hI := inv_reachable hL hr.reachable
  have hm := mirrors_clean hL hq hr
  obtain ⟨nodes, oldNodes, h1, h2, h3, h4, h5, _, h7⟩ :=
    chain_of_update hL hq hr hparse hc h hk (.inl ⟨a, hast, hold⟩)
  have hjl : j < oldNodes.length := by
    have := (List.getElem?_eq_some_iff.mp hj).1
    omega
  have hnj : oldNodes[j]? = some oldNodes[j] := List.getElem?_eq_getElem hjl
  have hmemO : (k, oldNodes) ∈ e.index := h4 (List.ne_nil_of_mem (List.mem_of_getElem? hj))
  have hinB : (o, oldNodes[j]) ∈ (old.zip oldNodes).filter (fun x => comps.any (fun c => L.compEq x.1 c)) := by
    rw [List.mem_filter]
    exact ⟨mem_zip_get hj hnj, List.any_eq_true.mpr ⟨c, List.mem_of_getElem? hi, hoc⟩⟩
  have hmap : oldNodes[j] ∈ ((old.zip oldNodes).filter (fun x => comps.any (fun c => L.compEq x.1 c))).map (·.2) :=
    List.mem_map.mpr ⟨_, hinB, rfl⟩
  rw [← h5, List.mem_map] at hmap
  obtain ⟨⟨c', n'⟩, hcn, hn'⟩ := hmap
  simp only at hn'
  have hnin : oldNodes[j] ∈ nodes := by
    rw [← hn']
    exact (List.of_mem_zip (List.mem_filter.mp hcn).1).2
  refine ⟨oldNodes[j], oldNodes, nodes, hmemO, hnj, h1, hnin, ?_, ?_⟩
  · apply h7 _ hnin
    exact (hI.live _).mpr (.inr (.inr (mem_flat.mpr ⟨k, oldNodes, hmemO, List.getElem_mem hjl⟩)))
  · intro hord
    have hA := zip_filter_fst (fun c => old.any (fun o => L.compEq o c)) comps nodes h2.symm
    have hB := zip_filter_fst (fun o => comps.any (fun c => L.compEq o c)) old oldNodes h3.symm
    unfold OrderKept at hord
    rw [← hA, ← hB] at hord
    have hF := forall₂_pairs h5.symm hord
    obtain ⟨⟨c2, n2⟩, hm2, heq, hn2⟩ := forall₂_mem_left hF _ hinB
    simp only at heq hn2
    subst hn2
    obtain ⟨i2, e1, e2⟩ := get_of_mem_zip (List.mem_filter.mp hm2).1
    -- both `c` and `c2` equal `o`, so they are the same position of a chain without repetitions
    have hii : i = i2 := by
      have hcc : L.compEq c c2 = true := hq.trans _ _ _ (hq.symm _ _ hoc) heq
      have hd := hc.distinct k comps hk
      unfold Distinct at hd
      rw [List.pairwise_iff_getElem] at hd
      obtain ⟨l1, g1⟩ := List.getElem?_eq_some_iff.mp hi
      obtain ⟨l2, g2⟩ := List.getElem?_eq_some_iff.mp e1
      rcases Nat.lt_trichotomy i i2 with hlt | heq | hlt
      · have := hd i i2 l1 l2 hlt
        rw [g1, g2, hcc] at this
        cases this
      · exact heq
      · have := hd i2 i l2 l1 hlt
        rw [g1, g2, hq.symm _ _ hcc] at this
        cases this
    rw [hii]
    exact e2

/-- The component `2 ~a` moves from position 1 to position 2 and keeps node 4. -/
example : CleanReach Toy.lang Toy.e1 ∧ CleanProg Toy.lang Toy.prog2 ∧
    Toy.e1.ast = some Toy.prog1 ∧ (Toy.nameO, [(1, []), (2, [Toy.nameA])]) ∈ Toy.prog1 ∧
    (Toy.nameO, [3, 4]) ∈ Toy.e1.index ∧
    ∃ e', Toy.e1.updateWithCode .ident Toy.t2 = .ok (e', none) ∧ (Toy.nameO, [3, 6, 4]) ∈ e'.index :=
  ⟨toy_clean1, toy_cleanProg2, rfl, by simp [Toy.prog1], by decide, _, rfl, by decide⟩

/-! ### C05 -/

theorem addNodes_panic {mk : L.Comp → Except Stop (L.Data × List Name)} {name : Name} {p : Panic}
    {l : List (Nat × L.Comp)} (h : addNodes mk name l = .error (.panic p)) :
    ∃ i c, (i, c) ∈ l ∧ mk c = .error (.panic p) := by
  induction l with
  | nil => cases h
  | cons x l ih =>
    obtain ⟨i, c⟩ := x
    simp only [addNodes] at h
    cases hm : mk c with
    | error s =>
      rw [hm] at h
      cases h
      exact ⟨i, c, by simp, hm⟩
    | ok r =>
      rw [hm] at h
      simp only [bind, Except.bind] at h
      cases ha : addNodes mk name l with
      | error s =>
        rw [ha] at h
        cases h
        obtain ⟨i', c', h1, h2⟩ := ih ha
        exact ⟨i', c', List.mem_cons_of_mem _ h1, h2⟩
      | ok d => rw [ha] at h; cases h

theorem diffAll_panic {mk : L.Comp → Except Stop (L.Data × List Name)} {old : Option (Ast L.Comp)}
    {p : Panic} {new : Ast L.Comp} (h : diffAll mk old new = .error (.panic p)) :
    ∃ k comps c, (k, comps) ∈ new ∧ c ∈ comps ∧ mk c = .error (.panic p) := by
  induction new with
  | nil => cases h
  | cons x new ih =>
    obtain ⟨k, comps⟩ := x
    simp only [diffAll] at h
    cases hd : diffChain mk old k comps with
    | error s =>
      rw [hd] at h
      cases h
      unfold diffChain at hd
      split at hd
      · obtain ⟨i, c, h1, h2⟩ := addNodes_panic hd
        exact ⟨k, comps, c, by simp, List.mem_of_getElem? (mem_enumFrom.mp h1).2, h2⟩
      · simp only [bind, Except.bind] at hd
        split at hd
        · rename_i s ha
          cases hd
          obtain ⟨i, c, h1, h2⟩ := addNodes_panic ha
          exact ⟨k, comps, c, by simp,
            List.mem_of_getElem? (mem_enumFrom.mp (List.mem_filter.mp h1).1).2, h2⟩
        · cases hd
    | ok d =>
      rw [hd] at h
      simp only [bind, Except.bind] at h
      cases ha : diffAll mk old new with
      | error s =>
        rw [ha] at h
        cases h
        obtain ⟨k', cs, c, h1, h2⟩ := ih ha
        exact ⟨k', cs, c, List.mem_cons_of_mem _ h1, h2⟩
      | ok d' => rw [ha] at h; cases h

/-- **C05** (partial). After every history of calls in which no program repeated a component within
a chain or redefined `~input`, an update with such a program does not panic, provided the parser and
the node constructors do not panic on it. Missing: programs with repeated components
(`c05_repeated_component_panics`) or redefining `~input`. -/
theorem c05_update_does_not_panic_partial (hL : ParserWf L) (hq : EqLaws L) (hw : WiringTotal L)
    {e : Engine L} (hr : CleanReach L e) (τ : TableOrder) (code : Name) (res : Option (Ast L.Comp))
    (hparse : L.parse code = .ok res) (hc : ∀ new, res = some new → CleanProg L new)
    (hmk : ∀ new k comps c p, res = some new → (k, comps) ∈ new → c ∈ comps →
      L.make e.samples e.sr e.bpm e.seed c ≠ .error (.panic p)) :
    ∃ e' r, e.updateWithCode τ code = .ok (e', r) := by
  unfold Engine.updateWithCode
  rw [hparse]
  cases res with
  | none => exact ⟨e, some .parsing, rfl⟩
  | some new =>
    have hI := inv_reachable hL hr.reachable
    have hm := mirrors_clean hL hq hr
    obtain ⟨⟨e', r⟩, h⟩ := updateAst_total (τ := τ) hw hq hI hm (hL code new hparse) (hc new rfl) (by
      intro p hp
      obtain ⟨k, comps, c, h1, h2, h3⟩ := diffAll_panic hp
      exact hmk new k comps c p rfl h1 h2 h3)
    exact ⟨e', r, h⟩

theorem toy_wiring : WiringTotal Toy.lang := by
  intro n m hm
  cases m with
  | index i => exact ⟨_, rfl⟩
  | indexOrder p i => exact ⟨_, rfl⟩
  | resetOrder => exact ⟨_, rfl⟩
  | setToNumber p v => exact ⟨_, rfl⟩
  | setToSymbol p v => exact ⟨_, rfl⟩
  | setBPM v => exact ⟨_, rfl⟩

/-- The hypotheses hold for the example language, a running engine and a new program, no component
of which makes the constructor panic. -/
example : ParserWf Toy.lang ∧ EqLaws Toy.lang ∧ WiringTotal Toy.lang ∧ CleanReach Toy.lang Toy.e1 ∧
    CleanProg Toy.lang Toy.prog2 ∧
    ∀ k comps c p, (k, comps) ∈ Toy.prog2 → c ∈ comps →
      Toy.lang.make Toy.e1.samples Toy.e1.sr Toy.e1.bpm Toy.e1.seed c ≠ .error (.panic p) := by
  refine ⟨Toy.parserWf, toy_eqLaws, toy_wiring, toy_clean1, toy_cleanProg2, ?_⟩
  intro k comps c p _ _ h
  simp only [Toy.lang] at h
  split at h <;> cases h

/-! ### C06 -/

theorem refpair_iff (hq : EqLaws L) (hl : RefLaws L) {e : Engine L} {new : Ast L.Comp}
    (hc : CleanProg L new) {diff : Diff L}
    (hd : diffAll (L.make e.samples e.sr e.bpm e.seed) e.ast new = .ok diff) (k : Name) (i : Nat)
    (r : Name) :
    (∃ refs, (refs, k, i) ∈ diff.refpairs ∧ r ∈ refs) ↔
      ∃ comps comp, (k, comps) ∈ new ∧ comps[i]? = some comp ∧ r ∈ L.refs comp := by
  obtain ⟨h1, h2, _⟩ := diffAll_mem hd
  constructor
  · rintro ⟨refs, hm, hr⟩
    obtain ⟨k', comps, dk, hk, hdk, hrp⟩ := h2 _ hm
    have hkk := diffChain_refpair_name hdk _ _ _ hrp
    subst hkk
    have key : ∀ {l : List (Nat × L.Comp)} {d' : Diff L}, (∀ p, p ∈ l → p ∈ enumFrom 0 comps) →
        addNodes (L.make e.samples e.sr e.bpm e.seed) k l = .ok d' → (refs, k, i) ∈ d'.refpairs →
        ∃ comps comp, (k, comps) ∈ new ∧ comps[i]? = some comp ∧ r ∈ L.refs comp := by
      intro l d' hsub hadd hm'
      obtain ⟨i', x, nd, refs', hx, hmk, _, heq⟩ := ((addNodes_spec hadd).2.2 _).mp hm'
      cases heq
      exact ⟨comps, x, hk, by simpa using (mem_enumFrom.mp (hsub _ hx)).2,
        (hl.made _ _ _ _ _ _ _ hmk r).mp hr⟩
    unfold diffChain at hdk
    split at hdk
    · exact key (fun _ h => h) hdk hrp
    · rw [except_bind_ok] at hdk
      obtain ⟨d', hd', hdk⟩ := hdk
      simp only [Except.ok.injEq] at hdk
      subst hdk
      rcases List.mem_append.mp hrp with hrp | hrp
      · obtain ⟨j, o, i', c', _, hf, _, heq⟩ := (diffOld_spec.2 _).mp hrp
        cases heq
        exact ⟨comps, c', hk, (findEq_some hf).1, hr⟩
      · exact key (fun p h => (List.mem_filter.mp h).1) hd' hrp
  · rintro ⟨comps, comp, hk, hi, hr⟩
    obtain ⟨dk, hdk, _, hrp, _⟩ := h1 k comps hk
    have hmem : (i, comp) ∈ enumFrom 0 comps := mem_enumFrom.mpr ⟨by omega, by simpa using hi⟩
    have key : ∀ {l : List (Nat × L.Comp)} {d' : Diff L}, (i, comp) ∈ l →
        addNodes (L.make e.samples e.sr e.bpm e.seed) k l = .ok d' →
        ∃ refs, (refs, k, i) ∈ d'.refpairs ∧ r ∈ refs := by
      intro l d' hic hadd
      obtain ⟨_, hf, hs⟩ := addNodes_spec hadd
      obtain ⟨b, _, _, _, refs, hmk⟩ := forall₂_mem_left hf _ hic
      have hrr : r ∈ refs := (hl.made _ _ _ _ _ _ _ hmk r).mpr hr
      exact ⟨refs, (hs _).mpr ⟨i, comp, _, refs, hic, hmk, List.ne_nil_of_mem hrr, rfl⟩, hrr⟩
    unfold diffChain at hdk
    split at hdk
    · obtain ⟨refs, h3, h4⟩ := key hmem hdk
      exact ⟨refs, hrp _ h3, h4⟩
    · rename_i oldC _
      rw [except_bind_ok] at hdk
      obtain ⟨d', hd', hdk⟩ := hdk
      simp only [Except.ok.injEq] at hdk
      subst hdk
      by_cases hany : oldC.any (fun o => L.compEq o comp) = true
      · obtain ⟨o, ho, hoc⟩ := List.any_eq_true.mp hany
        cases hf : findEq L.compEq o comps with
        | none =>
          have := findEq_none hf comp (List.mem_of_getElem? hi)
          rw [hoc] at this
          cases this
        | some ic =>
          obtain ⟨i', c'⟩ := ic
          obtain ⟨hc', hoc'⟩ := findEq_some hf
          have hcc : L.compEq c' comp = true := hq.trans _ _ _ (hq.symm _ _ hoc') hoc
          have hii : i' = i := by
            have hdd := hc.distinct k comps hk
            unfold Distinct at hdd
            rw [List.pairwise_iff_getElem] at hdd
            obtain ⟨l1, g1⟩ := List.getElem?_eq_some_iff.mp hc'
            obtain ⟨l2, g2⟩ := List.getElem?_eq_some_iff.mp hi
            rcases Nat.lt_trichotomy i' i with hlt | heq | hlt
            · have := hdd i' i l1 l2 hlt
              rw [g1, g2, hcc] at this
              cases this
            · exact heq
            · have := hdd i i' l2 l1 hlt
              rw [g1, g2, hq.symm _ _ hcc] at this
              cases this
          subst hii
          rw [hi] at hc'
          cases hc'
          obtain ⟨j, hj, hoj⟩ := List.mem_iff_getElem.mp ho
          exact ⟨L.refs comp, hrp _ (List.mem_append_left _ ((diffOld_spec.2 _).mpr
            ⟨j, o, i', comp, mem_enumFrom.mpr ⟨by omega, by simp [hj, hoj]⟩, hf,
              List.ne_nil_of_mem hr, rfl⟩)), hr⟩
      · obtain ⟨refs, h3, h4⟩ := key (List.mem_filter.mpr ⟨hmem, by simpa using hany⟩) hd'
        exact ⟨refs, hrp _ (List.mem_append_right _ h3), h4⟩

theorem denotes_perm {t t' : Table} (h : t.Perm t') {r : Name} {a : Nat} (hd : Denotes t r a) :
    Denotes t' r a := by
  cases hd with
  | named h1 h2 h3 => exact .named h1 (h.mem_iff.mp h2) h3
  | pattern h1 h2 h3 h4 => exact .pattern h1 (h.mem_iff.mp h2) h3 h4

/-- **C06** (partial). For programs without repeated components: after a successful update there is
an edge from `a` to `b` exactly if the program calls for it. Missing: repeated components, for which
the second of two equal components loses its reference (`c06_repeated_component_counterexample`). -/
theorem c06_connections_exact_partial (hL : ParserWf L) (hq : EqLaws L) (hl : RefLaws L)
    {e e' : Engine L} (hr : CleanReach L e) (τ : TableOrder) (code : Name) (new : Ast L.Comp)
    (hparse : L.parse code = .ok (some new)) (hc : CleanProg L new)
    (hrw : ∀ r, progRefs L new r → RefWf r)
    (h : e.updateWithCode τ code = .ok (e', none)) (a b : Nat) :
    (a, b) ∈ e'.graph.edges ↔ Wanted L e'.dest e'.index new a b := by
  have hI := inv_reachable hL hr.reachable
  have hm := mirrors_clean hL hq hr
  unfold Engine.updateWithCode at h
  rw [hparse] at h
  have h : e.updateAst τ new = .ok (e', none) := h
  have hp := hL code new hparse
  obtain ⟨diff, t1, gone1, t2, gone2, g3, cr, g5, ha⟩ := accepted hI hp h
  have f := ha.facts
  obtain ⟨m1, m2, m3⟩ := mirrors_staged hq hI hm hp hc ha.staged
  have hdest : e'.dest = e.dest := by rw [ha.eq]
  have hperm := τ.perm e'.index
  have hne : ∀ k c, (k, c) ∈ τ.ord e'.index → c ≠ [] := fun k c hkc =>
    m3 k c (lookup_of_mem f.keysT3 (hperm.mem_iff.mp hkc))
  have hsrc : ∀ r, progRefs L new r → ∀ x, SrcOf (τ.ord e'.index) r x ↔ Denotes e'.index r x := by
    intro r hr x
    rw [srcOf_denotes (keys_ord f.keysT3) (hrw r hr) hne]
    exact ⟨denotes_perm hperm, denotes_perm hperm.symm⟩
  rw [ha.adds.edges, hdest]
  constructor
  · rintro (h1 | ⟨refs, k, pos, chain, h1, h2, h3, r, h4, h5⟩ | ⟨k, c, h1, h2 | ⟨h2, h3, rfl⟩⟩)
    · simp [Graph.clearEdges] at h1
    · obtain ⟨comps, comp, g1, g2, g3⟩ := (refpair_iff hq hl hc ha.staged.diffEq k pos r).mp
        ⟨refs, h1, h4⟩
      exact .ref g1 g2 g3 (hperm.mem_iff.mp (lookup_mem h2)) h3
        ((hsrc r ⟨k, comps, comp, g1, List.mem_of_getElem? g2, g3⟩ a).mp h5)
    · exact .chain (hperm.mem_iff.mp h1) h2
    · exact .out (hperm.mem_iff.mp h1) (hasTilde_iff.mp h2) h3
  · intro hw
    right
    cases hw with
    | chain h1 h2 => exact .inr ⟨_, _, hperm.mem_iff.mpr h1, .inl h2⟩
    | out h1 h2 h3 => exact .inr ⟨_, _, hperm.mem_iff.mpr h1, .inr ⟨hasTilde_iff.mpr h2, h3, rfl⟩⟩
    | @ref k comps i comp r c _ _ h1 h2 h3 h4 h5 h6 =>
      left
      obtain ⟨refs, g1, g2⟩ := (refpair_iff hq hl hc ha.staged.diffEq k i r).mpr
        ⟨comps, comp, h1, h2, h3⟩
      refine ⟨refs, k, i, c, g1, ?_, h5, r, g2,
        (hsrc r ⟨k, comps, comp, h1, List.mem_of_getElem? h2, h3⟩ a).mpr h6⟩
      rw [lookup_perm hperm f.keysT3]
      exact lookup_of_mem f.keysT3 h4

/-- The hypotheses hold; among the edges are the one demanded by the reference `~a` of the kept
component (node 4, source 5), and the one of the pattern `~a..` of the new chain. -/
example : CleanReach Toy.lang Toy.e1 ∧ CleanProg Toy.lang Toy.prog2 ∧ RefLaws Toy.lang ∧
    (∀ r, progRefs Toy.lang Toy.prog2 r → RefWf r) ∧
    ∃ e', Toy.e1.updateWithCode .ident Toy.t2 = .ok (e', none) ∧
      (5, 4) ∈ e'.graph.edges ∧ (5, 7) ∈ e'.graph.edges ∧ (3, 4) ∉ e'.graph.edges := by
  refine ⟨toy_clean1, toy_cleanProg2, toy_refLaws, ?_, _, rfl, by decide, by decide, by decide⟩
  rintro r ⟨k, comps, c, hk, hc, hr⟩
  have hall : ∀ e ∈ Toy.prog2, ∀ c ∈ e.2, ∀ r ∈ c.2, r = Toy.nameA ∨ r = Toy.patA := by decide
  rcases hall (k, comps) hk c hc r hr with rfl | rfl
  · exact .inl (by decide)
  · exact .inr ⟨Toy.nameA, by decide, rfl⟩

end Verif.Props
