import Verif.Lemmas.Slots
import Verif.Spec.Engine

/-! Connecting nodes (helpers). -/

namespace Verif
open Spec

variable {L : Lang}

/-- `g'` has the nodes of `g` up to wiring messages. -/
structure Rewired (g g' : Graph L.Data) : Prop where
  free : g'.free = g.free
  len : g'.slots.length = g.slots.length
  none : ∀ j, g.node? j = none → g'.node? j = none
  some : ∀ j d, g.node? j = some d → ∃ n, g'.node? j = some ⟨n, d.buffers⟩ ∧ Rewire L d.node n

theorem Rewired.refl (g : Graph L.Data) : Rewired g g :=
  ⟨rfl, rfl, fun _ h => h, fun _ d h => ⟨d.node, h, .refl _⟩⟩

theorem rewire_trans {a b c : L.Node} (h1 : Rewire L a b) (h2 : Rewire L b c) : Rewire L a c := by
  induction h1 with
  | refl => exact h2
  | step hm ho _ ih => exact .step hm ho (ih h2)

theorem Rewired.trans {a b c : Graph L.Data} (h1 : Rewired a b) (h2 : Rewired b c) :
    Rewired a c := by
  refine ⟨h2.free.trans h1.free, h2.len.trans h1.len, fun j h => h2.none j (h1.none j h), ?_⟩
  intro j d h
  obtain ⟨n1, h3, h4⟩ := h1.some j d h
  obtain ⟨n2, h5, h6⟩ := h2.some j _ h3
  exact ⟨n2, h5, rewire_trans h4 h6⟩

theorem Rewired.live {g g' : Graph L.Data} (h : Rewired g g') (j : Nat) :
    g'.Live j ↔ g.Live j := by
  unfold Graph.Live
  cases hj : g.node? j with
  | none => simp [h.none j hj]
  | some d =>
    obtain ⟨n, h1, _⟩ := h.some j d hj
    simp [h1]

theorem Rewired.wf {g g' : Graph L.Data} (h : Rewired g g') (hw : g.Wf) : g'.Wf := by
  refine ⟨by rw [h.free]; exact hw.nodup, ?_⟩
  intro i
  rw [h.free, hw.vacant, h.len, ← Graph.not_live, ← Graph.not_live, h.live]

theorem rewired_of_modify {g g' : Graph L.Data} {b : Nat} {m : Msg L.Num} (hm : IsWiring m)
    (h : g.modify b (fun d => do
      let n ← L.msg d.node m
      .ok ⟨n, d.buffers⟩) = .ok g') :
    Rewired g g' ∧ g'.edges = g.edges ∧ g.Live b := by
  obtain ⟨a, a', h1, h2, h3, h4, h5, h6⟩ := Graph.modify_ok h
  rw [except_bind_ok] at h2
  obtain ⟨n, hn, h2⟩ := h2
  cases h2
  refine ⟨⟨h4, h5, ?_, ?_⟩, h3, _, h1⟩
  · intro j hj
    rw [h6]
    by_cases hb : b = j
    · subst hb; rw [h1] at hj; cases hj
    · simp [hb, hj]
  · intro j d hj
    rw [h6]
    by_cases hb : b = j
    · subst hb
      rw [h1] at hj
      cases hj
      exact ⟨n, by simp, .step hm hn (.refl _)⟩
    · exact ⟨d.node, by simp [hb, hj], .refl _⟩

theorem rewired_edges {g g1 : Graph L.Data} {e : List (Nat × Nat)} (h : Rewired { g with edges := e } g1) :
    Rewired g g1 := ⟨h.free, h.len, h.none, h.some⟩

theorem addEdge_ok {α : Type} {g g' : Graph α} {a b : Nat} (h : g.addEdge a b = .ok g') :
    g' = { g with edges := (a, b) :: g.edges } ∧ g.Live a ∧ g.Live b := by
  unfold Graph.addEdge at h
  split at h
  · rename_i x y hx hy
    cases h
    exact ⟨rfl, ⟨x, hx⟩, ⟨y, hy⟩⟩
  · cases h

theorem connect_spec {g g' : Graph L.Data} {a b : Nat} (h : connect g a b = .ok g') :
    Rewired g g' ∧ g'.edges = (a, b) :: g.edges ∧ g.Live a ∧ g.Live b := by
  unfold connect at h
  rw [except_bind_ok] at h
  obtain ⟨g1, h1, h2⟩ := h
  obtain ⟨rfl, ha, hb⟩ := addEdge_ok h1
  obtain ⟨c1, c2, _⟩ := rewired_of_modify (m := .index a) trivial h2
  exact ⟨rewired_edges c1, c2, ha, hb⟩

theorem connectWithOrder_spec {g g' : Graph L.Data} {a b p : Nat}
    (h : connectWithOrder g a b p = .ok g') :
    Rewired g g' ∧ g'.edges = (a, b) :: g.edges ∧ g.Live a ∧ g.Live b := by
  unfold connectWithOrder at h
  rw [except_bind_ok] at h
  obtain ⟨g1, h1, h2⟩ := h
  obtain ⟨rfl, ha, hb⟩ := addEdge_ok h1
  obtain ⟨c1, c2, _⟩ := rewired_of_modify (m := .indexOrder p a) trivial h2
  exact ⟨rewired_edges c1, c2, ha, hb⟩

/-- The edges of `g'` are those of `g` and the live pairs satisfying `P`. -/
structure Adds (g g' : Graph L.Data) (P : Nat → Nat → Prop) : Prop where
  rewired : Rewired g g'
  edges : ∀ a b, (a, b) ∈ g'.edges ↔ (a, b) ∈ g.edges ∨ P a b
  live : ∀ a b, P a b → g.Live a ∧ g.Live b

theorem Adds.comp {g1 g2 g3 : Graph L.Data} {P Q R : Nat → Nat → Prop} (h1 : Adds g1 g2 P)
    (h2 : Adds g2 g3 Q) (hR : ∀ a b, R a b ↔ P a b ∨ Q a b) : Adds g1 g3 R := by
  refine ⟨h1.rewired.trans h2.rewired, ?_, ?_⟩
  · intro a b
    rw [h2.edges, h1.edges, hR, or_assoc]
  · intro a b h
    rcases (hR a b).mp h with h | h
    · exact h1.live a b h
    · have := h2.live a b h
      rw [h1.rewired.live, h1.rewired.live] at this
      exact this

theorem Adds.refl (g : Graph L.Data) {P : Nat → Nat → Prop} (h : ∀ a b, ¬ P a b) : Adds g g P :=
  ⟨.refl g, fun a b => by simp [h a b], fun a b hp => absurd hp (h a b)⟩

theorem Adds.edgesLive {g g' : Graph L.Data} {P : Nat → Nat → Prop} (h : Adds g g' P)
    (hg : EdgesLive g) : EdgesLive g' := by
  intro e he
  have : g.Live e.1 ∧ g.Live e.2 := by
    rcases (h.edges e.1 e.2).mp he with h1 | h1
    · exact hg _ h1
    · exact h.live _ _ h1
  exact ⟨(h.rewired.live _).mpr this.1, (h.rewired.live _).mpr this.2⟩

theorem connect_adds {g g' : Graph L.Data} {a b : Nat} (h : connect g a b = .ok g') :
    Adds g g' (fun x y => x = a ∧ y = b) := by
  obtain ⟨h1, h2, h3, h4⟩ := connect_spec h
  refine ⟨h1, ?_, ?_⟩
  · intro x y
    rw [h2]
    simp only [List.mem_cons, Prod.mk.injEq]
    exact or_comm
  · rintro x y ⟨rfl, rfl⟩
    exact ⟨h3, h4⟩

theorem connectWithOrder_adds {g g' : Graph L.Data} {a b p : Nat}
    (h : connectWithOrder g a b p = .ok g') : Adds g g' (fun x y => x = a ∧ y = b) := by
  obtain ⟨h1, h2, h3, h4⟩ := connectWithOrder_spec h
  refine ⟨h1, ?_, ?_⟩
  · intro x y
    rw [h2]
    simp only [List.mem_cons, Prod.mk.injEq]
    exact or_comm
  · rintro x y ⟨rfl, rfl⟩
    exact ⟨h3, h4⟩

theorem connectAll_adds {b : Nat} {srcs : List Nat} : ∀ {g g' : Graph L.Data},
    connectAll g b srcs = .ok g' → Adds g g' (fun x y => x ∈ srcs ∧ y = b) := by
  induction srcs with
  | nil =>
    intro g g' h
    simp only [connectAll, Except.ok.injEq] at h
    subst h
    exact .refl g (by simp)
  | cons a as ih =>
    intro g g' h
    simp only [connectAll, except_bind_ok] at h
    obtain ⟨g1, h1, h2⟩ := h
    refine (connect_adds h1).comp (ih h2) ?_
    intro x y
    simp only [List.mem_cons]
    constructor
    · rintro ⟨h | h, h'⟩
      · exact .inl ⟨h, h'⟩
      · exact .inr ⟨h, h'⟩
    · rintro (⟨h, h'⟩ | ⟨h, h'⟩)
      · exact ⟨.inl h, h'⟩
      · exact ⟨.inr h, h'⟩

/-- `a` is one of the sources computed for the reference. -/
def SrcOf (t : Table) (r : Name) (a : Nat) : Prop := ∃ srcs, refSources t r = .ok srcs ∧ a ∈ srcs

theorem connectRefs_adds {t : Table} {b : Nat} {rs : List Name} : ∀ {g g' : Graph L.Data},
    connectRefs t g b rs = .ok g' → Adds g g' (fun x y => (∃ r, r ∈ rs ∧ SrcOf t r x) ∧ y = b) := by
  induction rs with
  | nil =>
    intro g g' h
    simp only [connectRefs, Except.ok.injEq] at h
    subst h
    exact .refl g (by simp)
  | cons r rs ih =>
    intro g g' h
    simp only [connectRefs, except_bind_ok] at h
    obtain ⟨srcs, h0, g1, h1, h2⟩ := h
    refine (connectAll_adds h1).comp (ih h2) ?_
    intro x y
    constructor
    · rintro ⟨⟨r', hr, hs⟩, hy⟩
      rcases List.mem_cons.mp hr with rfl | hr
      · obtain ⟨srcs', h3, h4⟩ := hs
        rw [h0] at h3
        cases h3
        exact .inl ⟨h4, hy⟩
      · exact .inr ⟨⟨r', hr, hs⟩, hy⟩
    · rintro (⟨hx, hy⟩ | ⟨⟨r', hr, hs⟩, hy⟩)
      · exact ⟨⟨r, by simp, srcs, h0, hx⟩, hy⟩
      · exact ⟨⟨r', List.mem_cons_of_mem _ hr, hs⟩, hy⟩

theorem connectPairs_adds {t : Table} {pairs : List RefPair} :
    ∀ {done : List Nat} {g g' : Graph L.Data},
    connectPairs t pairs done g = .ok (g', none) →
    Adds g g' (fun x y => ∃ refs name pos chain, (refs, name, pos) ∈ pairs ∧
      lookup t name = some chain ∧ chain[pos]? = some y ∧ ∃ r, r ∈ refs ∧ SrcOf t r x) := by
  induction pairs with
  | nil =>
    intro done g g' h
    simp only [connectPairs, Except.ok.injEq, Prod.mk.injEq] at h
    obtain ⟨rfl, _⟩ := h
    exact .refl g (by simp)
  | cons p pairs ih =>
    intro done g g' h
    obtain ⟨refs, name, pos⟩ := p
    simp only [connectPairs] at h
    split at h
    · simp at h
    · rename_i chain hl
      split at h
      · cases h
      · rename_i b hb
        simp only [except_bind_ok] at h
        obtain ⟨g1, h1, g2, h2, h3⟩ := h
        have ha1 : Adds g g1 (fun _ _ => False) := by
          unfold resetOnce at h1
          split at h1
          · cases h1; exact .refl g (by simp)
          · obtain ⟨c1, c2, _⟩ := rewired_of_modify (m := .resetOrder) trivial h1
            exact ⟨c1, by simp [c2], by simp⟩
        have ha2 := ha1.comp (connectRefs_adds h2) (R := fun x y => (∃ r, r ∈ refs ∧ SrcOf t r x) ∧ y = b)
          (by simp)
        refine ha2.comp (ih h3) ?_
        intro x y
        constructor
        · rintro ⟨refs', name', pos', chain', hm, hl', hc, hr⟩
          rcases List.mem_cons.mp hm with hm | hm
          · cases hm
            rw [hl] at hl'
            cases hl'
            rw [hb] at hc
            cases hc
            exact .inl ⟨hr, rfl⟩
          · exact .inr ⟨refs', name', pos', chain', hm, hl', hc, hr⟩
        · rintro (⟨hr, rfl⟩ | ⟨refs', name', pos', chain', hm, hl', hc, hr⟩)
          · exact ⟨refs, name, pos, chain, by simp, hl, hb, hr⟩
          · exact ⟨refs', name', pos', chain', List.mem_cons_of_mem _ hm, hl', hc, hr⟩

/-- The error branch is only taken for a chain name missing from the table. -/
theorem connectPairs_err {t : Table} {pairs : List RefPair} :
    ∀ {done : List Nat} {g g' : Graph L.Data} {x : EngineError},
    connectPairs t pairs done g = .ok (g', some x) →
    ∃ refs name pos, (refs, name, pos) ∈ pairs ∧ lookup t name = none := by
  induction pairs with
  | nil => intro done g g' x h; simp [connectPairs] at h
  | cons p pairs ih =>
    intro done g g' x h
    obtain ⟨refs, name, pos⟩ := p
    simp only [connectPairs] at h
    split at h
    · rename_i hl
      exact ⟨refs, name, pos, by simp, hl⟩
    · split at h
      · cases h
      · simp only [except_bind_ok] at h
        obtain ⟨g1, h1, g2, h2, h3⟩ := h
        obtain ⟨r, n, p, hm, hl⟩ := ih h3
        exact ⟨r, n, p, List.mem_cons_of_mem _ hm, hl⟩

theorem adjacent_cons {a b : Nat} {l : List Nat} {x y : Nat} :
    Adjacent (a :: b :: l) x y ↔ (x = a ∧ y = b) ∨ Adjacent (b :: l) x y := by
  constructor
  · rintro ⟨pre, post, h⟩
    cases pre with
    | nil =>
      simp only [List.nil_append, List.cons.injEq] at h
      exact .inl ⟨h.1.symm, h.2.1.symm⟩
    | cons p pre =>
      simp only [List.cons_append, List.cons.injEq] at h
      exact .inr ⟨pre, post, h.2⟩
  · rintro (⟨rfl, rfl⟩ | ⟨pre, post, h⟩)
    · exact ⟨[], l, rfl⟩
    · exact ⟨a :: pre, post, by simp [h]⟩

theorem not_adjacent_nil {x y : Nat} : ¬ Adjacent [] x y := by
  rintro ⟨pre, post, h⟩
  cases pre <;> simp at h

theorem not_adjacent_single {a x y : Nat} : ¬ Adjacent [a] x y := by
  rintro ⟨pre, post, h⟩
  cases pre with
  | nil => simp at h
  | cons p pre => cases pre <;> simp at h

theorem connectChain_adds {c : List Nat} : ∀ {g g' : Graph L.Data},
    connectChain g c = .ok g' → Adds g g' (Adjacent c) := by
  induction c with
  | nil =>
    intro g g' h
    simp only [connectChain, Except.ok.injEq] at h
    subst h
    exact .refl g (fun a b => not_adjacent_nil)
  | cons a c ih =>
    intro g g' h
    cases c with
    | nil =>
      simp only [connectChain, Except.ok.injEq] at h
      subst h
      exact .refl g (fun a b => not_adjacent_single)
    | cons b c =>
      simp only [connectChain, except_bind_ok] at h
      obtain ⟨g1, h1, h2⟩ := h
      refine (connectWithOrder_adds h1).comp (ih h2) ?_
      intro x y
      exact adjacent_cons

theorem connectTable_adds {dest : Nat} {t : Table} : ∀ {g g' : Graph L.Data},
    connectTable dest t g = .ok g' →
    Adds g g' (fun x y => ∃ k c, (k, c) ∈ t ∧
      (Adjacent c x y ∨ (hasTilde k = false ∧ c.getLast? = some x ∧ y = dest))) := by
  induction t with
  | nil =>
    intro g g' h
    simp only [connectTable, Except.ok.injEq] at h
    subst h
    exact .refl g (by simp)
  | cons e t ih =>
    intro g g' h
    obtain ⟨k, c⟩ := e
    simp only [connectTable, except_bind_ok] at h
    obtain ⟨g1, h1, g2, h2, h3⟩ := h
    have ha2 : Adds g1 g2 (fun x y => hasTilde k = false ∧ c.getLast? = some x ∧ y = dest) := by
      unfold connectOut at h2
      split at h2
      · rename_i ht
        cases h2
        exact .refl g1 (by simp [ht])
      · rename_i ht
        split at h2
        · rename_i hl
          cases h2
          exact .refl g1 (by simp [hl])
        · rename_i e hl
          have := connectWithOrder_adds h2
          refine ⟨this.rewired, ?_, ?_⟩
          · intro a b
            rw [this.edges, hl]
            simp [ht, eq_comm]
          · rintro a b ⟨_, h5, h6⟩
            rw [hl] at h5
            cases h5
            exact this.live _ _ ⟨rfl, h6⟩
    have ha12 := (connectChain_adds h1).comp ha2
      (R := fun x y => Adjacent c x y ∨ (hasTilde k = false ∧ c.getLast? = some x ∧ y = dest))
      (fun _ _ => Iff.rfl)
    refine ha12.comp (ih h3) ?_
    intro x y
    constructor
    · rintro ⟨k', c', hm, hr⟩
      rcases List.mem_cons.mp hm with hm | hm
      · cases hm; exact .inl hr
      · exact .inr ⟨k', c', hm, hr⟩
    · rintro (hr | ⟨k', c', hm, hr⟩)
      · exact ⟨k, c, by simp, hr⟩
      · exact ⟨k', c', List.mem_cons_of_mem _ hm, hr⟩

/-! ### Names -/

theorem hasDots_of_noDot {r : Name} (h : '.' ∉ r) : hasDots r = false := by
  induction r with
  | nil => rfl
  | cons c r ih =>
    simp only [List.mem_cons, not_or] at h
    unfold hasDots
    split
    · rename_i heq; simp only [List.cons.injEq] at heq; exact absurd heq.1.symm h.1
    · rename_i heq; simp only [List.cons.injEq] at heq; rw [← heq.2]; exact ih h.2
    · rfl

theorem hasDots_pattern {b : Name} : hasDots (b ++ ['.', '.']) = true := by
  induction b with
  | nil => rfl
  | cons c b ih =>
    simp only [List.cons_append]
    unfold hasDots
    split
    · rfl
    · rename_i heq; simp only [List.cons.injEq] at heq; rw [← heq.2]; exact ih
    · rename_i heq; simp at heq

theorem stripDots_pattern {b : Name} (h : '.' ∉ b) : stripDots (b ++ ['.', '.']) = b := by
  induction b with
  | nil => simp [stripDots]
  | cons c b ih =>
    simp only [List.mem_cons, not_or] at h
    simp only [List.cons_append]
    unfold stripDots
    split
    · rename_i heq; simp only [List.cons.injEq] at heq; exact absurd heq.1.symm h.1
    · rename_i heq
      simp only [List.cons.injEq] at heq
      obtain ⟨rfl, rfl⟩ := heq
      rw [ih h.2]
    · rename_i heq; simp at heq

theorem hasTilde_iff {k : Name} : hasTilde k = false ↔ '~' ∉ k := by
  simp [hasTilde]

theorem mapM_ok_of {α β : Type} {f : α → Except Panic β} {l : List α}
    (h : ∀ a, a ∈ l → ∃ b, f a = .ok b) : ∃ r, l.mapM f = .ok r := by
  induction l with
  | nil => exact ⟨[], rfl⟩
  | cons a l ih =>
    obtain ⟨b, hb⟩ := h a (by simp)
    obtain ⟨r, hr⟩ := ih (fun a ha => h a (List.mem_cons_of_mem _ ha))
    refine ⟨b :: r, ?_⟩
    rw [List.mapM_cons, hb]
    simp only [bind, Except.bind, hr, pure, Except.pure]

theorem lastOf_ok {c : List Nat} {a : Nat} : lastOf c = .ok a ↔ c.getLast? = some a := by
  unfold lastOf
  split
  · rename_i i h; simp [h]
  · rename_i h; simp [h]

/-- The computed sources are the denoted ones. -/
theorem srcOf_denotes {t : Table} {r : Name} (hn : (keys t).Nodup) (hr : RefWf r)
    (hne : ∀ k c, (k, c) ∈ t → c ≠ []) (a : Nat) : SrcOf t r a ↔ Denotes t r a := by
  rcases hr with hr | ⟨base, hb, rfl⟩
  · unfold SrcOf refSources
    simp only [hasDots_of_noDot hr, Bool.false_eq_true, if_false]
    constructor
    · rintro ⟨srcs, h1, h2⟩
      split at h1
      · cases h1
      · rename_i chain hl
        simp only [except_bind_ok] at h1
        obtain ⟨i, hi, h1⟩ := h1
        cases h1
        simp only [List.mem_singleton] at h2
        subst h2
        exact .named hr (lookup_mem hl) (lastOf_ok.mp hi)
    · intro h
      cases h with
      | named _ hm hl =>
        refine ⟨[a], ?_, by simp⟩
        rw [lookup_of_mem hn hm]
        simp only [except_bind_ok]
        exact ⟨a, lastOf_ok.mpr hl, rfl⟩
      | pattern => simp at hr
  · unfold SrcOf refSources
    simp only [hasDots_pattern, if_true, stripDots_pattern hb]
    constructor
    · rintro ⟨srcs, h1, h2⟩
      have h3 := mapM_except_ok h1
      obtain ⟨e, he, hf⟩ : ∃ e ∈ t.filter (fun e => base.isPrefixOf e.1), lastOf e.2 = .ok a := by
        clear h1
        generalize t.filter (fun e => base.isPrefixOf e.1) = tf at h3 ⊢
        induction h3 with
        | nil => cases h2
        | cons hab _ ih =>
          rcases List.mem_cons.mp h2 with rfl | h2
          · exact ⟨_, by simp, hab⟩
          · obtain ⟨e, he, h⟩ := ih h2
            exact ⟨e, List.mem_cons_of_mem _ he, h⟩
      rw [List.mem_filter] at he
      exact .pattern hb he.1 (List.isPrefixOf_iff_prefix.mp he.2) (lastOf_ok.mp hf)
    · intro h
      obtain ⟨srcs, hs⟩ : ∃ r, (t.filter (fun e => base.isPrefixOf e.1)).mapM (fun e => lastOf e.2) = .ok r := by
        apply mapM_ok_of
        intro e he
        have := hne e.1 e.2 (List.mem_filter.mp he).1
        exact ⟨_, lastOf_ok.mpr (List.getLast?_eq_getLast_of_ne_nil this)⟩
      refine ⟨srcs, hs, ?_⟩
      have h3 := mapM_except_ok hs
      generalize hq : base ++ ['.', '.'] = q at h
      cases h with
      | named hnd => subst hq; simp at hnd
      | @pattern base' k c a hb' hm hp hl =>
        have : base = base' := by
          have := List.append_inj_left' hq rfl
          exact this
        subst this
        have hmem : (k, c) ∈ t.filter (fun e => base.isPrefixOf e.1) :=
          List.mem_filter.mpr ⟨hm, List.isPrefixOf_iff_prefix.mpr hp⟩
        clear hs
        generalize t.filter (fun e => base.isPrefixOf e.1) = tf at h3 hmem
        induction h3 with
        | nil => cases hmem
        | cons hab _ ih =>
          rcases List.mem_cons.mp hmem with h | h
          · rw [← h] at hab
            rw [lastOf_ok.mpr hl] at hab
            cases hab
            simp
          · exact List.mem_cons_of_mem _ (ih h)

end Verif
