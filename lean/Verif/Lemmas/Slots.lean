import Verif.Lemmas.Graph
import Verif.Lemmas.Table

/-! Adding and removing nodes of the stable graph (helpers). -/

namespace Verif
open Spec

namespace Graph
variable {α : Type}

/-- The free list is exactly the list of vacant slots. -/
structure Wf (g : Graph α) : Prop where
  nodup : g.free.Nodup
  vacant : ∀ i, i ∈ g.free ↔ i < g.slots.length ∧ g.node? i = none

/-- `i` is a live node. -/
def Live (g : Graph α) (i : Nat) : Prop := ∃ a, g.node? i = some a

theorem not_live {g : Graph α} {i : Nat} : ¬ g.Live i ↔ g.node? i = none := by
  unfold Live
  cases g.node? i <;> simp

theorem wf_empty : (Graph.empty : Graph α).Wf := ⟨by simp [empty], by simp [empty]⟩

theorem addNode_spec {g g' : Graph α} {a : α} {i : Nat} (hw : g.Wf) (h : g.addNode a = (g', i)) :
    g'.Wf ∧ g.node? i = none ∧ g'.edges = g.edges ∧
    ∀ j, g'.node? j = if i = j then some a else g.node? j := by
  unfold addNode at h
  split at h
  · rename_i hf
    cases h
    have hnode : ∀ j, (Graph.mk (g.slots ++ [some a]) g.free g.edges).node? j =
        if g.slots.length = j then some a else g.node? j := by
      intro j
      unfold node?
      simp only [List.getElem?_append, List.getElem?_singleton]
      by_cases h1 : j < g.slots.length
      · simp [h1, Nat.ne_of_gt h1]
      · by_cases h2 : g.slots.length = j
        · subst h2; simp
        · have : j - g.slots.length ≠ 0 := by omega
          simp [h1, h2, this]
    refine ⟨⟨?_, ?_⟩, ?_, rfl, ?_⟩
    · simp [hf]
    · intro j
      rw [hf] at hnode ⊢
      have := hw.vacant j
      rw [hf] at this
      simp only [List.not_mem_nil, false_iff, not_and, List.length_append, List.length_singleton] at this ⊢
      intro hj
      rw [hnode]
      by_cases h2 : g.slots.length = j
      · simp [h2]
      · simp only [h2, if_false]
        exact this (by omega)
    · unfold node?
      rw [List.getElem?_eq_none (by omega)]
      rfl
    · intro j
      exact hnode j
  · rename_i i' rest hf
    cases h
    have hi := (hw.vacant i).mp (by rw [hf]; simp)
    have hnode : ∀ j, (Graph.mk (g.slots.set i (some a)) rest g.edges).node? j =
        if i = j then some a else g.node? j := by
      intro j
      exact node?_set hi.1
    have hnd := hw.nodup
    rw [hf, List.nodup_cons] at hnd
    refine ⟨⟨hnd.2, ?_⟩, hi.2, rfl, hnode⟩
    intro j
    rw [hnode]
    have := hw.vacant j
    rw [hf, List.mem_cons] at this
    simp only [List.length_set]
    by_cases hij : i = j
    · subst hij
      simp [hnd.1]
    · simp only [hij, if_false]
      rw [← this]
      constructor
      · exact .inr
      · rintro (h | h)
        · exact absurd h.symm hij
        · exact h

theorem removeNode_spec {g : Graph α} {i : Nat} (hw : g.Wf) :
    (g.removeNode i).Wf ∧ (∀ j, (g.removeNode i).node? j = if i = j then none else g.node? j) ∧
    (∀ e, e ∈ (g.removeNode i).edges → e ∈ g.edges) ∧
    (EdgesLive g → ¬ g.Live i → (g.removeNode i).edges = g.edges) ∧
    (∀ e, e ∈ g.edges → e.1 ≠ i → e.2 ≠ i → e ∈ (g.removeNode i).edges) := by
  unfold removeNode
  cases hi : g.node? i with
  | none =>
    refine ⟨hw, ?_, fun _ h => h, fun _ _ => rfl, fun _ h _ _ => h⟩
    intro j
    by_cases h : i = j
    · subst h; simp [hi]
    · simp [h]
  | some a =>
    have hlt := node?_lt hi
    simp only
    refine ⟨⟨?_, ?_⟩, ?_, ?_, ?_, ?_⟩
    · refine List.nodup_cons.mpr ⟨?_, hw.nodup⟩
      intro h
      have := (hw.vacant i).mp h
      rw [hi] at this
      cases this.2
    · intro j
      rw [node?_set hlt]
      simp only [List.mem_cons, List.length_set]
      by_cases hij : i = j
      · subst hij; simp [hlt]
      · simp only [hij, if_false, ← hw.vacant j]
        simp [Ne.symm hij]
    · intro j
      exact node?_set hlt
    · intro e he
      exact (List.mem_filter.mp he).1
    · intro _ h
      exact absurd ⟨a, hi⟩ h
    · intro e he h1 h2
      refine List.mem_filter.mpr ⟨he, ?_⟩
      simp [h1, h2]

theorem removeNode_edges_free {g : Graph α} {i : Nat} (h : ∀ e, e ∈ g.edges → e.1 ≠ i ∧ e.2 ≠ i) :
    (g.removeNode i).edges = g.edges := by
  unfold removeNode
  split
  · rfl
  · apply List.filter_eq_self.mpr
    intro e he
    have := h e he
    simp [this]

end Graph

variable {L : Lang}

theorem removeAll_spec {g : Graph L.Data} {ids : List Nat} (hw : g.Wf) :
    (removeAll g ids).Wf ∧
    (∀ j, (removeAll g ids).node? j = if j ∈ ids then none else g.node? j) ∧
    ((∀ e, e ∈ g.edges → e.1 ∉ ids ∧ e.2 ∉ ids) → (removeAll g ids).edges = g.edges) := by
  unfold removeAll
  induction ids generalizing g with
  | nil => exact ⟨hw, by simp, fun _ => rfl⟩
  | cons i ids ih =>
    obtain ⟨h1, h2, _, _, _⟩ := Graph.removeNode_spec (i := i) hw
    obtain ⟨h3, h4, h5⟩ := ih h1
    refine ⟨h3, ?_, ?_⟩
    · intro j
      simp only [List.foldl_cons, h4, h2, List.mem_cons]
      by_cases hj : j ∈ ids
      · simp [hj]
      · by_cases hij : i = j
        · simp [hij]
        · simp [hj, hij, Ne.symm hij]
    · intro he
      have he' : (g.removeNode i).edges = g.edges := by
        apply Graph.removeNode_edges_free
        intro e h
        have := he e h
        simp only [List.mem_cons, not_or] at this
        exact ⟨this.1.1, this.2.1⟩
      simp only [List.foldl_cons]
      rw [h5, he']
      rw [he']
      intro e h
      have := he e h
      simp only [List.mem_cons, not_or] at this
      exact ⟨this.1.2, this.2.2⟩

/-- What inserting nodes does to the graph and to the set of listed indices. -/
theorem insertNodes_spec {adds : List (Name × Nat × L.Data)} :
    ∀ {g g' : Graph L.Data} {t t' : Table} {cr : List Nat}, g.Wf →
    insertNodes adds g t = .ok (g', t', cr) →
    g'.Wf ∧ cr.Nodup ∧ (∀ i, i ∈ cr → g.node? i = none ∧ g'.Live i) ∧ g'.edges = g.edges ∧
    (∀ j, j ∉ cr → g'.node? j = g.node? j) ∧
    (flat t').Perm (flat t ++ cr) ∧
    List.Forall₂ (fun (a : Name × Nat × L.Data) i => g'.node? i = some a.2.2) adds cr := by
  induction adds with
  | nil =>
    intro g g' t t' cr hw h
    simp only [insertNodes, Except.ok.injEq, Prod.mk.injEq] at h
    obtain ⟨rfl, rfl, rfl⟩ := h
    exact ⟨hw, by simp, by simp, rfl, by simp, by simp, .nil⟩
  | cons a adds ih =>
    intro g g' t t' cr hw h
    obtain ⟨k, pos, nd⟩ := a
    simp only [insertNodes] at h
    cases hadd : g.addNode nd with
    | mk g1 i =>
    rw [hadd] at h
    simp only at h
    obtain ⟨hw1, hvac, hed1, hn1⟩ := Graph.addNode_spec hw hadd
    -- common tail
    have tail : ∀ {t1 : Table} {g2 t2 more}, insertNodes adds g1 t1 = .ok (g2, t2, more) →
        (flat t1).Perm (flat t ++ [i]) →
        g2.Wf ∧ (i :: more).Nodup ∧ (∀ j, j ∈ i :: more → g.node? j = none ∧ g2.Live j) ∧
        g2.edges = g.edges ∧ (∀ j, j ∉ i :: more → g2.node? j = g.node? j) ∧
        (flat t2).Perm (flat t ++ (i :: more)) ∧
        List.Forall₂ (fun (a : Name × Nat × L.Data) i => g2.node? i = some a.2.2)
          ((k, pos, nd) :: adds) (i :: more) := by
      intro t1 g2 t2 more hrec hperm
      obtain ⟨c1, c2, c3, c4, c5, c6, c7⟩ := ih hw1 hrec
      have hi : i ∉ more := by
        intro hi
        have := (c3 i hi).1
        rw [hn1] at this
        simp at this
      have hgi : g2.node? i = some nd := by
        rw [c5 i hi, hn1]; simp
      refine ⟨c1, List.nodup_cons.mpr ⟨hi, c2⟩, ?_, by rw [c4, hed1], ?_, ?_, .cons hgi c7⟩
      · intro j hj
        rcases List.mem_cons.mp hj with rfl | hj
        · exact ⟨hvac, _, hgi⟩
        · obtain ⟨d1, d2⟩ := c3 j hj
          rw [hn1] at d1
          by_cases hij : i = j
          · simp [hij] at d1
          · simp only [hij, if_false] at d1
            exact ⟨d1, d2⟩
      · intro j hj
        simp only [List.mem_cons, not_or] at hj
        rw [c5 j hj.2, hn1]
        simp [Ne.symm hj.1]
      · refine c6.trans ?_
        refine (hperm.append_right more).trans ?_
        simp
    split at h
    · rename_i chain hlk
      split at h
      · rename_i hpos
        rw [except_bind_ok] at h
        obtain ⟨⟨g2, t2, more⟩, hrec, heq⟩ := h
        simp only [Except.ok.injEq, Prod.mk.injEq] at heq
        obtain ⟨rfl, rfl, rfl⟩ := heq
        apply tail hrec
        obtain ⟨pre, post, hs, _, has⟩ := lookup_split hlk
        rw [has, hs]
        simp only [flat_append, flat_cons]
        have hp : (chain.insertIdx pos i).Perm (i :: chain) := List.perm_insertIdx _ _ hpos
        refine ((hp.append_right _).append_left _).trans ?_
        simp only [List.cons_append]
        refine List.perm_middle.trans ?_
        refine List.Perm.trans ?_ (List.perm_append_comm)
        simp
      · cases h
    · rename_i hlk
      rw [except_bind_ok] at h
      obtain ⟨⟨g2, t2, more⟩, hrec, heq⟩ := h
      simp only [Except.ok.injEq, Prod.mk.injEq] at heq
      obtain ⟨rfl, rfl, rfl⟩ := heq
      apply tail hrec
      rw [insert_of_none hlk]
      simp

theorem keys_perm_nodup {β : Type} {s t : List (Name × β)} (h : s.Perm t) :
    (keys s).Nodup ↔ (keys t).Nodup := (h.map Prod.fst).nodup_iff

theorem dropChains_spec {new : Ast L.Comp} {ks : List Name} :
    ∀ {t t' : Table} {gone : List Nat}, (keys t).Nodup →
    dropChains new ks t = .ok (t', gone) →
    (flat t).Perm (flat t' ++ gone) ∧ (keys t').Nodup ∧
    ∀ k, lookup t' k = if k ∈ ks ∧ k ∉ keys new then none else lookup t k := by
  induction ks with
  | nil =>
    intro t t' gone hn h
    simp only [dropChains, Except.ok.injEq, Prod.mk.injEq] at h
    obtain ⟨rfl, rfl⟩ := h
    exact ⟨by simp, hn, by simp⟩
  | cons k ks ih =>
    intro t t' gone hn h
    simp only [dropChains] at h
    split at h
    · rename_i hk
      obtain ⟨c1, c2, c3⟩ := ih hn h
      refine ⟨c1, c2, ?_⟩
      intro k'
      rw [c3]
      rw [lookup_isSome] at hk
      by_cases hkk : k' = k
      · subst hkk; simp [hk]
      · simp [hkk]
    · rename_i hk
      rw [lookup_isSome] at hk
      split at h
      · cases h
      · rename_i idxs hlk
        rw [except_bind_ok] at h
        obtain ⟨⟨t2, more⟩, hrec, heq⟩ := h
        simp only [Except.ok.injEq, Prod.mk.injEq] at heq
        obtain ⟨rfl, rfl⟩ := heq
        have hne : (keys (erase t k)).Nodup := by
          rw [keys_erase]; exact hn.filter _
        obtain ⟨c1, c2, c3⟩ := ih hne hrec
        refine ⟨?_, c2, ?_⟩
        · obtain ⟨pre, post, hs, _, _⟩ := lookup_split hlk
          rw [erase_split hs hn] at c1
          rw [hs]
          simp only [flat_append, flat_cons] at c1 ⊢
          have : (flat pre ++ (idxs ++ flat post)).Perm ((flat pre ++ flat post) ++ idxs) := by
            rw [List.append_assoc]
            exact List.perm_append_comm.append_left _
          refine this.trans ((c1.append_right _).trans ?_)
          rw [List.append_assoc]
          exact List.perm_append_comm.append_left _
        · intro k'
          rw [c3, lookup_erase]
          by_cases hkk : k = k'
          · subst hkk; simp [hk]
          · simp [hkk, Ne.symm hkk]

theorem perm_eraseIdx {β : Type} {l : List β} {p : Nat} (h : p < l.length) :
    l.Perm (l[p] :: l.eraseIdx p) := by
  induction l generalizing p with
  | nil => simp at h
  | cons a l ih =>
    cases p with
    | zero => simp
    | succ p =>
      simp only [List.getElem_cons_succ, List.eraseIdx_cons_succ]
      exact ((ih (by simpa using h)).cons a).trans (List.Perm.swap _ _ _)

theorem dropNodes_spec {rms : List (Name × Nat)} :
    ∀ {t t' : Table} {gone : List Nat},
    dropNodes rms t = .ok (t', gone) →
    (flat t).Perm (flat t' ++ gone) ∧ keys t' = keys t := by
  induction rms with
  | nil =>
    intro t t' gone h
    simp only [dropNodes, Except.ok.injEq, Prod.mk.injEq] at h
    obtain ⟨rfl, rfl⟩ := h
    simp
  | cons a rms ih =>
    intro t t' gone h
    obtain ⟨k, pos⟩ := a
    simp only [dropNodes] at h
    split at h
    · exact ih h
    · rename_i chain hlk
      split at h
      · cases h
      · rename_i i hi
        rw [except_bind_ok] at h
        obtain ⟨⟨t2, more⟩, hrec, heq⟩ := h
        simp only [Except.ok.injEq, Prod.mk.injEq] at heq
        obtain ⟨rfl, rfl⟩ := heq
        obtain ⟨c1, c2⟩ := ih hrec
        rw [keys_assign] at c2
        refine ⟨?_, c2⟩
        obtain ⟨pre, post, hs, _, has⟩ := lookup_split hlk
        rw [has] at c1
        rw [hs]
        simp only [flat_append, flat_cons] at c1 ⊢
        have hp : chain.Perm (i :: chain.eraseIdx pos) := by
          obtain ⟨hlt, rfl⟩ := List.getElem?_eq_some_iff.mp hi
          exact perm_eraseIdx hlt
        refine ((hp.append_right _).append_left _).trans ?_
        simp only [List.cons_append]
        refine List.perm_middle.trans ?_
        refine (List.Perm.cons i c1).trans ?_
        exact List.perm_middle.symm

theorem insertNodes_keys {adds : List (Name × Nat × L.Data)} :
    ∀ {g g' : Graph L.Data} {t t' : Table} {cr : List Nat},
    insertNodes adds g t = .ok (g', t', cr) → (keys t).Nodup →
    (keys t').Nodup ∧ ∀ k, k ∈ keys t' ↔ k ∈ keys t ∨ ∃ p, (k, p) ∈ adds := by
  induction adds with
  | nil =>
    intro g g' t t' cr h hn
    simp only [insertNodes, Except.ok.injEq, Prod.mk.injEq] at h
    obtain ⟨rfl, rfl, rfl⟩ := h
    exact ⟨hn, by simp⟩
  | cons a adds ih =>
    intro g g' t t' cr h hn
    obtain ⟨k, pos, nd⟩ := a
    simp only [insertNodes] at h
    cases hadd : g.addNode nd with
    | mk g1 i =>
    rw [hadd] at h
    simp only at h
    split at h
    · rename_i chain hlk
      split at h
      · rw [except_bind_ok] at h
        obtain ⟨⟨g2, t2, more⟩, hrec, heq⟩ := h
        simp only [Except.ok.injEq, Prod.mk.injEq] at heq
        obtain ⟨rfl, rfl, rfl⟩ := heq
        obtain ⟨c1, c2⟩ := ih hrec (by rw [keys_assign]; exact hn)
        refine ⟨c1, ?_⟩
        intro k'
        rw [c2, keys_assign]
        have hk : k ∈ keys t := lookup_isSome.mp (by simp [hlk])
        constructor
        · rintro (h | ⟨p, h⟩)
          · exact .inl h
          · exact .inr ⟨p, List.mem_cons_of_mem _ h⟩
        · rintro (h | ⟨p, h⟩)
          · exact .inl h
          · rcases List.mem_cons.mp h with h | h
            · cases h; exact .inl hk
            · exact .inr ⟨p, h⟩
      · cases h
    · rename_i hlk
      rw [except_bind_ok] at h
      obtain ⟨⟨g2, t2, more⟩, hrec, heq⟩ := h
      simp only [Except.ok.injEq, Prod.mk.injEq] at heq
      obtain ⟨rfl, rfl, rfl⟩ := heq
      rw [insert_of_none hlk] at hrec
      have hk := lookup_none.mp hlk
      obtain ⟨c1, c2⟩ := ih hrec (by
        simp only [keys_append, keys_cons, keys_nil]
        rw [List.nodup_append]
        refine ⟨hn, by simp, ?_⟩
        intro a ha b hb
        simp only [List.mem_singleton] at hb
        subst hb
        rintro rfl
        exact hk ha)
      refine ⟨c1, ?_⟩
      intro k'
      rw [c2]
      simp only [keys_append, keys_cons, keys_nil, List.mem_append, List.mem_cons, Prod.mk.injEq,
        List.not_mem_nil, or_false]
      constructor
      · rintro ((h | h) | ⟨p, h⟩)
        · exact .inl h
        · exact .inr ⟨(pos, nd), .inl ⟨h, rfl⟩⟩
        · exact .inr ⟨p, .inr h⟩
      · rintro (h | ⟨p, ⟨h, _⟩ | h⟩)
        · exact .inl (.inl h)
        · exact .inl (.inr h)
        · exact .inr ⟨p, h⟩

end Verif
