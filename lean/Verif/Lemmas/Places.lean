import Verif.Spec.Places
import Verif.Props.Mirror

/-! Helpers for C17. -/

namespace Verif
open Spec Props

variable {L : Lang}

/-! ### Lists -/

/-- The entries of `m` at the positions at which `l` satisfies `p`. -/
def sel {α β : Type} (p : α → Bool) (l : List α) (m : List β) : List β :=
  ((l.zip m).filter (fun x => p x.1)).map (·.2)

/-- The selected positions do not depend on what is selected. -/
theorem sel_rank {α β : Type} {p : α → Bool} : ∀ {l : List α} {i : Nat} {a : α}, l[i]? = some a → p a = true →
    ∃ j : Nat, ∀ m : List β, m.length = l.length → (sel p l m)[j]? = m[i]? := by
  intro l
  induction l with
  | nil => intro i a h _; simp at h
  | cons x l ih =>
    intro i a h hp
    cases i with
    | zero =>
      simp only [List.getElem?_cons_zero, Option.some.injEq] at h
      subst h
      refine ⟨0, fun m hm => ?_⟩
      cases m with
      | nil => simp at hm
      | cons y m => simp [sel, hp]
    | succ i =>
      simp only [List.getElem?_cons_succ] at h
      obtain ⟨j, hj⟩ := ih h hp
      by_cases hx : p x = true
      · refine ⟨j + 1, fun m hm => ?_⟩
        cases m with
        | nil => simp at hm
        | cons y m =>
          have := hj m (by simpa using hm)
          simpa [sel, hx] using this
      · refine ⟨j, fun m hm => ?_⟩
        cases m with
        | nil => simp at hm
        | cons y m =>
          have := hj m (by simpa using hm)
          simpa [sel, hx] using this

theorem sel_unrank {α β : Type} {p : α → Bool} : ∀ {l : List α} {j : Nat}, j < (l.filter p).length →
    ∃ (i : Nat) (a : α), l[i]? = some a ∧ p a = true ∧ ∀ m : List β, m.length = l.length → (sel p l m)[j]? = m[i]? := by
  intro l
  induction l with
  | nil => intro j h; simp at h
  | cons x l ih =>
    intro j h
    by_cases hx : p x = true
    · cases j with
      | zero =>
        refine ⟨0, x, rfl, hx, fun m hm => ?_⟩
        cases m with
        | nil => simp at hm
        | cons y m => simp [sel, hx]
      | succ j =>
        rw [List.filter_cons_of_pos hx] at h
        obtain ⟨i, a, h1, h2, h3⟩ := ih (Nat.lt_of_succ_lt_succ h)
        refine ⟨i + 1, a, h1, h2, fun m hm => ?_⟩
        cases m with
        | nil => simp at hm
        | cons y m =>
          have := h3 m (by simpa using hm)
          simpa [sel, hx] using this
    · rw [List.filter_cons_of_neg hx] at h
      obtain ⟨i, a, h1, h2, h3⟩ := ih h
      refine ⟨i + 1, a, h1, h2, fun m hm => ?_⟩
      cases m with
      | nil => simp at hm
      | cons y m =>
        have := h3 m (by simpa using hm)
        simpa [sel, hx] using this

theorem sel_length {α β : Type} {p : α → Bool} {l : List α} {m : List β} (h : m.length = l.length) :
    (sel p l m).length = (l.filter p).length := by
  unfold sel
  rw [List.length_map]
  exact zip_filter_length p l m h.symm

/-! ### Places -/

theorem flat_place {t : Table} (hf : (flat t).Nodup) {k k' : Name} {c c' : List Nat} {i j n : Nat}
    (hk : (keys t).Nodup) (h1 : (k, c) ∈ t) (h2 : c[i]? = some n) (h3 : (k', c') ∈ t) (h4 : c'[j]? = some n) :
    k = k' ∧ i = j := by
  induction t with
  | nil => cases h1
  | cons x t ih =>
    obtain ⟨kx, cx⟩ := x
    rw [flat_cons, List.nodup_append] at hf
    simp only [keys_cons, List.nodup_cons] at hk
    rcases List.mem_cons.mp h1 with h1' | h1' <;> rcases List.mem_cons.mp h3 with h3' | h3'
    · cases h1'; cases h3'
      refine ⟨rfl, ?_⟩
      obtain ⟨l1, g1⟩ := List.getElem?_eq_some_iff.mp h2
      obtain ⟨l2, g2⟩ := List.getElem?_eq_some_iff.mp h4
      exact (List.getElem_inj hf.1).mp (g1.trans g2.symm)
    · cases h1'
      exact absurd rfl (hf.2.2 n (List.mem_of_getElem? h2) n (mem_flat.mpr ⟨k', c', h3', List.mem_of_getElem? h4⟩))
    · cases h3'
      exact absurd rfl (hf.2.2 n (List.mem_of_getElem? h4) n (mem_flat.mpr ⟨k, c, h1', List.mem_of_getElem? h2⟩))
    · exact ih hf.2.1 hk.2 h1' h3'

/-- A node sits at one place only. -/
theorem sits_place {e : Engine L} (hI : Inv e) {p q : Place} {n : Nat} (h1 : Sits e p n) (h2 : Sits e q n) :
    p = q := by
  have hf := hI.flatNodup
  simp only [List.nodup_cons, List.mem_cons, not_or] at hf
  have inFlat : ∀ {k c i m}, (k, c) ∈ e.index → c[i]? = some m → m ∈ flat e.index :=
    fun h h' => mem_flat.mpr ⟨_, _, h, List.mem_of_getElem? h'⟩
  generalize hm : n = m at h2
  cases h1 with
  | dest =>
    cases h2 with
    | dest => rfl
    | input => exact absurd hm hf.1.1
    | «at» a b => exact absurd (hm ▸ inFlat a b) hf.1.2
  | input =>
    cases h2 with
    | dest => exact absurd hm.symm hf.1.1
    | input => rfl
    | «at» a b => exact absurd (hm ▸ inFlat a b) hf.2.1
  | «at» a b =>
    cases h2 with
    | dest => exact absurd (hm ▸ inFlat a b) hf.1.2
    | input => exact absurd (hm ▸ inFlat a b) hf.2.1
    | «at» a' b' =>
      subst hm
      obtain ⟨rfl, rfl⟩ := flat_place hf.2.2 hI.keysNodup a b a' b'
      rfl

/-- At most one node sits at a place. -/
theorem sits_node {e : Engine L} (hI : Inv e) {p : Place} {n m : Nat} (h1 : Sits e p n) (h2 : Sits e p m) :
    n = m := by
  cases h1 with
  | dest => cases h2; rfl
  | input => cases h2; rfl
  | «at» a b =>
    cases h2 with
    | «at» a' b' =>
      have e1 := lookup_of_mem hI.keysNodup a
      rw [lookup_of_mem hI.keysNodup a'] at e1
      cases e1
      rw [b] at b'
      exact Option.some.inj b'

theorem sits_live {e : Engine L} (hI : Inv e) {p : Place} {n : Nat} (h : Sits e p n) : e.graph.Live n := by
  rw [hI.live]
  cases h with
  | dest => exact .inl rfl
  | input => exact .inr (.inl rfl)
  | «at» a b => exact .inr (.inr (mem_flat.mpr ⟨_, _, a, List.mem_of_getElem? b⟩))

theorem live_sits {e : Engine L} (hI : Inv e) {n : Nat} (h : e.graph.Live n) : ∃ p, Sits e p n := by
  rw [hI.live] at h
  rcases h with rfl | rfl | h
  · exact ⟨_, .dest⟩
  · exact ⟨_, .input⟩
  · obtain ⟨k, c, h1, h2⟩ := mem_flat.mp h
    obtain ⟨i, hi, rfl⟩ := List.mem_iff_getElem.mp h2
    exact ⟨_, .at h1 (List.getElem?_eq_getElem hi)⟩

/-! ### Engines that correspond have the same chains -/

theorem samePlaces_length {e1 e2 : Engine L} (hI1 : Inv e1) (hI2 : Inv e2)
    (h : ∀ p, (∃ n, Sits e1 p n) ↔ ∃ n, Sits e2 p n) {k : Name} {c1 c2 : List Nat}
    (h1 : (k, c1) ∈ e1.index) (h2 : (k, c2) ∈ e2.index) : c1.length = c2.length := by
  have key : ∀ {e1 e2 : Engine L}, Inv e2 → (∀ p, (∃ n, Sits e1 p n) → ∃ n, Sits e2 p n) →
      ∀ {c1 c2 : List Nat}, (k, c1) ∈ e1.index → (k, c2) ∈ e2.index → c1.length ≤ c2.length := by
    intro e1 e2 hI2 h c1 c2 h1 h2
    by_contra hlt
    have hl : c2.length < c1.length := by omega
    obtain ⟨n, hn⟩ := h (.at k c2.length) ⟨_, .at h1 (List.getElem?_eq_getElem hl)⟩
    cases hn with
    | «at» a b =>
      have e1 := lookup_of_mem hI2.keysNodup a
      rw [lookup_of_mem hI2.keysNodup h2] at e1
      cases e1
      simp at b
  exact Nat.le_antisymm (key hI2 (fun p => (h p).mp) h1 h2) (key hI1 (fun p => (h p).mpr) h2 h1)

theorem samePlaces_chain {e1 e2 : Engine L}
    (h : ∀ p, (∃ n, Sits e1 p n) → ∃ n, Sits e2 p n) {k : Name} {c1 : List Nat}
    (h1 : (k, c1) ∈ e1.index) (hne : c1 ≠ []) : ∃ c2, (k, c2) ∈ e2.index := by
  cases c1 with
  | nil => exact absurd rfl hne
  | cons a c =>
    obtain ⟨n, hn⟩ := h (.at k 0) ⟨a, .at h1 rfl⟩
    cases hn with
    | «at» a b => exact ⟨_, a⟩

/-- No chain of the table is empty. -/
theorem chain_ne {e : Engine L} (hI : Inv e) (hm : Mirrors e) {k : Name} {c : List Nat} (h : (k, c) ∈ e.index) :
    c ≠ [] := by
  have hl := lookup_of_mem hI.keysNodup h
  by_cases ho : k ∈ oldKeys e
  · obtain ⟨a, ha, hk⟩ := mem_oldKeys.mp ho
    obtain ⟨comps, hc⟩ := mem_keys.mp hk
    obtain ⟨c', h1, h2⟩ := hm.len a ha k comps hc
    rw [hl] at h1
    cases h1
    have := (hI.ast a ha).nonempty k comps hc
    intro h0
    rw [h0] at h2
    exact this (List.length_eq_zero_iff.mp h2.symm)
  · exact hm.builtin k c hl ho

/-- The same connections are wanted. -/
theorem wanted_places {e1 e2 : Engine L} (hI1 : Inv e1) (hI2 : Inv e2)
    (h : ∀ p, (∃ n, Sits e1 p n) ↔ ∃ n, Sits e2 p n) 
    {p1 p2 : Ast L.Comp} (hp : p1.Perm p2) {p q : Place}
    {a1 b1 a2 b2 : Nat} (sa1 : Sits e1 p a1) (sb1 : Sits e1 q b1) (sa2 : Sits e2 p a2) (sb2 : Sits e2 q b2)
    (hw : Wanted L e1.dest e1.index p1 a1 b1) : Wanted L e2.dest e2.index p2 a2 b2 := by
  -- the last node of a chain
  have last : ∀ {k : Name} {c : List Nat}, (k, c) ∈ e1.index → c.getLast? = some a1 →
      ∃ c2, (k, c2) ∈ e2.index ∧ c2.getLast? = some a2 := by
    intro k c hk hl
    rw [List.getLast?_eq_getElem?] at hl
    have := sits_place hI1 sa1 (.at hk hl)
    subst this
    cases sa2 with
    | @«at» _ c2 _ _ m1 m2 =>
      refine ⟨c2, m1, ?_⟩
      rw [List.getLast?_eq_getElem?, ← samePlaces_length hI1 hI2 h hk m1]
      exact m2
  cases hw with
  | @chain k c _ _ hk had =>
    obtain ⟨pre, post, rfl⟩ := had
    have g1 : (pre ++ a1 :: b1 :: post)[pre.length]? = some a1 := by simp
    have g2 : (pre ++ a1 :: b1 :: post)[pre.length + 1]? = some b1 := by
      rw [List.getElem?_append_right (by omega)]; simp
    have := sits_place hI1 sa1 (.at hk g1)
    subst this
    have := sits_place hI1 sb1 (.at hk g2)
    subst this
    cases sa2 with
    | @«at» _ c2 _ _ m1 m2 =>
      cases sb2 with
      | @«at» _ c3 _ _ m3 m4 =>
        have e1 := lookup_of_mem hI2.keysNodup m1
        rw [lookup_of_mem hI2.keysNodup m3] at e1
        cases e1
        refine .chain m1 ⟨c2.take pre.length, c2.drop (pre.length + 2), ?_⟩
        obtain ⟨l1, g1⟩ := List.getElem?_eq_some_iff.mp m2
        obtain ⟨l2, g2⟩ := List.getElem?_eq_some_iff.mp m4
        rw [← g1, ← g2, ← List.drop_eq_getElem_cons l2, ← List.drop_eq_getElem_cons l1, List.take_append_drop]
  | @out k c _ hk ht hl =>
    obtain ⟨c2, m1, m2⟩ := last hk hl
    have := sits_place hI1 sb1 .dest
    subst this
    cases sb2
    exact .out m1 ht m2
  | @ref k comps i comp r c _ _ h1 h2 h3 h4 h5 h6 =>
    have := sits_place hI1 sb1 (.at h4 h5)
    subst this
    cases sb2 with
    | @«at» _ c2 _ _ m1 m2 =>
      refine .ref (hp.mem_iff.mp h1) h2 h3 m1 m2 ?_
      cases h6 with
      | named n1 n2 n3 =>
        obtain ⟨c3, m3, m4⟩ := last n2 n3
        exact .named n1 m3 m4
      | pattern n1 n2 n3 n4 =>
        obtain ⟨c3, m3, m4⟩ := last n2 n4
        exact .pattern n1 m3 n3 m4

end Verif
