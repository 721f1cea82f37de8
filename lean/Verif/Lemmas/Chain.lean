import Verif.Lemmas.Update

/-! Removing and inserting positions of one chain (helpers). -/

namespace Verif
open Spec

/-- Removal of positions one after the other; `none` if one is out of range. -/
def eraseSeq : List Nat → List Nat → Option (List Nat)
  | c, [] => some c
  | c, p :: ps => if p < c.length then eraseSeq (c.eraseIdx p) ps else none

/-- Insertion of nodes at positions one after the other, starting from a possibly missing chain;
`none` if one is out of range. -/
def insSeq : Option (List Nat) → List (Nat × Nat) → Option (Option (List Nat))
  | c, [] => some c
  | none, (_, i) :: r => insSeq (some [i]) r
  | some c, (p, i) :: r => if p ≤ c.length then insSeq (some (c.insertIdx p i)) r else none

/-- The positions listed for chain `k`. -/
def posOf (k : Name) (rms : List (Name × Nat)) : List Nat :=
  (rms.filter (fun x => decide (x.1 = k))).map (·.2)

theorem posOf_append (k : Name) (a b : List (Name × Nat)) :
    posOf k (a ++ b) = posOf k a ++ posOf k b := by simp [posOf]

theorem posOf_reverse (k : Name) (a : List (Name × Nat)) :
    posOf k a.reverse = (posOf k a).reverse := by simp [posOf]

theorem dropNodes_lookup {rms : List (Name × Nat)} : ∀ {t t' : Table} {gone : List Nat},
    dropNodes rms t = .ok (t', gone) → ∀ k,
    match lookup t k with
    | none => lookup t' k = none
    | some c => ∃ c', eraseSeq c (posOf k rms) = some c' ∧ lookup t' k = some c' := by
  induction rms with
  | nil =>
    intro t t' gone h k
    simp only [dropNodes, Except.ok.injEq, Prod.mk.injEq] at h
    obtain ⟨rfl, _⟩ := h
    cases hl : lookup t k with
    | none => rfl
    | some c => exact ⟨c, rfl, rfl⟩
  | cons a rms ih =>
    intro t t' gone h k
    obtain ⟨k0, pos⟩ := a
    simp only [dropNodes] at h
    split at h
    · rename_i hl0
      have := ih h k
      cases hl : lookup t k with
      | none => rw [hl] at this; exact this
      | some c =>
        rw [hl] at this
        have hne : k0 ≠ k := by rintro rfl; rw [hl0] at hl; cases hl
        simpa [posOf, hne] using this
    · rename_i chain hl0
      split at h
      · cases h
      · rename_i i hi
        rw [except_bind_ok] at h
        obtain ⟨⟨t2, more⟩, hrec, heq⟩ := h
        simp only [Except.ok.injEq, Prod.mk.injEq] at heq
        obtain ⟨rfl, _⟩ := heq
        have := ih hrec k
        rw [lookup_assign] at this
        by_cases hk : k0 = k
        · subst hk
          rw [hl0] at this ⊢
          simp only [if_true, Option.map_some] at this
          obtain ⟨c', h1, h2⟩ := this
          have hlt : pos < chain.length := (List.getElem?_eq_some_iff.mp hi).1
          refine ⟨c', ?_, h2⟩
          simpa [posOf, eraseSeq, hlt] using h1
        · simp only [hk, if_false] at this
          cases hl : lookup t k with
          | none => rw [hl] at this; exact this
          | some c =>
            rw [hl] at this
            simpa [posOf, hk] using this

theorem dropNodes_total {rms : List (Name × Nat)} : ∀ {t : Table},
    (∀ k c, lookup t k = some c → ∃ c', eraseSeq c (posOf k rms) = some c') →
    ∃ r, dropNodes rms t = .ok r := by
  induction rms with
  | nil => intro t _; exact ⟨_, rfl⟩
  | cons a rms ih =>
    intro t h
    obtain ⟨k0, pos⟩ := a
    simp only [dropNodes]
    cases hl0 : lookup t k0 with
    | none =>
      apply ih
      intro k c hl
      have hne : k0 ≠ k := by rintro rfl; rw [hl0] at hl; cases hl
      simpa [posOf, hne] using h k c hl
    | some chain =>
      obtain ⟨c', hc'⟩ := h k0 chain hl0
      have hlt : pos < chain.length := by
        by_cases hlt : pos < chain.length
        · exact hlt
        · simp [posOf, eraseSeq, hlt] at hc'
      simp only [List.getElem?_eq_getElem hlt]
      have : ∃ r, dropNodes rms (assign t k0 (chain.eraseIdx pos)) = .ok r := by
        apply ih
        intro k c hl
        rw [lookup_assign] at hl
        by_cases hk : k0 = k
        · subst hk
          rw [hl0] at hl
          simp only [if_true, Option.map_some, Option.some.injEq] at hl
          subst hl
          refine ⟨c', ?_⟩
          simpa [posOf, eraseSeq, hlt] using hc'
        · simp only [hk, if_false] at hl
          simpa [posOf, hk] using h k c hl
      obtain ⟨r, hr⟩ := this
      rw [hr]
      exact ⟨_, rfl⟩

/-- Positions and new nodes of chain `k`. -/
def insOf {δ : Type} (k : Name) (adds : List (Name × Nat × δ)) (cr : List Nat) :
    List (Nat × Nat) :=
  ((adds.zip cr).filter (fun x => decide (x.1.1 = k))).map (fun x => (x.1.2.1, x.2))

variable {L : Lang}

theorem insertNodes_lookup {adds : List (Name × Nat × L.Data)} :
    ∀ {g g' : Graph L.Data} {t t' : Table} {cr : List Nat},
    insertNodes adds g t = .ok (g', t', cr) → ∀ k,
    insSeq (lookup t k) (insOf k adds cr) = some (lookup t' k) := by
  induction adds with
  | nil =>
    intro g g' t t' cr h k
    simp only [insertNodes, Except.ok.injEq, Prod.mk.injEq] at h
    obtain ⟨_, rfl, rfl⟩ := h
    simp [insOf, insSeq]
  | cons a adds ih =>
    intro g g' t t' cr h k
    obtain ⟨k0, pos, nd⟩ := a
    simp only [insertNodes] at h
    cases hadd : g.addNode nd with
    | mk g1 i =>
    rw [hadd] at h
    simp only at h
    split at h
    · rename_i chain hlk
      split at h
      · rename_i hpos
        rw [except_bind_ok] at h
        obtain ⟨⟨g2, t2, more⟩, hrec, heq⟩ := h
        simp only [Except.ok.injEq, Prod.mk.injEq] at heq
        obtain ⟨_, rfl, rfl⟩ := heq
        have := ih hrec k
        rw [lookup_assign] at this
        by_cases hk : k0 = k
        · subst hk
          rw [hlk] at this ⊢
          simp only [if_true, Option.map_some] at this
          simpa [insOf, insSeq, hpos] using this
        · simp only [hk, if_false] at this
          simpa [insOf, hk] using this
      · cases h
    · rename_i hlk
      rw [except_bind_ok] at h
      obtain ⟨⟨g2, t2, more⟩, hrec, heq⟩ := h
      simp only [Except.ok.injEq, Prod.mk.injEq] at heq
      obtain ⟨_, rfl, rfl⟩ := heq
      have := ih hrec k
      rw [lookup_insert] at this
      by_cases hk : k0 = k
      · subst hk
        rw [hlk]
        simp only [if_true] at this
        simpa [insOf, insSeq] using this
      · simp only [hk, if_false] at this
        simpa [insOf, hk] using this

/-- Insertions succeed if they succeed chain by chain for whatever nodes are created. -/
theorem insertNodes_total {adds : List (Name × Nat × L.Data)} :
    ∀ {g : Graph L.Data} {t : Table},
    (∀ k (F : List Nat), F.length = adds.length →
      ∃ c', insSeq (lookup t k) (insOf k adds F) = some c') →
    ∃ r, insertNodes adds g t = .ok r := by
  induction adds with
  | nil => intro g t _; exact ⟨_, rfl⟩
  | cons a adds ih =>
    intro g t h
    obtain ⟨k0, pos, nd⟩ := a
    simp only [insertNodes]
    cases hadd : g.addNode nd with
    | mk g1 i =>
    simp only
    cases hlk : lookup t k0 with
    | some chain =>
      have hpos : pos ≤ chain.length := by
        by_cases hpos : pos ≤ chain.length
        · exact hpos
        · obtain ⟨c', hc'⟩ := h k0 (i :: List.replicate adds.length 0) (by simp)
          rw [hlk] at hc'
          simp [insOf, insSeq, hpos] at hc'
      simp only [hpos, if_true]
      have : ∃ r, insertNodes adds g1 (assign t k0 (chain.insertIdx pos i)) = .ok r := by
        apply ih
        intro k F hF
        obtain ⟨c', hc'⟩ := h k (i :: F) (by simp [hF])
        refine ⟨c', ?_⟩
        rw [lookup_assign]
        by_cases hk : k0 = k
        · subst hk
          rw [hlk] at hc' ⊢
          simpa [insOf, insSeq, hpos] using hc'
        · simpa [insOf, hk] using hc'
      obtain ⟨r, hr⟩ := this
      rw [hr]
      exact ⟨_, rfl⟩
    | none =>
      have : ∃ r, insertNodes adds g1 (insert t k0 [i]) = .ok r := by
        apply ih
        intro k F hF
        obtain ⟨c', hc'⟩ := h k (i :: F) (by simp [hF])
        refine ⟨c', ?_⟩
        rw [lookup_insert]
        by_cases hk : k0 = k
        · subst hk
          rw [hlk] at hc'
          simpa [insOf, insSeq] using hc'
        · simpa [insOf, hk] using hc'
      obtain ⟨r, hr⟩ := this
      simp only
      rw [hr]
      exact ⟨_, rfl⟩

/-! ### Pure list lemmas -/

theorem enumFrom_succ {β : Type} (n : Nat) (l : List β) :
    enumFrom (n + 1) l = (enumFrom n l).map (fun p => (p.1 + 1, p.2)) := by
  induction l generalizing n with
  | nil => rfl
  | cons a l ih => simp [enumFrom, ih (n + 1)]

theorem eraseSeq_append (c : List Nat) (ps qs : List Nat) :
    eraseSeq c (ps ++ qs) = (eraseSeq c ps).bind (fun c' => eraseSeq c' qs) := by
  induction ps generalizing c with
  | nil => rfl
  | cons p ps ih =>
    simp only [List.cons_append, eraseSeq]
    by_cases h : p < c.length
    · simp [h, ih]
    · simp [h]

theorem eraseSeq_shift (x : Nat) (c ps : List Nat) :
    eraseSeq (x :: c) (ps.map (· + 1)) = (eraseSeq c ps).map (x :: ·) := by
  induction ps generalizing c with
  | nil => rfl
  | cons p ps ih =>
    simp only [List.map_cons, eraseSeq, List.length_cons, Nat.add_lt_add_iff_right,
      List.eraseIdx_cons_succ]
    by_cases h : p < c.length
    · simp [h, ih]
    · simp [h]

variable {κ : Type}

theorem enumFrom_filter_shift (bad : κ → Bool) (l : List κ) :
    ((enumFrom 1 l).filter (fun p => bad p.2)).map (·.1) =
      (((enumFrom 0 l).filter (fun p => bad p.2)).map (·.1)).map (· + 1) := by
  rw [enumFrom_succ]
  simp [List.filter_map, Function.comp_def]

/-- Removing, from the back, the positions of the bad components keeps the nodes of the others. -/
theorem eraseSeq_filter (bad : κ → Bool) : ∀ (old : List κ) (c : List Nat),
    old.length = c.length →
    eraseSeq c (((enumFrom 0 old).filter (fun p => bad p.2)).map (·.1)).reverse =
      some (((old.zip c).filter (fun x => !bad x.1)).map (·.2)) := by
  intro old
  induction old with
  | nil =>
    intro c h
    cases c with
    | nil => rfl
    | cons _ _ => simp at h
  | cons o old ih =>
    intro c h
    cases c with
    | nil => simp at h
    | cons x c =>
      simp only [List.length_cons, Nat.add_right_cancel_iff] at h
      have hsh := enumFrom_filter_shift bad old
      simp only [enumFrom, List.filter_cons, List.zip_cons_cons]
      by_cases hb : bad o = true
      · simp only [hb, if_true, List.map_cons, List.reverse_cons, hsh]
        rw [eraseSeq_append, ← List.map_reverse, eraseSeq_shift, ih c h]
        simp [eraseSeq]
      · simp only [hb, Bool.false_eq_true, if_false, hsh]
        rw [← List.map_reverse, eraseSeq_shift, ih c h]
        simp

theorem insSeq_shift (x : Nat) (c : List Nat) (ps : List (Nat × Nat)) :
    insSeq (some (x :: c)) (ps.map (fun p => (p.1 + 1, p.2))) =
      (insSeq (some c) ps).map (Option.map (x :: ·)) := by
  induction ps generalizing c with
  | nil => rfl
  | cons p ps ih =>
    simp only [List.map_cons, insSeq, List.length_cons, Nat.add_le_add_iff_right,
      List.insertIdx_succ_cons]
    by_cases h : p.1 ≤ c.length
    · simp [h, ih]
    · simp [h]

/-- Inserting, from the front, new nodes at the positions of the new components gives a list in
which the kept and the new nodes appear in order at the right places. -/
theorem insSeq_spec (inOld : κ → Bool) : ∀ (new : List κ) (K F : List Nat),
    K.length = (new.filter inOld).length → F.length = (new.filter (fun c => !inOld c)).length →
    ∃ r, insSeq (some K)
        ((((enumFrom 0 new).filter (fun p => !inOld p.2)).map (·.1)).zip F) = some (some r) ∧
      r.length = new.length ∧
      ((new.zip r).filter (fun x => inOld x.1)).map (·.2) = K ∧
      ((new.zip r).filter (fun x => !inOld x.1)).map (·.2) = F := by
  intro new
  induction new with
  | nil =>
    intro K F hK hF
    simp at hK hF
    subst hK; subst hF
    exact ⟨[], rfl, rfl, rfl, rfl⟩
  | cons c new ih =>
    intro K F hK hF
    have hsh := enumFrom_filter_shift (fun c => !inOld c) new
    simp only [enumFrom, List.filter_cons] at hK hF ⊢
    by_cases hc : inOld c = true
    · simp only [hc, if_true, List.length_cons] at hK
      simp only [hc, Bool.not_true, Bool.false_eq_true, if_false] at hF ⊢
      cases K with
      | nil => simp at hK
      | cons k K =>
        simp only [List.length_cons, Nat.add_right_cancel_iff] at hK
        obtain ⟨r, h1, h2, h3, h4⟩ := ih K F hK hF
        refine ⟨k :: r, ?_, by simp [h2], ?_, ?_⟩
        · rw [hsh, ← List.map_id F, List.zip_map]
          have := insSeq_shift k K ((((enumFrom 0 new).filter (fun p => !inOld p.2)).map (·.1)).zip F)
          rw [h1] at this
          simp only [Option.map_some] at this
          exact this
        · simp [hc, h3]
        · simp [hc, h4]
    · simp only [hc, Bool.false_eq_true, if_false] at hK
      simp only [hc, Bool.not_false, if_true, List.length_cons] at hF ⊢
      cases F with
      | nil => simp at hF
      | cons f F =>
        simp only [List.length_cons, Nat.add_right_cancel_iff] at hF
        obtain ⟨r, h1, h2, h3, h4⟩ := ih K F hK hF
        refine ⟨f :: r, ?_, by simp [h2], ?_, ?_⟩
        · simp only [List.map_cons, List.zip_cons_cons, insSeq, Nat.zero_le, if_true,
            List.insertIdx_zero]
          rw [hsh, ← List.map_id F, List.zip_map]
          have := insSeq_shift f K ((((enumFrom 0 new).filter (fun p => !inOld p.2)).map (·.1)).zip F)
          rw [h1] at this
          simp only [Option.map_some] at this
          exact this
        · simp [hc, h3]
        · simp [hc, h4]

theorem insSeq_none_zero {ps : List (Nat × Nat)} {i : Nat} :
    insSeq none ((0, i) :: ps) = insSeq (some []) ((0, i) :: ps) := by
  simp [insSeq]

/-- Counting: a relation that is total on `l1` and injective gives `|l1| ≤ |l2|`. -/
theorem length_le_of_inj {α β : Type} (R : α → β → Prop) : ∀ (l1 : List α) (l2 : List β),
    (∀ a, a ∈ l1 → ∃ b, b ∈ l2 ∧ R a b) →
    l1.Pairwise (fun a a' => ∀ b, ¬ (R a b ∧ R a' b)) → l1.length ≤ l2.length := by
  intro l1
  induction l1 with
  | nil => intro l2 _ _; simp
  | cons a l1 ih =>
    intro l2 h hp
    rw [List.pairwise_cons] at hp
    obtain ⟨b, hb, hab⟩ := h a (by simp)
    obtain ⟨s, t, rfl⟩ := List.append_of_mem hb
    have := ih (s ++ t) (by
      intro a' ha'
      obtain ⟨b', hb', hab'⟩ := h a' (List.mem_cons_of_mem _ ha')
      simp only [List.mem_append, List.mem_cons] at hb' ⊢
      rcases hb' with hb' | rfl | hb'
      · exact ⟨b', .inl hb', hab'⟩
      · exact absurd ⟨hab, hab'⟩ (hp.1 a' ha' b')
      · exact ⟨b', .inr hb', hab'⟩) hp.2
    simp only [List.length_append, List.length_cons] at this ⊢
    omega

/-- With an equality that is symmetric and transitive, chains without repeated components have as
many kept old components as recurring new ones. -/
theorem kept_count (eq : κ → κ → Bool) (hs : ∀ a b, eq a b = true → eq b a = true)
    (ht : ∀ a b c, eq a b = true → eq b c = true → eq a c = true) {old new : List κ}
    (ho : Distinct eq old) (hn : Distinct eq new) :
    (old.filter (fun o => new.any (fun c => eq o c))).length =
      (new.filter (fun c => old.any (fun o => eq o c))).length := by
  apply Nat.le_antisymm
  · apply length_le_of_inj (fun o c => eq o c = true)
    · intro o h
      rw [List.mem_filter, List.any_eq_true] at h
      obtain ⟨h1, c, h2, h3⟩ := h
      exact ⟨c, List.mem_filter.mpr ⟨h2, List.any_eq_true.mpr ⟨o, h1, h3⟩⟩, h3⟩
    · apply List.Pairwise.filter
      refine List.Pairwise.imp ?_ ho
      intro a b hab c h
      have := ht _ _ _ h.1 (hs _ _ h.2)
      rw [hab] at this
      cases this
  · apply length_le_of_inj (fun c o => eq o c = true)
    · intro c h
      rw [List.mem_filter, List.any_eq_true] at h
      obtain ⟨h1, o, h2, h3⟩ := h
      exact ⟨o, List.mem_filter.mpr ⟨h2, List.any_eq_true.mpr ⟨c, h1, h3⟩⟩, h3⟩
    · apply List.Pairwise.filter
      refine List.Pairwise.imp ?_ hn
      intro a b hab o h
      have := ht _ _ _ (hs _ _ h.1) h.2
      rw [hab] at this
      cases this

end Verif
