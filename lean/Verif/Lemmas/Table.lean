import Verif.Engine

/-! Lemmas about the hash-map primitives and tables (helpers). -/

namespace Verif

/-- All node indices listed in a table. -/
def flat (t : Table) : List Nat := t.flatMap (·.2)

/-- The keys of a map. -/
def keys {β : Type} (t : List (Name × β)) : List Name := t.map Prod.fst

section
variable {β : Type}

@[simp] theorem keys_nil : keys ([] : List (Name × β)) = [] := rfl
@[simp] theorem keys_cons (a : Name × β) (t : List (Name × β)) : keys (a :: t) = a.1 :: keys t := rfl
@[simp] theorem keys_append (s t : List (Name × β)) : keys (s ++ t) = keys s ++ keys t := by
  simp [keys]

theorem lookup_isSome {t : List (Name × β)} {k : Name} :
    (lookup t k).isSome = true ↔ k ∈ keys t := by
  induction t with
  | nil => simp [lookup]
  | cons a t ih =>
    obtain ⟨k', v⟩ := a
    simp only [lookup, keys_cons, List.mem_cons]
    by_cases h : k' = k
    · simp [h]
    · simp only [h, if_false, ih]
      constructor
      · exact .inr
      · rintro (h' | h')
        · exact absurd h'.symm h
        · exact h'

theorem lookup_none {t : List (Name × β)} {k : Name} : lookup t k = none ↔ k ∉ keys t := by
  rw [← lookup_isSome]
  cases lookup t k <;> simp

theorem lookup_mem {t : List (Name × β)} {k : Name} {v : β} (h : lookup t k = some v) :
    (k, v) ∈ t := by
  induction t with
  | nil => simp [lookup] at h
  | cons a t ih =>
    obtain ⟨k', v'⟩ := a
    simp only [lookup] at h
    by_cases hk : k' = k
    · simp only [hk, if_true, Option.some.injEq] at h
      simp [hk, h]
    · simp only [hk, if_false] at h
      exact List.mem_cons_of_mem _ (ih h)

theorem mem_keys {t : List (Name × β)} {k : Name} : k ∈ keys t ↔ ∃ v, (k, v) ∈ t := by
  simp [keys]

theorem lookup_of_mem {t : List (Name × β)} {k : Name} {v : β} (hn : (keys t).Nodup)
    (h : (k, v) ∈ t) : lookup t k = some v := by
  induction t with
  | nil => cases h
  | cons a t ih =>
    obtain ⟨k', v'⟩ := a
    simp only [keys_cons, List.nodup_cons] at hn
    simp only [lookup]
    rcases List.mem_cons.mp h with h1 | h1
    · cases h1; simp
    · by_cases hk : k' = k
      · subst hk
        exact absurd (mem_keys.mpr ⟨v, h1⟩) hn.1
      · simp only [hk, if_false]
        exact ih hn.2 h1

/-- Decomposition of a table at a present key. -/
theorem lookup_split {t : List (Name × β)} {k : Name} {v : β} (h : lookup t k = some v) :
    ∃ pre post, t = pre ++ (k, v) :: post ∧ k ∉ keys pre ∧
      ∀ w, assign t k w = pre ++ (k, w) :: post := by
  induction t with
  | nil => simp [lookup] at h
  | cons a t ih =>
    obtain ⟨k', v'⟩ := a
    simp only [lookup] at h
    by_cases hk : k' = k
    · simp only [hk, if_true, Option.some.injEq] at h
      subst h; subst hk
      exact ⟨[], t, rfl, by simp, by simp [assign]⟩
    · simp only [hk, if_false] at h
      obtain ⟨pre, post, h1, h2, h3⟩ := ih h
      refine ⟨(k', v') :: pre, post, by simp [h1], ?_, ?_⟩
      · simp only [keys_cons, List.mem_cons, not_or]
        exact ⟨fun h => hk h.symm, h2⟩
      · intro w
        simp [assign, hk, h3 w]

theorem keys_assign (t : List (Name × β)) (k : Name) (v : β) : keys (assign t k v) = keys t := by
  induction t with
  | nil => rfl
  | cons a t ih =>
    obtain ⟨k', v'⟩ := a
    simp only [assign]
    by_cases hk : k' = k
    · simp [hk]
    · simp [hk, ih]

theorem lookup_assign {t : List (Name × β)} {k k' : Name} {v : β} :
    lookup (assign t k v) k' =
      if k = k' then (lookup t k').map (fun _ => v) else lookup t k' := by
  induction t with
  | nil => simp [assign, lookup]
  | cons a t ih =>
    obtain ⟨a, w⟩ := a
    simp only [assign]
    by_cases hak : a = k
    · subst hak
      simp only [if_true, lookup]
      by_cases h : a = k'
      · simp [h]
      · simp [h]
    · simp only [hak, if_false, lookup, ih]
      by_cases h : a = k'
      · subst h
        simp [Ne.symm hak]
      · simp [h]

theorem lookup_append {s t : List (Name × β)} {k : Name} :
    lookup (s ++ t) k = match lookup s k with | some v => some v | none => lookup t k := by
  induction s with
  | nil => simp [lookup]
  | cons a s ih =>
    obtain ⟨a, w⟩ := a
    simp only [List.cons_append, lookup]
    by_cases h : a = k
    · simp [h]
    · simp [h, ih]

theorem lookup_insert {t : List (Name × β)} {k k' : Name} {v : β} :
    lookup (insert t k v) k' = if k = k' then some v else lookup t k' := by
  unfold insert
  cases h : lookup t k with
  | some w =>
    simp only [lookup_assign]
    by_cases hk : k = k'
    · subst hk; simp [h]
    · simp [hk]
  | none =>
    simp only [lookup_append, lookup]
    by_cases hk : k = k'
    · subst hk; simp [h]
    · simp only [hk, if_false]
      cases lookup t k' <;> rfl

theorem keys_erase (t : List (Name × β)) (k : Name) :
    keys (erase t k) = (keys t).filter (fun x => !decide (x = k)) := by
  simp only [keys, erase, List.filter_map]
  rfl

theorem lookup_erase {t : List (Name × β)} {k k' : Name} :
    lookup (erase t k) k' = if k = k' then none else lookup t k' := by
  induction t with
  | nil => simp [erase, lookup]
  | cons a t ih =>
    obtain ⟨a, w⟩ := a
    unfold erase at ih ⊢
    simp only [List.filter_cons]
    by_cases hak : a = k
    · subst hak
      simp only [decide_true, Bool.not_true, Bool.false_eq_true, if_false, ih, lookup]
      by_cases h : a = k'
      · simp [h]
      · simp [h]
    · simp only [hak, decide_false, Bool.not_false, if_true, lookup, ih]
      by_cases h : a = k'
      · subst h; simp [Ne.symm hak]
      · simp [h]

theorem erase_split {t pre post : List (Name × β)} {k : Name} {v : β}
    (h : t = pre ++ (k, v) :: post) (hn : (keys t).Nodup) : erase t k = pre ++ post := by
  subst h
  simp only [keys_append, keys_cons, List.nodup_append, List.nodup_cons] at hn
  have h1 : ∀ l : List (Name × β), k ∉ keys l → l.filter (fun e => !decide (e.1 = k)) = l := by
    intro l hl
    apply List.filter_eq_self.mpr
    intro a ha
    simp only [Bool.not_eq_true', decide_eq_false_iff_not]
    intro hak
    exact hl (mem_keys.mpr ⟨a.2, by rw [← hak]; exact ha⟩)
  unfold erase
  rw [List.filter_append, List.filter_cons]
  simp only [decide_true, Bool.not_true, Bool.false_eq_true, if_false]
  rw [h1 pre, h1 post]
  · exact hn.2.1.1
  · intro hk
    exact hn.2.2 k hk k (by simp) rfl

theorem insert_of_none {t : List (Name × β)} {k : Name} {v : β} (h : lookup t k = none) :
    insert t k v = t ++ [(k, v)] := by
  simp [insert, h]

/-- Lookup is invariant under permutation of a map with distinct keys. -/
theorem lookup_perm {s t : List (Name × β)} (hp : s.Perm t) (hn : (keys t).Nodup) (k : Name) :
    lookup s k = lookup t k := by
  have hns : (keys s).Nodup := (hp.map Prod.fst).nodup_iff.mpr hn
  cases h : lookup t k with
  | none =>
    rw [lookup_none] at h ⊢
    intro hk
    exact h ((hp.map Prod.fst).mem_iff.mp hk)
  | some v =>
    exact lookup_of_mem hns (hp.mem_iff.mpr (lookup_mem h))

end

@[simp] theorem flat_nil : flat [] = [] := rfl
@[simp] theorem flat_cons (a : Name × List Nat) (t : Table) : flat (a :: t) = a.2 ++ flat t := rfl
@[simp] theorem flat_append (s t : Table) : flat (s ++ t) = flat s ++ flat t := by
  simp [flat]

theorem mem_flat {t : Table} {i : Nat} : i ∈ flat t ↔ ∃ k c, (k, c) ∈ t ∧ i ∈ c := by
  simp [flat]

theorem flat_perm {s t : Table} (h : s.Perm t) : (flat s).Perm (flat t) := h.flatMap_right _

theorem except_bind_ok {ε α β : Type} {x : Except ε α} {f : α → Except ε β} {b : β} :
    (x >>= f) = .ok b ↔ ∃ a, x = .ok a ∧ f a = .ok b := by
  cases x with
  | error e => simp [bind, Except.bind]
  | ok a => simp [bind, Except.bind]

end Verif
