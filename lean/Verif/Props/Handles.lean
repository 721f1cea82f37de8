import Verif.Spec.Handles

/-! # C79: objects which the compiled program holds -/

namespace Verif.Props.Handles

open Verif Verif.Handles

variable {α : Type}

/-- The free places from `n` on: each one names the next, the last one names the length. -/
inductive Links (heap : List (Slot α)) : Nat → List Nat → Prop
  | nil : Links heap heap.length []
  | cons {n m l} : heap[n]? = some (.free m) → Links heap m l → Links heap n (n :: l)

structure Inv (undef null tt ff : α) (t : Tab α) (held : List (Nat × α)) (peak : Nat) : Prop where
  links : ∃ l, Links t.heap t.next l ∧ l.Nodup ∧ (∀ i ∈ l, 132 ≤ i) ∧
    t.heap.length = 132 + l.length + held.length ∧ ∀ p ∈ held, p.1 ∉ l
  objs : ∀ p ∈ held, t.heap[p.1]? = some (.obj p.2)
  keys : (held.map Prod.fst).Nodup
  big : ∀ p ∈ held, 132 ≤ p.1
  fixed : ∀ i, i < 132 → t.heap[i]? = (init undef null tt ff).heap[i]?
  most : held.length ≤ peak
  size : t.heap.length ≤ 132 + peak

theorem Links.lt {heap : List (Slot α)} {n : Nat} {l : List Nat} (h : Links heap n l) :
    ∀ i ∈ l, ∃ m, heap[i]? = some (.free m) := by
  induction h with
  | nil => simp
  | cons h1 _ ih =>
    intro i hi
    rcases List.mem_cons.1 hi with rfl | hi
    · exact ⟨_, h1⟩
    · exact ih i hi

/-- Changing a place which is not free leaves the free places linked. -/
theorem Links.set {heap : List (Slot α)} {n : Nat} {l : List Nat} (h : Links heap n l) {i : Nat}
    (hi : i ∉ l) (s : Slot α) : Links (heap.set i s) n l := by
  induction h with
  | nil => have := Links.nil (heap := heap.set i s); rwa [List.length_set] at this
  | @cons n m l h1 h2 ih =>
    simp only [List.mem_cons, not_or] at hi
    exact .cons (by rw [List.getElem?_set_ne hi.1]; exact h1) (ih hi.2)

theorem inv_add {undef null tt ff : α} {t : Tab α} {held : List (Nat × α)} {peak : Nat}
    (h : Inv undef null tt ff t held peak) (o : α) :
    ∃ i t', addHeapObject t o = some (i, t') ∧
      Inv undef null tt ff t' ((i, o) :: held) (max peak (held.length + 1)) := by
  obtain ⟨⟨l, hl, hnd, hbig, hlen, hdis⟩, hobjs, hkeys, hheld, hfix, hmost, hsize⟩ := h
  obtain ⟨heap, next⟩ := t
  simp only at hl hlen hobjs hfix hsize
  cases hl with
  | nil =>
    simp only [List.length_nil] at hlen
    have hold : ∀ p ∈ held, p.1 < heap.length := fun p hp => by
      have := hobjs p hp
      exact (List.getElem?_eq_some_iff.1 this).1
    refine ⟨heap.length, ⟨heap ++ [.obj o], heap.length + 1⟩, ?_, ?_⟩
    · simp [addHeapObject]
    · refine ⟨⟨[], ?_, List.nodup_nil, by simp, ?_, by simp⟩, ?_, ?_, ?_, ?_, ?_, ?_⟩
      · have := Links.nil (heap := heap ++ [Slot.obj o])
        simpa using this
      · simp; omega
      · intro p hp
        rcases List.mem_cons.1 hp with rfl | hp
        · simp
        · simp only
          rw [List.getElem?_append_left (hold p hp)]
          exact hobjs p hp
      · simp only [List.map_cons, List.nodup_cons]
        refine ⟨?_, hkeys⟩
        intro hm
        obtain ⟨p, hp, hp'⟩ := List.mem_map.1 hm
        have := hold p hp
        omega
      · intro p hp
        rcases List.mem_cons.1 hp with rfl | hp
        · simp only; omega
        · exact hheld p hp
      · intro i hi
        simp only
        rw [List.getElem?_append_left (by omega)]
        exact hfix i hi
      · simp only [List.length_cons]; omega
      · simp only [List.length_append, List.length_singleton]; omega
  | @cons _ m l h1 h2 =>
    have hlt : next < heap.length := (List.getElem?_eq_some_iff.1 h1).1
    simp only [List.nodup_cons] at hnd
    have hnb : 132 ≤ next := hbig next (by simp)
    refine ⟨next, ⟨heap.set next (.obj o), m⟩, ?_, ?_⟩
    · simp only [addHeapObject]
      rw [if_neg (by omega), h1]
    · refine ⟨⟨l, h2.set hnd.1 _, hnd.2, fun i hi => hbig i (by simp [hi]), ?_, ?_⟩, ?_, ?_, ?_, ?_, ?_, ?_⟩
      · simp only [List.length_set, List.length_cons] at hlen ⊢; omega
      · intro p hp
        rcases List.mem_cons.1 hp with rfl | hp
        · exact hnd.1
        · intro hm
          exact hdis p hp (by simp [hm])
      · intro p hp
        rcases List.mem_cons.1 hp with rfl | hp
        · simp [hlt]
        · have hne : next ≠ p.1 := fun e => hdis p hp (by simp [e])
          simp only
          rw [List.getElem?_set_ne hne]
          exact hobjs p hp
      · simp only [List.map_cons, List.nodup_cons]
        refine ⟨?_, hkeys⟩
        intro hm
        obtain ⟨p, hp, hp'⟩ := List.mem_map.1 hm
        exact hdis p hp (by simp [hp'])
      · intro p hp
        rcases List.mem_cons.1 hp with rfl | hp
        · exact hnb
        · exact hheld p hp
      · intro i hi
        simp only
        rw [List.getElem?_set_ne (by omega)]
        exact hfix i hi
      · simp only [List.length_cons]; omega
      · simp only [List.length_set]; omega

theorem inv_drop {undef null tt ff : α} {t : Tab α} {l₁ l₂ : List (Nat × α)} {i : Nat} {o : α} {peak : Nat}
    (h : Inv undef null tt ff t (l₁ ++ (i, o) :: l₂) peak) :
    Inv undef null tt ff (dropObject t i) (l₁ ++ l₂) peak := by
  obtain ⟨⟨l, hl, hnd, hbig, hlen, hdis⟩, hobjs, hkeys, hheld, hfix, hmost, hsize⟩ := h
  obtain ⟨heap, next⟩ := t
  simp only at hl hlen hobjs hfix hsize
  have hi : 132 ≤ i := hheld (i, o) (by simp)
  have hg := hobjs (i, o) (by simp)
  have hil : i < heap.length := (List.getElem?_eq_some_iff.1 hg).1
  have hin : i ∉ l := hdis (i, o) (by simp)
  have hmem : ∀ p ∈ l₁ ++ l₂, p ∈ l₁ ++ (i, o) :: l₂ := fun p hp => by
    rcases List.mem_append.1 hp with h | h <;> simp [h]
  have hne : ∀ p ∈ l₁ ++ l₂, i ≠ p.1 := by
    intro p hp e
    rw [List.map_append, List.map_cons, List.nodup_append] at hkeys
    obtain ⟨-, k2, k3⟩ := hkeys
    rcases List.mem_append.1 hp with h | h
    · exact k3 p.1 (List.mem_map_of_mem h) i (by simp) e.symm
    · exact (List.nodup_cons.1 k2).1 (List.mem_map.2 ⟨p, h, e.symm⟩)
  unfold dropObject
  rw [if_neg (by omega)]
  refine ⟨⟨i :: l, .cons (by simp [hil]) (hl.set hin _), List.nodup_cons.2 ⟨hin, hnd⟩, ?_, ?_, ?_⟩, ?_, ?_,
    ?_, ?_, ?_, ?_⟩
  · intro j hj
    rcases List.mem_cons.1 hj with rfl | hj
    · exact hi
    · exact hbig j hj
  · simp only [List.length_set, List.length_cons, List.length_append] at hlen ⊢; omega
  · intro p hp hm
    rcases List.mem_cons.1 hm with e | hm
    · exact hne p hp e.symm
    · exact hdis p (hmem p hp) hm
  · intro p hp
    simp only
    rw [List.getElem?_set_ne (hne p hp)]
    exact hobjs p (hmem p hp)
  · rw [List.map_append, List.map_cons] at hkeys
    rw [List.map_append]
    exact hkeys.sublist (List.Sublist.append (List.Sublist.refl _) (List.sublist_cons_self _ _))
  · intro p hp
    exact hheld p (hmem p hp)
  · intro j hj
    simp only
    rw [List.getElem?_set_ne (by omega)]
    exact hfix j hj
  · simp only [List.length_append, List.length_cons] at hmost ⊢; omega
  · simp only [List.length_set]; exact hsize

theorem inv_start (undef null tt ff : α) : Inv undef null tt ff (init undef null tt ff) [] 0 := by
  have hlen : (init undef null tt ff).heap.length = 132 := by simp [init]
  refine ⟨⟨[], ?_, List.nodup_nil, by simp, by simp [hlen], by simp⟩, by simp, List.nodup_nil, by simp,
    fun _ _ => rfl, by simp, by omega⟩
  have := Links.nil (heap := (init undef null tt ff).heap)
  rwa [hlen] at this

theorem inv_story {undef null tt ff : α} {acts : List (Act α)} {t : Tab α} {held : List (Nat × α)}
    {peak : Nat} (h : Story (init undef null tt ff) acts t held peak) :
    Inv undef null tt ff t held peak := by
  induction h with
  | start => exact inv_start undef null tt ff
  | @add acts t held peak o i t' _ ha ih =>
    obtain ⟨i', t'', e, hinv⟩ := inv_add ih o
    simp only [act, e, Option.map_some] at ha
    obtain ⟨e1, rfl⟩ := Prod.mk.inj (Option.some.inj ha)
    obtain rfl := Option.some.inj e1
    exact hinv
  | @clone acts t held peak i o j t' _ hm ha ih =>
    obtain ⟨i', t'', e, hinv⟩ := inv_add ih o
    have hg : getObject t i = some o := by simp only [getObject, ih.objs _ hm]
    simp only [act, hg, e, Option.map_some] at ha
    obtain ⟨e1, rfl⟩ := Prod.mk.inj (Option.some.inj ha)
    obtain rfl := Option.some.inj e1
    exact hinv
  | @drop acts t l₁ l₂ peak i o t' _ ha ih =>
    simp only [act, takeObject] at ha
    obtain ⟨_, rfl⟩ := Prod.mk.inj (Option.some.inj ha)
    exact inv_drop ih

/-- **C79.** As long as the compiled program holds a number, it stands for the object for which it was
given, and no two numbers which it holds are the same. The numbers below 132 always stand for the fixed
values. -/
theorem c79_numbers_stand_for_objects {undef null tt ff : α} {acts : List (Act α)} {t : Tab α}
    {held : List (Nat × α)} {peak : Nat} (h : Story (init undef null tt ff) acts t held peak) :
    (∀ i o, (i, o) ∈ held → getObject t i = some o ∧ 132 ≤ i) ∧ (held.map Prod.fst).Nodup ∧
    getObject t 128 = some undef ∧ getObject t 129 = some null ∧ getObject t 130 = some tt ∧
    getObject t 131 = some ff := by
  have hi := inv_story h
  refine ⟨fun i o hm => ⟨by simp only [getObject, hi.objs _ hm], hi.big _ hm⟩, hi.keys, ?_, ?_, ?_, ?_⟩ <;>
    simp [getObject, hi.fixed, init]

/-- **C79.** Putting in and copying always work, whatever has been put in and given up before. -/
theorem c79_there_is_always_room {undef null tt ff : α} {acts : List (Act α)} {t : Tab α}
    {held : List (Nat × α)} {peak : Nat} (h : Story (init undef null tt ff) acts t held peak) :
    (∀ o, ∃ i t', act t (.add o) = some (some i, t')) ∧
    ∀ i o, (i, o) ∈ held → ∃ j t', act t (.clone i) = some (some j, t') := by
  have hi := inv_story h
  constructor
  · intro o
    obtain ⟨i, t', e, _⟩ := inv_add hi o
    exact ⟨i, t', by simp only [act, e, Option.map_some]⟩
  · intro i o hm
    obtain ⟨j, t', e, _⟩ := inv_add hi o
    have hg : getObject t i = some o := by simp only [getObject, hi.objs _ hm]
    exact ⟨j, t', by simp only [act, hg, e, Option.map_some]⟩

/-- **C79.** The table does not grow with the number of calls: it has no more places than the program has
ever held numbers at once, besides the 132 fixed ones. -/
theorem c79_table_stays_small {undef null tt ff : α} {acts : List (Act α)} {t : Tab α}
    {held : List (Nat × α)} {peak : Nat} (h : Story (init undef null tt ff) acts t held peak) :
    t.heap.length ≤ 132 + peak ∧ held.length ≤ peak :=
  ⟨(inv_story h).size, (inv_story h).most⟩

set_option maxRecDepth 4000 in
/-- Two objects are put in, the first is given up, a third is put in and gets the number of the first, and
the second is copied: the second still stands for its object. -/
example : ∃ t, Story (init "undefined" "null" "true" "false")
    [.add "a", .add "b", .drop 132, .add "c", .clone 133] t [(134, "b"), (132, "c"), (133, "b")] 3 ∧
    getObject t 133 = some "b" ∧ getObject t 132 = some "c" := by
  have s1 := Story.add (o := "a") (i := 132) (Story.start (k := init "undefined" "null" "true" "false")) rfl
  have s2 := Story.add (o := "b") (i := 133) s1 rfl
  have s3 := Story.drop (l₁ := [(133, "b")]) (l₂ := []) (i := 132) (o := "a") s2 rfl
  have s4 := Story.add (o := "c") (i := 132) s3 rfl
  have s5 := Story.clone (i := 133) (o := "b") (j := 134) s4 (by simp) rfl
  obtain ⟨h1, _⟩ := c79_numbers_stand_for_objects s5
  exact ⟨_, s5, (h1 133 "b" (by simp)).1, (h1 132 "c" (by simp)).1⟩

end Verif.Props.Handles
