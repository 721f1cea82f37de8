import Verif.Graph
import Verif.Lemmas.Dfs
import Verif.Spec.Schedule
import Mathlib.Data.List.Forall2

/-! Lemmas about the stable graph and about processing (helpers). -/

namespace Verif
open Spec

namespace Graph
variable {α : Type}

theorem node?_eq_some {g : Graph α} {i : Nat} {a : α} :
    g.node? i = some a ↔ g.slots[i]? = some (some a) := by
  unfold node?
  cases h : g.slots[i]? with
  | none => simp
  | some o => cases o <;> simp

theorem node?_lt {g : Graph α} {i : Nat} {a : α} (h : g.node? i = some a) : i < g.slots.length := by
  rw [node?_eq_some] at h
  exact (List.getElem?_eq_some_iff.mp h).1

theorem node?_set {g : Graph α} {i j : Nat} {a : Option α} {fr : List Nat} {ed : List (Nat × Nat)}
    (hi : i < g.slots.length) :
    (Graph.mk (g.slots.set i a) fr ed).node? j = if i = j then a else g.node? j := by
  unfold node?
  simp only [List.getElem?_set]
  by_cases h : i = j
  · subst h
    simp [hi]
  · simp [h]

theorem mem_incoming {g : Graph α} {n k : Nat} : k ∈ g.incoming n ↔ (k, n) ∈ g.edges := by
  simp only [incoming, List.mem_map, List.mem_filter, beq_iff_eq, Prod.exists]
  constructor
  · rintro ⟨a, b, ⟨h1, h2⟩, h3⟩
    subst h2; subst h3; exact h1
  · intro h
    exact ⟨k, n, ⟨h, rfl⟩, rfl⟩

theorem modify_ok {g g' : Graph α} {i : Nat} {f : α → Except Panic α}
    (h : g.modify i f = .ok g') :
    ∃ a a', g.node? i = some a ∧ f a = .ok a' ∧ g'.edges = g.edges ∧ g'.free = g.free ∧
      g'.slots.length = g.slots.length ∧
      ∀ j, g'.node? j = if i = j then some a' else g.node? j := by
  unfold modify at h
  split at h
  · cases h
  · rename_i a ha
    split at h
    · cases h
    · rename_i a' ha'
      cases h
      refine ⟨a, a', ha, ha', rfl, rfl, by simp, ?_⟩
      intro j
      exact node?_set (node?_lt ha)

end Graph

theorem mem_dedupKeys {l : List Nat} {a : Nat} : a ∈ dedupKeys l ↔ a ∈ l := by
  induction l with
  | nil => simp [dedupKeys]
  | cons b l ih =>
    unfold dedupKeys
    split
    · rename_i hb
      rw [ih]
      constructor
      · intro h; exact List.mem_cons_of_mem _ h
      · intro h
        rcases List.mem_cons.mp h with rfl | h
        · exact hb
        · exact h
    · simp [ih]

theorem nodup_dedupKeys (l : List Nat) : (dedupKeys l).Nodup := by
  induction l with
  | nil => simp [dedupKeys]
  | cons b l ih =>
    unfold dedupKeys
    split
    · exact ih
    · rename_i hb
      exact List.nodup_cons.mpr ⟨fun h => hb (mem_dedupKeys.mp h), ih⟩

theorem mapM_except_ok {α β : Type} {f : α → Except Panic β} {l : List α} {r : List β}
    (h : l.mapM f = .ok r) : List.Forall₂ (fun a b => f a = .ok b) l r := by
  induction l generalizing r with
  | nil => simp [List.mapM_nil, pure, Except.pure] at h; subst h; exact .nil
  | cons a l ih =>
    rw [List.mapM_cons] at h
    cases hf : f a with
    | error e => rw [hf] at h; simp [bind, Except.bind] at h
    | ok b =>
      rw [hf] at h
      cases hm : l.mapM f with
      | error e => rw [hm] at h; simp [bind, Except.bind] at h
      | ok bs =>
        rw [hm] at h
        simp [bind, Except.bind, pure, Except.pure] at h
        subst h
        exact .cons hf (ih hm)

variable {ν β : Type}

theorem gatherInputs_ok {ho : HashOrder} {g : Graph (NodeData ν β)} {n : Nat}
    {inputs : List (Nat × List β)} (h : gatherInputs ho g n = .ok inputs) :
    inputs.map Prod.fst = ho.ord n (dedupKeys ((g.incoming n).filter (fun k => k != n))) ∧
    (∀ k b, (k, b) ∈ inputs → ∃ d, g.node? k = some d ∧ d.buffers = b) := by
  unfold gatherInputs at h
  have h2 := mapM_except_ok h
  generalize ho.ord n _ = keys at h2 ⊢
  clear h
  induction h2 with
  | nil => simp
  | @cons a b l r hab _ ih =>
    constructor
    · simp only [List.map_cons]
      rw [ih.1]
      split at hab
      · cases hab; rfl
      · cases hab
    · intro k b' hm
      rcases List.mem_cons.mp hm with rfl | hm
      · split at hab
        · rename_i d hd
          cases hab
          exact ⟨d, hd, rfl⟩
        · cases hab
      · exact ih.2 k b' hm

theorem gatherInputs_spec {ho : HashOrder} {g : Graph (NodeData ν β)} {n : Nat}
    {inputs : List (Nat × List β)} (h : gatherInputs ho g n = .ok inputs) :
    InputsOf g.edges n inputs := by
  have hk := (gatherInputs_ok h).1
  have hp := ho.perm n (dedupKeys ((g.incoming n).filter (fun k => k != n)))
  constructor
  · rw [hk]
    exact hp.nodup_iff.mpr (nodup_dedupKeys _)
  · intro k
    rw [hk, hp.mem_iff, mem_dedupKeys, List.mem_filter, Graph.mem_incoming]
    simp

/-- Gathering succeeds when the sources are live. -/
theorem gatherInputs_live {ho : HashOrder} {g : Graph (NodeData ν β)} {n : Nat}
    (h : EdgesLive g) : ∃ inputs, gatherInputs ho g n = .ok inputs := by
  unfold gatherInputs
  have hm : ∀ k, k ∈ ho.ord n (dedupKeys ((g.incoming n).filter (fun k => k != n))) →
      ∃ d, g.node? k = some d := by
    intro k hk
    rw [(ho.perm n _).mem_iff, mem_dedupKeys, List.mem_filter, Graph.mem_incoming] at hk
    exact (h _ hk.1).1
  generalize ho.ord n _ = keys at hm ⊢
  induction keys with
  | nil => exact ⟨[], rfl⟩
  | cons k keys ih =>
    obtain ⟨d, hd⟩ := hm k (by simp)
    obtain ⟨ins, hins⟩ := ih (fun k' hk' => hm k' (List.mem_cons_of_mem _ hk'))
    refine ⟨(k, d.buffers) :: ins, ?_⟩
    simp only at hins
    rw [List.mapM_cons, hd]
    simp only [bind, Except.bind]
    rw [hins]
    rfl

/-- The effect of processing one node. -/
theorem processNode_ok {proc : ProcFn ν β} {ho : HashOrder} {g g' : Graph (NodeData ν β)} {n : Nat}
    (h : processNode proc ho g n = .ok g') :
    ∃ inputs d d', gatherInputs ho g n = .ok inputs ∧ g.node? n = some d ∧
      proc d.node inputs d.buffers = .ok (d'.node, d'.buffers) ∧
      g'.edges = g.edges ∧ g'.free = g.free ∧ g'.slots.length = g.slots.length ∧
      ∀ j, g'.node? j = if n = j then some d' else g.node? j := by
  unfold processNode at h
  split at h
  · cases h
  · rename_i inputs hin
    obtain ⟨d, d', hd, hf, he, hfr, hl, hj⟩ := Graph.modify_ok h
    split at hf
    · cases hf
    · rename_i nd bf hp
      cases hf
      exact ⟨inputs, d, _, hin, hd, hp, he, hfr, hl, hj⟩

/-- Effect of processing a duplicate-free list of nodes in order. -/
theorem fold_process {proc : ProcFn ν β} {ho : HashOrder} (order : List Nat) :
    ∀ (g g' : Graph (NodeData ν β)), order.Nodup →
    order.foldlM (processNode proc ho) g = .ok g' →
    g'.edges = g.edges ∧ g'.free = g.free ∧ g'.slots.length = g.slots.length ∧
    (∀ n, n ∉ order → g'.node? n = g.node? n) ∧
    (∀ o1 n o2, order = o1 ++ n :: o2 → ∃ inputs d d',
      InputsOf g.edges n inputs ∧ inputs.map Prod.fst =
        ho.ord n (dedupKeys ((g.incoming n).filter (fun k => k != n))) ∧
      g.node? n = some d ∧ g'.node? n = some d' ∧
      proc d.node inputs d.buffers = .ok (d'.node, d'.buffers) ∧
      ∀ k b, (k, b) ∈ inputs →
        (k ∈ o1 → ∃ dk, g'.node? k = some dk ∧ dk.buffers = b) ∧
        (k ∉ o1 → ∃ dk, g.node? k = some dk ∧ dk.buffers = b)) := by
  induction order with
  | nil =>
    intro g g' _ h
    simp [pure, Except.pure] at h
    subst h
    refine ⟨rfl, rfl, rfl, by simp, ?_⟩
    intro o1 n o2 heq
    simp at heq
  | cons a order ih =>
    intro g g' hnd h
    rw [List.foldlM_cons] at h
    cases hp : processNode proc ho g a with
    | error e => rw [hp] at h; simp [bind, Except.bind] at h
    | ok g1 =>
      rw [hp] at h
      simp only [bind, Except.bind] at h
      obtain ⟨hna, hnd'⟩ := List.nodup_cons.mp hnd
      obtain ⟨inputs, d, d', hin, hd, hpr, he1, hf1, hl1, hj1⟩ := processNode_ok hp
      obtain ⟨he, hfr, hl, hout, hord⟩ := ih g1 g' hnd' h
      have hinc : ∀ n, g1.incoming n = g.incoming n := by
        intro n; unfold Graph.incoming; rw [he1]
      refine ⟨he.trans he1, hfr.trans hf1, hl.trans hl1, ?_, ?_⟩
      · intro n hn
        simp only [List.mem_cons, not_or] at hn
        rw [hout n hn.2, hj1 n]
        simp [Ne.symm hn.1]
      · intro o1 n o2 heq
        cases o1 with
        | nil =>
          simp only [List.nil_append, List.cons.injEq] at heq
          obtain ⟨rfl, rfl⟩ := heq
          refine ⟨inputs, d, d', gatherInputs_spec hin, (gatherInputs_ok hin).1, hd, ?_, hpr, ?_⟩
          · rw [hout a hna, hj1 a]; simp
          · intro k b hkb
            refine ⟨by simp, fun _ => ?_⟩
            exact (gatherInputs_ok hin).2 k b hkb
        | cons c o1 =>
          simp only [List.cons_append, List.cons.injEq] at heq
          obtain ⟨rfl, heq⟩ := heq
          obtain ⟨ins, e, e', hio, hkeys, hne, hne', hpe, hks⟩ := hord o1 n o2 heq
          have hna' : a ≠ n := by
            intro hh; subst hh; exact hna (by rw [heq]; simp)
          refine ⟨ins, e, e', by rw [← he1]; exact hio, ?_, ?_, hne', hpe, ?_⟩
          · rw [hkeys, hinc n]
          · rw [hj1 n] at hne; simpa [hna'] using hne
          · intro k b hkb
            obtain ⟨h1, h2⟩ := hks k b hkb
            constructor
            · intro hk
              by_cases hko : k ∈ o1
              · exact h1 hko
              · rcases List.mem_cons.mp hk with rfl | hk'
                · obtain ⟨dk, hdk, hb⟩ := h2 hko
                  refine ⟨dk, ?_, hb⟩
                  rw [hout k hna]; exact hdk
                · exact absurd hk' hko
            · intro hk
              simp only [List.mem_cons, not_or] at hk
              obtain ⟨dk, hdk, hb⟩ := h2 hk.2
              refine ⟨dk, ?_, hb⟩
              rw [hj1 k] at hdk
              simpa [Ne.symm hk.1] using hdk

theorem feeds_of_nreach {α : Type} {g : Graph α} {a b : Nat} (h : NReach g.incoming a b) :
    Feeds g.edges b a := by
  induction h with
  | refl => exact .refl _
  | step _ hc ih => exact .step (Graph.mem_incoming.mp hc) ih

theorem nreach_head {nbrs : Nat → List Nat} {a b c : Nat} (h1 : b ∈ nbrs a) (h2 : NReach nbrs b c) :
    NReach nbrs a c := NReach.trans (.step (.refl a) h1) h2

theorem nreach_of_feeds {α : Type} {g : Graph α} {a b : Nat} (h : Feeds g.edges b a) :
    NReach g.incoming a b := by
  induction h with
  | refl => exact .refl _
  | step he _ ih => exact .step ih (Graph.mem_incoming.mpr he)

theorem Spec.Feeds.trans {E : List (Nat × Nat)} {a b c : Nat} (h1 : Feeds E a b) (h2 : Feeds E b c) :
    Feeds E a c := by
  induction h1 with
  | refl => exact h2
  | step he _ ih => exact .step he (ih h2)

end Verif
