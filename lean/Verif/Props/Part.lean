import Verif.Lemmas.Part
import Verif.Spec.Part
import Verif.Props.Past

/-!
# Naming a part of a chain

C85: a part of a chain can be given a name of its own without changing the sound.
-/

namespace Verif.Props.Parted
open Verif.Props Verif.Spec Verif.Parse Verif.Double Verif.Part

/-! ### Helpers -/

/-- A source of the whole program, in the parted one. -/
def heardAs (k r : Name) (m : Nat) : Place → Place
  | .at j i => if j = k then (if i < m then .at r i else .at k (i - m)) else .at j i
  | p => p

/-- A component of the whole program, in the parted one. -/
def movedTo (k r : Name) (m : Nat) : Place → Place
  | .at j i => if j = k then (if i ≤ m then .at r i else .at k (i - m)) else .at j i
  | p => p

theorem moved_heard {k r : Name} {m : Nat} {q : Place} (h : q ≠ .at k m) : heardAs k r m q = movedTo k r m q := by
  cases q with
  | dest => rfl
  | input => rfl
  | «at» j i =>
    simp only [heardAs, movedTo]
    by_cases hj : j = k
    · subst hj
      have : i ≠ m := fun hi => h (by rw [hi])
      by_cases hi : i < m
      · rw [if_pos rfl, if_pos rfl, if_pos hi, if_pos (by omega)]
      · rw [if_pos rfl, if_pos rfl, if_neg hi, if_neg (by omega)]
    · rw [if_neg hj, if_neg hj]

section
variable {A B : Ast Comp} {k r : Name} {xs ys : List Comp} {m : Nat} {b : Bool}

theorem part_ne (h : PartNamed A B k r xs ys) : k ≠ r :=
  fun he => h.fresh (he ▸ List.mem_map.mpr ⟨_, h.chain, rfl⟩)

theorem chain_key {j : Name} {n : Nat} (h : Chain A b j n) :
    j ∈ A.map Prod.fst ∨ (b = true ∧ j = ['~', 'i', 'n', 'p', 'u', 't']) := by
  cases h with
  | prog hk => exact .inl (List.mem_map.mpr ⟨_, hk, rfl⟩)
  | input hb => exact .inr ⟨hb, rfl⟩

theorem key_chain (hw : ProgWf A) {j : Name} (h : j ∈ A.map Prod.fst ∨ (b = true ∧ j = ['~', 'i', 'n', 'p', 'u', 't'])) :
    ∃ n, Chain A b j (n + 1) := by
  rcases h with h | ⟨hb, rfl⟩
  · obtain ⟨⟨k, comps⟩, hk, rfl⟩ := List.mem_map.mp h
    have := List.length_pos_iff.mpr (hw.2 k comps hk)
    obtain ⟨n, hn⟩ : ∃ n, comps.length = n + 1 := ⟨comps.length - 1, by omega⟩
    exact ⟨n, hn ▸ .prog hk⟩
  · exact ⟨0, .input hb⟩

/-- The ends of the chains. -/
theorem part_chain (h : PartNamed A B k r xs ys) (hm : xs.length = m + 1) (hw : ProgWf A)
    (hin : ['~', 'i', 'n', 'p', 'u', 't'] ∉ A.map Prod.fst) {j : Name} {n : Nat} (hj : j ≠ r) (hc : Chain A b j (n + 1)) :
    ∃ n', Chain B b j (n' + 1) ∧ heardAs k r m (.at j n) = .at j n' := by
  by_cases hk : j = k
  · subst hk
    have := chain_unique hw hin hc (.prog h.chain)
    rw [List.length_append, hm] at this
    refine ⟨ys.length, .prog h.rest, ?_⟩
    simp only [heardAs]
    rw [if_pos trivial, if_neg (by omega)]
    congr 1
    omega
  · refine ⟨n, ?_, ?_⟩
    · generalize hn : n + 1 = n1 at hc
      cases hc with
      | prog hj' => exact .prog ((h.others _ _ hk hj).mpr hj')
      | input hb => exact .input hb
    · simp only [heardAs]
      rw [if_neg hk]

/-- The components. -/
theorem part_comp (h : PartNamed A B k r xs ys) (hm : xs.length = m + 1) (hw : ProgWf A) {j : Name} {comps : List Comp} {i : Nat} {c : Comp}
    (hj : (j, comps) ∈ A) (hi : comps[i]? = some c) :
    ∃ j' comps' i', movedTo k r m (.at j i) = .at j' i' ∧ (j', comps') ∈ B ∧ comps'[i']? = some c ∧
      ((i = 0 ∧ i' = 0) ∨ ∃ a a', i = a + 1 ∧ i' = a' + 1 ∧ heardAs k r m (.at j a) = .at j' a') := by
  by_cases hk : j = k
  · subst hk
    have := Option.some.inj ((lookup_of_mem hw.1 hj).symm.trans (lookup_of_mem hw.1 h.chain))
    subst this
    by_cases him : i ≤ m
    · refine ⟨r, xs, i, ?_, h.part, ?_, ?_⟩
      · simp only [movedTo]; rw [if_pos trivial, if_pos him]
      · rwa [List.getElem?_append_left (by omega)] at hi
      · cases i with
        | zero => exact .inl ⟨rfl, rfl⟩
        | succ a =>
          refine .inr ⟨a, a, rfl, rfl, ?_⟩
          simp only [heardAs]; rw [if_pos trivial, if_pos (by omega)]
    · refine ⟨j, .get r :: ys, i - m, ?_, h.rest, ?_, ?_⟩
      · simp only [movedTo]; rw [if_pos trivial, if_neg him]
      · rw [List.getElem?_append_right (by omega), hm] at hi
        rw [show i - m = (i - (m + 1)) + 1 by omega]
        exact hi
      · refine .inr ⟨i - 1, i - m - 1, by omega, by omega, ?_⟩
        simp only [heardAs]; rw [if_pos trivial, if_neg (by omega)]
        congr 1
        omega
  · have hjr : j ≠ r := fun he => h.fresh (he ▸ List.mem_map.mpr ⟨_, hj, rfl⟩)
    refine ⟨j, comps, i, ?_, (h.others _ _ hk hjr).mpr hj, hi, ?_⟩
    · simp only [movedTo]; rw [if_neg hk]
    · cases i with
      | zero => exact .inl ⟨rfl, rfl⟩
      | succ a =>
        refine .inr ⟨a, a, rfl, rfl, ?_⟩
        simp only [heardAs]; rw [if_neg hk]

/-- The references of a program are names of its chains. -/
def Plain (A : Ast Comp) (b : Bool) : Prop := ∀ j comps c r, (j, comps) ∈ A → c ∈ comps → r ∈ c.refs →
  '.' ∉ r ∧ (r ∈ A.map Prod.fst ∨ (b = true ∧ r = ['~', 'i', 'n', 'p', 'u', 't']))

theorem means_plain {r k' : Name} (h : Means r k') (hd : '.' ∉ r) : k' = r := by
  cases h with
  | named _ => rfl
  | pattern _ _ => exact absurd (by simp) hd

theorem ref_ne (h : PartNamed A B k r xs ys) (hinB : ['~', 'i', 'n', 'p', 'u', 't'] ∉ B.map Prod.fst) {j : Name}
    (hj : j ∈ A.map Prod.fst ∨ (b = true ∧ j = ['~', 'i', 'n', 'p', 'u', 't'])) : j ≠ r := by
  rintro rfl
  rcases hj with hj | ⟨_, rfl⟩
  · exact h.fresh hj
  · exact hinB (List.mem_map.mpr ⟨_, h.part, rfl⟩)

/-- What a component hears. -/
theorem part_flow (h : PartNamed A B k r xs ys) (hm : xs.length = m + 1) (hw : ProgWf A) (hwB : ProgWf B)
    (hin : ['~', 'i', 'n', 'p', 'u', 't'] ∉ A.map Prod.fst) (hinB : ['~', 'i', 'n', 'p', 'u', 't'] ∉ B.map Prod.fst) (hp : Plain A b)
    {j : Name} {comps : List Comp} {i : Nat} {c : Comp} (hj : (j, comps) ∈ A) (hi : comps[i]? = some c) (q' : Place) :
    Flow Comp.refs B b q' (movedTo k r m (.at j i)) ↔ ∃ q, Flow Comp.refs A b q (.at j i) ∧ heardAs k r m q = q' := by
  obtain ⟨j', comps', i', h1, h2, h3, h4⟩ := part_comp h hm hw hj hi
  rw [h1, flow_into hwB h2 h3]
  have hmem := List.mem_of_getElem? hi
  constructor
  · rintro (⟨a', rfl, rfl⟩ | ⟨r', k', n', g1, g2, g3, rfl⟩)
    · rcases h4 with ⟨_, h4⟩ | ⟨a, a'', rfl, h5, h6⟩
      · cases h4
      · cases h5
        exact ⟨_, (flow_into hw hj hi).mpr (.inl ⟨a, rfl, rfl⟩), h6⟩
    · obtain ⟨d1, d2⟩ := hp _ _ _ _ hj hmem g1
      have := means_plain g2 d1
      subst this
      obtain ⟨n, hn⟩ := key_chain hw d2
      obtain ⟨n'', c1, c2⟩ := part_chain h hm hw hin (ref_ne h hinB d2) hn
      have := chain_unique hwB hinB c1 g3
      cases this
      exact ⟨_, (flow_into hw hj hi).mpr (.inr ⟨_, _, n, g1, g2, hn, rfl⟩), c2⟩
  · rintro ⟨q, hq, rfl⟩
    rw [flow_into hw hj hi] at hq
    rcases hq with ⟨a, rfl, rfl⟩ | ⟨r', k', n, g1, g2, g3, rfl⟩
    · rcases h4 with ⟨h4, _⟩ | ⟨a1, a', h4, rfl, h6⟩
      · cases h4
      · cases h4
        exact .inl ⟨a', rfl, h6⟩
    · obtain ⟨d1, d2⟩ := hp _ _ _ _ hj hmem g1
      have := means_plain g2 d1
      subst this
      obtain ⟨n', c1, c2⟩ := part_chain h hm hw hin (ref_ne h hinB d2) g3
      exact .inr ⟨_, _, n', g1, g2, c1, c2⟩

/-- What the output hears. -/
theorem part_out (h : PartNamed A B k r xs ys) (hm : xs.length = m + 1) (hw : ProgWf A) (hwB : ProgWf B)
    (hin : ['~', 'i', 'n', 'p', 'u', 't'] ∉ A.map Prod.fst) (hinB : ['~', 'i', 'n', 'p', 'u', 't'] ∉ B.map Prod.fst) (q' : Place) :
    Flow Comp.refs B b q' .dest ↔ ∃ q, Flow Comp.refs A b q .dest ∧ heardAs k r m q = q' := by
  constructor
  · intro hf
    cases hf with
    | @out j n hc ht =>
      have hjr : j ≠ r := fun he => ht (he ▸ h.silent)
      have hA : ∃ n, Chain A b j (n + 1) := by
        refine key_chain hw ?_
        rcases chain_key hc with hk | hk
        · left
          obtain ⟨⟨j, comps⟩, hk', rfl⟩ := List.mem_map.mp hk
          by_cases hjk : j = k
          · subst hjk; exact List.mem_map.mpr ⟨_, h.chain, rfl⟩
          · exact List.mem_map.mpr ⟨_, (h.others _ _ hjk hjr).mp hk', rfl⟩
        · exact .inr hk
      obtain ⟨n0, hn0⟩ := hA
      obtain ⟨n', c1, c2⟩ := part_chain h hm hw hin hjr hn0
      have := chain_unique hwB hinB c1 hc
      cases this
      exact ⟨_, .out hn0 ht, c2⟩
  · rintro ⟨q, hf, rfl⟩
    cases hf with
    | @out j n hc ht =>
      obtain ⟨n', c1, c2⟩ := part_chain h hm hw hin (j := j) (fun he => ht (by rw [he]; exact h.silent)) hc
      rw [c2]
      exact .out c1 ht

theorem part_inj (h : PartNamed A B k r xs ys) (hinB : ['~', 'i', 'n', 'p', 'u', 't'] ∉ B.map Prod.fst) {q1 q2 p1 p2 : Place}
    (h1 : Flow Comp.refs A b q1 p1) (h2 : Flow Comp.refs A b q2 p2) (he : heardAs k r m q1 = heardAs k r m q2) : q1 = q2 := by
  obtain ⟨j1, i1, n1, rfl, c1, _⟩ := source_at h1
  obtain ⟨j2, i2, n2, rfl, c2, _⟩ := source_at h2
  have e1 := ref_ne h hinB (chain_key c1)
  have e2 := ref_ne h hinB (chain_key c2)
  have hkr := part_ne h
  simp only [heardAs] at he
  split at he <;> split at he <;> (try split at he) <;> (try split at he) <;> simp only [Place.at.injEq] at he <;> grind

theorem part_heard (h : PartNamed A B k r xs ys) (hm : xs.length = m + 1) (hw : ProgWf A) (hwB : ProgWf B)
    (hin : ['~', 'i', 'n', 'p', 'u', 't'] ∉ A.map Prod.fst) (hinB : ['~', 'i', 'n', 'p', 'u', 't'] ∉ B.map Prod.fst) (hp : Plain A b)
    {q p : Place} (hf : Flow Comp.refs A b q p) : Flow Comp.refs B b (heardAs k r m q) (movedTo k r m p) := by
  have hcomp : ∀ j comps i c, (j, comps) ∈ A → comps[i]? = some c → p = .at j i → Flow Comp.refs B b (heardAs k r m q) (movedTo k r m p) := by
    rintro j comps i c hj hi rfl
    exact (part_flow h hm hw hwB hin hinB hp hj hi _).mpr ⟨q, hf, rfl⟩
  have hf' := hf
  cases hf with
  | next hc hi =>
    cases hc with
    | prog hk => exact hcomp _ _ _ _ hk (List.getElem?_eq_getElem hi) rfl
    | input _ => omega
  | out _ _ => exact (part_out h hm hw hwB hin hinB _).mpr ⟨_, hf', rfl⟩
  | ref hk hi _ _ _ => exact hcomp _ _ _ _ hk hi rfl

theorem part_leads_step (h : PartNamed A B k r xs ys) (hm : xs.length = m + 1) (hw : ProgWf A) (hwB : ProgWf B)
    (hin : ['~', 'i', 'n', 'p', 'u', 't'] ∉ A.map Prod.fst) (hinB : ['~', 'i', 'n', 'p', 'u', 't'] ∉ B.map Prod.fst) (hp : Plain A b)
    {q p : Place} (hf : Flow Comp.refs A b q p) : Leads Comp.refs B b (movedTo k r m q) (movedTo k r m p) := by
  have h1 := part_heard h hm hw hwB hin hinB hp hf
  by_cases hq : q = .at k m
  · subst hq
    have e1 : heardAs k r m (.at k m) = .at k 0 := by
      simp only [heardAs]; rw [if_pos trivial, if_neg (by omega), Nat.sub_self]
    have e2 : movedTo k r m (.at k m) = .at r m := by
      simp only [movedTo]; rw [if_pos trivial, if_pos (by omega)]
    rw [e1] at h1
    rw [e2]
    refine .step ?_ (.step h1 (.refl _))
    exact .ref h.rest rfl (by simp [Comp.refs]) (.named h.plain) (hm ▸ .prog h.part)
  · rw [moved_heard hq] at h1
    exact .step h1 (.refl _)

theorem part_leads (h : PartNamed A B k r xs ys) (hm : xs.length = m + 1) (hw : ProgWf A) (hwB : ProgWf B)
    (hin : ['~', 'i', 'n', 'p', 'u', 't'] ∉ A.map Prod.fst) (hinB : ['~', 'i', 'n', 'p', 'u', 't'] ∉ B.map Prod.fst) (hp : Plain A b)
    {q p : Place} (hl : Leads Comp.refs A b q p) : Leads Comp.refs B b (movedTo k r m q) (movedTo k r m p) := by
  induction hl with
  | refl => exact .refl _
  | step hf _ ih => exact leads_trans (part_leads_step h hm hw hwB hin hinB hp hf) ih

/-- The parted program does with its signals what the text says if the whole one does. -/
theorem part_wise (h : PartNamed A B k r xs ys) (hm : xs.length = m + 1) (hw : ProgWf A) (hwB : ProgWf B)
    (hinB : ['~', 'i', 'n', 'p', 'u', 't'] ∉ B.map Prod.fst) (hs : Wise ByRole A b) : Wise ByRole B b := by
  have hkr := part_ne h
  have hback : ∀ j comps, (j, comps) ∈ B → (j = r ∧ comps = xs) ∨ (j = k ∧ comps = .get r :: ys) ∨ (j ≠ k ∧ j ≠ r ∧ (j, comps) ∈ A) := by
    intro j comps hj
    by_cases h1 : j = r
    · subst h1
      exact .inl ⟨rfl, Option.some.inj ((lookup_of_mem hwB.1 hj).symm.trans (lookup_of_mem hwB.1 h.part))⟩
    · by_cases h2 : j = k
      · subst h2
        exact .inr (.inl ⟨rfl, Option.some.inj ((lookup_of_mem hwB.1 hj).symm.trans (lookup_of_mem hwB.1 h.rest))⟩)
      · exact .inr (.inr ⟨h2, h1, (h.others _ _ h2 h1).mp hj⟩)
  have hkey : ∀ r', (r' ∈ A.map Prod.fst ∨ (b = true ∧ r' = ['~', 'i', 'n', 'p', 'u', 't'])) →
      (r' ∈ B.map Prod.fst ∨ (b = true ∧ r' = ['~', 'i', 'n', 'p', 'u', 't'])) := by
    rintro r' (hr | hr)
    · left
      obtain ⟨⟨j, comps⟩, hj, rfl⟩ := List.mem_map.mp hr
      by_cases h2 : j = k
      · subst h2; exact List.mem_map.mpr ⟨_, h.rest, rfl⟩
      · exact List.mem_map.mpr ⟨_, (h.others _ _ h2 (fun he => h.fresh (he ▸ hr))).mpr hj, rfl⟩
    · exact .inr hr
  refine ⟨?_, ?_, ?_⟩
  · obtain ⟨rank, hr⟩ := hs.order
    refine ⟨fun j => if j = r then 2 * rank k else 2 * rank j + 1, ?_⟩
    have hold : ∀ j comps c r', (j, comps) ∈ A → c ∈ comps → r' ∈ c.refs → '.' ∉ r' ∧
        (r' ∈ B.map Prod.fst ∨ (b = true ∧ r' = ['~', 'i', 'n', 'p', 'u', 't'])) ∧ r' ≠ r ∧ rank r' < rank j := by
      intro j comps c r' hj hc hr'
      obtain ⟨a1, a2, a3⟩ := hr j comps c r' hj hc hr'
      exact ⟨a1, hkey _ a2, ref_ne h hinB a2, a3⟩
    intro j comps c r' hj hc hr'
    rcases hback j comps hj with ⟨rfl, rfl⟩ | ⟨rfl, rfl⟩ | ⟨n1, n2, hA⟩
    · obtain ⟨a1, a2, a3, a4⟩ := hold _ _ c r' h.chain (by simp [hc]) hr'
      refine ⟨a1, a2, ?_⟩
      show (if _ = _ then _ else _) < (if _ = _ then _ else _)
      rw [if_neg a3, if_pos rfl]; omega
    · rcases List.mem_cons.mp hc with rfl | hc
      · have : r' = r := by simpa [Comp.refs] using hr'
        subst this
        refine ⟨h.plain, .inl (List.mem_map.mpr ⟨_, h.part, rfl⟩), ?_⟩
        show (if _ = _ then _ else _) < (if _ = _ then _ else _)
        rw [if_pos rfl, if_neg hkr]; omega
      · obtain ⟨a1, a2, a3, a4⟩ := hold _ _ c r' h.chain (by simp [hc]) hr'
        refine ⟨a1, a2, ?_⟩
        show (if _ = _ then _ else _) < (if _ = _ then _ else _)
        rw [if_neg a3, if_neg hkr]; omega
    · obtain ⟨a1, a2, a3, a4⟩ := hold _ _ c r' hA hc hr'
      refine ⟨a1, a2, ?_⟩
      show (if _ = _ then _ else _) < (if _ = _ then _ else _)
      rw [if_neg a3, if_neg n2]; omega
  · intro j comps i c hj hi
    rcases hback j comps hj with ⟨rfl, rfl⟩ | ⟨rfl, rfl⟩ | ⟨n1, n2, hA⟩
    · refine hs.parts k _ i c h.chain ?_
      rw [List.getElem?_append_left (List.getElem?_eq_some_iff.mp hi).1]
      exact hi
    · cases i with
      | zero =>
        cases hi
        show _ ≤ 1
        simp [Comp.refs]
      | succ i =>
        have := hs.parts j _ (xs.length + i) c h.chain (by
          rw [List.getElem?_append_right (by omega), Nat.add_sub_cancel_left]; exact hi)
        rw [if_neg (by omega)] at this ⊢
        exact this
    · exact hs.parts j comps i c hA hi
  · refine Nat.le_trans ?_ hs.output
    have hnd : ((B.filter (fun e => !decide ('~' ∈ e.1))).map Prod.fst).Nodup :=
      List.Nodup.sublist (List.Sublist.map _ List.filter_sublist) hwB.1
    have := (List.subperm_of_subset hnd (l₂ := (A.filter (fun e => !decide ('~' ∈ e.1))).map Prod.fst) (by
      intro j hj
      obtain ⟨⟨j, comps⟩, h1, rfl⟩ := List.mem_map.mp hj
      obtain ⟨h1, h2⟩ := List.mem_filter.mp h1
      rcases hback j comps h1 with ⟨rfl, rfl⟩ | ⟨rfl, rfl⟩ | ⟨n1, n2, hA⟩
      · have := h.silent
        simp [this] at h2
      · exact List.mem_map.mpr ⟨_, List.mem_filter.mpr ⟨h.chain, h2⟩, rfl⟩
      · exact List.mem_map.mpr ⟨_, List.mem_filter.mpr ⟨hA, h2⟩, rfl⟩)).length_le
    simpa using this

end

section
variable {P : Plat} {N : Nat}

theorem pass_msgs : ∀ (msgs : List (Msg Fl)) {n : GNode P}, sendMsgs (P := P) (.prim .pass) msgs = .ok n → n = .prim .pass
  | [], _, h => by cases h; rfl
  | g :: msgs, n, h => by
    have : msgG P (.prim .pass) g = .ok (.prim .pass) := by cases g <;> rfl
    simp only [sendMsgs, this] at h
    exact pass_msgs msgs h

theorem pass_blocks {n : Nat} : ∀ {ins : List Ins} {sigs outs : List (List Buf)} {out : List Buf}, out.length = 2 →
    List.Forall₂ (fun (inp : Ins) o => inp = [(n, o)] ∧ (o.length = 1 ∨ o.length = 2)) ins sigs →
    runBlocks (procG P) (.prim .pass) out ins = .ok outs → List.Forall₂ Dup sigs outs := by
  intro ins sigs outs out hl hF
  induction hF generalizing out outs with
  | nil => intro h; cases h; exact .nil
  | @cons inp o ins sigs hi _ ih =>
    intro h
    obtain ⟨rfl, ho⟩ := hi
    have hp : procG P (.prim .pass) [(n, o)] out = .ok (.prim .pass, passBufs o out) := rfl
    simp only [runBlocks, hp] at h
    have hlen : (passBufs o out).length = 2 := pass_length (ins := [(n, o)]) hl
    split at h
    · cases h
    · rename_i r hr
      cases h
      refine .cons ?_ (ih hlen hr)
      match out, hl with
      | [a, b], _ =>
        rcases ho with ho | ho
        · obtain ⟨x, rfl⟩ := List.length_eq_one_iff.mp ho
          exact .inr ⟨x, rfl, rfl⟩
        · match o, ho with
          | [x, y], _ => exact .inl rfl

theorem get_dup {env : Env} {r : Name} {msgs : List (Msg Fl)} {n : Nat} {ins : List Ins} {sigs outs : List (List Buf)}
    (hF : List.Forall₂ (fun (inp : Ins) o => inp = [(n, o)] ∧ (o.length = 1 ∨ o.length = 2)) ins sigs)
    (h : play P N env (.get r) msgs ins = .ok outs) : List.Forall₂ Dup sigs outs := by
  have hmk : makeNode P N env.samples env.sr env.bpm env.seed (.get r) = .ok (fresh N 2 (.prim .pass), [r]) := rfl
  simp only [play, hmk] at h
  split at h
  · cases h
  · rename_i n1 h1
    have := pass_msgs msgs h1
    subst this
    split at h
    · cases h
    · rename_i r hr
      cases h
      exact pass_blocks (by simp [fresh]) hF hr

theorem prim_two {m : Libm} {samples : List (Name × Sample)} {sr seed ch : Nat} {bpm : Fl} {c : Comp} {n : Prim} (hc : ¬ OneChannel c)
    (h : makePrim m samples sr bpm seed c = some (.ok (ch, n))) : ch = 2 := by
  unfold makePrim at h
  split at h <;> first
    | exact absurd trivial hc
    | (cases h; done)
    | (cases h; rfl)
    | (have h := Option.some.inj h
       rw [except_bind_ok] at h
       obtain ⟨_, _, h⟩ := h
       cases h
       rfl)
    | skip
  have h := Option.some.inj h
  split at h
  · cases h
  · rw [except_bind_ok] at h
    obtain ⟨_, _, h⟩ := h
    cases h
    rfl

/-- A component that does not have a single channel has two. -/
theorem two_channels {T : P.ext.State → Prop} (hx : ExtShape P N T) {env : Env} {c : Comp} (hc : ¬ OneChannel c) {msgs : List (Msg Fl)}
    {ins : List Ins} {outs : List (List Buf)} (hi : ∀ i, i ∈ ins → ∀ e, e ∈ i → BlockLen N e.2)
    (h : play P N env c msgs ins = .ok outs) : ∀ o, o ∈ outs → o.length = 2 := by
  unfold play at h
  split at h
  · cases h
  · rename_i d rs hmk
    have hch : d.buffers.length = 2 := by
      unfold makeNode at hmk
      split at hmk
      · rename_i r hr
        rw [except_bind_ok] at hmk
        obtain ⟨⟨ch, n⟩, h1, h2⟩ := hmk
        cases h2
        subst h1
        simp only [fresh, List.length_replicate]
        exact prim_two hc hr
      · split at hmk
        · rw [except_bind_ok] at hmk
          obtain ⟨k, _, h2⟩ := hmk
          cases h2
          simp [fresh]
        · split at hmk
          · exact absurd trivial hc
          · exact absurd trivial hc
          · cases hmk
    obtain ⟨s1, s2⟩ := makeNode_shape hx hmk
    split at h
    · cases h
    · rename_i n hn
      split at h
      · cases h
      · rename_i r hr
        cases h
        have hg : GShape P N T n := msgs_shape hx s1 hn
        intro o ho
        rw [Verif.Part.run_length hx hg s2 hi hr o ho, hch]

end

section
variable {P : Plat} {N : Nat} {parse parse' : Name → Except Panic (Option (Ast Comp))}
  {e0 e1 : Engine (glicol P N parse)} {f0 f1 : Engine (glicol P N parse')} {A B : Ast Comp} {b : Bool}
  {exts : List (List Buf)} {start start' : Place → List Buf} {sig sig' : Place → List (List Buf)}
  {k r : Name} {xs ys : List Comp} {m : Nat}

theorem lead_on {q : Place} (h : Leads Comp.refs A b q .dest) (hq : q ≠ .dest) :
    ∃ p, Flow Comp.refs A b q p ∧ Leads Comp.refs A b p .dest := by
  cases h with
  | refl => exact absurd rfl hq
  | step hf hl => exact ⟨_, hf, hl⟩

/-- What the reference in front hears of the part. -/
theorem part_get (h' : Sounds f0 f1 B b exts start' sig') (hne : exts ≠ []) (hwB : ProgWf B)
    (hinB : ['~', 'i', 'n', 'p', 'u', 't'] ∉ B.map Prod.fst) (hp : PartNamed A B k r xs ys) (hm : xs.length = m + 1)
    (ha' : AllNew f0 B) (hfree : FreeOf ByRole B b) (hlead : Leads Comp.refs B b (.at k 0) .dest) :
    List.Forall₂ Dup (sig' (.at r m)) (sig' (.at k 0)) := by
  obtain ⟨old, o1, o2⟩ := ha' _ _ hp.rest
  obtain ⟨refs, qs, srcs, left, inputs, _, _, _, _, _, r6, r7, r8, _⟩ := h'.component _ _ 0 _ old hp.rest rfl hlead o1
    (o2 _ List.mem_cons_self)
  obtain ⟨Q, q1, q2, num, _, q4⟩ := run_inputs h' r6 hne (fun q hq => hfree.forward q _ hq hlead) r7
  have hQ : ∀ q, q ∈ Q ↔ q = .at r m := by
    intro q
    rw [q2, flow_into hwB hp.rest rfl]
    constructor
    · rintro (⟨j, hj, _⟩ | ⟨r', k', n, g1, g2, g3, rfl⟩)
      · cases hj
      · have : r' = r := by simpa [Comp.refs] using g1
        subst this
        have := means_plain g2 hp.plain
        subst this
        have := chain_unique hwB hinB g3 (.prog hp.part)
        congr 1
        omega
    · rintro rfl
      exact .inr ⟨r, r, m, by simp [Comp.refs], .named hp.plain, hm ▸ .prog hp.part, rfl⟩
  have hperm : [Place.at r m].Perm Q := (List.perm_ext_iff_of_nodup (List.nodup_singleton _) q1).mpr (fun q => by
    rw [hQ]; exact List.mem_singleton)
  obtain ⟨_, hfed⟩ := q4 _ hperm
  have hlr : Leads Comp.refs B b (.at r m) .dest := .step ((q2 _).mp ((hQ _).mpr rfl)) hlead
  refine get_dup (n := num (.at r m)) ?_ r8
  refine forall₂_of_get (by rw [r6, h'.length _ hlr]) ?_
  intro t inp o ht ho
  obtain ⟨bufs, b1, b2⟩ := hfed t inp ht
  simp only [List.map_cons, List.map_nil] at b1 b2
  cases b1 with
  | cons b1 b3 =>
    cases b3
    rw [ho] at b1
    cases b1
    exact ⟨List.perm_singleton.mp b2, (h'.shape _ hlr o (List.mem_of_getElem? ho)).1⟩

/-- A part that ends with a component of two channels is heard as it is. -/
theorem part_two {T : P.ext.State → Prop} (hx : ExtShape P N T) (h' : Sounds f0 f1 B b exts start' sig') (hne : exts ≠ [])
    {comps : List Comp} {c : Comp} (hk : (r, comps) ∈ B) (hc : comps[m]? = some c) (h2 : ¬ OneChannel c)
    (ha' : AllNew f0 B) (hfree : FreeOf ByRole B b) (hlead : Leads Comp.refs B b (.at r m) .dest) :
    ∀ o, o ∈ sig' (.at r m) → o.length = 2 := by
  obtain ⟨old, o1, o2⟩ := ha' _ _ hk
  obtain ⟨refs, qs, srcs, left, inputs, _, _, _, _, _, r6, r7, r8, _⟩ := h'.component _ _ m _ old hk hc hlead o1
    (o2 _ (List.mem_of_getElem? hc))
  obtain ⟨Q, q1, q2, num, _, q4⟩ := run_inputs h' r6 hne (fun q hq => hfree.forward q _ hq hlead) r7
  obtain ⟨_, hfed⟩ := q4 Q (.refl _)
  refine two_channels hx h2 ?_ r8
  intro inp hinp e he
  obtain ⟨t, ht⟩ := List.mem_iff_getElem?.mp hinp
  obtain ⟨bufs, b1, b2⟩ := hfed t inp ht
  have he2 : e.2 ∈ bufs := (List.of_mem_zip (b2.mem_iff.mp he)).2
  obtain ⟨s, hs, hso⟩ := forall₂_left (List.Forall₂.flip b1) _ he2
  obtain ⟨q, hq, rfl⟩ := List.mem_map.mp hs
  exact (h'.shape q (.step ((q2 q).mp hq) hlead) _ (List.mem_of_getElem? hso)).2

theorem dup_two {s s' : List (List Buf)} (h : List.Forall₂ Dup s s') (h2 : ∀ o, o ∈ s → o.length = 2) : s' = s := by
  induction h with
  | nil => rfl
  | cons hd _ ih =>
    rw [ih (fun o ho => h2 o (by simp [ho]))]
    rcases hd with rfl | ⟨x, rfl, _⟩
    · rfl
    · have := h2 _ List.mem_cons_self
      cases this

theorem dup_refl : ∀ s : List (List Buf), List.Forall₂ Dup s s
  | [] => .nil
  | _ :: s => .cons (.inl rfl) (dup_refl s)

theorem leads_input (hin : ['~', 'i', 'n', 'p', 'u', 't'] ∉ A.map Prod.fst) (hp : Plain A b)
    (h : Leads Comp.refs A b (.at ['~', 'i', 'n', 'p', 'u', 't'] 0) .dest) : RefersToInput A := by
  obtain ⟨p, hf, _⟩ := lead_on h (by simp)
  generalize hq : Place.at ['~', 'i', 'n', 'p', 'u', 't'] 0 = q at hf
  cases hf with
  | next hc hi =>
    cases hq
    cases hc with
    | prog hk => exact absurd (List.mem_map.mpr ⟨_, hk, rfl⟩) hin
    | input _ => omega
  | out hc ht => cases hq; exact absurd (by simp) ht
  | ref hk hi hr hm hc =>
    cases hq
    have := means_plain hm (hp _ _ _ _ hk (List.mem_of_getElem? hi) hr).1
    subst this
    exact ⟨_, _, _, hk, List.mem_of_getElem? hi, hr⟩

theorem plain_of (hs : Wise ByRole A b) : Plain A b := by
  obtain ⟨rank, hr⟩ := hs.order
  intro j comps c r hj hc hrc
  obtain ⟨a1, a2, _⟩ := hr j comps c r hj hc hrc
  exact ⟨a1, a2⟩

/-- The programs sound the same. -/
theorem part_programs {T : P.ext.State → Prop} (hx : ExtShape P N T) (hxf : ExtFirst P) (hm : Libm32 P.libm) (hN : 0 < N) (hw : ProgWf A) (hwB : ProgWf B)
    (hin : ['~', 'i', 'n', 'p', 'u', 't'] ∉ A.map Prod.fst) (hinB : ['~', 'i', 'n', 'p', 'u', 't'] ∉ B.map Prod.fst)
    (h : Sounds e0 e1 A b exts start sig) (h' : Sounds f0 f1 B b exts start' sig')
    (hset : (⟨f0.samples, f0.sr, f0.bpm, f0.seed⟩ : Env) = ⟨e0.samples, e0.sr, e0.bpm, e0.seed⟩)
    (hsg : ∀ e, e ∈ A → ∀ c, c ∈ e.2 → c.Sg) (ha : AllNew e0 A) (ha' : AllNew f0 B)
    (hs : Wise ByRole A b) (hp : PartNamed A B k r xs ys)
    (hd : (∃ l, xs.getLast? = some l ∧ ¬ OneChannel l) ∨ ∀ j comps i c, (j, comps) ∈ A → comps[i]? = some c →
      Flow Comp.refs A b (.at k (xs.length - 1)) (.at j i) → ¬ Delays c)
    (hext : RefersToInput A → ∀ x, x ∈ exts → 2 ≤ x.length ∧ ∀ b, b ∈ x.take 2 → ∀ v, v ∈ b → v.Ok f32) :
    sig .dest = sig' .dest := by
  by_cases hne : exts = []
  · subst hne
    rw [List.length_eq_zero_iff.mp (h.length .dest (.refl _)), List.length_eq_zero_iff.mp (h'.length .dest (.refl _))]
  obtain ⟨m, hlen⟩ : ∃ m, xs.length = m + 1 := ⟨xs.length - 1, by have := List.length_pos_iff.mpr hp.nonempty; omega⟩
  rw [show xs.length - 1 = m by omega] at hd
  have hpl : Plain A b := plain_of hs
  have hsB := part_wise hp hlen hw hwB hinB hs
  have hfree := wise_free hw hin hs
  have hfreeB := wise_free hwB hinB hsB
  have sgA := places_single hxf hm h hne hsg ha hfree (fun hl => hext (leads_input hin hpl hl))
  have hkm : heardAs k r m (.at k m) = .at k 0 := by
    simp only [heardAs]; rw [if_pos trivial, if_neg (by omega), Nat.sub_self]
  have hkm' : movedTo k r m (.at k m) = .at r m := by
    simp only [movedTo]; rw [if_pos trivial, if_pos (by omega)]
  have hlB : ∀ q p, Flow Comp.refs A b q p → Leads Comp.refs A b p .dest → Leads Comp.refs B b (movedTo k r m q) .dest :=
    fun q p hf hl => part_leads (p := .dest) hp hlen hw hwB hin hinB hpl (.step hf hl)
  have hlk : ∀ p, Flow Comp.refs A b (.at k m) p → Leads Comp.refs A b p .dest → Leads Comp.refs B b (.at k 0) .dest := by
    intro p hf hl
    have := part_heard hp hlen hw hwB hin hinB hpl hf
    rw [hkm] at this
    exact .step this (part_leads (p := .dest) hp hlen hw hwB hin hinB hpl hl)
  have hdup : ∀ q p, Flow Comp.refs A b q p → Leads Comp.refs A b p .dest →
      List.Forall₂ Dup (sig' (movedTo k r m q)) (sig' (heardAs k r m q)) := by
    intro q p hf hl
    by_cases hq : q = .at k m
    · subst hq
      rw [hkm, hkm']
      exact part_get h' hne hwB hinB hp hlen ha' hfreeB (hlk p hf hl)
    · rw [moved_heard hq]
      exact dup_refl _
  have hsame : (∃ l, xs.getLast? = some l ∧ ¬ OneChannel l) → ∀ q p, Flow Comp.refs A b q p → Leads Comp.refs A b p .dest →
      sig' (heardAs k r m q) = sig' (movedTo k r m q) := by
    rintro ⟨l, hl1, hl2⟩ q p hf hl
    by_cases hq : q = .at k m
    · subst hq
      refine dup_two (hdup _ p hf hl) ?_
      rw [hkm']
      refine part_two hx h' hne hp.part ?_ hl2 ha' hfreeB (hkm' ▸ hlB _ p hf hl)
      rw [List.getLast?_eq_getElem?, hlen] at hl1
      exact hl1
    · rw [moved_heard hq]
  obtain ⟨rank, hrank⟩ := rank_exists hfree.forward
  have key : ∀ (n : Nat) q p, rank q < n → Flow Comp.refs A b q p → Leads Comp.refs A b p .dest →
      SameSig (sig q) (sig' (movedTo k r m q)) := by
    intro n
    induction n with
    | zero => intro q p h; omega
    | succ n ih =>
      intro q p hn hf hd1
      have hlead : Leads Comp.refs A b q .dest := .step hf hd1
      obtain ⟨j, i, n0, rfl, hc, hi⟩ := source_at hf
      cases hc with
      | @prog _ comps hj =>
        have hci := List.getElem?_eq_getElem hi
        have hmem : comps[i] ∈ comps := List.getElem_mem hi
        obtain ⟨j', comps', i', p1, p2, p3, p4⟩ := part_comp hp hlen hw hj hci
        obtain ⟨old, o1, o2⟩ := ha _ _ hj
        obtain ⟨old', o1', o2'⟩ := ha' _ _ p2
        have hflow := part_flow hp hlen hw hwB hin hinB hpl hj hci
        rw [p1] at hflow ⊢
        have hlead' : Leads Comp.refs B b (.at j' i') .dest := p1 ▸ hlB _ _ hf hd1
        have hbf := hs.parts j comps i _ hj hci
        refine component_part hx hxf hN hwB hinB h h' hne hset (φ := heardAs k r m) (ψ := movedTo k r m) hj hci hlead p2 p3 hlead' o1
          (o2 _ hmem) o1' (o2' _ (List.mem_of_getElem? p3)) (hfree.parts j comps i _ hj hci hlead) (hfree.refs j comps _ hj hmem)
          (fun q hq => hfree.forward q _ hq hlead) (fun q hq => hfreeB.forward q _ hq hlead') hflow
          (fun q1 q2 h1 h2 he => part_inj hp hinB h1 h2 he) p4 ?_ (fun q hq => hlB q _ hq hlead)
          (fun q hq => sgA q _ hq hlead) ?_ ?_
        · intro _ r' hr' n1 hc1
          exact part_chain hp hlen hw hin (ref_ne hp hinB (hpl _ _ _ _ hj hmem hr').2) hc1
        · rcases hd with hd | hd
          · exact .inl (fun q hq => hsame hd q _ hq hlead)
          · by_cases hdel : Delays comps[i]
            · left
              intro q hq
              have : q ≠ .at k m := by
                rintro rfl
                exact hd j comps i _ hj hci hq hdel
              rw [moved_heard this]
            · right
              refine ⟨?_, fun q hq => hdup q _ hq hlead⟩
              revert hdel hbf
              generalize comps[i] = c
              intro hbf hdel
              cases c <;> first | trivial | exact hdel trivial | exact hbf
        · intro q hq
          have := hrank q _ hq hlead
          exact ih q _ (by omega) hq hlead
      | input hb =>
        have : i = 0 := by omega
        subst this
        have hne' : ['~', 'i', 'n', 'p', 'u', 't'] ≠ k := fun he => hin (List.mem_map.mpr ⟨_, hp.chain, he.symm⟩)
        have hmv : movedTo k r m (.at ['~', 'i', 'n', 'p', 'u', 't'] 0) = .at ['~', 'i', 'n', 'p', 'u', 't'] 0 := by
          simp only [movedTo]; rw [if_neg hne']
        have hlead' := hlB _ _ hf hd1
        rw [hmv] at hlead' ⊢
        have hi2 := hext (leads_input hin hpl hlead)
        rw [input_signal h hlead (fun x hx => (hi2 x hx).1), input_signal h' hlead' (fun x hx => (hi2 x hx).1)]
        have h2 : ∀ o, o ∈ exts.map (List.take 2) → o.length = 2 := by
          intro o ho
          obtain ⟨x, hx, rfl⟩ := List.mem_map.mp ho
          have := (hi2 x hx).1
          simp; omega
        exact ⟨rfl, 2, .inr rfl, h2⟩
  refine output_part h h' (part_out hp hlen hw hwB hin hinB) (fun q1 q2 h1 h2 he => part_inj hp hinB h1 h2 he)
    (fun q hq => sgA q _ hq (.refl _)) hfree.output ?_
  intro q hq
  rw [(key (rank q + 1) q _ (Nat.lt_succ_self _) hq (.refl _)).1]
  exact hdup q _ hq (.refl _)

end

end Verif.Props.Parted

namespace Verif.Props
open Verif.Spec Verif.Parse

variable {P : Plat} {N : Nat}

/-- **C85** (partial). Two texts, one with a chain `k: xs >> ys`, the other with the beginning of this chain under a name of its own,
`r: xs` and `k: r >> ys` (`PartNamed`), sent to two engines with the same settings: they play the same blocks, whatever the iteration
orders of the maps in either engine. The components are new to the engines. Either the part has two channels, or what hears it is not a delay: for delays it is false (`c85_delay_counterexample`). Missing:
feedback, references to several chains at once (as `~a..`), sums of more than two chains, components kept from an
earlier text. -/
theorem c85_part_partial {fe : Name → Option Fl} {T : P.ext.State → Prop} (hx : ExtShape P N T) (hxf : ExtFirst P) (hm : Libm32 P.libm) (hN : 0 < N)
    {e0 e1 e2 f0 f1 f2 : Engine (glicol P N (Parse.parse fe))}
    (hr : CleanReach _ e0) (hr' : CleanReach _ f0) (heN : e0.N = N) (hfN : f0.N = N)
    (hset : (⟨f0.samples, f0.sr, f0.bpm, f0.seed⟩ : Env) = ⟨e0.samples, e0.sr, e0.bpm, e0.seed⟩) (τ σ : TableOrder) (code code' : Name)
    (whole parted : Ast Comp) (hparse : Parse.parse fe code = .ok (some whole)) (hparse' : Parse.parse fe code' = .ok (some parted))
    {k r : Name} {xs ys : List Comp} (hp : PartNamed whole parted k r xs ys)
    (hc : CleanProg (glicol P N (Parse.parse fe)) whole) (hc' : CleanProg (glicol P N (Parse.parse fe)) parted)
    (ha : AllNew e0 whole) (ha' : AllNew f0 parted) (hu : e0.updateWithCode τ code = .ok (e1, none))
    (hu' : f0.updateWithCode σ code' = .ok (f1, none)) (b : Bool)
    (hb : b = true ↔ ['~', 'i', 'n', 'p', 'u', 't'] ∈ e1.index.map Prod.fst)
    (hb' : b = true ↔ ['~', 'i', 'n', 'p', 'u', 't'] ∈ f1.index.map Prod.fst)
    (hs : Wise ByRole whole b)
    (hd : (∃ l, xs.getLast? = some l ∧ ¬ OneChannel l) ∨ ∀ j comps i c, (j, comps) ∈ whole → comps[i]? = some c →
      Flow Comp.refs whole b (.at k (xs.length - 1)) (.at j i) → ¬ Delays c)
    (steps steps' : List (HashOrder × List Buf)) (outs outs' : List (List Buf)) (hin : steps.map Prod.snd = steps'.map Prod.snd)
    (hext : RefersToInput whole → ∀ x, x ∈ steps.map Prod.snd → 2 ≤ x.length ∧ ∀ b, b ∈ x.take 2 → ∀ v, v ∈ b → v.Ok f32)
    (h : Plays e1 steps e2 outs) (h' : Plays f1 steps' f2 outs') : outs = outs' := by
  obtain ⟨start, sig, rfl, hs1⟩ := c49_texts_sound_as_written_partial hx hr heN τ code whole hparse hc hu steps outs h b hb
  obtain ⟨start', sig', rfl, hs2⟩ := c49_texts_sound_as_written_partial hx hr' hfN σ code' parted hparse' hc' hu' steps' outs' h' b hb'
  rw [← hin] at hs2
  exact Parted.part_programs hx hxf hm hN (glicol_parserWf P N fe code whole hparse) (glicol_parserWf P N fe code' parted hparse') hc.noInput
    hc'.noInput hs1 hs2 hset (Parse.sg_parse hparse) ha ha' hs hp hd hext

/-! ### Examples -/

/-- `noteText` (C84) with the notes under a name of their own. -/
def partedText : Name := c!"~a: constsig 72\n~b: constsig 84\n~p: speed 22050 >> seq ~a~b\no: ~p >> mul 3"

def partedProg : Ast Comp :=
  [(c!"~a", [.constsig (.fin 72)]), (c!"~b", [.constsig (.fin 84)]),
   (c!"~p", [.speed (.fin 22050), .seq [(.fin 0, .ref c!"~a"), (.fin (1 / 2), .ref c!"~b")]]),
   (c!"o", [.get c!"~p", .mul (.num (.fin 3))])]

theorem partedProg_named : PartNamed noteProg partedProg c!"o" c!"~p"
    [.speed (.fin 22050), .seq [(.fin 0, .ref c!"~a"), (.fin (1 / 2), .ref c!"~b")]] [.mul (.num (.fin 3))] := by
  refine ⟨by simp [noteProg], by simp [partedProg], by simp [partedProg], ?_, by simp, by decide, by decide, by decide⟩
  intro j comps h1 h2
  simp only [partedProg, noteProg, List.mem_cons, Prod.mk.injEq, List.not_mem_nil, or_false]
  constructor
  · rintro (h | h | ⟨rfl, _⟩ | ⟨rfl, _⟩)
    · exact .inl h
    · exact .inr (.inl h)
    · exact absurd rfl h2
    · exact absurd rfl h1
  · rintro (h | h | ⟨rfl, _⟩)
    · exact .inl h
    · exact .inr (.inl h)
    · exact absurd rfl h1

/-- Both texts, in new engines: the hypotheses of `c85_part_partial` are met. -/
example (fe : Name → Option Fl) :
    ExtShape notePlat 2 (fun _ => True) ∧ ExtFirst notePlat ∧ Libm32 notePlat.libm ∧ CleanReach _ (Engine.new (glicol notePlat 2 (parse fe)) 2) ∧
    parse fe noteText = .ok (some noteProg) ∧ parse fe partedText = .ok (some partedProg) ∧
    PartNamed noteProg partedProg c!"o" c!"~p"
      [.speed (.fin 22050), .seq [(.fin 0, .ref c!"~a"), (.fin (1 / 2), .ref c!"~b")]] [.mul (.num (.fin 3))] ∧
    CleanProg (glicol notePlat 2 (parse fe)) noteProg ∧ CleanProg (glicol notePlat 2 (parse fe)) partedProg ∧
    AllNew (Engine.new (glicol notePlat 2 (parse fe)) 2) noteProg ∧ AllNew (Engine.new (glicol notePlat 2 (parse fe)) 2) partedProg ∧
    Wise ByRole noteProg true ∧
    (∃ l, [Comp.speed (.fin 22050), .seq [(.fin 0, .ref c!"~a"), (.fin (1 / 2), .ref c!"~b")]].getLast? = some l ∧ ¬ OneChannel l) ∧
    ¬ RefersToInput noteProg ∧
    (∃ e1 e2, (Engine.new (glicol notePlat 2 (parse fe)) 2).updateWithCode .ident noteText = .ok (e1, none) ∧
      Plays e1 (List.replicate 2 (.rev, [])) e2 [[[.fin 6, .fin 0], [.fin 0, .fin 0]], [[.fin 12, .fin 0], [.fin 0, .fin 0]]] ∧
      ['~', 'i', 'n', 'p', 'u', 't'] ∈ e1.index.map Prod.fst) ∧
    ∃ e1 e2, (Engine.new (glicol notePlat 2 (parse fe)) 2).updateWithCode .ident partedText = .ok (e1, none) ∧
      Plays e1 (List.replicate 2 (.ident, [])) e2 [[[.fin 6, .fin 0], [.fin 0, .fin 0]], [[.fin 12, .fin 0], [.fin 0, .fin 0]]] ∧
      ['~', 'i', 'n', 'p', 'u', 't'] ∈ e1.index.map Prod.fst := by
  have hn : ∀ prog, AllNew (Engine.new (glicol notePlat 2 (parse fe)) 2) prog :=
    fun prog k comps _ => ⟨[], .inr ⟨rfl, fun a ha => by cases ha⟩, fun _ _ _ ho => by cases ho⟩
  refine ⟨notePlat_meets.1, notePlat_first, notePlat_meets.2, .new 2, noteText_parses fe, by kernel_rfl, partedProg_named, noteProg_clean ..,
    ⟨?_, show _ ∉ partedProg.map Prod.fst by decide⟩, hn _, hn _, noteProg_wise true, ⟨_, rfl, id⟩, ?_, Demo.playsText_spec (by kernel_rfl),
    Demo.playsText_spec (by kernel_rfl)⟩
  · have hall : ∀ e ∈ partedProg, Distinct Comp.eq e.2 := by unfold Distinct; decide
    exact fun k c hm => hall (k, c) hm
  · rintro ⟨j, comps, c, h1, h2, h3⟩
    exact (by decide : ∀ e ∈ noteProg, ∀ c ∈ e.2, ['~', 'i', 'n', 'p', 'u', 't'] ∉ c.refs) (j, comps) h1 c h2 h3

/-- The other condition: in `o: imp 22050 >> mul 2` no delay hears the pulse, so that the pulse can be named. -/
example : ∀ j comps i c, (j, comps) ∈ [(c!"o", [Comp.imp (.num (.fin 22050)), .mul (.num (.fin 2))])] → comps[i]? = some c →
    Flow Comp.refs [(c!"o", [Comp.imp (.num (.fin 22050)), .mul (.num (.fin 2))])] true (.at c!"o" 0) (.at j i) → ¬ Delays c := by
  intro j comps i c hj hi _ hd
  have hj := List.mem_singleton.mp hj
  cases hj
  have := List.mem_of_getElem? hi
  simp only [List.mem_cons, List.not_mem_nil, or_false] at this
  rcases this with rfl | rfl <;> exact hd

/-- The condition on delays cannot be dropped: with a part that has one channel, a delay that hears the part by its name plays nothing on
the right. -/
theorem c85_delay_counterexample (P : Plat) (fe : Name → Option Fl) :
    Verif.Spec.PagePlay.gets (Engine.new (glicol P 2 (parse fe)) 2) [.update .ident c!"o: constsig 1 >> delayn 1", .nextBlock .ident []] =
      [.answer none, .block [[.fin 0, .fin 1], [.fin 0, .fin 1]]] ∧
    Verif.Spec.PagePlay.gets (Engine.new (glicol P 2 (parse fe)) 2)
      [.update .ident c!"~p: constsig 1\no: ~p >> delayn 1", .nextBlock .ident []] =
      [.answer none, .block [[.fin 0, .fin 1], [.fin 0, .fin 0]]] :=
  ⟨Settings.getsFuel_spec (by kernel_rfl), Settings.getsFuel_spec (by kernel_rfl)⟩

end Verif.Props
