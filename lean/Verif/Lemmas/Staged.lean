import Verif.Lemmas.Chain

/-! The chain table after staging, chain by chain (helpers). -/

namespace Verif
open Spec

variable {L : Lang}

/-- The old version of chain `k`, empty if there was none. -/
def oldChain (old : Option (Ast L.Comp)) (k : Name) : List L.Comp :=
  (old.bind (fun o => lookup o k)).getD []

/-- The component occurs in the old version of its chain. -/
def inOld (old : Option (Ast L.Comp)) (k : Name) (c : L.Comp) : Bool :=
  (oldChain old k).any (fun o => L.compEq o c)

/-- The old component occurs in the new chain. -/
def inNew (L : Lang) (new : List L.Comp) (o : L.Comp) : Bool := new.any (fun c => L.compEq o c)

theorem findEq_isNone {o : L.Comp} {new : List L.Comp} :
    (findEq L.compEq o new).isNone = !inNew L new o := by
  have : ∀ n (l : List L.Comp), ((enumFrom n l).find? (fun p => L.compEq o p.2)).isNone =
      !l.any (fun c => L.compEq o c) := by
    intro n l
    induction l generalizing n with
    | nil => rfl
    | cons a l ih =>
      simp only [enumFrom, List.find?_cons, List.any_cons]
      by_cases h : L.compEq o a = true
      · simp [h]
      · simp [h, ih]
  exact this 0 new

/-- Uniform description of the diff of one chain. -/
theorem diffChain_spec {mk : L.Comp → Except Stop (L.Data × List Name)}
    {old : Option (Ast L.Comp)} {k : Name} {comps : List L.Comp} {d : Diff L}
    (h : diffChain mk old k comps = .ok d) :
    d.removes = ((enumFrom 0 (oldChain old k)).filter (fun p => !inNew L comps p.2)).map
      (fun p => (k, p.1)) ∧
    List.Forall₂ (fun (p : Nat × L.Comp) (a : Name × Nat × L.Data) =>
      a.1 = k ∧ a.2.1 = p.1 ∧ ∃ refs, mk p.2 = .ok (a.2.2, refs))
      ((enumFrom 0 comps).filter (fun p => !inOld old k p.2)) d.adds := by
  unfold diffChain at h
  split at h
  · rename_i ho
    have hoc : oldChain old k = [] := by simp [oldChain, ho]
    obtain ⟨h1, h2, _⟩ := addNodes_spec h
    refine ⟨by rw [h1, hoc]; rfl, ?_⟩
    have : (enumFrom 0 comps).filter (fun p => !inOld old k p.2) = enumFrom 0 comps := by
      apply List.filter_eq_self.mpr
      intro a _
      simp [inOld, hoc]
    rw [this]
    exact h2
  · rename_i oldC ho
    have hoc : oldChain old k = oldC := by simp [oldChain, ho]
    rw [except_bind_ok] at h
    obtain ⟨d', hd', h⟩ := h
    simp only [Except.ok.injEq] at h
    subst h
    obtain ⟨h1, h2, _⟩ := addNodes_spec hd'
    refine ⟨?_, ?_⟩
    · simp only [h1, List.append_nil]
      rw [diffOld_spec.1, hoc]
      congr 1
      apply List.filter_congr
      intro p _
      exact findEq_isNone
    · simp only [inOld, hoc]
      exact h2

theorem forall₂_right {α β : Type} {R : α → β → Prop} {P : β → Prop} {l : List α} {m : List β}
    (h : List.Forall₂ R l m) (hP : ∀ a b, R a b → P b) : ∀ b, b ∈ m → P b := by
  induction h with
  | nil => intro b hb; cases hb
  | cons hab _ ih =>
    intro b hb
    rcases List.mem_cons.mp hb with rfl | hb
    · exact hP _ _ hab
    · exact ih b hb

theorem posOf_ne {k k' : Name} {l : List Nat} (h : k' ≠ k) : posOf k (l.map (fun p => (k', p))) = [] := by
  simp [posOf, List.filter_map, Function.comp_def, h]

theorem posOf_eq {k : Name} {l : List Nat} : posOf k (l.map (fun p => (k, p))) = l := by
  simp [posOf, List.filter_map, Function.comp_def]

theorem diffAll_perKey {mk : L.Comp → Except Stop (L.Data × List Name)}
    {old : Option (Ast L.Comp)} {new : Ast L.Comp} : ∀ {d : Diff L}, (keys new).Nodup →
    diffAll mk old new = .ok d → ∀ k,
    (k ∉ keys new → posOf k d.removes = [] ∧ d.adds.filter (fun a => decide (a.1 = k)) = []) ∧
    ∀ comps, (k, comps) ∈ new →
      posOf k d.removes =
        ((enumFrom 0 (oldChain old k)).filter (fun p => !inNew L comps p.2)).map (·.1) ∧
      List.Forall₂ (fun (p : Nat × L.Comp) (a : Name × Nat × L.Data) =>
        a.2.1 = p.1 ∧ ∃ refs, mk p.2 = .ok (a.2.2, refs))
        ((enumFrom 0 comps).filter (fun p => !inOld old k p.2))
        (d.adds.filter (fun a => decide (a.1 = k))) := by
  induction new with
  | nil =>
    intro d _ h k
    simp only [diffAll, Except.ok.injEq] at h
    subst h
    simp [posOf]
  | cons p new ih =>
    intro d hn h k
    obtain ⟨k0, comps0⟩ := p
    simp only [keys_cons, List.nodup_cons] at hn
    simp only [diffAll, except_bind_ok] at h
    obtain ⟨dk, hk, d', hd', h⟩ := h
    simp only [Except.ok.injEq] at h
    subst h
    obtain ⟨ih1, ih2⟩ := ih hn.2 hd' k
    obtain ⟨s1, s2⟩ := diffChain_spec hk
    have hrem : dk.removes = (((enumFrom 0 (oldChain old k0)).filter
        (fun p => !inNew L comps0 p.2)).map (·.1)).map (fun p => (k0, p)) := by
      rw [s1, List.map_map]; rfl
    have hadds_ne : k0 ≠ k → dk.adds.filter (fun a => decide (a.1 = k)) = [] := by
      intro hne
      apply List.filter_eq_nil_iff.mpr
      intro a ha
      have : a.1 = k0 := by
        exact forall₂_right s2 (fun _ _ h => h.1) a ha
      simp [this, hne]
    have hadds_eq : dk.adds.filter (fun a => decide (a.1 = k0)) = dk.adds := by
      apply List.filter_eq_self.mpr
      intro a ha
      have : a.1 = k0 := by
        exact forall₂_right s2 (fun _ _ h => h.1) a ha
      simp [this]
    simp only [Diff.append, posOf_append, List.filter_append, keys_cons, List.mem_cons, not_or]
    refine ⟨?_, ?_⟩
    · rintro ⟨hne, hnot⟩
      obtain ⟨i1, i2⟩ := ih1 hnot
      refine ⟨?_, ?_⟩
      · rw [hrem, posOf_ne (Ne.symm hne), i1]; rfl
      · rw [hadds_ne (Ne.symm hne), i2]; rfl
    · intro comps hm
      rcases hm with hm | hm
      · cases hm
        obtain ⟨i1, i2⟩ := ih1 hn.1
        refine ⟨?_, ?_⟩
        · rw [hrem, posOf_eq, i1, List.append_nil]
        · rw [hadds_eq, i2, List.append_nil]
          exact s2.imp (fun _ _ h => h.2)
      · have hne : k0 ≠ k := by
          rintro rfl
          exact hn.1 (mem_keys.mpr ⟨_, hm⟩)
        obtain ⟨i1, i2⟩ := ih2 comps hm
        refine ⟨?_, ?_⟩
        · rw [hrem, posOf_ne hne, i1]; rfl
        · rw [hadds_ne hne]
          exact i2

/-- The nodes created for chain `k`. -/
def crOf {δ : Type} (k : Name) (adds : List (Name × Nat × δ)) (cr : List Nat) : List Nat :=
  ((adds.zip cr).filter (fun x => decide (x.1.1 = k))).map (·.2)

theorem insOf_eq {δ : Type} (k : Name) : ∀ (adds : List (Name × Nat × δ)) (cr : List Nat),
    adds.length = cr.length →
    insOf k adds cr =
      ((adds.filter (fun a => decide (a.1 = k))).map (·.2.1)).zip (crOf k adds cr) ∧
    (crOf k adds cr).length = (adds.filter (fun a => decide (a.1 = k))).length := by
  intro adds
  induction adds with
  | nil => intro cr _; exact ⟨rfl, rfl⟩
  | cons a adds ih =>
    intro cr h
    cases cr with
    | nil => simp at h
    | cons i cr =>
      obtain ⟨h1, h2⟩ := ih cr (by simpa using h)
      unfold insOf crOf at h1 ⊢
      unfold crOf at h2
      simp only [List.zip_cons_cons, List.filter_cons]
      by_cases hk : a.1 = k
      · simp only [hk, decide_true, if_true, List.map_cons, List.zip_cons_cons, List.length_cons,
          h2, and_true]
        rw [h1]
      · simp only [hk, decide_false, Bool.false_eq_true, if_false]
        exact ⟨h1, h2⟩

theorem crOf_forall₂ {δ : Type} {R : (Name × Nat × δ) → Nat → Prop} (k : Name)
    {adds : List (Name × Nat × δ)} {cr : List Nat} (h : List.Forall₂ R adds cr) :
    List.Forall₂ R (adds.filter (fun a => decide (a.1 = k))) (crOf k adds cr) := by
  induction h with
  | nil => exact .nil
  | @cons a i adds cr hab _ ih =>
    unfold crOf at ih ⊢
    simp only [List.zip_cons_cons, List.filter_cons]
    by_cases hk : a.1 = k
    · simp only [hk, decide_true, if_true, List.map_cons]
      exact .cons hab ih
    · simp only [hk, decide_false, Bool.false_eq_true, if_false]
      exact ih

theorem crOf_mem {δ : Type} {k : Name} {adds : List (Name × Nat × δ)} {cr : List Nat} {i : Nat}
    (h : i ∈ crOf k adds cr) : i ∈ cr := by
  unfold crOf at h
  rw [List.mem_map] at h
  obtain ⟨x, hx, rfl⟩ := h
  exact (List.of_mem_zip (a := x.1) (b := x.2) (List.mem_filter.mp hx).1).2

/-- No two components of the same chain are equal. -/
def DupFree (L : Lang) (p : Ast L.Comp) : Prop := ∀ k c, (k, c) ∈ p → Distinct L.compEq c

/-- The chain table has one node per component, chains have no repeated components and built-in
chains are not empty. -/
structure Mirrors (e : Engine L) : Prop where
  len : ∀ a, e.ast = some a → ∀ k comps, (k, comps) ∈ a →
    ∃ c, lookup e.index k = some c ∧ c.length = comps.length
  dupFree : ∀ a, e.ast = some a → DupFree L a
  builtin : ∀ k c, lookup e.index k = some c → k ∉ oldKeys e → c ≠ []
  onlyInput : ∀ k, k ∈ keys e.index → k ∉ oldKeys e → k = inputName

/-- The new program does not define a chain with the name of a built-in one. -/
def NoClash (e : Engine L) (new : Ast L.Comp) : Prop :=
  ∀ k, k ∈ keys new → k ∈ keys e.index → k ∈ oldKeys e

theorem oldChain_facts {e : Engine L} (hm : Mirrors e) (k : Name) :
    (k ∉ oldKeys e → oldChain e.ast k = []) ∧
    (k ∈ oldKeys e → ∃ c, lookup e.index k = some c ∧ c.length = (oldChain e.ast k).length) ∧
    Distinct L.compEq (oldChain e.ast k) := by
  unfold oldChain
  cases ha : e.ast with
  | none => refine ⟨fun _ => rfl, fun h => ?_, .nil⟩; rw [mem_oldKeys, ha] at h; simp at h
  | some a =>
    have hk : k ∈ oldKeys e ↔ k ∈ keys a := by rw [mem_oldKeys, ha]; simp
    simp only [Option.bind_some]
    cases hl : lookup a k with
    | none =>
      have := lookup_none.mp hl
      exact ⟨fun _ => rfl, fun h => absurd (hk.mp h) this, .nil⟩
    | some comps =>
      have hmem := lookup_mem hl
      refine ⟨fun h => absurd (hk.mpr (mem_keys.mpr ⟨_, hmem⟩)) h, fun _ => hm.len a ha k comps hmem, ?_⟩
      exact hm.dupFree a ha k comps hmem

/-- The list of kept nodes of chain `k`, in old order. -/
def keptNodes (e : Engine L) (k : Name) (comps : List L.Comp) : List Nat :=
  (((oldChain e.ast k).zip ((lookup e.index k).getD [])).filter (fun x => inNew L comps x.1)).map (·.2)

theorem zip_filter_length {α β : Type} (p : α → Bool) : ∀ (l : List α) (m : List β),
    l.length = m.length → ((l.zip m).filter (fun x => p x.1)).length = (l.filter p).length := by
  intro l
  induction l with
  | nil => intro m _; rfl
  | cons a l ih =>
    intro m h
    cases m with
    | nil => simp at h
    | cons b m =>
      simp only [List.zip_cons_cons, List.filter_cons]
      have := ih m (by simpa using h)
      by_cases hp : p a = true
      · simp [hp, this]
      · simp [hp, this]

theorem keptNodes_length {e : Engine L} (hq : EqLaws L) (hI : Inv e) (hm : Mirrors e) (k : Name)
    {comps : List L.Comp} (hd : Distinct L.compEq comps) :
    (keptNodes e k comps).length = (comps.filter (inOld e.ast k)).length := by
  obtain ⟨h1, h2, h3⟩ := oldChain_facts hm k
  have hlen : (oldChain e.ast k).length = ((lookup e.index k).getD []).length ∨ oldChain e.ast k = [] := by
    by_cases hk : k ∈ oldKeys e
    · obtain ⟨c, hc, hl⟩ := h2 hk
      left
      rw [hc]
      exact hl.symm
    · exact .inr (h1 hk)
  have hcount := kept_count L.compEq hq.symm hq.trans h3 hd
  unfold keptNodes
  rcases hlen with hlen | hlen
  · rw [List.length_map, zip_filter_length _ _ _ hlen]
    exact hcount
  · have hz : comps.filter (inOld e.ast k) = [] := by
      apply List.filter_eq_nil_iff.mpr
      intro a _
      simp [inOld, hlen]
    rw [hlen, hz]
    simp

/-- Chain by chain: what the removals leave. -/
theorem staged_t2 {e : Engine L} {new : Ast L.Comp} {diff : Diff L} {t1 t2 : Table}
    {gone1 gone2 : List Nat} (hI : Inv e) (hm : Mirrors e) (hn : (keys new).Nodup)
    (hc : NoClash e new)
    (hd : diffAll (L.make e.samples e.sr e.bpm e.seed) e.ast new = .ok diff)
    (h1 : dropChains new (oldKeys e) e.index = .ok (t1, gone1))
    (h2 : dropNodes diff.removes.reverse t1 = .ok (t2, gone2)) (k : Name) :
    (k ∉ keys new → lookup t2 k = if k ∈ oldKeys e then none else lookup e.index k) ∧
    ∀ comps, (k, comps) ∈ new →
      (k ∈ oldKeys e → lookup t2 k = some (keptNodes e k comps)) ∧
      (k ∉ oldKeys e → lookup t2 k = none ∧ keptNodes e k comps = []) := by
  obtain ⟨_, _, b3⟩ := dropChains_spec hI.keysNodup h1
  have hl := dropNodes_lookup h2 k
  obtain ⟨p1, p2⟩ := diffAll_perKey hn hd k
  obtain ⟨o1, o2, o3⟩ := oldChain_facts hm k
  refine ⟨?_, ?_⟩
  · intro hk
    rw [b3] at hl
    by_cases hok : k ∈ oldKeys e
    · simpa [hok, hk] using hl
    · simp only [hok, false_and, if_false] at hl ⊢
      cases hx : lookup e.index k with
      | none => rw [hx] at hl; exact hl
      | some c =>
        rw [hx] at hl
        obtain ⟨c', e1, e2⟩ := hl
        rw [posOf_reverse, (p1 hk).1] at e1
        simp only [List.reverse_nil, eraseSeq, Option.some.injEq] at e1
        rw [e2, e1]
  · intro comps hmem
    have hk : k ∈ keys new := mem_keys.mpr ⟨_, hmem⟩
    rw [b3] at hl
    simp only [hk, not_true_eq_false, and_false, if_false] at hl
    refine ⟨?_, ?_⟩
    · intro hok
      obtain ⟨c, hx, hlen⟩ := o2 hok
      rw [hx] at hl
      obtain ⟨c', e1, e2⟩ := hl
      rw [posOf_reverse, (p2 comps hmem).1, eraseSeq_filter (fun o => !inNew L comps o) _ _ hlen.symm] at e1
      rw [e2, ← e1]
      simp only [keptNodes, hx, Option.getD_some, Bool.not_not]
    · intro hok
      have hx : lookup e.index k = none := by
        rw [lookup_none]
        intro hki
        exact hok (hc k hk hki)
      rw [hx] at hl
      exact ⟨hl, by simp [keptNodes, o1 hok]⟩

/-- Chain by chain: the insertions succeed and give a list aligned with the new chain. -/
theorem staged_ins {e : Engine L} {new : Ast L.Comp} {diff : Diff L} {t1 t2 : Table}
    {gone1 gone2 : List Nat} (hq : EqLaws L) (hI : Inv e) (hm : Mirrors e) (hp : ProgWf new)
    (hdup : DupFree L new) (hc : NoClash e new)
    (hd : diffAll (L.make e.samples e.sr e.bpm e.seed) e.ast new = .ok diff)
    (h1 : dropChains new (oldKeys e) e.index = .ok (t1, gone1))
    (h2 : dropNodes diff.removes.reverse t1 = .ok (t2, gone2)) (k : Name) (F : List Nat)
    (hF : diff.adds.length = F.length) :
    (k ∉ keys new → insSeq (lookup t2 k) (insOf k diff.adds F) =
      some (if k ∈ oldKeys e then none else lookup e.index k)) ∧
    ∀ comps, (k, comps) ∈ new → ∃ r,
      insSeq (lookup t2 k) (insOf k diff.adds F) = some (some r) ∧ r.length = comps.length ∧
      ((comps.zip r).filter (fun x => inOld e.ast k x.1)).map (·.2) = keptNodes e k comps ∧
      ((comps.zip r).filter (fun x => !inOld e.ast k x.1)).map (·.2) = crOf k diff.adds F := by
  obtain ⟨s1, s2⟩ := staged_t2 hI hm hp.names hc hd h1 h2 k
  obtain ⟨p1, p2⟩ := diffAll_perKey hp.names hd k
  obtain ⟨q1, q2⟩ := insOf_eq k diff.adds F hF
  refine ⟨?_, ?_⟩
  · intro hk
    rw [s1 hk, q1, (p1 hk).2]
    simp [insSeq]
  · intro comps hmem
    obtain ⟨_, hf⟩ := p2 comps hmem
    have hpos : (diff.adds.filter (fun a => decide (a.1 = k))).map (·.2.1) =
        ((enumFrom 0 comps).filter (fun p => !inOld e.ast k p.2)).map (·.1) := by
      generalize diff.adds.filter (fun a => decide (a.1 = k)) = as at hf
      generalize (enumFrom 0 comps).filter _ = ps at hf
      induction hf with
      | nil => rfl
      | cons hab _ ih => simp [hab.1, ih]
    have hlenF : (crOf k diff.adds F).length = (comps.filter (fun c => !inOld e.ast k c)).length := by
      rw [q2, ← hf.length_eq]
      have : ∀ n (l : List L.Comp), ((enumFrom n l).filter (fun p => !inOld e.ast k p.2)).length =
          (l.filter (fun c => !inOld e.ast k c)).length := by
        intro n l
        induction l generalizing n with
        | nil => rfl
        | cons a l ih =>
          simp only [enumFrom, List.filter_cons]
          by_cases h : (!inOld e.ast k a) = true
          · rw [if_pos h, if_pos h]; simp [ih]
          · rw [if_neg h, if_neg h]; exact ih (n + 1)
      exact this 0 comps
    obtain ⟨r, r1, r2, r3, r4⟩ := insSeq_spec (inOld e.ast k) comps (keptNodes e k comps)
      (crOf k diff.adds F) (keptNodes_length hq hI hm k (hdup k comps hmem)) hlenF
    refine ⟨r, ?_, r2, r3, r4⟩
    rw [q1, hpos]
    by_cases hok : k ∈ oldKeys e
    · rw [(s2 comps hmem).1 hok]
      exact r1
    · obtain ⟨u1, u2⟩ := (s2 comps hmem).2 hok
      rw [u1]
      rw [u2] at r1
      have hoc := (oldChain_facts hm k).1 hok
      have hall : (enumFrom 0 comps).filter (fun p => !inOld e.ast k p.2) = enumFrom 0 comps := by
        apply List.filter_eq_self.mpr
        intro a _
        simp [inOld, hoc]
      have hallc : comps.filter (fun c => !inOld e.ast k c) = comps := by
        apply List.filter_eq_self.mpr
        intro a _
        simp [inOld, hoc]
      rw [hallc] at hlenF
      rw [hall] at r1 ⊢
      cases comps with
      | nil => exact absurd rfl (hp.nonempty k _ hmem)
      | cons c comps =>
        cases hcr : crOf k diff.adds F with
        | nil => rw [hcr] at hlenF; simp at hlenF
        | cons f F' =>
          rw [hcr] at r1
          simp only [enumFrom, List.map_cons, List.zip_cons_cons] at r1 ⊢
          rw [insSeq_none_zero]
          exact r1

/-- The removal of chains never fails. -/
theorem dropChains_total {new : Ast L.Comp} {ks : List Name} : ∀ {t : Table}, ks.Nodup →
    (∀ k, k ∈ ks → k ∈ keys t) → ∃ r, dropChains new ks t = .ok r := by
  induction ks with
  | nil => intro t _ _; exact ⟨_, rfl⟩
  | cons k ks ih =>
    intro t hn h
    rw [List.nodup_cons] at hn
    simp only [dropChains]
    split
    · exact ih hn.2 (fun k hk => h k (List.mem_cons_of_mem _ hk))
    · have hk := h k (by simp)
      rw [← lookup_isSome] at hk
      cases hl : lookup t k with
      | none => rw [hl] at hk; cases hk
      | some c =>
        have : ∃ r, dropChains new ks (erase t k) = .ok r := by
          apply ih hn.2
          intro k' hk'
          rw [← lookup_isSome, lookup_erase]
          have hne : k ≠ k' := by rintro rfl; exact hn.1 hk'
          simp only [hne, if_false, lookup_isSome]
          exact h k' (List.mem_cons_of_mem _ hk')
        obtain ⟨r, hr⟩ := this
        simp only
        rw [hr]
        exact ⟨_, rfl⟩

/-- Staging never panics. -/
theorem staged_total {e : Engine L} {new : Ast L.Comp} {diff : Diff L} (hq : EqLaws L) (hI : Inv e)
    (hm : Mirrors e) (hp : ProgWf new) (hdup : DupFree L new) (hc : NoClash e new)
    (hd : diffAll (L.make e.samples e.sr e.bpm e.seed) e.ast new = .ok diff) :
    ∃ t1 gone1 t2 gone2 g3 t3 created, Staged e new diff t1 gone1 t2 gone2 g3 t3 created := by
  have hon : (oldKeys e).Nodup := by
    unfold oldKeys
    cases ha : e.ast with
    | none => exact .nil
    | some a => exact (hI.ast a ha).names
  obtain ⟨⟨t1, gone1⟩, h1⟩ := dropChains_total (new := new) (t := e.index) hon (by
    intro k hk
    obtain ⟨a, ha, hka⟩ := mem_oldKeys.mp hk
    exact hI.astKeys a ha k hka)
  have h2 : ∃ r, dropNodes diff.removes.reverse t1 = .ok r := by
    apply dropNodes_total
    intro k c hl
    obtain ⟨p1, p2⟩ := diffAll_perKey hp.names hd k
    rw [posOf_reverse]
    by_cases hk : k ∈ keys new
    · obtain ⟨comps, hmem⟩ := mem_keys.mp hk
      rw [(p2 comps hmem).1]
      obtain ⟨_, _, b3⟩ := dropChains_spec hI.keysNodup h1
      rw [b3] at hl
      simp only [hk, not_true_eq_false, and_false, if_false] at hl
      obtain ⟨o1, o2, _⟩ := oldChain_facts hm k
      by_cases hok : k ∈ oldKeys e
      · obtain ⟨c', hc', hlen⟩ := o2 hok
        rw [hl] at hc'
        cases hc'
        exact ⟨_, eraseSeq_filter (fun o => !inNew L comps o) _ _ hlen.symm⟩
      · rw [o1 hok]
        exact ⟨c, rfl⟩
    · rw [(p1 hk).1]
      exact ⟨c, rfl⟩
  obtain ⟨⟨t2, gone2⟩, h2⟩ := h2
  have h3 : ∃ r, insertNodes diff.adds e.graph t2 = .ok r := by
    apply insertNodes_total
    intro k F hF
    obtain ⟨s1, s2⟩ := staged_ins hq hI hm hp hdup hc hd h1 h2 k F hF.symm
    by_cases hk : k ∈ keys new
    · obtain ⟨comps, hmem⟩ := mem_keys.mp hk
      obtain ⟨r, hr, _⟩ := s2 comps hmem
      exact ⟨_, hr⟩
    · exact ⟨_, s1 hk⟩
  obtain ⟨⟨g3, t3, created⟩, h3⟩ := h3
  exact ⟨t1, gone1, t2, gone2, g3, t3, created, hd, h1, h2, h3⟩

/-- The chain table after staging. -/
theorem staged_table {e : Engine L} {new : Ast L.Comp} {diff : Diff L} {t1 t2 t3 : Table}
    {gone1 gone2 created : List Nat} {g3 : Graph L.Data} (hq : EqLaws L) (hI : Inv e)
    (hm : Mirrors e) (hp : ProgWf new) (hdup : DupFree L new) (hc : NoClash e new)
    (hs : Staged e new diff t1 gone1 t2 gone2 g3 t3 created) (k : Name) :
    (k ∉ keys new → lookup t3 k = if k ∈ oldKeys e then none else lookup e.index k) ∧
    ∀ comps, (k, comps) ∈ new → ∃ r, lookup t3 k = some r ∧ r.length = comps.length ∧
      ((comps.zip r).filter (fun x => inOld e.ast k x.1)).map (·.2) = keptNodes e k comps ∧
      List.Forall₂ (fun c i => i ∈ created ∧ ∃ nd refs,
          L.make e.samples e.sr e.bpm e.seed c = .ok (nd, refs) ∧ g3.node? i = some nd)
        (comps.filter (fun c => !inOld e.ast k c))
        (((comps.zip r).filter (fun x => !inOld e.ast k x.1)).map (·.2)) := by
  have f := staged_facts hI hp hs
  have hlen : diff.adds.length = created.length := f.made.length_eq
  obtain ⟨s1, s2⟩ := staged_ins hq hI hm hp hdup hc hs.diffEq hs.chains hs.nodes k created hlen
  have hl := insertNodes_lookup hs.ins k
  refine ⟨?_, ?_⟩
  · intro hk
    rw [s1 hk] at hl
    exact (Option.some.inj hl).symm
  · intro comps hmem
    obtain ⟨r, r1, r2, r3, r4⟩ := s2 comps hmem
    rw [r1] at hl
    refine ⟨r, (Option.some.inj hl).symm, r2, r3, ?_⟩
    rw [r4]
    have hmade := crOf_forall₂ k f.made
    obtain ⟨_, hf⟩ := (diffAll_perKey hp.names hs.diffEq k).2 comps hmem
    have hcm : ∀ i, i ∈ crOf k diff.adds created → i ∈ created := fun i hi => crOf_mem hi
    generalize diff.adds.filter (fun a => decide (a.1 = k)) = as at hf hmade
    generalize crOf k diff.adds created = F at hmade hcm
    have hfc : List.Forall₂ (fun (c : L.Comp) (a : Name × Nat × L.Data) =>
        ∃ refs, L.make e.samples e.sr e.bpm e.seed c = .ok (a.2.2, refs))
        (comps.filter (fun c => !inOld e.ast k c)) as := by
      have : ∀ n (l : List L.Comp), ((enumFrom n l).filter (fun p => !inOld e.ast k p.2)).map (·.2) =
          l.filter (fun c => !inOld e.ast k c) := by
        intro n l
        induction l generalizing n with
        | nil => rfl
        | cons a l ih =>
          simp only [enumFrom, List.filter_cons]
          by_cases h : (!inOld e.ast k a) = true
          · rw [if_pos h, if_pos h]; simp [ih]
          · rw [if_neg h, if_neg h]; exact ih (n + 1)
      rw [← this 0 comps, List.forall₂_map_left_iff]
      exact hf.imp (fun _ _ h => h.2)
    generalize comps.filter (fun c => !inOld e.ast k c) = cs at hfc
    clear hf
    induction hmade generalizing cs with
    | nil => cases hfc; exact .nil
    | @cons a i as F hai _ ih =>
      cases hfc with
      | cons hca hrest =>
        obtain ⟨refs, hmk⟩ := hca
        exact .cons ⟨hcm i (by simp), a.2.2, refs, hmk, hai⟩
          (ih (fun j hj => hcm j (List.mem_cons_of_mem _ hj)) _ hrest)

end Verif
