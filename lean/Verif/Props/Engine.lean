import Verif.Lemmas.History
import Verif.Spec.Toy

/-! # C01, C04, C07, C08: updates of the live program

All theorems hold for every `Lang`, i.e. every node implementation, every parser delivering
well-formed programs, and every hash iteration order. -/

namespace Verif.Props
open Verif Spec

variable {L : Lang}

/-! ### C01 -/

/-- Renders a sequence of blocks, collecting the outputs. -/
def render (e : Engine L) : List (HashOrder × List (List L.Num)) →
    Except Panic (List (List (List L.Num)))
  | [] => .ok []
  | (ho, buf) :: rest =>
    match e.nextBlock ho buf with
    | .error p => .error p
    | .ok (e', out) =>
      match render e' rest with
      | .error p => .error p
      | .ok outs => .ok (out :: outs)

/-- **C01.** In every reachable state, an update that returns an error leaves all settings, the
program in force, the chain table, all connections and every node with its state and buffers as
they were. -/
theorem c01_failed_update_changes_nothing (hL : ParserWf L) {e e' : Engine L} (hr : Reachable L e)
    (τ : TableOrder) (code : Name) (err : EngineError)
    (h : e.updateWithCode τ code = .ok (e', some err)) : SameEngine e e' := by
  unfold Engine.updateWithCode at h
  rw [except_bind_ok] at h
  obtain ⟨p, hp, h⟩ := h
  split at h
  · cases h; exact .refl e
  · exact (sameEngine_of_rejected (inv_reachable hL hr) (hL code _ hp) h).1

theorem render_same {e e' : Engine L} (hI : Inv e) (hs : SameEngine e e')
    (bs : List (HashOrder × List (List L.Num))) :
    ∀ outs, render e bs = .ok outs → render e' bs = .ok outs := by
  induction bs generalizing e e' with
  | nil => intro outs h; exact h
  | cons b bs ih =>
    intro outs h
    obtain ⟨ho, buf⟩ := b
    simp only [render] at h ⊢
    split at h
    · cases h
    · rename_i e1 out hb
      obtain ⟨e1', h1, h2⟩ := same_nextBlock hs hI.edges ((hI.live _).mpr (.inl rfl)) hb
      rw [h1]
      simp only
      split at h
      · cases h
      · rename_i outs' hr
        cases h
        rw [ih (inv_nextBlock hI hb) h2 outs' hr]

theorem _root_.Verif.Spec.SameEngine.symm {e e' : Engine L} (h : SameEngine e e') :
    SameEngine e' e :=
  ⟨h.N.symm, h.dest.symm, h.input.symm, h.ast.symm, h.index.symm, h.samples.symm, h.bpm.symm,
    h.sr.symm, h.trackAmp.symm, h.seed.symm, h.clock.symm, h.livecoding.symm, h.edges.symm,
    fun i => (h.nodes i).symm⟩

/-- **C01** (music continues). After a failed update every sequence of blocks, with any external
input, renders exactly what it would have rendered without the call. -/
theorem c01_music_continues (hL : ParserWf L) {e e' : Engine L} (hr : Reachable L e)
    (τ : TableOrder) (code : Name) (err : EngineError)
    (h : e.updateWithCode τ code = .ok (e', some err))
    (bs : List (HashOrder × List (List L.Num))) (outs : List (List (List L.Num))) :
    render e' bs = .ok outs ↔ render e bs = .ok outs := by
  have hs := c01_failed_update_changes_nothing hL hr τ code err h
  exact ⟨render_same (inv_update hL (inv_reachable hL hr) h) hs.symm bs outs,
    render_same (inv_reachable hL hr) hs bs outs⟩

/-- The hypotheses are met: a running engine rejects a program with an unresolved reference, one
with an unknown sample, and a syntax error. -/
example : ParserWf Toy.lang ∧ Reachable Toy.lang Toy.e1 ∧
    (∃ e', Toy.e1.updateWithCode .ident Toy.t3 = .ok (e', some (.nonExistReference Toy.nameA))) ∧
    (∃ e', Toy.e1.updateWithCode .ident Toy.t4 = .ok (e', some (.nonExistSample ['x']))) ∧
    (∃ e', Toy.e1.updateWithCode .ident Toy.t0 = .ok (e', some .parsing)) :=
  ⟨Toy.parserWf, Toy.reach1, ⟨_, rfl⟩, ⟨_, rfl⟩, ⟨_, rfl⟩⟩

/-! ### C04 -/

/-- **C04.** After every history of calls that does not panic, the live nodes are exactly the
destination, the context input and the nodes listed in the chain table, and these are pairwise
distinct. -/
theorem c04_no_leak_no_dangling (hL : ParserWf L) {e : Engine L} (hr : Reachable L e) :
    (∀ i, (∃ d, e.graph.node? i = some d) ↔
      i = e.dest ∨ i = e.input ∨ ∃ k c, (k, c) ∈ e.index ∧ i ∈ c) ∧
    (e.dest :: e.input :: e.index.flatMap (·.2)).Nodup ∧
    (∀ a b, (a, b) ∈ e.graph.edges →
      (∃ d, e.graph.node? a = some d) ∧ ∃ d, e.graph.node? b = some d) := by
  have hI := inv_reachable hL hr
  refine ⟨?_, hI.flatNodup, fun a b h => hI.edges (a, b) h⟩
  intro i
  rw [← mem_flat]
  exact hI.live i

/-- A reachable engine with six live nodes. -/
example : Reachable Toy.lang Toy.e1 ∧ Toy.e1.graph.live = [0, 1, 2, 3, 4, 5] ∧
    Toy.e1.index = [(inputName, [2]), (Toy.nameO, [3, 4]), (Toy.nameA, [5])] :=
  ⟨Toy.reach1, by decide, by decide⟩

/-! ### C08 -/

/-- **C08.** After a successful update the nodes connected to the destination are exactly the last
nodes of the chains whose name has no tilde. -/
theorem c08_audible_chains (hL : ParserWf L) {e e' : Engine L} (hr : Reachable L e)
    (τ : TableOrder) (code : Name) (h : e.updateWithCode τ code = .ok (e', none)) (a : Nat) :
    (a, e'.dest) ∈ e'.graph.edges ↔
      ∃ k c, (k, c) ∈ e'.index ∧ '~' ∉ k ∧ c.getLast? = some a := by
  have hI := inv_reachable hL hr
  have hI' := inv_update hL hI h
  unfold Engine.updateWithCode at h
  rw [except_bind_ok] at h
  obtain ⟨p, hp, h⟩ := h
  split at h
  · cases h
  · obtain ⟨diff, t1, gone1, t2, gone2, g3, cr, g5, ha⟩ := accepted hI (hL code _ hp) h
    have hadd := ha.adds
    have hdest : e'.dest = e.dest := by rw [ha.eq]
    have hnd := hI'.flatNodup
    simp only [List.nodup_cons, List.mem_cons, not_or] at hnd
    rw [hadd.edges]
    have hord : ∀ k c, (k, c) ∈ τ.ord e'.index ↔ (k, c) ∈ e'.index :=
      fun k c => (τ.perm _).mem_iff
    constructor
    · rintro (h1 | ⟨refs, name, pos, chain, _, h2, h3, _⟩ | ⟨k, c, hm, h2 | ⟨h2, h3, _⟩⟩)
      · simp [Graph.clearEdges] at h1
      · exfalso
        have := lookup_mem h2
        rw [hord] at this
        exact hnd.1.2 (mem_flat.mpr ⟨_, _, this, List.mem_of_getElem? h3⟩)
      · exfalso
        rw [hord] at hm
        obtain ⟨pre, post, rfl⟩ := h2
        exact hnd.1.2 (mem_flat.mpr ⟨_, _, hm, by simp⟩)
      · exact ⟨k, c, (hord k c).mp hm, hasTilde_iff.mp h2, h3⟩
    · rintro ⟨k, c, h1, h2, h3⟩
      exact .inr (.inr ⟨k, c, (hord k c).mpr h1, .inr ⟨hasTilde_iff.mpr h2, h3, hdest⟩⟩)

/-- The reference chain `~a` (node 5) is not connected to the destination, `o` (last node 4) is. -/
example : (4, 0) ∈ Toy.e1.graph.edges ∧ (5, 0) ∉ Toy.e1.graph.edges ∧
    Toy.e0.updateWithCode .ident Toy.t1 = .ok (Toy.e1, none) ∧ Toy.e1.dest = 0 :=
  ⟨by decide, by decide, Toy.e1_eq, rfl⟩

/-! ### C07 -/

/-- What `makenode` reports as references agrees with `all_references` as a set, equal components
have the same references, and references have one of the two forms of the grammar. -/
structure RefLaws (L : Lang) : Prop where
  made : ∀ smp sr bpm seed c nd rs, L.make smp sr bpm seed c = .ok (nd, rs) →
    ∀ r, r ∈ rs ↔ r ∈ L.refs c
  eq : ∀ a b, L.compEq a b = true → ∀ r, r ∈ L.refs a ↔ r ∈ L.refs b

/-- The references occurring in a program. -/
def progRefs (L : Lang) (p : Ast L.Comp) (r : Name) : Prop :=
  ∃ k comps c, (k, comps) ∈ p ∧ c ∈ comps ∧ r ∈ L.refs c

/-- The chain names available to references after the update: those of the new program and the
built-in ones, i.e. those in the table that do not come from the old program. -/
def available (e : Engine L) (new : Ast L.Comp) : List Name :=
  new.map Prod.fst ++ (e.index.map Prod.fst).filter (fun k =>
    !decide (k ∈ (e.ast.getD []).map Prod.fst))

theorem refCheck_spec {t : Table} {new : Ast L.Comp} {rs : List Name}
    {names : List Name} (hn : ∀ k, k ∈ names ↔ k ∈ keys new ∨ k ∈ keys t)
    (hsub : ∀ k, k ∈ keys new → k ∈ keys t) (hw : ∀ r, r ∈ rs → RefWf r) :
    (refCheck t new rs = none ↔ ∀ r, r ∈ rs → Resolves names r) ∧
    ∀ x, refCheck t new rs = some x → x ∈ rs ∧ ¬ Resolves names x := by
  have hnt : ∀ k, k ∈ names ↔ k ∈ keys t := fun k =>
    (hn k).trans ⟨fun h => h.elim (hsub k) id, .inr⟩
  have hok : ∀ r, RefWf r →
      ((if hasDots r then t.any (fun e => (stripDots r).isPrefixOf e.1)
        else (lookup new r).isSome || (lookup t r).isSome) = true ↔ Resolves names r) := by
    intro r hr
    rcases hr with hr | ⟨base, hb, rfl⟩
    · simp only [hasDots_of_noDot hr, Bool.false_eq_true, if_false, Bool.or_eq_true, lookup_isSome]
      rw [← hn]
      constructor
      · exact .named hr
      · intro h
        cases h with
        | named _ h => exact h
        | pattern => simp at hr
    · simp only [hasDots_pattern, if_true, stripDots_pattern hb, List.any_eq_true]
      constructor
      · rintro ⟨⟨k, c⟩, hm, hp⟩
        exact .pattern hb ((hnt k).mpr (mem_keys.mpr ⟨c, hm⟩)) (List.isPrefixOf_iff_prefix.mp hp)
      · intro h
        generalize hq : base ++ ['.', '.'] = q at h
        cases h with
        | named hnd => subst hq; simp at hnd
        | @pattern base' k hb' hm hp =>
          have : base = base' := List.append_inj_left' hq rfl
          subst this
          obtain ⟨c, hc⟩ := mem_keys.mp ((hnt k).mp hm)
          exact ⟨(k, c), hc, List.isPrefixOf_iff_prefix.mpr hp⟩
  induction rs with
  | nil => simp [refCheck]
  | cons r rs ih =>
    obtain ⟨ih1, ih2⟩ := ih (fun r hr => hw r (List.mem_cons_of_mem _ hr))
    have hr := hok r (hw r (by simp))
    simp only [refCheck]
    by_cases hc : Resolves names r
    · rw [if_pos (hr.mpr hc)]
      refine ⟨?_, ?_⟩
      · rw [ih1]
        simp [hc]
      · intro x hx
        obtain ⟨h1, h2⟩ := ih2 x hx
        exact ⟨List.mem_cons_of_mem _ h1, h2⟩
    · rw [if_neg (fun h => hc (hr.mp h))]
      refine ⟨?_, ?_⟩
      · simp [hc]
      · intro x hx
        cases hx
        exact ⟨by simp, hc⟩

theorem mem_enumFrom {β : Type} {n i : Nat} {l : List β} {b : β} :
    (i, b) ∈ enumFrom n l ↔ n ≤ i ∧ l[i - n]? = some b := by
  induction l generalizing n with
  | nil => simp [enumFrom]
  | cons a l ih =>
    simp only [enumFrom, List.mem_cons, Prod.mk.injEq, ih]
    constructor
    · rintro (⟨rfl, rfl⟩ | ⟨h1, h2⟩)
      · simp
      · refine ⟨by omega, ?_⟩
        rw [show i - n = (i - (n + 1)) + 1 by omega]
        simpa using h2
    · rintro ⟨h1, h2⟩
      by_cases h : i = n
      · subst h
        simp at h2
        exact .inl ⟨rfl, h2.symm⟩
      · right
        refine ⟨by omega, ?_⟩
        rw [show i - n = (i - (n + 1)) + 1 by omega] at h2
        simpa using h2

theorem findEq_some {L : Lang} {o : L.Comp} {new : List L.Comp} {i : Nat} {c : L.Comp}
    (h : findEq L.compEq o new = some (i, c)) : new[i]? = some c ∧ L.compEq o c = true := by
  unfold findEq at h
  have h1 := List.find?_some h
  have h2 := List.mem_of_find?_eq_some h
  rw [mem_enumFrom] at h2
  exact ⟨by simpa using h2.2, h1⟩

theorem findEq_none {L : Lang} {o : L.Comp} {new : List L.Comp}
    (h : findEq L.compEq o new = none) : ∀ c, c ∈ new → L.compEq o c = false := by
  intro c hc
  unfold findEq at h
  rw [List.find?_eq_none] at h
  obtain ⟨i, hi, rfl⟩ := List.mem_iff_getElem.mp hc
  have := h (i, new[i]) (mem_enumFrom.mpr ⟨by omega, by simp [hi]⟩)
  simpa using this

/-- The references collected while diffing are exactly those of the new program. -/
theorem diff_refs {L : Lang} (hq : EqLaws L) (hl : RefLaws L) {smp : List (Name × L.Smp)} {sr : Nat}
    {bpm : L.Num} {seed : Nat} {old : Option (Ast L.Comp)} {new : Ast L.Comp} {d : Diff L}
    (h : diffAll (L.make smp sr bpm seed) old new = .ok d) (r : Name) :
    r ∈ d.refpairs.flatMap (·.1) ↔ progRefs L new r := by
  obtain ⟨h1, h2, _⟩ := diffAll_mem h
  rw [List.mem_flatMap]
  constructor
  · rintro ⟨rp, hm, hr⟩
    obtain ⟨k, c, dk, hk, hd, hrp⟩ := h2 rp hm
    unfold diffChain at hd
    have key : ∀ {l : List (Nat × L.Comp)} {d' : Diff L}, (∀ i x, (i, x) ∈ l → x ∈ c) →
        addNodes (L.make smp sr bpm seed) k l = .ok d' → rp ∈ d'.refpairs → progRefs L new r := by
      intro l d' hsub hadd hm'
      obtain ⟨i, x, nd, refs, hx, hmk, _, rfl⟩ := ((addNodes_spec hadd).2.2 rp).mp hm'
      exact ⟨k, c, x, hk, hsub i x hx, (hl.made _ _ _ _ _ _ _ hmk r).mp hr⟩
    have hen : ∀ i x, (i, x) ∈ enumFrom 0 c → x ∈ c := by
      intro i x hx
      exact List.mem_of_getElem? (mem_enumFrom.mp hx).2
    split at hd
    · exact key hen hd hrp
    · rename_i oldC _
      rw [except_bind_ok] at hd
      obtain ⟨d', hd', hd⟩ := hd
      simp only [Except.ok.injEq] at hd
      subst hd
      rcases List.mem_append.mp hrp with hrp | hrp
      · obtain ⟨j, o, i, c', _, hf, _, rfl⟩ := (diffOld_spec.2 rp).mp hrp
        exact ⟨k, c, c', hk, List.mem_of_getElem? (findEq_some hf).1, hr⟩
      · exact key (fun i x hx => hen i x (List.mem_filter.mp hx).1) hd' hrp
  · rintro ⟨k, comps, c, hk, hc, hr⟩
    obtain ⟨dk, hd, _, hrp, _⟩ := h1 k comps hk
    obtain ⟨i, hi, hci⟩ := List.mem_iff_getElem.mp hc
    have hmem : (i, c) ∈ enumFrom 0 comps := mem_enumFrom.mpr ⟨by omega, by simp [hi, hci]⟩
    have key : ∀ {l : List (Nat × L.Comp)} {d' : Diff L}, (i, c) ∈ l →
        addNodes (L.make smp sr bpm seed) k l = .ok d' → ∃ rp, rp ∈ d'.refpairs ∧ r ∈ rp.1 := by
      intro l d' hic hadd
      obtain ⟨_, hf, hs⟩ := addNodes_spec hadd
      have : ∃ nd refs, L.make smp sr bpm seed c = .ok (nd, refs) := by
        clear hs hadd
        generalize d'.adds = as at hf
        induction hf with
        | nil => cases hic
        | cons hab _ ih =>
          rcases List.mem_cons.mp hic with hic | hic
          · rw [← hic] at hab
            obtain ⟨_, _, refs, hm⟩ := hab
            exact ⟨_, refs, hm⟩
          · exact ih hic
      obtain ⟨nd, refs, hmk⟩ := this
      have hrr : r ∈ refs := (hl.made _ _ _ _ _ _ _ hmk r).mpr hr
      exact ⟨(refs, k, i), (hs _).mpr ⟨i, c, nd, refs, hic, hmk, List.ne_nil_of_mem hrr, rfl⟩, hrr⟩
    unfold diffChain at hd
    split at hd
    · obtain ⟨rp, h3, h4⟩ := key hmem hd
      exact ⟨rp, hrp rp h3, h4⟩
    · rename_i oldC _
      rw [except_bind_ok] at hd
      obtain ⟨d', hd', hd⟩ := hd
      simp only [Except.ok.injEq] at hd
      subst hd
      by_cases hany : oldC.any (fun o => L.compEq o c) = true
      · obtain ⟨o, ho, hoc⟩ := List.any_eq_true.mp hany
        cases hf : findEq L.compEq o comps with
        | none =>
          have := findEq_none hf c hc
          rw [hoc] at this
          cases this
        | some ic =>
          obtain ⟨i', c'⟩ := ic
          obtain ⟨hc', hoc'⟩ := findEq_some hf
          have hcc : L.compEq c' c = true := hq.trans _ _ _ (hq.symm _ _ hoc') hoc
          have hr' : r ∈ L.refs c' := (hl.eq _ _ hcc r).mpr hr
          obtain ⟨j, hj, hoj⟩ := List.mem_iff_getElem.mp ho
          refine ⟨(L.refs c', k, i'), hrp _ (List.mem_append_left _ ((diffOld_spec.2 _).mpr
            ⟨j, o, i', c', mem_enumFrom.mpr ⟨by omega, by simp [hj, hoj]⟩, hf,
              List.ne_nil_of_mem hr', rfl⟩)), hr'⟩
      · obtain ⟨rp, h3, h4⟩ := key (List.mem_filter.mpr ⟨hmem, by simpa using hany⟩) hd'
        exact ⟨rp, hrp rp (List.mem_append_right _ h3), h4⟩

theorem mem_available {e : Engine L} {new : Ast L.Comp} {diff t1 gone1 t2 gone2 g3 t3 cr}
    (f : StagedFacts e new diff t1 gone1 t2 gone2 g3 t3 cr) (k : Name) :
    k ∈ available e new ↔ k ∈ keys new ∨ k ∈ keys t3 := by
  have hold : k ∈ (e.ast.getD []).map Prod.fst ↔ k ∈ oldKeys e := by
    unfold oldKeys
    cases e.ast <;> simp
  unfold available
  rw [List.mem_append, List.mem_filter]
  simp only [Bool.not_eq_true', decide_eq_false_iff_not, hold]
  rw [f.memT3]
  constructor
  · rintro (h | ⟨h1, h2⟩)
    · exact .inl h
    · exact .inr (.inl ⟨h1, .inl h2⟩)
  · rintro (h | ⟨h1, h2⟩ | ⟨p, hp⟩)
    · exact .inl h
    · rcases h2 with h2 | h2
      · exact .inr ⟨h1, h2⟩
      · exact .inl h2
    · exact .inl (f.addNames k p hp)

/-- **C07.** For a program that parses and all of whose nodes can be built (in particular all its
samples exist), an update that does not panic succeeds if and only if every reference occurring in
the program resolves among the chains of the new program and the built-in chains; otherwise it
returns `NonExistReference` with the name of an unresolved reference of the program. -/
theorem c07_rejects_exactly_unresolved (hL : ParserWf L) (hq : EqLaws L) (hl : RefLaws L)
    {e e' : Engine L} (hr : Reachable L e) (τ : TableOrder) (code : Name) (new : Ast L.Comp)
    (res : Option EngineError)
    (hparse : L.parse code = .ok (some new))
    (hrw : ∀ r, progRefs L new r → RefWf r)
    (hbuild : ∀ k comps c, (k, comps) ∈ new → c ∈ comps →
      ∃ x, L.make e.samples e.sr e.bpm e.seed c = .ok x)
    (h : e.updateWithCode τ code = .ok (e', res)) :
    (res = none ↔ ∀ r, progRefs L new r → Resolves (available e new) r) ∧
    (∀ x, res = some x → ∃ r, x = .nonExistReference r ∧ progRefs L new r ∧
      ¬ Resolves (available e new) r) := by
  have hI := inv_reachable hL hr
  have hp := hL code new hparse
  unfold Engine.updateWithCode at h
  rw [hparse] at h
  simp only [bind, Except.bind] at h
  -- no construction error
  have hdiff : ∀ x, diffAll (L.make e.samples e.sr e.bpm e.seed) e.ast new ≠ .error x := by
    have hadd : ∀ (k : Name) (l : List (Nat × L.Comp)),
        (∀ i c, (i, c) ∈ l → ∃ x, L.make e.samples e.sr e.bpm e.seed c = .ok x) →
        ∃ d, addNodes (L.make e.samples e.sr e.bpm e.seed) k l = .ok d := by
      intro k l
      induction l with
      | nil => intro _; exact ⟨_, rfl⟩
      | cons p l ih =>
        intro hmk
        obtain ⟨i, c⟩ := p
        obtain ⟨⟨nd, rs⟩, hx⟩ := hmk i c (by simp)
        obtain ⟨d, hd⟩ := ih (fun i c hm => hmk i c (List.mem_cons_of_mem _ hm))
        simp only [addNodes, hx, hd, bind, Except.bind]
        exact ⟨_, rfl⟩
    have hchain : ∀ k comps, (k, comps) ∈ new →
        ∃ d, diffChain (L.make e.samples e.sr e.bpm e.seed) e.ast k comps = .ok d := by
      intro k comps hm
      have hen : ∀ i c, (i, c) ∈ enumFrom 0 comps → ∃ x, L.make e.samples e.sr e.bpm e.seed c = .ok x :=
        fun i c hic => hbuild k comps c hm (List.mem_of_getElem? (mem_enumFrom.mp hic).2)
      unfold diffChain
      split
      · exact hadd k _ hen
      · obtain ⟨d, hd⟩ := hadd k _ (fun i c hic => hen i c (List.mem_filter.mp hic).1)
        rw [hd]
        exact ⟨_, rfl⟩
    intro x hx
    have : ∃ d, diffAll (L.make e.samples e.sr e.bpm e.seed) e.ast new = .ok d := by
      clear hx h hrw hbuild hparse hp
      induction new with
      | nil => exact ⟨_, rfl⟩
      | cons p new ih =>
        obtain ⟨k, comps⟩ := p
        obtain ⟨d, hd⟩ := hchain k comps (by simp)
        obtain ⟨d', hd'⟩ := ih (fun k comps hm => hchain k comps (List.mem_cons_of_mem _ hm))
        simp only [diffAll, hd, hd', bind, Except.bind]
        exact ⟨_, rfl⟩
    obtain ⟨d, hd⟩ := this
    rw [hd] at hx
    cases hx
  rcases updateAst_cases h with ⟨x, hx, _⟩ | ⟨diff, t1, gone1, t2, gone2, g3, t3, cr, hs, hcase⟩
  · exact absurd hx (hdiff _)
  · have f := staged_facts hI hp hs
    have hrefs := diff_refs hq hl hs.diffEq
    obtain ⟨s1, s2⟩ := refCheck_spec (rs := diff.refpairs.flatMap (·.1))
      (mem_available f) f.newT3 (fun r hr => hrw r ((hrefs r).mp hr))
    rcases hcase with ⟨y, hy, rfl, _⟩ | ⟨hn, ⟨g5, y, h5, _⟩ | ⟨g5, g6, _, _, rfl, _⟩⟩
    · obtain ⟨u1, u2⟩ := s2 y hy
      refine ⟨?_, ?_⟩
      · constructor
        · intro h; cases h
        · intro hall
          exact absurd (hall y ((hrefs y).mp u1)) u2
      · intro x hx
        cases hx
        exact ⟨y, rfl, (hrefs y).mp u1, u2⟩
    · obtain ⟨refs, name, pos, hm, hlk⟩ := connectPairs_err h5
      have hk := f.newT3 _ (f.refNames _ _ _ hm)
      rw [lookup_perm (τ.perm t3) f.keysT3, lookup_none] at hlk
      exact absurd hk hlk
    · refine ⟨?_, by simp⟩
      simp only [true_iff]
      intro r hr
      exact s1.mp hn r ((hrefs r).mpr hr)

theorem toy_eq {a b : Toy.lang.Comp} : Toy.lang.compEq a b = true ↔ a = b :=
  ⟨fun h => of_decide_eq_true (p := (a = b)) h, fun h => decide_eq_true (p := (a = b)) h⟩

theorem toy_refLaws : RefLaws Toy.lang := by
  refine ⟨?_, ?_⟩
  · intro smp sr bpm seed c nd rs h r
    simp only [Toy.lang] at h
    split at h
    · cases h
    · cases h
      exact Iff.rfl
  · intro a b h r
    have : a = b := toy_eq.mp h
    rw [this]

theorem toy_eqLaws : EqLaws Toy.lang :=
  ⟨fun _ _ h => toy_eq.mpr (toy_eq.mp h).symm,
   fun _ _ _ h h' => toy_eq.mpr ((toy_eq.mp h).trans (toy_eq.mp h'))⟩

/-- Deleting the chain `~a` while `o` still refers to it is rejected; with it, and with a pattern
reference, the update is accepted. -/
example : EqLaws Toy.lang ∧ RefLaws Toy.lang ∧ Reachable Toy.lang Toy.e1 ∧
    (∃ e', Toy.e1.updateWithCode .ident Toy.t3 = .ok (e', some (.nonExistReference Toy.nameA))) ∧
    (∃ e', Toy.e1.updateWithCode .rev Toy.t2 = .ok (e', none)) ∧
    RefWf Toy.nameA ∧ RefWf Toy.patA ∧ ¬ Resolves (available Toy.e1 Toy.prog3) Toy.nameA ∧
    Resolves (available Toy.e1 Toy.prog2) Toy.patA := by
  refine ⟨toy_eqLaws, toy_refLaws, Toy.reach1, ⟨_, rfl⟩, ⟨_, rfl⟩, .inl (by decide),
    .inr ⟨Toy.nameA, by decide, rfl⟩, ?_, ?_⟩
  · intro h
    generalize hq : Toy.nameA = q at h
    cases h with
    | named _ h =>
      subst hq
      revert h
      decide
    | @pattern base k h1 h2 h3 =>
      have : (2 : Nat) = (base ++ ['.', '.']).length := by rw [← hq]; rfl
      have hb : base = [] := by
        cases base with
        | nil => rfl
        | cons _ _ => simp at this
      subst hb
      simp [Toy.nameA] at hq
  · exact Resolves.pattern (base := Toy.nameA) (k := Toy.nameA) (by decide) (by decide)
      (List.prefix_refl _)

end Verif.Props
