import Verif.Lemmas.Total

/-! Which wiring messages a node receives during an update (helpers). -/

namespace Verif
open Spec

variable {L : Lang}

/-- Between `g` and `g'` node `j` received exactly the messages `ms`. -/
def GotAt (j : Nat) (g g' : Graph L.Data) (ms : List (Msg L.Num)) : Prop :=
  ∀ d, g.node? j = some d →
    ∃ n, g'.node? j = some ⟨n, d.buffers⟩ ∧ ms.foldlM L.msg d.node = .ok n

theorem GotAt.refl (j : Nat) (g : Graph L.Data) : GotAt j g g [] :=
  fun d h => ⟨d.node, h, rfl⟩

theorem GotAt.trans {j : Nat} {a b c : Graph L.Data} {m1 m2 : List (Msg L.Num)}
    (h1 : GotAt j a b m1) (h2 : GotAt j b c m2) : GotAt j a c (m1 ++ m2) := by
  intro d hd
  obtain ⟨n1, e1, f1⟩ := h1 d hd
  obtain ⟨n2, e2, f2⟩ := h2 _ e1
  refine ⟨n2, e2, ?_⟩
  rw [List.foldlM_append, f1]
  exact f2

theorem got_modify {g g' : Graph L.Data} {b : Nat} {m : Msg L.Num}
    (h : g.modify b (fun d => do
      let n ← L.msg d.node m
      .ok ⟨n, d.buffers⟩) = .ok g') (j : Nat) :
    GotAt j g g' (if b = j then [m] else []) := by
  obtain ⟨a, a', h1, h2, h3, h4, h5, h6⟩ := Graph.modify_ok h
  rw [except_bind_ok] at h2
  obtain ⟨n, hn, h2⟩ := h2
  cases h2
  intro d hd
  rw [h6]
  by_cases hb : b = j
  · subst hb
    rw [h1] at hd
    cases hd
    refine ⟨n, by simp, ?_⟩
    simp only [if_true, List.foldlM_cons, List.foldlM_nil, hn]
    rfl
  · exact ⟨d.node, by simp [hb, hd], by simp [hb]; rfl⟩

theorem got_edge {g g1 : Graph L.Data} {e : List (Nat × Nat)} {j : Nat} {ms : List (Msg L.Num)}
    (h : GotAt j { g with edges := e } g1 ms) : GotAt j g g1 ms := h

theorem got_connect {g g' : Graph L.Data} {a b : Nat} (h : connect g a b = .ok g') (j : Nat) :
    GotAt j g g' (if b = j then [.index a] else []) := by
  unfold connect at h
  rw [except_bind_ok] at h
  obtain ⟨g1, h1, h2⟩ := h
  obtain ⟨rfl, _, _⟩ := addEdge_ok h1
  exact got_edge (got_modify h2 j)

theorem got_connectWithOrder {g g' : Graph L.Data} {a b p : Nat}
    (h : connectWithOrder g a b p = .ok g') (j : Nat) :
    GotAt j g g' (if b = j then [.indexOrder p a] else []) := by
  unfold connectWithOrder at h
  rw [except_bind_ok] at h
  obtain ⟨g1, h1, h2⟩ := h
  obtain ⟨rfl, _, _⟩ := addEdge_ok h1
  exact got_edge (got_modify h2 j)

theorem got_connectAll {b : Nat} (j : Nat) {srcs : List Nat} : ∀ {g g' : Graph L.Data},
    connectAll g b srcs = .ok g' →
    GotAt j g g' (if b = j then srcs.map .index else []) := by
  induction srcs with
  | nil =>
    intro g g' h
    simp only [connectAll, Except.ok.injEq] at h
    subst h
    simpa using GotAt.refl j g
  | cons a as ih =>
    intro g g' h
    simp only [connectAll, except_bind_ok] at h
    obtain ⟨g1, h1, h2⟩ := h
    have := (got_connect h1 j).trans (ih h2)
    by_cases hb : b = j
    · simpa [hb] using this
    · simpa [hb] using this

theorem got_connectRefs {t : Table} {b : Nat} (j : Nat) {rs : List Name} :
    ∀ {g g' : Graph L.Data}, connectRefs t g b rs = .ok g' →
    ∃ lss, List.Forall₂ (fun r l => refSources t r = .ok l) rs lss ∧
      GotAt j g g' (if b = j then lss.flatten.map .index else []) := by
  induction rs with
  | nil =>
    intro g g' h
    simp only [connectRefs, Except.ok.injEq] at h
    subst h
    exact ⟨[], .nil, by simpa using GotAt.refl j g⟩
  | cons r rs ih =>
    intro g g' h
    simp only [connectRefs, except_bind_ok] at h
    obtain ⟨srcs, h0, g1, h1, h2⟩ := h
    obtain ⟨lss, h3, h4⟩ := ih h2
    refine ⟨srcs :: lss, .cons h0 h3, ?_⟩
    have := (got_connectAll j h1).trans h4
    by_cases hb : b = j
    · simpa [hb] using this
    · simpa [hb] using this

theorem got_resetOnce {done : List Nat} {b : Nat} {g g' : Graph L.Data}
    (h : resetOnce done b g = .ok g') (j : Nat) :
    GotAt j g g' (if b = j ∧ b ∉ done then [.resetOrder] else []) := by
  unfold resetOnce at h
  by_cases hb : b ∈ done
  · rw [if_pos hb] at h
    cases h
    simpa [hb] using GotAt.refl j g
  · rw [if_neg hb] at h
    simpa [hb] using got_modify h j

/-- The node a reference entry is about. -/
def pairNode (t : Table) (p : RefPair) : Option Nat :=
  (lookup t p.2.1).bind (fun c => c[p.2.2]?)

theorem got_connectPairs_cons {t : Table} {p : RefPair} {pairs : List RefPair} {done : List Nat}
    {g g' : Graph L.Data} (h : connectPairs t (p :: pairs) done g = .ok (g', none)) :
    ∃ b g1 g2, pairNode t p = some b ∧ resetOnce done b g = .ok g1 ∧
      connectRefs t g1 b p.1 = .ok g2 ∧
      connectPairs t pairs (if b ∈ done then done else b :: done) g2 = .ok (g', none) := by
  obtain ⟨refs, name, pos⟩ := p
  simp only [connectPairs] at h
  split at h
  · simp at h
  · rename_i chain hl
    split at h
    · cases h
    · rename_i b hb
      simp only [except_bind_ok] at h
      obtain ⟨g1, h1, g2, h2, h3⟩ := h
      exact ⟨b, g1, g2, by simp [pairNode, hl, hb], h1, h2, h3⟩

theorem got_connectPairs_none {t : Table} {j : Nat} {pairs : List RefPair}
    (hp : ∀ p ∈ pairs, pairNode t p ≠ some j) : ∀ {done : List Nat} {g g' : Graph L.Data},
    connectPairs t pairs done g = .ok (g', none) → GotAt j g g' [] := by
  induction pairs with
  | nil =>
    intro done g g' h
    simp only [connectPairs, Except.ok.injEq, Prod.mk.injEq] at h
    obtain ⟨rfl, _⟩ := h
    exact .refl j g
  | cons p pairs ih =>
    intro done g g' h
    obtain ⟨b, g1, g2, hb, h1, h2, h3⟩ := got_connectPairs_cons h
    have hbj : b ≠ j := by
      rintro rfl
      exact hp p (by simp) hb
    obtain ⟨lss, _, h4⟩ := got_connectRefs j h2
    have := ((got_resetOnce h1 j).trans h4).trans
      (ih (fun q hq => hp q (List.mem_cons_of_mem _ hq)) h3)
    simpa [hbj] using this

theorem got_connectPairs_one {t : Table} {j : Nat} {p : RefPair} {post : List RefPair}
    (hj : pairNode t p = some j) (hpost : ∀ q ∈ post, pairNode t q ≠ some j) :
    ∀ {pre : List RefPair}, (∀ q ∈ pre, pairNode t q ≠ some j) →
    ∀ {done : List Nat}, j ∉ done → ∀ {g g' : Graph L.Data},
    connectPairs t (pre ++ p :: post) done g = .ok (g', none) →
    ∃ lss, List.Forall₂ (fun r l => refSources t r = .ok l) p.1 lss ∧
      GotAt j g g' (.resetOrder :: lss.flatten.map .index) := by
  intro pre
  induction pre with
  | nil =>
    intro _ done hd g g' h
    obtain ⟨b, g1, g2, hb, h1, h2, h3⟩ := got_connectPairs_cons h
    rw [hj] at hb
    cases hb
    obtain ⟨lss, h4, h5⟩ := got_connectRefs j h2
    refine ⟨lss, h4, ?_⟩
    have := ((got_resetOnce h1 j).trans h5).trans (got_connectPairs_none hpost h3)
    simpa [hd] using this
  | cons q pre ih =>
    intro hpre done hd g g' h
    obtain ⟨b, g1, g2, hb, h1, h2, h3⟩ := got_connectPairs_cons h
    have hbj : b ≠ j := by
      rintro rfl
      exact hpre q (by simp) hb
    obtain ⟨lss', _, h5⟩ := got_connectRefs j h2
    obtain ⟨lss, h6, h7⟩ := ih (fun q hq => hpre q (List.mem_cons_of_mem _ hq)) (by
      by_cases hbd : b ∈ done
      · simpa [hbd] using hd
      · simpa [hbd, hd] using fun h => hbj h.symm) h3
    refine ⟨lss, h6, ?_⟩
    have := ((got_resetOnce h1 j).trans h5).trans h7
    simpa [hbj] using this

theorem got_connectChain {j : Nat} {c : List Nat} (hn : c.Nodup) : ∀ {g g' : Graph L.Data},
    connectChain g c = .ok g' →
    (∀ i, c[i + 1]? = some j → ∃ a, c[i]? = some a ∧ GotAt j g g' [.indexOrder 0 a]) ∧
    ((∀ i, c[i + 1]? ≠ some j) → GotAt j g g' []) := by
  induction c with
  | nil =>
    intro g g' h
    simp only [connectChain, Except.ok.injEq] at h
    subst h
    exact ⟨by simp, fun _ => .refl j g⟩
  | cons a c ih =>
    intro g g' h
    cases c with
    | nil =>
      simp only [connectChain, Except.ok.injEq] at h
      subst h
      exact ⟨by simp, fun _ => .refl j g⟩
    | cons b c =>
      simp only [connectChain, except_bind_ok] at h
      obtain ⟨g1, h1, h2⟩ := h
      have hn2 := (List.nodup_cons.mp hn).2
      obtain ⟨i1, i2⟩ := ih hn2 h2
      have hg := got_connectWithOrder h1 j
      constructor
      · intro i hi
        cases i with
        | zero =>
          simp only [List.getElem?_cons_succ, List.getElem?_cons_zero, Option.some.injEq] at hi
          subst hi
          refine ⟨a, rfl, ?_⟩
          have := hg.trans (i2 (by
            intro i hi
            simp only [List.getElem?_cons_succ] at hi
            exact (List.nodup_cons.mp hn2).1 (List.mem_of_getElem? hi)))
          simpa using this
        | succ i =>
          simp only [List.getElem?_cons_succ] at hi
          obtain ⟨x, hx, hgx⟩ := i1 i (by simpa using hi)
          have hbj : b ≠ j := by
            rintro rfl
            exact (List.nodup_cons.mp hn2).1 (List.mem_of_getElem? hi)
          refine ⟨x, by simpa using hx, ?_⟩
          have := hg.trans hgx
          simpa [hbj] using this
      · intro hno
        have hbj : b ≠ j := fun hb => hno 0 (by simp [hb])
        have := hg.trans (i2 (fun i => by simpa using hno (i + 1)))
        simpa [hbj] using this

theorem got_connectOut {dest j : Nat} (hd : dest ≠ j) {k : Name} {c : List Nat}
    {g g' : Graph L.Data} (h : connectOut dest k c g = .ok g') : GotAt j g g' [] := by
  unfold connectOut at h
  split at h
  · cases h; exact .refl j g
  · split at h
    · cases h; exact .refl j g
    · simpa [hd] using got_connectWithOrder h j

theorem got_connectTable {dest j : Nat} (hd : dest ≠ j) {t : Table} (hn : (flat t).Nodup) :
    ∀ {g g' : Graph L.Data}, connectTable dest t g = .ok g' →
    (∀ k c i, (k, c) ∈ t → c[i + 1]? = some j →
      ∃ a, c[i]? = some a ∧ GotAt j g g' [.indexOrder 0 a]) ∧
    ((∀ k c i, (k, c) ∈ t → c[i + 1]? ≠ some j) → GotAt j g g' []) := by
  induction t with
  | nil =>
    intro g g' h
    simp only [connectTable, Except.ok.injEq] at h
    subst h
    exact ⟨by simp, fun _ => .refl j g⟩
  | cons e t ih =>
    intro g g' h
    obtain ⟨k, c⟩ := e
    simp only [connectTable, except_bind_ok] at h
    obtain ⟨g1, h1, g2, h2, h3⟩ := h
    have hn' : (c ++ flat t).Nodup := by simpa [flat] using hn
    rw [List.nodup_append] at hn'
    obtain ⟨hnc, hnt, hdis⟩ := hn'
    obtain ⟨i1, i2⟩ := ih hnt h3
    obtain ⟨c1, c2⟩ := got_connectChain (j := j) hnc h1
    have ho := got_connectOut (j := j) hd h2
    constructor
    · intro k' c' i hm hi
      rcases List.mem_cons.mp hm with hm | hm
      · cases hm
        obtain ⟨a, ha, hga⟩ := c1 i hi
        refine ⟨a, ha, ?_⟩
        have := (hga.trans ho).trans (i2 (by
          intro k' c' i' hm' hi'
          exact hdis j (List.mem_of_getElem? hi) j
            (mem_flat.mpr ⟨k', c', hm', List.mem_of_getElem? hi'⟩) rfl))
        simpa using this
      · obtain ⟨a, ha, hga⟩ := i1 k' c' i hm hi
        refine ⟨a, ha, ?_⟩
        have := ((c2 (by
          intro i' hi'
          exact hdis j (List.mem_of_getElem? hi') j
            (mem_flat.mpr ⟨k', c', hm, List.mem_of_getElem? hi⟩) rfl)).trans ho).trans hga
        simpa using this
    · intro hno
      have := ((c2 (fun i => hno k c i (by simp))).trans ho).trans
        (i2 (fun k' c' i hm => hno k' c' i (List.mem_cons_of_mem _ hm)))
      simpa using this

/-! ### Each position is listed once -/

theorem addNodes_pairs {mk : L.Comp → Except Stop (L.Data × List Name)} {name : Name}
    {l : List (Nat × L.Comp)} : ∀ {d : Diff L}, addNodes mk name l = .ok d →
    (d.refpairs.map (·.2.2)).Sublist (l.map (·.1)) := by
  induction l with
  | nil =>
    intro d h
    simp only [addNodes, Except.ok.injEq] at h
    subst h
    exact .slnil
  | cons p l ih =>
    intro d h
    obtain ⟨i, c⟩ := p
    simp only [addNodes, except_bind_ok] at h
    obtain ⟨⟨nd, refs⟩, hmk, d', hd', h⟩ := h
    simp only [Except.ok.injEq] at h
    subst h
    by_cases he : refs.isEmpty = true
    · simp only [he, if_true, List.nil_append, List.map_cons]
      exact (ih hd').cons _
    · simp only [he, Bool.false_eq_true, if_false, List.map_cons, List.cons_append, List.nil_append]
      exact (ih hd').cons_cons _

theorem enumFrom_fst {β : Type} {n : Nat} {l : List β} :
    (enumFrom n l).map (·.1) = List.range' n l.length := by
  induction l generalizing n with
  | nil => rfl
  | cons b l ih => simp [enumFrom, ih, List.range'_succ]

end Verif
