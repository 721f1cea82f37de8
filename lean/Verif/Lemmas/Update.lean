import Verif.Lemmas.Connect

/-! The engine invariant and its preservation by `update_with_code` (helpers). -/

namespace Verif
open Spec

variable {L : Lang}

/-- The engine invariant. -/
structure Inv (e : Engine L) : Prop where
  backup : e.backup = e.index
  wf : e.graph.Wf
  keysNodup : (keys e.index).Nodup
  flatNodup : (e.dest :: e.input :: flat e.index).Nodup
  live : ∀ i, e.graph.Live i ↔ i = e.dest ∨ i = e.input ∨ i ∈ flat e.index
  edges : EdgesLive e.graph
  ast : ∀ a, e.ast = some a → ProgWf a
  astKeys : ∀ a, e.ast = some a → ∀ k, k ∈ keys a → k ∈ keys e.index

theorem addNodes_spec {mk : L.Comp → Except Stop (L.Data × List Name)} {name : Name}
    {l : List (Nat × L.Comp)} : ∀ {d : Diff L}, addNodes mk name l = .ok d →
    d.removes = [] ∧
    List.Forall₂ (fun (p : Nat × L.Comp) (a : Name × Nat × L.Data) =>
      a.1 = name ∧ a.2.1 = p.1 ∧ ∃ refs, mk p.2 = .ok (a.2.2, refs)) l d.adds ∧
    ∀ rp, rp ∈ d.refpairs ↔ ∃ i c nd refs, (i, c) ∈ l ∧ mk c = .ok (nd, refs) ∧ refs ≠ [] ∧
      rp = (refs, name, i) := by
  induction l with
  | nil =>
    intro d h
    simp only [addNodes, Except.ok.injEq] at h
    subst h
    exact ⟨rfl, .nil, by simp⟩
  | cons p l ih =>
    intro d h
    obtain ⟨i, c⟩ := p
    simp only [addNodes, except_bind_ok] at h
    obtain ⟨⟨nd, refs⟩, hmk, d', hd', h⟩ := h
    simp only [Except.ok.injEq] at h
    subst h
    obtain ⟨c1, c2, c3⟩ := ih hd'
    refine ⟨c1, .cons ⟨rfl, rfl, refs, hmk⟩ c2, ?_⟩
    intro rp
    simp only [List.mem_append, c3]
    constructor
    · rintro (h | ⟨i', c', nd', refs', hm, hmk', hne, rfl⟩)
      · by_cases he : refs.isEmpty = true
        · simp [he] at h
        · simp only [he, Bool.false_eq_true, if_false, List.mem_singleton] at h
          exact ⟨i, c, nd, refs, by simp, hmk, by simpa using he, h⟩
      · exact ⟨i', c', nd', refs', List.mem_cons_of_mem _ hm, hmk', hne, rfl⟩
    · rintro ⟨i', c', nd', refs', hm, hmk', hne, rfl⟩
      rcases List.mem_cons.mp hm with hm | hm
      · cases hm
        rw [hmk] at hmk'
        cases hmk'
        left
        simp [hne]
      · exact .inr ⟨i', c', nd', refs', hm, hmk', hne, rfl⟩

theorem diffOld_spec {name : Name} {new : List L.Comp} {l : List (Nat × L.Comp)} :
    (diffOld L name new l).2 =
      (l.filter (fun p => (findEq L.compEq p.2 new).isNone)).map (fun p => (name, p.1)) ∧
    ∀ rp, rp ∈ (diffOld L name new l).1 ↔
      ∃ j c i c', (j, c) ∈ l ∧ findEq L.compEq c new = some (i, c') ∧ L.refs c' ≠ [] ∧
        rp = (L.refs c', name, i) := by
  induction l with
  | nil => exact ⟨rfl, by simp [diffOld]⟩
  | cons p l ih =>
    obtain ⟨j, c⟩ := p
    obtain ⟨h1, h2⟩ := ih
    cases hf : findEq L.compEq c new with
    | none =>
      simp only [diffOld, hf, List.filter_cons, Option.isNone_none, if_true, List.map_cons, h1, true_and]
      intro rp
      rw [h2]
      constructor
      · rintro ⟨j', c', i, c2, hm, h⟩
        exact ⟨j', c', i, c2, List.mem_cons_of_mem _ hm, h⟩
      · rintro ⟨j', c', i, c2, hm, hf', h⟩
        rcases List.mem_cons.mp hm with hm | hm
        · cases hm; rw [hf] at hf'; cases hf'
        · exact ⟨j', c', i, c2, hm, hf', h⟩
    | some ic =>
      obtain ⟨i, c'⟩ := ic
      simp only [diffOld, hf, List.filter_cons, Option.isNone_some, Bool.false_eq_true, if_false, h1,
        true_and]
      intro rp
      simp only [List.mem_append, h2]
      constructor
      · rintro (h | ⟨j', c', i, c2, hm, h⟩)
        · by_cases he : (L.refs c').isEmpty = true
          · simp [he] at h
          · simp only [he, Bool.false_eq_true, if_false, List.mem_singleton] at h
            exact ⟨j, c, i, c', by simp, hf, by simpa using he, h⟩
        · exact ⟨j', c', i, c2, List.mem_cons_of_mem _ hm, h⟩
      · rintro ⟨j', c2, i', c3, hm, hf', hne, rfl⟩
        rcases List.mem_cons.mp hm with hm | hm
        · cases hm
          rw [hf] at hf'
          cases hf'
          left
          simp [hne]
        · exact .inr ⟨j', c2, i', c3, hm, hf', hne, rfl⟩

theorem diffAll_mem {mk : L.Comp → Except Stop (L.Data × List Name)} {old : Option (Ast L.Comp)}
    {new : Ast L.Comp} : ∀ {d : Diff L}, diffAll mk old new = .ok d →
    (∀ k c, (k, c) ∈ new → ∃ dk, diffChain mk old k c = .ok dk ∧ (∀ x, x ∈ dk.adds → x ∈ d.adds) ∧
      (∀ x, x ∈ dk.refpairs → x ∈ d.refpairs) ∧ (∀ x, x ∈ dk.removes → x ∈ d.removes)) ∧
    (∀ rp, rp ∈ d.refpairs → ∃ k c dk, (k, c) ∈ new ∧ diffChain mk old k c = .ok dk ∧ rp ∈ dk.refpairs) ∧
    (∀ x, x ∈ d.adds → ∃ k c dk, (k, c) ∈ new ∧ diffChain mk old k c = .ok dk ∧ x ∈ dk.adds) := by
  induction new with
  | nil =>
    intro d h
    simp only [diffAll, Except.ok.injEq] at h
    subst h
    simp
  | cons p new ih =>
    intro d h
    obtain ⟨k, c⟩ := p
    simp only [diffAll, except_bind_ok] at h
    obtain ⟨dk, hk, d', hd', h⟩ := h
    simp only [Except.ok.injEq] at h
    subst h
    obtain ⟨c1, c2, c3⟩ := ih hd'
    refine ⟨?_, ?_, ?_⟩
    · intro k' c' hm
      rcases List.mem_cons.mp hm with hm | hm
      · cases hm
        exact ⟨dk, hk, fun x h => List.mem_append_left _ h, fun x h => List.mem_append_left _ h,
          fun x h => List.mem_append_left _ h⟩
      · obtain ⟨d2, e1, e2, e3, e4⟩ := c1 k' c' hm
        exact ⟨d2, e1, fun x h => List.mem_append_right _ (e2 x h),
          fun x h => List.mem_append_right _ (e3 x h), fun x h => List.mem_append_right _ (e4 x h)⟩
    · intro rp hrp
      rcases List.mem_append.mp hrp with h | h
      · exact ⟨k, c, dk, by simp, hk, h⟩
      · obtain ⟨k', c', d2, e1, e2, e3⟩ := c2 rp h
        exact ⟨k', c', d2, List.mem_cons_of_mem _ e1, e2, e3⟩
    · intro rp hrp
      rcases List.mem_append.mp hrp with h | h
      · exact ⟨k, c, dk, by simp, hk, h⟩
      · obtain ⟨k', c', d2, e1, e2, e3⟩ := c3 rp h
        exact ⟨k', c', d2, List.mem_cons_of_mem _ e1, e2, e3⟩

theorem diffChain_refpair_name {mk : L.Comp → Except Stop (L.Data × List Name)}
    {old : Option (Ast L.Comp)} {k : Name} {c : List L.Comp} {d : Diff L}
    (h : diffChain mk old k c = .ok d) : ∀ refs n p, (refs, n, p) ∈ d.refpairs → n = k := by
  intro refs n p hm
  unfold diffChain at h
  split at h
  · obtain ⟨_, _, h3⟩ := addNodes_spec h
    obtain ⟨i, c, nd, r, _, _, _, h⟩ := (h3 _).mp hm
    cases h; rfl
  · rename_i oldC _
    rw [except_bind_ok] at h
    obtain ⟨d', hd', h⟩ := h
    simp only [Except.ok.injEq] at h
    subst h
    obtain ⟨_, _, h3⟩ := addNodes_spec hd'
    obtain ⟨_, h4⟩ := diffOld_spec (L := L) (name := k) (new := c) (l := enumFrom 0 oldC)
    rcases List.mem_append.mp hm with hm | hm
    · obtain ⟨j, c, i, c', _, _, _, h⟩ := (h4 _).mp hm
      cases h; rfl
    · obtain ⟨i, c, nd, r, _, _, _, h⟩ := (h3 _).mp hm
      cases h; rfl

/-- The part of an update common to acceptance and rejection by the reference check. -/
structure Staged (e : Engine L) (new : Ast L.Comp) (diff : Diff L) (t1 : Table) (gone1 : List Nat)
    (t2 : Table) (gone2 : List Nat) (g3 : Graph L.Data) (t3 : Table) (created : List Nat) : Prop where
  diffEq : diffAll (L.make e.samples e.sr e.bpm e.seed) e.ast new = .ok diff
  chains : dropChains new (oldKeys e) e.index = .ok (t1, gone1)
  nodes : dropNodes diff.removes.reverse t1 = .ok (t2, gone2)
  ins : insertNodes diff.adds e.graph t2 = .ok (g3, t3, created)

theorem updateAst_cases {τ : TableOrder} {e e' : Engine L} {new : Ast L.Comp}
    {r : Option EngineError} (h : e.updateAst τ new = .ok (e', r)) :
    (∃ x, diffAll (L.make e.samples e.sr e.bpm e.seed) e.ast new = .error (.err x) ∧ r = some x ∧
      e' = { e with temp := [] }) ∨
    (∃ diff t1 gone1 t2 gone2 g3 t3 created,
      Staged e new diff t1 gone1 t2 gone2 g3 t3 created ∧
      ((∃ x, refCheck t3 new (diff.refpairs.flatMap (·.1)) = some x ∧
          r = some (.nonExistReference x) ∧
          e' = ({ e with graph := g3, index := t3, temp := created } : Engine L).cleanUp) ∨
       (refCheck t3 new (diff.refpairs.flatMap (·.1)) = none ∧
        ((∃ g5 x, connectPairs (τ.ord t3) diff.refpairs []
            ((removeAll g3 (gone1 ++ gone2)).clearEdges) = .ok (g5, some x) ∧ r = some x) ∨
         (∃ g5 g6, connectPairs (τ.ord t3) diff.refpairs []
            ((removeAll g3 (gone1 ++ gone2)).clearEdges) = .ok (g5, none) ∧
            connectTable e.dest (τ.ord t3) g5 = .ok g6 ∧ r = none ∧
            e' = { e with
              graph := g6, index := t3, temp := created, ast := some new, backup := t3 }))))) := by
  unfold Engine.updateAst at h
  simp only at h
  split at h
  · cases h
  · rename_i x hx
    cases h
    exact .inl ⟨x, hx, rfl, rfl⟩
  · rename_i diff hdiff
    right
    rw [except_bind_ok] at h
    obtain ⟨⟨t1, gone1⟩, h1, h⟩ := h
    simp only at h
    rw [except_bind_ok] at h
    obtain ⟨⟨t2, gone2⟩, h2, h⟩ := h
    simp only at h
    rw [except_bind_ok] at h
    obtain ⟨⟨g3, t3, created⟩, h3, h⟩ := h
    simp only at h
    refine ⟨diff, t1, gone1, t2, gone2, g3, t3, created, ⟨hdiff, h1, h2, h3⟩, ?_⟩
    split at h
    · rename_i x hx
      cases h
      exact .inl ⟨x, hx, rfl, rfl⟩
    · rename_i hx
      right
      refine ⟨hx, ?_⟩
      rw [except_bind_ok] at h
      obtain ⟨⟨g5, bad⟩, h5, h⟩ := h
      simp only at h
      split at h
      · rename_i x
        cases h
        exact .inl ⟨g5, x, h5, rfl⟩
      · rw [except_bind_ok] at h
        obtain ⟨g6, h6, h⟩ := h
        cases h
        exact .inr ⟨g5, g6, h5, h6, rfl, rfl⟩

theorem mem_oldKeys {e : Engine L} {k : Name} :
    k ∈ oldKeys e ↔ ∃ o, e.ast = some o ∧ k ∈ keys o := by
  unfold oldKeys
  cases h : e.ast with
  | none => simp
  | some o => simp [keys]

theorem enumFrom_ne_nil {β : Type} {n : Nat} {l : List β} (h : l ≠ []) : enumFrom n l ≠ [] := by
  cases l with
  | nil => exact absurd rfl h
  | cons a l => simp [enumFrom]

/-- Facts about the staged part. -/
structure StagedFacts (e : Engine L) (new : Ast L.Comp) (diff : Diff L) (t1 : Table)
    (gone1 : List Nat) (t2 : Table) (gone2 : List Nat) (g3 : Graph L.Data) (t3 : Table)
    (created : List Nat) : Prop where
  wf : g3.Wf
  crNodup : created.Nodup
  cr : ∀ i, i ∈ created → e.graph.node? i = none ∧ g3.Live i
  edges : g3.edges = e.graph.edges
  nodes : ∀ j, j ∉ created → g3.node? j = e.graph.node? j
  permIndex : (flat e.index).Perm (flat t2 ++ (gone1 ++ gone2))
  permT3 : (flat t3).Perm (flat t2 ++ created)
  keysT3 : (keys t3).Nodup
  made : List.Forall₂ (fun (a : Name × Nat × L.Data) i => g3.node? i = some a.2.2) diff.adds created
  memT3 : ∀ k, k ∈ keys t3 ↔ (k ∈ keys e.index ∧ (k ∉ oldKeys e ∨ k ∈ keys new)) ∨
    ∃ p, (k, p) ∈ diff.adds
  newT3 : ∀ k, k ∈ keys new → k ∈ keys t3
  refNames : ∀ refs n p, (refs, n, p) ∈ diff.refpairs → n ∈ keys new
  addNames : ∀ k p, (k, p) ∈ diff.adds → k ∈ keys new

theorem staged_facts {e : Engine L} {new : Ast L.Comp} {diff : Diff L} {t1 : Table}
    {gone1 : List Nat} {t2 : Table} {gone2 : List Nat} {g3 : Graph L.Data} {t3 : Table}
    {created : List Nat} (hI : Inv e) (hp : ProgWf new)
    (h : Staged e new diff t1 gone1 t2 gone2 g3 t3 created) :
    StagedFacts e new diff t1 gone1 t2 gone2 g3 t3 created := by
  obtain ⟨a1, a2, a3, a4, a5, a6, a7⟩ := insertNodes_spec hI.wf h.ins
  obtain ⟨b1, b2, b3⟩ := dropChains_spec hI.keysNodup h.chains
  obtain ⟨c1, c2⟩ := dropNodes_spec h.nodes
  obtain ⟨d1, d2⟩ := insertNodes_keys h.ins (by rw [c2]; exact b2)
  obtain ⟨e1, e2, e3⟩ := diffAll_mem h.diffEq
  have ht1 : ∀ k, k ∈ keys t1 ↔ k ∈ keys e.index ∧ (k ∉ oldKeys e ∨ k ∈ keys new) := by
    intro k
    rw [← lookup_isSome, b3]
    by_cases hk : k ∈ oldKeys e ∧ k ∉ keys new
    · simp [hk]
    · simp only [hk, if_false, lookup_isSome]
      constructor
      · intro h
        refine ⟨h, ?_⟩
        by_cases h1 : k ∈ oldKeys e
        · right
          by_cases h2 : k ∈ keys new
          · exact h2
          · exact absurd ⟨h1, h2⟩ hk
        · exact .inl h1
      · exact fun h => h.1
  have memT3 : ∀ k, k ∈ keys t3 ↔ (k ∈ keys e.index ∧ (k ∉ oldKeys e ∨ k ∈ keys new)) ∨
      ∃ p, (k, p) ∈ diff.adds := by
    intro k
    rw [d2, c2, ht1]
  refine ⟨a1, a2, a3, a4, a5, ?_, a6, d1, a7, memT3, ?_, ?_, ?_⟩
  · refine b1.trans ((c1.append_right gone1).trans ?_)
    rw [List.append_assoc]
    exact List.perm_append_comm.append_left _
  · intro k hk
    obtain ⟨c, hc⟩ := mem_keys.mp hk
    rw [memT3]
    obtain ⟨dk, f1, f2, _, _⟩ := e1 k c hc
    unfold diffChain at f1
    split at f1
    · right
      obtain ⟨_, g2, _⟩ := addNodes_spec f1
      have hne := enumFrom_ne_nil (n := 0) (hp.nonempty k c hc)
      cases hl : enumFrom 0 c with
      | nil => exact absurd hl hne
      | cons x xs =>
        rw [hl] at g2
        cases hda : dk.adds with
        | nil => rw [hda] at g2; cases g2
        | cons y ys =>
          rw [hda] at g2
          cases g2 with
          | cons hxy _ =>
            refine ⟨y.2, f2 _ ?_⟩
            rw [hda]
            have : y = (k, y.2) := by rw [← hxy.1]
            rw [← this]
            simp
    · rename_i oldC hold
      left
      cases ha : e.ast with
      | none => rw [ha] at hold; simp at hold
      | some o =>
        rw [ha] at hold
        simp only [Option.bind_some] at hold
        exact ⟨hI.astKeys o ha k (lookup_isSome.mp (by rw [hold]; rfl)), .inr hk⟩
  · intro refs n p hm
    obtain ⟨k, c, dk, f1, f2, f3⟩ := e2 _ hm
    rw [diffChain_refpair_name f2 refs n p f3]
    exact mem_keys.mpr ⟨c, f1⟩
  · intro k p hm
    obtain ⟨k', c, dk, f1, f2, f3⟩ := e3 _ hm
    have : k = k' := by
      unfold diffChain at f2
      have key : ∀ {l : List (Nat × L.Comp)} {d : Diff L},
          addNodes (L.make e.samples e.sr e.bpm e.seed) k' l = .ok d → (k, p) ∈ d.adds → k = k' := by
        intro l d hd hm
        have g2 := (addNodes_spec hd).2.1
        generalize d.adds = ads at g2 hm
        clear hd
        induction g2 with
        | nil => cases hm
        | cons hab _ ih =>
          rcases List.mem_cons.mp hm with hm | hm
          · rw [← hm] at hab; exact hab.1
          · exact ih hm
      split at f2
      · exact key f2 f3
      · rw [except_bind_ok] at f2
        obtain ⟨d', hd', f2⟩ := f2
        simp only [Except.ok.injEq] at f2
        subst f2
        exact key hd' f3
    subst this
    exact mem_keys.mpr ⟨c, f1⟩

theorem keys_ord {τ : TableOrder} {t : Table} (hn : (keys t).Nodup) : (keys (τ.ord t)).Nodup :=
  (keys_perm_nodup (τ.perm t)).mpr hn

/-- A rejected update leaves everything observable as it was. -/
theorem sameEngine_of_rejected {τ : TableOrder} {e e' : Engine L} {new : Ast L.Comp}
    {x : EngineError} (hI : Inv e) (hp : ProgWf new)
    (h : e.updateAst τ new = .ok (e', some x)) : SameEngine e e' ∧ Inv e' := by
  rcases updateAst_cases h with ⟨y, _, _, rfl⟩ | ⟨diff, t1, gone1, t2, gone2, g3, t3, cr, hs, h⟩
  · refine ⟨?_, ?_⟩
    · constructor <;> intros <;> rfl
    · exact ⟨hI.backup, hI.wf, hI.keysNodup, hI.flatNodup, hI.live, hI.edges, hI.ast, hI.astKeys⟩
  · have f := staged_facts hI hp hs
    rcases h with ⟨y, _, _, rfl⟩ | ⟨_, ⟨g5, y, h5, _⟩ | ⟨g5, g6, _, _, hr, _⟩⟩
    · obtain ⟨r1, r2, r3⟩ := removeAll_spec (ids := cr) f.wf
      have hed : (removeAll g3 cr).edges = e.graph.edges := by
        rw [r3, f.edges]
        rw [f.edges]
        intro p hpm
        obtain ⟨⟨a, ha⟩, ⟨b, hb⟩⟩ := hI.edges p hpm
        refine ⟨fun hc => ?_, fun hc => ?_⟩
        · rw [(f.cr _ hc).1] at ha; cases ha
        · rw [(f.cr _ hc).1] at hb; cases hb
      have hnodes : ∀ i, (removeAll g3 cr).node? i = e.graph.node? i := by
        intro i
        rw [r2]
        by_cases hi : i ∈ cr
        · simp [hi, (f.cr i hi).1]
        · simp [hi, f.nodes i hi]
      have hidx : e.backup = e.index := hI.backup
      refine ⟨?_, ?_⟩
      · constructor <;> first | rfl | exact hidx | exact hed | exact hnodes
      · refine ⟨?_, r1, ?_, ?_, ?_, ?_, hI.ast, ?_⟩
        · rfl
        · show (keys e.backup).Nodup
          rw [hidx]; exact hI.keysNodup
        · show (e.dest :: e.input :: flat e.backup).Nodup
          rw [hidx]; exact hI.flatNodup
        · intro i
          show (removeAll g3 cr).Live i ↔ i = e.dest ∨ i = e.input ∨ i ∈ flat e.backup
          rw [hidx, ← hI.live]
          unfold Graph.Live
          rw [hnodes]
        · intro p hpm
          show (removeAll g3 cr).Live _ ∧ (removeAll g3 cr).Live _
          have hpm' : p ∈ e.graph.edges := by rw [← hed]; exact hpm
          have := hI.edges p hpm'
          unfold Graph.Live
          rw [hnodes, hnodes]
          exact this
        · show ∀ a, e.ast = some a → ∀ k, k ∈ keys a → k ∈ keys e.backup
          rw [hidx]; exact hI.astKeys
    · obtain ⟨refs, name, pos, hm, hl⟩ := connectPairs_err h5
      have hk := f.newT3 _ (f.refNames _ _ _ hm)
      rw [lookup_perm (τ.perm t3) f.keysT3, lookup_none] at hl
      exact absurd hk hl
    · cases hr

/-- The intermediate values of an accepted update. -/
structure Accepted (τ : TableOrder) (e : Engine L) (new : Ast L.Comp) (e' : Engine L)
    (diff : Diff L) (t1 : Table) (gone1 : List Nat) (t2 : Table) (gone2 : List Nat)
    (g3 : Graph L.Data) (created : List Nat) (g5 : Graph L.Data) : Prop where
  staged : Staged e new diff t1 gone1 t2 gone2 g3 e'.index created
  facts : StagedFacts e new diff t1 gone1 t2 gone2 g3 e'.index created
  check : refCheck e'.index new (diff.refpairs.flatMap (·.1)) = none
  pairs : connectPairs (τ.ord e'.index) diff.refpairs []
    ((removeAll g3 (gone1 ++ gone2)).clearEdges) = .ok (g5, none)
  table : connectTable e.dest (τ.ord e'.index) g5 = .ok e'.graph
  eq : e' = { e with
    graph := e'.graph, index := e'.index, temp := created, ast := some new, backup := e'.index }

theorem accepted {τ : TableOrder} {e e' : Engine L} {new : Ast L.Comp} (hI : Inv e)
    (hp : ProgWf new) (h : e.updateAst τ new = .ok (e', none)) :
    ∃ diff t1 gone1 t2 gone2 g3 created g5,
      Accepted τ e new e' diff t1 gone1 t2 gone2 g3 created g5 := by
  rcases updateAst_cases h with ⟨y, _, hr, _⟩ | ⟨diff, t1, gone1, t2, gone2, g3, t3, cr, hs, h⟩
  · cases hr
  · have f := staged_facts hI hp hs
    rcases h with ⟨y, _, hr, _⟩ | ⟨hc, ⟨g5, y, _, hr⟩ | ⟨g5, g6, h5, h6, _, rfl⟩⟩
    · cases hr
    · cases hr
    · exact ⟨diff, t1, gone1, t2, gone2, g3, cr, g5, hs, f, hc, h5, h6, rfl⟩

/-- Which nodes the graph holds before reconnecting. -/
theorem Accepted.live {τ : TableOrder} {e e' : Engine L} {new : Ast L.Comp} {diff t1 gone1 t2 gone2 g3 created g5}
    (hI : Inv e) (h : Accepted τ e new e' diff t1 gone1 t2 gone2 g3 created g5) :
    (e.dest :: e.input :: flat e'.index).Nodup ∧
    (∀ i, ((removeAll g3 (gone1 ++ gone2)).clearEdges).Live i ↔
      i = e.dest ∨ i = e.input ∨ i ∈ flat e'.index) ∧
    (∀ i, i ∈ gone1 ++ gone2 → i ∈ flat e.index ∧ i ∉ flat t2 ∧ i ∉ created ∧ i ≠ e.dest ∧ i ≠ e.input) := by
  have f := h.facts
  obtain ⟨r1, r2, _⟩ := removeAll_spec (ids := gone1 ++ gone2) f.wf
  have hnd := hI.flatNodup
  simp only [List.nodup_cons, List.mem_cons, not_or] at hnd
  obtain ⟨⟨hd1, hd2⟩, hi1, hfn⟩ := hnd
  have hpn := (f.permIndex.nodup_iff).mp hfn
  rw [List.nodup_append] at hpn
  obtain ⟨hn2, hng, hdis⟩ := hpn
  have hflat : ∀ i, i ∈ flat e.index ↔ i ∈ flat t2 ∨ i ∈ gone1 ++ gone2 := by
    intro i; rw [f.permIndex.mem_iff, List.mem_append]
  have hcr : ∀ i, i ∈ created → ¬ e.graph.Live i := by
    intro i hi
    rw [Graph.not_live]
    exact (f.cr i hi).1
  have hgone : ∀ i, i ∈ gone1 ++ gone2 →
      i ∈ flat e.index ∧ i ∉ flat t2 ∧ i ∉ created ∧ i ≠ e.dest ∧ i ≠ e.input := by
    intro i hi
    have hif : i ∈ flat e.index := (hflat i).mpr (.inr hi)
    refine ⟨hif, fun h2 => hdis i h2 i hi rfl, fun hc => ?_, ?_, ?_⟩
    · exact hcr i hc ((hI.live i).mpr (.inr (.inr hif)))
    · rintro rfl; exact hd2 hif
    · rintro rfl; exact hi1 hif
  have mem3 : ∀ i, i ∈ flat e'.index ↔ i ∈ flat t2 ∨ i ∈ created := by
    intro i; rw [f.permT3.mem_iff, List.mem_append]
  refine ⟨?_, ?_, hgone⟩
  · simp only [List.nodup_cons, List.mem_cons, not_or]
    refine ⟨⟨hd1, ?_⟩, ?_, ?_⟩
    · rw [mem3]
      rintro (h1 | h1)
      · exact hd2 ((hflat _).mpr (.inl h1))
      · exact hcr _ h1 ((hI.live _).mpr (.inl rfl))
    · rw [mem3]
      rintro (h1 | h1)
      · exact hi1 ((hflat _).mpr (.inl h1))
      · exact hcr _ h1 ((hI.live _).mpr (.inr (.inl rfl)))
    · rw [f.permT3.nodup_iff, List.nodup_append]
      refine ⟨hn2, f.crNodup, ?_⟩
      intro a ha b hb hab
      subst hab
      exact hcr a hb ((hI.live a).mpr (.inr (.inr ((hflat a).mpr (.inl ha)))))
  · intro i
    have hlive : ((removeAll g3 (gone1 ++ gone2)).clearEdges).Live i ↔ i ∉ gone1 ++ gone2 ∧ g3.Live i := by
      show (∃ a, (removeAll g3 (gone1 ++ gone2)).node? i = some a) ↔ _
      rw [r2]
      by_cases hi : i ∈ gone1 ++ gone2
      · simp [hi]
      · simp only [hi, if_false, not_false_eq_true, true_and]
        rfl
    rw [hlive, mem3]
    by_cases hc : i ∈ created
    · simp only [hc, or_true, iff_true]
      exact ⟨fun hg => (hgone i hg).2.2.1 hc, (f.cr i hc).2⟩
    · have : g3.Live i ↔ e.graph.Live i := by
        unfold Graph.Live; rw [f.nodes i hc]
      rw [this, hI.live, hflat]
      simp only [hc, or_false]
      constructor
      · rintro ⟨h1, h2 | h2 | h2 | h2⟩
        · exact .inl h2
        · exact .inr (.inl h2)
        · exact .inr (.inr h2)
        · exact absurd h2 h1
      · rintro (h2 | h2 | h2)
        · exact ⟨fun hg => (hgone i hg).2.2.2.1 h2, .inl h2⟩
        · exact ⟨fun hg => (hgone i hg).2.2.2.2 h2, .inr (.inl h2)⟩
        · exact ⟨fun hg => (hgone i hg).2.1 h2, .inr (.inr (.inl h2))⟩

/-- What an accepted update does to the graph after staging. -/
theorem Accepted.adds {τ : TableOrder} {e e' : Engine L} {new : Ast L.Comp} {diff t1 gone1 t2 gone2 g3 created g5}
    (h : Accepted τ e new e' diff t1 gone1 t2 gone2 g3 created g5) :
    Adds ((removeAll g3 (gone1 ++ gone2)).clearEdges) e'.graph (fun x y =>
      (∃ refs name pos chain, (refs, name, pos) ∈ diff.refpairs ∧
        lookup (τ.ord e'.index) name = some chain ∧ chain[pos]? = some y ∧
        ∃ r, r ∈ refs ∧ SrcOf (τ.ord e'.index) r x) ∨
      (∃ k c, (k, c) ∈ τ.ord e'.index ∧
        (Adjacent c x y ∨ (hasTilde k = false ∧ c.getLast? = some x ∧ y = e.dest)))) :=
  (connectPairs_adds h.pairs).comp (connectTable_adds h.table) (fun _ _ => Iff.rfl)

theorem inv_of_accepted {τ : TableOrder} {e e' : Engine L} {new : Ast L.Comp} (hI : Inv e)
    (hp : ProgWf new) (h : e.updateAst τ new = .ok (e', none)) : Inv e' := by
  obtain ⟨diff, t1, gone1, t2, gone2, g3, cr, g5, ha⟩ := accepted hI hp h
  have f := ha.facts
  obtain ⟨l1, l2, _⟩ := ha.live hI
  have had := ha.adds
  obtain ⟨r1, r2, _⟩ := removeAll_spec (ids := gone1 ++ gone2) f.wf
  have heq := ha.eq
  have hdest : e'.dest = e.dest := by rw [heq]
  have hinput : e'.input = e.input := by rw [heq]
  have hast : e'.ast = some new := by rw [heq]
  have hw4 : ((removeAll g3 (gone1 ++ gone2)).clearEdges).Wf := ⟨r1.nodup, r1.vacant⟩
  refine ⟨by rw [heq], had.rewired.wf hw4, f.keysT3, ?_, ?_, ?_, ?_, ?_⟩
  · rw [hdest, hinput]; exact l1
  · intro i
    rw [had.rewired.live, l2, hdest, hinput]
  · apply had.edgesLive
    intro p hpm
    simp [Graph.clearEdges] at hpm
  · intro a ha'
    rw [hast] at ha'
    cases ha'
    exact hp
  · intro a ha' k hk
    rw [hast] at ha'
    cases ha'
    exact f.newT3 k hk

theorem inv_updateAst {τ : TableOrder} {e e' : Engine L} {new : Ast L.Comp} {r : Option EngineError}
    (hI : Inv e) (hp : ProgWf new) (h : e.updateAst τ new = .ok (e', r)) : Inv e' := by
  cases r with
  | none => exact inv_of_accepted hI hp h
  | some x => exact (sameEngine_of_rejected hI hp h).2

end Verif
