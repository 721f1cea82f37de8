import Verif.Lemmas.Staged
import Verif.Lemmas.History

/-! Updates that do not panic, and the mirroring invariant over histories (helpers). -/

namespace Verif
open Spec

variable {L : Lang}

theorem modify_total (hw : WiringTotal L) {g : Graph L.Data} {b : Nat} (hb : g.Live b)
    {m : Msg L.Num} (hm : UpdateWiring m) : ∃ g', g.modify b (fun d => do
      let n ← L.msg d.node m
      .ok ⟨n, d.buffers⟩) = .ok g' := by
  obtain ⟨d, hd⟩ := hb
  obtain ⟨n, hn⟩ := hw d.node m hm
  unfold Graph.modify
  rw [hd]
  simp only [hn]
  exact ⟨_, rfl⟩

theorem addEdge_total {α : Type} {g : Graph α} {a b : Nat} (ha : g.Live a) (hb : g.Live b) :
    g.addEdge a b = .ok { g with edges := (a, b) :: g.edges } := by
  obtain ⟨x, hx⟩ := ha
  obtain ⟨y, hy⟩ := hb
  unfold Graph.addEdge
  rw [hx, hy]

theorem connect_total (hw : WiringTotal L) {g : Graph L.Data} {a b : Nat} (ha : g.Live a)
    (hb : g.Live b) : ∃ g', connect g a b = .ok g' := by
  unfold connect
  rw [addEdge_total ha hb]
  exact modify_total hw (g := { g with edges := (a, b) :: g.edges }) hb (m := .index a) trivial

theorem connectWithOrder_total (hw : WiringTotal L) {g : Graph L.Data} {a b : Nat} (ha : g.Live a)
    (hb : g.Live b) : ∃ g', connectWithOrder g a b 0 = .ok g' := by
  unfold connectWithOrder
  rw [addEdge_total ha hb]
  exact modify_total hw (g := { g with edges := (a, b) :: g.edges }) hb (m := .indexOrder 0 a) rfl

theorem connectAll_total (hw : WiringTotal L) {b : Nat} {srcs : List Nat} : ∀ {g : Graph L.Data},
    g.Live b → (∀ a, a ∈ srcs → g.Live a) → ∃ g', connectAll g b srcs = .ok g' := by
  induction srcs with
  | nil => intro g _ _; exact ⟨g, rfl⟩
  | cons a as ih =>
    intro g hb ha
    obtain ⟨g1, h1⟩ := connect_total hw (ha a (by simp)) hb
    have hr := (connect_adds h1).rewired
    obtain ⟨g', h'⟩ := ih ((hr.live b).mpr hb)
      (fun x hx => (hr.live x).mpr (ha x (List.mem_cons_of_mem _ hx)))
    exact ⟨g', by simp only [connectAll, h1]; exact h'⟩

/-- Every node of the table is live. -/
def TableLive (t : Table) (g : Graph L.Data) : Prop := ∀ k c, (k, c) ∈ t → ∀ i, i ∈ c → g.Live i

theorem TableLive.rewired {t : Table} {g g' : Graph L.Data} (h : TableLive t g) (hr : Rewired g g') :
    TableLive t g' := fun k c hm i hi => (hr.live i).mpr (h k c hm i hi)

theorem mapM_mem {α β : Type} {f : α → Except Panic β} : ∀ {l : List α} {r : List β},
    l.mapM f = .ok r → ∀ b, b ∈ r → ∃ a, a ∈ l ∧ f a = .ok b := by
  intro l
  induction l with
  | nil => intro r h b hb; cases h; cases hb
  | cons a l ih =>
    intro r h b hb
    rw [List.mapM_cons] at h
    rw [except_bind_ok] at h
    obtain ⟨x, hx, h⟩ := h
    rw [except_bind_ok] at h
    obtain ⟨xs, hxs, h⟩ := h
    cases h
    rcases List.mem_cons.mp hb with rfl | hb
    · exact ⟨a, by simp, hx⟩
    · obtain ⟨a', ha', h'⟩ := ih hxs b hb
      exact ⟨a', List.mem_cons_of_mem _ ha', h'⟩

theorem refSources_total {t : Table} {r : Name} (hne : ∀ k c, (k, c) ∈ t → c ≠ [])
    (hr : hasDots r = false → r ∈ keys t) : ∃ s, refSources t r = .ok s := by
  have hlast : ∀ c : List Nat, c ≠ [] → ∃ a, lastOf c = .ok a := by
    intro c hc
    unfold lastOf
    cases hx : c.getLast? with
    | none => rw [List.getLast?_eq_none_iff] at hx; exact absurd hx hc
    | some a => exact ⟨a, rfl⟩
  unfold refSources
  by_cases hd : hasDots r = true
  · simp only [hd, if_true]
    apply mapM_ok_of
    rintro ⟨k, c⟩ hm
    exact hlast c (hne k c (List.mem_filter.mp hm).1)
  · simp only [hd, Bool.false_eq_true, if_false]
    have hk := hr (by simpa using hd)
    cases hl : lookup t r with
    | none => rw [lookup_none] at hl; exact absurd hk hl
    | some c =>
      obtain ⟨a, ha⟩ := hlast c (hne r c (lookup_mem hl))
      simp only [ha]
      exact ⟨_, rfl⟩

theorem refSources_live {t : Table} {g : Graph L.Data} (ht : TableLive t g) {r : Name} {s : List Nat}
    (h : refSources t r = .ok s) : ∀ a, a ∈ s → g.Live a := by
  intro a ha
  unfold refSources at h
  split at h
  · obtain ⟨⟨k, c⟩, hm, hl⟩ := mapM_mem h a ha
    exact ht k c (List.mem_filter.mp hm).1 a (List.mem_of_getLast? (lastOf_ok.mp hl))
  · split at h
    · cases h
    · rename_i c hl
      rw [except_bind_ok] at h
      obtain ⟨i, hi, h⟩ := h
      cases h
      rw [List.mem_singleton] at ha
      subst ha
      exact ht r c (lookup_mem hl) a (List.mem_of_getLast? (lastOf_ok.mp hi))

theorem connectRefs_total (hw : WiringTotal L) {t : Table} {b : Nat}
    (hne : ∀ k c, (k, c) ∈ t → c ≠ []) {rs : List Name} : ∀ {g : Graph L.Data},
    TableLive t g → g.Live b → (∀ r, r ∈ rs → hasDots r = false → r ∈ keys t) →
    ∃ g', connectRefs t g b rs = .ok g' := by
  induction rs with
  | nil => intro g _ _ _; exact ⟨g, rfl⟩
  | cons r rs ih =>
    intro g ht hb hr
    obtain ⟨s, hs⟩ := refSources_total hne (hr r (by simp))
    obtain ⟨g1, h1⟩ := connectAll_total hw hb (refSources_live ht hs)
    have hrw := (connectAll_adds h1).rewired
    obtain ⟨g', h'⟩ := ih (ht.rewired hrw) ((hrw.live b).mpr hb)
      (fun r hm => hr r (List.mem_cons_of_mem _ hm))
    refine ⟨g', ?_⟩
    simp only [connectRefs, hs]
    show (do let g1 ← connectAll g b s; connectRefs t g1 b rs) = _
    rw [h1]
    exact h'

theorem resetOnce_total (hw : WiringTotal L) {done : List Nat} {b : Nat} {g : Graph L.Data}
    (hb : g.Live b) : ∃ g', resetOnce done b g = .ok g' ∧ Rewired g g' := by
  unfold resetOnce
  split
  · exact ⟨g, rfl, .refl g⟩
  · obtain ⟨g', h⟩ := modify_total hw hb (m := .resetOrder) trivial
    exact ⟨g', h, (rewired_of_modify (m := .resetOrder) trivial h).1⟩

theorem connectPairs_total (hw : WiringTotal L) {t : Table} (hne : ∀ k c, (k, c) ∈ t → c ≠ [])
    {pairs : List RefPair} : ∀ {done : List Nat} {g : Graph L.Data}, TableLive t g →
    (∀ refs name pos, (refs, name, pos) ∈ pairs →
      (∃ c, lookup t name = some c ∧ pos < c.length) ∧
      ∀ r, r ∈ refs → hasDots r = false → r ∈ keys t) →
    ∃ g', connectPairs t pairs done g = .ok (g', none) ∧ Rewired g g' := by
  induction pairs with
  | nil => intro done g _ _; exact ⟨g, rfl, .refl g⟩
  | cons p pairs ih =>
    intro done g ht hp
    obtain ⟨refs, name, pos⟩ := p
    obtain ⟨⟨c, hc, hpos⟩, hr⟩ := hp refs name pos (by simp)
    have hx : c[pos]? = some c[pos] := List.getElem?_eq_getElem hpos
    have hb : g.Live c[pos] := ht name c (lookup_mem hc) _ (List.getElem_mem hpos)
    obtain ⟨g1, h1, r1⟩ := resetOnce_total hw (done := done) hb
    obtain ⟨g2, h2⟩ := connectRefs_total hw hne (ht.rewired r1) ((r1.live _).mpr hb) hr
    have r2 := (connectRefs_adds h2).rewired
    obtain ⟨g', h', r'⟩ := ih (done := if c[pos] ∈ done then done else c[pos] :: done)
      ((ht.rewired r1).rewired r2)
      (fun refs name pos hm => hp refs name pos (List.mem_cons_of_mem _ hm))
    refine ⟨g', ?_, (r1.trans r2).trans r'⟩
    simp only [connectPairs, hc, hx]
    show (do
      let g1 ← resetOnce done c[pos] g
      let g2 ← connectRefs t g1 c[pos] refs
      connectPairs t pairs (if c[pos] ∈ done then done else c[pos] :: done) g2) = _
    rw [h1]
    show (do
      let g2 ← connectRefs t g1 c[pos] refs
      connectPairs t pairs (if c[pos] ∈ done then done else c[pos] :: done) g2) = _
    rw [h2]
    exact h'

theorem connectChain_total (hw : WiringTotal L) {c : List Nat} : ∀ {g : Graph L.Data},
    (∀ i, i ∈ c → g.Live i) → ∃ g', connectChain g c = .ok g' := by
  induction c with
  | nil => intro g _; exact ⟨g, rfl⟩
  | cons a c ih =>
    intro g h
    cases c with
    | nil => exact ⟨g, rfl⟩
    | cons b c =>
      obtain ⟨g1, h1⟩ := connectWithOrder_total hw (h a (by simp)) (h b (by simp))
      have hr := (connectWithOrder_adds h1).rewired
      obtain ⟨g', h'⟩ := ih (fun i hi => (hr.live i).mpr (h i (List.mem_cons_of_mem _ hi)))
      exact ⟨g', by simp only [connectChain, h1]; exact h'⟩

theorem connectTable_total (hw : WiringTotal L) {dest : Nat} {t : Table} : ∀ {g : Graph L.Data},
    TableLive t g → g.Live dest → ∃ g', connectTable dest t g = .ok g' := by
  induction t with
  | nil => intro g _ _; exact ⟨g, rfl⟩
  | cons p t ih =>
    intro g ht hd
    obtain ⟨k, c⟩ := p
    obtain ⟨g1, h1⟩ := connectChain_total hw (ht k c (by simp))
    have r1 := (connectChain_adds h1).rewired
    have h2 : ∃ g2, connectOut dest k c g1 = .ok g2 ∧ Rewired g1 g2 := by
      unfold connectOut
      split
      · exact ⟨g1, rfl, .refl _⟩
      · split
        · exact ⟨g1, rfl, .refl _⟩
        · rename_i e he
          have hl := ht k c (by simp) e (List.mem_of_getLast? he)
          obtain ⟨g2, h2⟩ := connectWithOrder_total hw ((r1.live e).mpr hl) ((r1.live dest).mpr hd)
          exact ⟨g2, h2, (connectWithOrder_adds h2).rewired⟩
    obtain ⟨g2, h2, r2⟩ := h2
    have hr := r1.trans r2
    obtain ⟨g', h'⟩ := ih (g := g2)
      (fun k c hm i hi => (hr.live i).mpr (ht k c (List.mem_cons_of_mem _ hm) i hi))
      ((hr.live dest).mpr hd)
    refine ⟨g', ?_⟩
    simp only [connectTable, h1]
    show (do let g2 ← connectOut dest k c g1; connectTable dest t g2) = _
    rw [h2]
    exact h'

/-! ### The mirroring invariant -/

theorem Mirrors.noClash {e : Engine L} (hm : Mirrors e) {new : Ast L.Comp} (hc : CleanProg L new) :
    NoClash e new := by
  intro k hk hi
  by_cases ho : k ∈ oldKeys e
  · exact ho
  · have := hm.onlyInput k hi ho
    subst this
    exact absurd hk hc.noInput

theorem Spec.CleanProg.dupFree {new : Ast L.Comp} (hc : CleanProg L new) : DupFree L new := hc.distinct

/-- The staged table mirrors the new program. -/
theorem mirrors_staged {e : Engine L} {new : Ast L.Comp} {diff : Diff L} {t1 t2 t3 : Table}
    {gone1 gone2 created : List Nat} {g3 : Graph L.Data} (hq : EqLaws L) (hI : Inv e)
    (hm : Mirrors e) (hp : ProgWf new) (hc : CleanProg L new)
    (hs : Staged e new diff t1 gone1 t2 gone2 g3 t3 created) :
    (∀ k comps, (k, comps) ∈ new → ∃ c, lookup t3 k = some c ∧ c.length = comps.length) ∧
    (∀ k c, lookup t3 k = some c → k ∉ keys new → c ≠ [] ∧ k = inputName) ∧
    ∀ k c, lookup t3 k = some c → c ≠ [] := by
  have ht := staged_table hq hI hm hp hc.dupFree (hm.noClash hc) hs
  have h1 : ∀ k comps, (k, comps) ∈ new → ∃ c, lookup t3 k = some c ∧ c.length = comps.length := by
    intro k comps hmem
    obtain ⟨r, r1, r2, _⟩ := (ht k).2 comps hmem
    exact ⟨r, r1, r2⟩
  have h2 : ∀ k c, lookup t3 k = some c → k ∉ keys new → c ≠ [] ∧ k = inputName := by
    intro k c hl hk
    rw [(ht k).1 hk] at hl
    split at hl
    · cases hl
    · rename_i ho
      exact ⟨hm.builtin k c hl ho, hm.onlyInput k (mem_keys.mpr ⟨c, lookup_mem hl⟩) ho⟩
  refine ⟨h1, h2, ?_⟩
  intro k c hl
  by_cases hk : k ∈ keys new
  · obtain ⟨comps, hmem⟩ := mem_keys.mp hk
    obtain ⟨c', e1, e2⟩ := h1 k comps hmem
    rw [hl] at e1
    cases e1
    rintro rfl
    have := hp.nonempty k comps hmem
    simp at e2
    exact this (List.eq_nil_of_length_eq_zero (by omega))
  · exact (h2 k c hl hk).1

theorem mirrors_accepted {τ : TableOrder} {e e' : Engine L} {new : Ast L.Comp} (hq : EqLaws L)
    (hI : Inv e) (hm : Mirrors e) (hp : ProgWf new) (hc : CleanProg L new)
    (h : e.updateAst τ new = .ok (e', none)) : Mirrors e' := by
  obtain ⟨diff, t1, gone1, t2, gone2, g3, cr, g5, ha⟩ := accepted hI hp h
  obtain ⟨h1, h2, _⟩ := mirrors_staged hq hI hm hp hc ha.staged
  have hast : e'.ast = some new := by rw [ha.eq]
  have hok : ∀ k, k ∈ oldKeys e' ↔ k ∈ keys new := by
    intro k; rw [mem_oldKeys, hast]; simp
  refine ⟨?_, ?_, ?_, ?_⟩
  · intro a ha'; rw [hast] at ha'; cases ha'; exact h1
  · intro a ha'; rw [hast] at ha'; cases ha'; exact hc.dupFree
  · intro k c hl hk
    rw [hok] at hk
    exact (h2 k c hl hk).1
  · intro k hk ho
    rw [hok] at ho
    obtain ⟨c, hmem⟩ := mem_keys.mp hk
    exact (h2 k c (lookup_of_mem ha.facts.keysT3 hmem) ho).2

theorem Mirrors.of_eq {e e' : Engine L} (hm : Mirrors e) (h1 : e'.index = e.index)
    (h2 : e'.ast = e.ast) : Mirrors e' := by
  have hok : ∀ k, k ∈ oldKeys e' ↔ k ∈ oldKeys e := by
    intro k; rw [mem_oldKeys, mem_oldKeys, h2]
  refine ⟨?_, ?_, ?_, ?_⟩
  · rw [h1, h2]; exact hm.len
  · rw [h2]; exact hm.dupFree
  · intro k c hl hk; rw [h1] at hl; rw [hok] at hk; exact hm.builtin k c hl hk
  · intro k hk ho; rw [h1] at hk; rw [hok] at ho; exact hm.onlyInput k hk ho

theorem mirrors_new (L : Lang) (N : Nat) : Mirrors (Engine.new L N) := by
  refine ⟨?_, ?_, ?_, ?_⟩
  · intro a ha; cases ha
  · intro a ha; cases ha
  · intro k c hl _
    have : (Engine.new L N).index = [(inputName, [2])] := rfl
    rw [this] at hl
    simp only [lookup] at hl
    split at hl
    · cases hl; simp
    · cases hl
  · intro k hk _
    have : (Engine.new L N).index = [(inputName, [2])] := rfl
    rw [this] at hk
    simpa [keys] using hk

theorem mirrors_reset (e : Engine L) : Mirrors e.reset := by
  refine ⟨?_, ?_, ?_, ?_⟩
  · intro a ha; cases ha
  · intro a ha; cases ha
  · intro k c hl _
    have : e.reset.index = [] := rfl
    rw [this] at hl
    cases hl
  · intro k hk _
    have : e.reset.index = [] := rfl
    rw [this] at hk
    cases hk

theorem mirrors_apply {e e' : Engine L} {op : Op L} (hL : ParserWf L) (hq : EqLaws L) (hI : Inv e)
    (hm : Mirrors e) (hc : CleanOp op) (h : op.apply e = .ok e') : Mirrors e' := by
  cases op with
  | update τ code =>
    simp only [Op.apply, except_bind_ok] at h
    obtain ⟨⟨e1, r⟩, h1, h⟩ := h
    cases h
    unfold Engine.updateWithCode at h1
    rw [except_bind_ok] at h1
    obtain ⟨p, hp, h1⟩ := h1
    split at h1
    · cases h1; exact hm
    · rename_i new
      cases r with
      | none => exact mirrors_accepted hq hI hm (hL code new hp) (hc new hp) h1
      | some x =>
        have hs := (sameEngine_of_rejected hI (hL code new hp) h1).1
        exact hm.of_eq hs.index hs.ast
  | sendMsg m =>
    have := (onlyNodes_sendMsg h).eq
    exact hm.of_eq (by rw [this]) (by rw [this])
  | setBpm v =>
    have := (setBpm_nodes h).1
    exact hm.of_eq (by rw [this]) (by rw [this])
  | setSr v => cases h; exact hm.of_eq rfl rfl
  | setSeed v => cases h; exact hm.of_eq rfl rfl
  | setTrackAmp v => cases h; exact hm.of_eq rfl rfl
  | addSample n s => cases h; exact hm.of_eq rfl rfl
  | nextBlock ho buf =>
    simp only [Op.apply, except_bind_ok] at h
    obtain ⟨⟨e1, out⟩, h1, h⟩ := h
    cases h
    obtain ⟨e2, g, d, h2, _, _, _, rfl⟩ := nextBlock_ok h1
    have := (onlyNodes_copyInputs h2).eq
    exact hm.of_eq (by show e2.index = _; rw [this]) (by show e2.ast = _; rw [this])
  | reset => cases h; exact mirrors_reset e

theorem Spec.CleanReach.reachable {e : Engine L} (h : CleanReach L e) : Reachable L e := by
  induction h with
  | new N => exact .new N
  | step op _ _ ha ih => exact .step op ih ha

theorem mirrors_clean {e : Engine L} (hL : ParserWf L) (hq : EqLaws L) (h : CleanReach L e) :
    Mirrors e := by
  induction h with
  | new N => exact mirrors_new L N
  | step op hr hc ha ih => exact mirrors_apply hL hq (inv_reachable hL hr.reachable) ih hc ha

theorem refCheck_none {t : Table} {new : Ast L.Comp} (hsub : ∀ k, k ∈ keys new → k ∈ keys t)
    {rs : List Name} (h : refCheck t new rs = none) :
    ∀ r, r ∈ rs → hasDots r = false → r ∈ keys t := by
  induction rs with
  | nil => intro r hr; cases hr
  | cons r0 rs ih =>
    intro r hr hd
    unfold refCheck at h
    simp only at h
    generalize hb : (if hasDots r0 = true then t.any (fun e => (stripDots r0).isPrefixOf e.1)
      else (lookup new r0).isSome || (lookup t r0).isSome) = b at h
    cases b with
    | true =>
      have hok := hb
      simp only [if_true] at h
      rcases List.mem_cons.mp hr with rfl | hr
      · rw [hd] at hok
        simp only [Bool.false_eq_true, if_false, Bool.or_eq_true, lookup_isSome] at hok
        exact hok.elim (hsub r) id
      · exact ih h r hr hd
    | false => simp at h

/-- Every reference pair points at an existing position of a new chain. -/
theorem refpair_pos {e : Engine L} {new : Ast L.Comp} {diff : Diff L}
    (hd : diffAll (L.make e.samples e.sr e.bpm e.seed) e.ast new = .ok diff) {refs : List Name}
    {k : Name} {pos : Nat} (hm : (refs, k, pos) ∈ diff.refpairs) :
    ∃ comps, (k, comps) ∈ new ∧ pos < comps.length := by
  obtain ⟨_, h2, _⟩ := diffAll_mem hd
  obtain ⟨k', comps, dk, hk, hdk, hrp⟩ := h2 _ hm
  have hmem : ∀ {n i : Nat} {c : L.Comp} {l : List L.Comp}, (i, c) ∈ enumFrom n l → i < n + l.length := by
    intro n i c l
    induction l generalizing n with
    | nil => intro h; cases h
    | cons a l ih =>
      intro h
      simp only [enumFrom, List.mem_cons, Prod.mk.injEq] at h
      rcases h with ⟨rfl, _⟩ | h
      · simp
      · have := ih h
        simp only [List.length_cons]
        omega
  unfold diffChain at hdk
  split at hdk
  · obtain ⟨_, _, h3⟩ := addNodes_spec hdk
    obtain ⟨i, c, nd, r, hi, _, _, heq⟩ := (h3 _).mp hrp
    cases heq
    exact ⟨comps, hk, by have := hmem hi; omega⟩
  · rw [except_bind_ok] at hdk
    obtain ⟨d', hd', hdk⟩ := hdk
    simp only [Except.ok.injEq] at hdk
    subst hdk
    obtain ⟨_, _, h3⟩ := addNodes_spec hd'
    rcases List.mem_append.mp hrp with hrp | hrp
    · obtain ⟨j, c, i, c', _, hf, _, heq⟩ := (diffOld_spec.2 _).mp hrp
      cases heq
      unfold findEq at hf
      have := hmem (List.mem_of_find?_eq_some hf)
      exact ⟨comps, hk, by omega⟩
    · obtain ⟨i, c, nd, r, hi, _, _, heq⟩ := (h3 _).mp hrp
      cases heq
      have := hmem (List.mem_filter.mp hi).1
      exact ⟨comps, hk, by omega⟩

/-- No panic during an update of a mirroring engine. -/
theorem updateAst_total {τ : TableOrder} {e : Engine L} {new : Ast L.Comp} (hw : WiringTotal L)
    (hq : EqLaws L) (hI : Inv e) (hm : Mirrors e) (hp : ProgWf new) (hc : CleanProg L new)
    (hmk : ∀ p, diffAll (L.make e.samples e.sr e.bpm e.seed) e.ast new ≠ .error (.panic p)) :
    ∃ r, e.updateAst τ new = .ok r := by
  unfold Engine.updateAst
  simp only
  split
  · rename_i p h; exact absurd h (hmk p)
  · exact ⟨_, rfl⟩
  · rename_i diff hd
    obtain ⟨t1, gone1, t2, gone2, g3, t3, cr, hs⟩ :=
      staged_total hq hI hm hp hc.dupFree (hm.noClash hc) hd
    have h1 : dropChains new (oldKeys { e with temp := [] }) e.index = .ok (t1, gone1) := hs.chains
    rw [h1]
    simp only [bind, Except.bind]
    rw [hs.nodes]
    simp only
    rw [hs.ins]
    simp only
    split
    · exact ⟨_, rfl⟩
    · rename_i hchk
      have f := staged_facts hI hp hs
      obtain ⟨m1, m2, m3⟩ := mirrors_staged hq hI hm hp hc hs
      obtain ⟨r1, r2, _⟩ := removeAll_spec (ids := gone1 ++ gone2) f.wf
      have hfn : (flat e.index).Nodup := by
        have := hI.flatNodup
        simp only [List.nodup_cons] at this
        exact this.2.2
      have hpn := (f.permIndex.nodup_iff).mp hfn
      rw [List.nodup_append] at hpn
      obtain ⟨_, _, hdis⟩ := hpn
      have hflat : ∀ i, i ∈ flat e.index ↔ i ∈ flat t2 ∨ i ∈ gone1 ++ gone2 := by
        intro i; rw [f.permIndex.mem_iff, List.mem_append]
      have hcrn : ∀ i, i ∈ cr → i ∉ flat e.index ∧ i ≠ e.dest := by
        intro i hi
        have hnl := Graph.not_live.mpr (f.cr i hi).1
        rw [hI.live] at hnl
        simp only [not_or] at hnl
        exact ⟨hnl.2.2, hnl.1⟩
      have hlive : ∀ i, g3.Live i → i ∉ gone1 ++ gone2 →
          ((removeAll g3 (gone1 ++ gone2)).clearEdges).Live i := by
        intro i hi hg
        show ∃ a, (removeAll g3 (gone1 ++ gone2)).node? i = some a
        rw [r2]
        simp only [hg, if_false]
        exact hi
      have hg3 : ∀ i, e.graph.Live i → i ∉ cr → g3.Live i := by
        intro i hi hc
        unfold Graph.Live
        rw [f.nodes i hc]
        exact hi
      have htl : TableLive (τ.ord t3) ((removeAll g3 (gone1 ++ gone2)).clearEdges) := by
        intro k c hkc i hi
        have hmem : i ∈ flat t3 := mem_flat.mpr ⟨k, c, (τ.perm t3).mem_iff.mp hkc, hi⟩
        rw [f.permT3.mem_iff, List.mem_append] at hmem
        rcases hmem with hmem | hmem
        · apply hlive
          · apply hg3
            · exact (hI.live i).mpr (.inr (.inr ((hflat i).mpr (.inl hmem))))
            · intro hc; exact (hcrn i hc).1 ((hflat i).mpr (.inl hmem))
          · intro hg; exact hdis i hmem i hg rfl
        · apply hlive
          · exact (f.cr i hmem).2
          · intro hg; exact (hcrn i hmem).1 ((hflat i).mpr (.inr hg))
      have hdl : ((removeAll g3 (gone1 ++ gone2)).clearEdges).Live e.dest := by
        apply hlive
        · apply hg3
          · exact (hI.live _).mpr (.inl rfl)
          · intro hc; exact (hcrn _ hc).2 rfl
        · intro hg
          have := hI.flatNodup
          simp only [List.nodup_cons, List.mem_cons, not_or] at this
          exact this.1.2 ((hflat _).mpr (.inr hg))
      have hne : ∀ k c, (k, c) ∈ τ.ord t3 → c ≠ [] := by
        intro k c hkc
        exact m3 k c (lookup_of_mem f.keysT3 ((τ.perm t3).mem_iff.mp hkc))
      have hkeys : ∀ k, k ∈ keys t3 → k ∈ keys (τ.ord t3) := by
        intro k hk
        obtain ⟨c, hc⟩ := mem_keys.mp hk
        exact mem_keys.mpr ⟨c, (τ.perm t3).mem_iff.mpr hc⟩
      obtain ⟨g5, h5, r5⟩ := connectPairs_total hw hne (pairs := diff.refpairs) (done := []) htl (by
        intro refs name pos hm
        refine ⟨?_, ?_⟩
        · obtain ⟨comps, hk, hpos⟩ := refpair_pos hs.diffEq hm
          obtain ⟨c, hc1, hc2⟩ := m1 name comps hk
          refine ⟨c, ?_, by omega⟩
          rw [lookup_perm (τ.perm t3) f.keysT3]
          exact hc1
        · intro r hr hdots
          apply hkeys
          exact refCheck_none f.newT3 hchk r (List.mem_flatMap.mpr ⟨_, hm, hr⟩) hdots)
      rw [h5]
      simp only
      obtain ⟨g6, h6⟩ := connectTable_total hw (htl.rewired r5) ((r5.live _).mpr hdl)
      rw [h6]
      exact ⟨_, rfl⟩

end Verif
