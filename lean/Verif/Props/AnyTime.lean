import Verif.Props.Untouched
import Verif.Props.Sound
import Verif.Lemmas.OpNode
import Verif.Spec.AnyTime

/-!
# Operators in a program at any time (C50, C52)
-/

namespace Verif
open Spec Props

variable {P : Plat} {N : Nat} {parse : Name → Except Panic (Option (Ast Comp))}

theorem opTag_arith {n : GNode P} {isMul : Bool} {p : NumRef} (h : n.opTag = (arithComp isMul p).opTag) :
    ∃ a, n = arithNode P isMul a := by
  cases isMul with
  | true =>
    cases n with
    | prim n => cases n <;> first | exact ⟨_, rfl⟩ | cases h
    | compound => cases h
    | script => cases h
  | false =>
    cases n with
    | prim n => cases n <;> first | exact ⟨_, rfl⟩ | cases h
    | compound => cases h
    | script => cases h

theorem opTag_balance {n : GNode P} {p q : Name} (h : n.opTag = (Comp.balance p q).opTag) :
    ∃ o, n = .prim (.balance o) := by
  cases n with
  | prim n => cases n <;> first | exact ⟨_, rfl⟩ | cases h
  | compound => cases h
  | script => cases h

/-- The place of the end of a named chain. -/
theorem sourceList_named {L : Lang} {e : Engine L} {a : Ast L.Comp} {b : Bool} (hX : Ctx e a b) {r : Name} {n : Nat}
    (hd : '.' ∉ r) (hch : Chain a b r (n + 1)) {rs : List Name} {srcs : List Nat}
    (h : SourceList e.index (r :: rs) srcs) : ∃ x srcs', srcs = x :: srcs' ∧ Sits e (.at r n) x ∧ SourceList e.index rs srcs' := by
  generalize hl : r :: rs = l at h
  cases h with
  | nil => cases hl
  | @named r' rs' c x srcs' hd' hm hx hrest =>
    cases hl
    obtain ⟨c', h1, h2⟩ := hX.chain.mp hch
    have := Option.some.inj ((lookup_of_mem hX.inv.keysNodup hm).symm.trans (lookup_of_mem hX.inv.keysNodup h1))
    subst this
    refine ⟨x, _, rfl, .at hm ?_, hrest⟩
    rw [List.getLast?_eq_getElem?, h2] at hx
    exact hx
  | pattern _ _ _ =>
    cases hl
    exact absurd (by simp) hd

theorem sideAt_some {x : List Buf} (h : Wide N x) {c s : Nat} (hc : c < 2) (hs : s < N) : ∃ v, sideAt c s x = some v := by
  have get : ∀ b : Buf, b.length = N → ∃ v, b[s]? = some v := fun b hb => ⟨_, List.getElem?_eq_getElem (by omega)⟩
  rcases h.1 with h1 | h1
  · obtain ⟨l, rfl⟩ := List.length_eq_one_iff.mp h1
    exact get l (h.2 l (by simp))
  · obtain ⟨l, r, rfl⟩ := List.length_eq_two.mp h1
    simp only [sideAt]
    split
    · exact get l (h.2 l (by simp))
    · exact get r (h.2 r (by simp))

section
variable {e e' : Engine (glicol P N parse)} {a : Ast Comp} {b : Bool}

theorem PlaysProg.ctx (hL : ParserWf (glicol P N parse)) (h : PlaysProg a b e) : Ctx e a b := by
  have hI := inv_reachable hL h.reach.reachable
  exact ⟨hI, h.ast, mirrors_clean hL (glicol_eqLaws P N _) h.reach, hI.ast a h.ast,
    clean_noInput hL h.reach a h.ast, input_one hL h.reach, h.input,
    (inForce_clean hL (glicol_eqLaws P N _) (glicol_refLaws P N _) h.reach).edges a h.ast h.refs⟩

/-- A block at a place: the node, its list of inputs and what it is given. -/
theorem block_at (hL : ParserWf (glicol P N parse)) {ks : List Name} (hs : ReachBy (glicol P N parse) (SteadyOn ks) e)
    (h : PlaysProg a b e) {k : Name} (hks : k ∈ ks) {comps : List Comp} {i : Nat} {c : Comp} (hk : (k, comps) ∈ a)
    (hi : comps[i]? = some c) (hM : c.modulated = true) (hE : c.effect = true) (hR : c.refs ≠ []) (hseq : ∀ es, c ≠ .seq es)
    (hlead : Leads Comp.refs a b (.at k i) .dest) {ho : HashOrder} {ins out : List (List Fl)}
    (hb : e.nextBlock ho ins = .ok (e', out)) :
    ∃ (nodes srcs : List Nat) (n : Nat) (node node' : GNode P) (bufs o : List Buf) (inputs : Ins) (qs : List Place),
      (k, nodes) ∈ e.index ∧ nodes[i]? = some n ∧ e.graph.node? n = some ⟨node, bufs⟩ ∧ e'.graph.node? n = some ⟨node', o⟩ ∧
      Sits e' (.at k i) n ∧ node.opTag = c.opTag ∧ SourceList e.index c.refs srcs ∧
      node.order = (if i = 0 then [] else (nodes[i - 1]?).toList) ++ srcs ∧
      procG P node inputs bufs = .ok (node', o) ∧ qs.Nodup ∧
      (∀ q, q ∈ qs ↔ Flow Comp.refs a b q (.at k i) ∧ q ≠ .at k i) ∧
      List.Forall₂ (fun x q => Sits e q x.1 ∧ HeardOf (L := glicol P N parse) a b e e' (.at k i) q x.2) inputs qs := by
  have hI := inv_reachable hL h.reach.reachable
  have hq := glicol_eqLaws P N parse
  have hl := glicol_refLaws P N parse
  obtain ⟨sig, prev, _, hc⟩ := c48_block_computes_the_program_partial hL hq hl h.reach a h.ast h.refs ho ins out hb b h.input
  obtain ⟨n, node, node', bufs, inputs, qs, c1, c2, c3, _, c5, c6, c7, c8, c9, c10⟩ := hc _ hlead
  have hin := clean_noInput hL h.reach a h.ast
  have hne : Place.at k i ≠ .at ['~', 'i', 'n', 'p', 'u', 't'] 0 := by
    intro he
    cases he
    exact hin (List.mem_map.mpr ⟨_, hk, rfl⟩)
  rw [c3 hne] at c7
  obtain ⟨nodes, hn, hni⟩ : ∃ nodes, (k, nodes) ∈ e.index ∧ nodes[i]? = some n := by
    cases c1 with
    | «at» m1 m2 => exact ⟨_, m1, m2⟩
  have hkin : Kin c node := Kept.reach hL hq kin_kept hs h.ast hks hk hn hi hni c2
  have htag : node.opTag = c.opTag := Kept.reach hL hq opTag_kept hs h.ast hks hk hn hi hni c2
  have hmk : ∀ smp sr bpm seed nd rs, (glicol P N parse).make smp sr bpm seed c = .ok (nd, rs) →
      rs = (glicol P N parse).refs c := by
    intro smp sr bpm seed nd rs h
    have : rs = makeRefs c := makeNode_refs h
    rw [this]
    exact makeRefs_nodup fun es hes => absurd hes (hseq es)
  obtain ⟨srcs, s1, s2, _⟩ := order_reach hL hq hl (glicol_orderLaws P N parse) order_drift h.reach h.ast h.refs hk hn hi hni
    c2 (hkin.effect hE) (.inl (hkin.modulated hM).1) hmk
  refine ⟨nodes, srcs, n, node, node', bufs, sig (.at k i), inputs, qs, hn, hni, c2, c6, c5, htag, s1, s2 hR, c7, c8, c9, ?_⟩
  refine forall₂_imp_mem c10 ?_
  rintro x q _ hqs ⟨h1, h2⟩
  refine ⟨h1, ?_⟩
  have hqd : Leads Comp.refs a b q .dest := .step ((c9 q).mp hqs).1 hlead
  obtain ⟨m, nq, nq', bq, _, _, d1, d2, d3, _, d5, d6, _⟩ := hc q hqd
  rcases h2 with h2 | ⟨h2, h3⟩
  · exact .inl ⟨m, nq', d5, by rw [h2]; exact d6⟩
  · refine .inr ⟨h2, m, nq, d1, ?_⟩
    have hqi : q ≠ .at ['~', 'i', 'n', 'p', 'u', 't'] 0 := fun hqi =>
      ((c9 q).mp hqs).2 (leads_input hin h2 hqi).symm
    rw [h3, d3 hqi]
    exact d2

end

namespace Props

/-- **C50** (partial), at any time. Whenever a block is rendered, a component `mul ~a` or `add ~a` (chosen by `isMul`) of the
program in force whose signal reaches the output plays, on each side and at each sample, the f32 product or sum of what
its left neighbour and the last component of `~a` play in the same block; what itself depends on the result
(feedback) may be heard from the block before. It does not matter by which edits the program came about, which of its
components were kept, which messages were sent, and in which order the maps are visited. Missing: `mul ~a` at the end of
`~a` itself, patterns `~a..`, histories that re-order or repeat components (C02, C05, C06). -/
theorem c50_any_time_partial {T : P.ext.State → Prop} (hx : ExtShape P N T) (hL : ParserWf (glicol P N parse)) {ks : List Name}
    {e e' : Engine (glicol P N parse)} (hs : ReachBy _ (SteadyOn ks) e) (hN : e.N = N) {a : Ast Comp}
    (hast : e.ast = some a) (hrw : ∀ r, progRefs (glicol P N parse) a r → RefWf r) {b : Bool} (hb : b = true ↔ ['~', 'i', 'n', 'p', 'u', 't'] ∈ e.index.map Prod.fst)
    {k r : Name} {comps : List Comp} {i n : Nat} {isMul : Bool} (hks : k ∈ ks) (hk : (k, comps) ∈ a)
    (hi : comps[i + 1]? = some (arithComp isMul (.ref r))) (hr : '.' ∉ r) (hch : Chain a b r (n + 1))
    (hself : Place.at r n ≠ .at k (i + 1)) (hlead : Leads Comp.refs a b (.at k (i + 1)) .dest)
    {ho : HashOrder} {ins out : List (List Fl)} (hblk : e.nextBlock ho ins = .ok (e', out)) :
    ∃ o x y : List Buf, Holds e' (.at k (i + 1)) o ∧ HeardOf a b e e' (.at k (i + 1)) (.at k i) x ∧
      HeardOf a b e e' (.at k (i + 1)) (.at r n) y ∧ o.length = 2 ∧
      ∀ c s, c < 2 → s < N → ∃ v w z, sideAt c s x = some v ∧ sideAt c s y = some w ∧ o[c]? = some z ∧
        z[s]? = some (arithOp isMul v w) := by
  have hcl := steady_clean hs
  have hp : PlaysProg a b e := ⟨hcl, hast, hrw, hb⟩
  have hX := hp.ctx hL
  have hI := hX.inv
  have hcr : (arithComp isMul (.ref r)).refs = [r] := by cases isMul <;> rfl
  obtain ⟨nodes, srcs, m, node, node', bufs, o, inputs, qs, g1, g2, g3, g4, g5, g6, g7, g8, g9, g10, g11, g12⟩ :=
    block_at hL hs hp hks hk hi (by cases isMul <;> rfl) (by cases isMul <;> rfl) (by rw [hcr]; simp)
      (by intro es; cases isMul <;> simp [arithComp]) hlead hblk
  rw [hcr] at g7
  obtain ⟨j, srcs', rfl, hj, hrest⟩ := sourceList_named hX hr hch g7
  cases hrest
  obtain ⟨l, hl⟩ : ∃ l, nodes[i]? = some l :=
    ⟨_, List.getElem?_eq_getElem (by have := (List.getElem?_eq_some_iff.mp g2).1; omega)⟩
  have hsl : Sits e (.at k i) l := .at g1 hl
  simp only [Nat.add_one_ne_zero, if_false, Nat.add_sub_cancel, hl, Option.toList_some] at g8
  obtain ⟨ar, rfl⟩ := opTag_arith (P := P) g6
  have hord : ar.order = [l, j] := by cases isMul <;> exact g8
  have hn := hI.ast a hast
  have hin := clean_noInput hL hcl a hast
  have hne : Place.at r n ≠ .at k i := by
    intro he
    cases he
    have := chain_unique hn hin hch (.prog hk)
    have := (List.getElem?_eq_some_iff.mp hi).1
    omega
  have hlj : l ≠ j := fun h => hne (sits_place hI hj (h ▸ hsl))
  have hflow : ∀ q, Flow Comp.refs a b q (.at k (i + 1)) ↔ q = .at k i ∨ q = .at r n := by
    intro q
    rw [flow_into hn hk hi, hcr]
    constructor
    · rintro (⟨j, hj, rfl⟩ | ⟨r', k', n', hr', hm, hc, rfl⟩)
      · cases hj; exact .inl rfl
      · rw [List.mem_singleton] at hr'
        subst hr'
        generalize hrr : r' = r at hm
        cases hm with
        | named _ =>
          subst hrr
          have := chain_unique hn hin hc hch
          cases this
          exact .inr rfl
        | pattern _ _ =>
          subst hrr
          exact absurd (by simp) hr
    · rintro (rfl | rfl)
      · exact .inl ⟨i, rfl, rfl⟩
      · exact .inr ⟨r, r, n, by simp, .named hr, hch, rfl⟩
  have hqs : qs.Perm [.at k i, .at r n] := by
    refine (List.perm_ext_iff_of_nodup g10 (by simp [hne.symm])).mpr ?_
    intro q
    rw [g11, hflow]
    simp only [List.mem_cons, List.not_mem_nil, or_false]
    constructor
    · exact fun h => h.1
    · intro hq
      refine ⟨hq, ?_⟩
      rintro rfl
      rcases hq with hq | hq
      · simp at hq
      · exact hself hq.symm
  obtain ⟨x, y, hx1, hy1, hinp⟩ : ∃ x y : List Buf, HeardOf (L := glicol P N parse) a b e e' (.at k (i + 1)) (.at k i) x ∧
      HeardOf (L := glicol P N parse) a b e e' (.at k (i + 1)) (.at r n) y ∧
      (inputs = [(l, x), (j, y)] ∨ inputs = [(j, y), (l, x)]) := by
    rcases perm_pair hqs with rfl | rfl
    · cases g12 with
      | @cons x _ _ _ hx hxs =>
        cases hxs with
        | @cons y _ _ _ hy hys =>
          cases hys
          refine ⟨x.2, y.2, hx.2, hy.2, .inl ?_⟩
          rw [← sits_node hI hx.1 hsl, ← sits_node hI hy.1 hj]
    · cases g12 with
      | @cons y _ _ _ hy hxs =>
        cases hxs with
        | @cons x _ _ _ hx hys =>
          cases hys
          refine ⟨x.2, y.2, hx.2, hy.2, .inr ?_⟩
          rw [← sits_node hI hx.1 hsl, ← sits_node hI hy.1 hj]
  have hr1 : Reachable _ e' := .step (.nextBlock ho ins) hcl.reachable (by simp only [Op.apply, hblk]; rfl)
  have hN1 : e'.N = N := (apply_N hL hcl.reachable (op := .nextBlock ho ins) (by simp only [Op.apply, hblk]; rfl)).trans hN
  have wide : ∀ {q x}, HeardOf (L := glicol P N parse) a b e e' (.at k (i + 1)) q x → Wide N x := by
    rintro q x (⟨_, _, _, h⟩ | ⟨_, _, _, _, h⟩)
    · exact wide_reach hx hL hr1 hN1 _ _ h
    · exact wide_reach hx hL hcl.reachable hN _ _ h
  have hpair : bufs.length = 2 := by
    refine op_pair hx hL hcl.reachable hN _ _ g3 ?_
    cases isMul <;> exact fun h => by cases h
  obtain ⟨o', o1, o2, o3⟩ := applyOp_blocks (arithOp isMul) ar.val l j hlj (wide hx1) (wide hy1) hinp hpair
  rw [arith_proc, hord, o1] at g9
  cases g9
  refine ⟨o, x, y, ⟨m, _, g5, g4⟩, hx1, hy1, o2, ?_⟩
  intro c s hc hs
  obtain ⟨v, hv⟩ := sideAt_some (wide hx1) hc hs
  obtain ⟨w, hw⟩ := sideAt_some (wide hy1) hc hs
  obtain ⟨z, z1, z2⟩ := o3 c s v w hc hv hw
  exact ⟨v, w, z, hv, hw, z1, z2⟩

/-- **C52** (partial), at any time. Whenever a block is rendered, a component `balance ~a ~b` at the head of a chain of the
program in force whose signal reaches the output plays on the left the first channel of what the last component of `~a`
plays in the same block, on the right that of `~b`; what itself depends on the result (feedback) may be heard from the block
before. Edits, kept components, messages and iteration orders do not matter. Missing: `balance ~a ~a`, for which it is
false, patterns `~a..`, histories that re-order or repeat components (C02, C05, C06). -/
theorem c52_any_time_partial {T : P.ext.State → Prop} (hx : ExtShape P N T) (hL : ParserWf (glicol P N parse)) {ks : List Name}
    {e e' : Engine (glicol P N parse)} (hs : ReachBy _ (SteadyOn ks) e) (hN : e.N = N) {a : Ast Comp}
    (hast : e.ast = some a) (hrw : ∀ r, progRefs (glicol P N parse) a r → RefWf r) {b : Bool} (hb : b = true ↔ ['~', 'i', 'n', 'p', 'u', 't'] ∈ e.index.map Prod.fst)
    {k r r' : Name} {comps : List Comp} {n n' : Nat} (hks : k ∈ ks) (hk : (k, comps) ∈ a)
    (hi : comps[0]? = some (.balance r r')) (hr : '.' ∉ r) (hch : Chain a b r (n + 1)) (hr' : '.' ∉ r')
    (hch' : Chain a b r' (n' + 1)) (hne : r ≠ r') (hself : Place.at r n ≠ .at k 0) (hself' : Place.at r' n' ≠ .at k 0)
    (hlead : Leads Comp.refs a b (.at k 0) .dest) {ho : HashOrder} {ins out : List (List Fl)}
    (hblk : e.nextBlock ho ins = .ok (e', out)) :
    ∃ l x r₀ y, Holds e' (.at k 0) [l, r₀] ∧ HeardOf a b e e' (.at k 0) (.at r n) (l :: x) ∧
      HeardOf a b e e' (.at k 0) (.at r' n') (r₀ :: y) := by
  have hcl := steady_clean hs
  have hp : PlaysProg a b e := ⟨hcl, hast, hrw, hb⟩
  have hX := hp.ctx hL
  have hI := hX.inv
  have hcr : (Comp.balance r r').refs = [r, r'] := rfl
  obtain ⟨nodes, srcs, m, node, node', bufs, o, inputs, qs, g1, g2, g3, g4, g5, g6, g7, g8, g9, g10, g11, g12⟩ :=
    block_at hL hs hp hks hk hi rfl rfl (by rw [hcr]; simp) (by intro es; simp) hlead hblk
  rw [hcr] at g7
  obtain ⟨j, srcs1, rfl, hj, hrest⟩ := sourceList_named hX hr hch g7
  obtain ⟨j', srcs2, rfl, hj', hrest⟩ := sourceList_named hX hr' hch' hrest
  cases hrest
  simp only [if_true, List.nil_append] at g8
  obtain ⟨ord, rfl⟩ := opTag_balance (P := P) g6
  have hord : ord = [j, j'] := g8
  subst hord
  have hn := hI.ast a hast
  have hin := clean_noInput hL hcl a hast
  have hpne : Place.at r n ≠ .at r' n' := fun h => hne (by cases h; rfl)
  have hjj : j ≠ j' := fun h => hpne (sits_place hI hj (h ▸ hj'))
  have one : ∀ {r₁ r₂ k' : Name} {n₁ n₂ : Nat}, '.' ∉ r₁ → Means r₁ k' → Chain a b k' (n₂ + 1) → Chain a b r₁ (n₁ + 1) →
      Place.at k' n₂ = .at r₁ n₁ := by
    intro r₁ r₂ k' n₁ n₂ hr₁ hm hc hch₁
    cases hm with
    | named _ =>
      have := chain_unique hn hin hc hch₁
      cases this
      rfl
    | pattern _ _ => exact absurd (by simp) hr₁
  have hflow : ∀ q, Flow Comp.refs a b q (.at k 0) ↔ q = .at r n ∨ q = .at r' n' := by
    intro q
    rw [flow_into hn hk hi, hcr]
    constructor
    · rintro (⟨j, hj, rfl⟩ | ⟨r₁, k', n₁, hr₁, hm, hc, rfl⟩)
      · cases hj
      · simp only [List.mem_cons, List.not_mem_nil, or_false] at hr₁
        rcases hr₁ with rfl | rfl
        · exact .inl (one (r₂ := k') hr hm hc hch)
        · exact .inr (one (r₂ := k') hr' hm hc hch')
    · rintro (rfl | rfl)
      · exact .inr ⟨r, r, n, by simp, .named hr, hch, rfl⟩
      · exact .inr ⟨r', r', n', by simp, .named hr', hch', rfl⟩
  have hqs : qs.Perm [.at r n, .at r' n'] := by
    refine (List.perm_ext_iff_of_nodup g10 (by simp [hpne])).mpr ?_
    intro q
    rw [g11, hflow]
    simp only [List.mem_cons, List.not_mem_nil, or_false]
    constructor
    · exact fun h => h.1
    · intro hq
      refine ⟨hq, ?_⟩
      rintro rfl
      rcases hq with hq | hq
      · exact hself hq.symm
      · exact hself' hq.symm
  obtain ⟨x, y, hx1, hy1, hinp⟩ : ∃ x y : List Buf, HeardOf (L := glicol P N parse) a b e e' (.at k 0) (.at r n) x ∧
      HeardOf (L := glicol P N parse) a b e e' (.at k 0) (.at r' n') y ∧
      (inputs = [(j, x), (j', y)] ∨ inputs = [(j', y), (j, x)]) := by
    rcases perm_pair hqs with rfl | rfl
    · cases g12 with
      | @cons x _ _ _ hx hxs =>
        cases hxs with
        | @cons y _ _ _ hy hys =>
          cases hys
          refine ⟨x.2, y.2, hx.2, hy.2, .inl ?_⟩
          rw [← sits_node hI hx.1 hj, ← sits_node hI hy.1 hj']
    · cases g12 with
      | @cons y _ _ _ hy hxs =>
        cases hxs with
        | @cons x _ _ _ hx hys =>
          cases hys
          refine ⟨x.2, y.2, hx.2, hy.2, .inr ?_⟩
          rw [← sits_node hI hx.1 hj, ← sits_node hI hy.1 hj']
  have hr1 : Reachable _ e' := .step (.nextBlock ho ins) hcl.reachable (by simp only [Op.apply, hblk]; rfl)
  have hN1 : e'.N = N := (apply_N hL hcl.reachable (op := .nextBlock ho ins) (by simp only [Op.apply, hblk]; rfl)).trans hN
  have wide : ∀ {q x}, HeardOf (L := glicol P N parse) a b e e' (.at k 0) q x → Wide N x := by
    rintro q x (⟨_, _, _, h⟩ | ⟨_, _, _, _, h⟩)
    · exact wide_reach hx hL hr1 hN1 _ _ h
    · exact wide_reach hx hL hcl.reachable hN _ _ h
  have hpair : bufs.length = 2 := op_pair hx hL hcl.reachable hN _ _ g3 (fun h => by cases h)
  obtain ⟨p₁, p₂, rfl⟩ := List.length_eq_two.mp hpair
  have first : ∀ {x : List Buf}, Wide N x → ∃ l t, x = l :: t := by
    intro x hw
    cases x with
    | nil => have := hw.1; simp at this
    | cons l t => exact ⟨l, t, rfl⟩
  obtain ⟨l, x, rfl⟩ := first (wide hx1)
  obtain ⟨r₀, y, rfl⟩ := first (wide hy1)
  have e1 : (j == j') = false := beq_false_of_ne hjj
  have e2 : (j' == j) = false := beq_false_of_ne (fun h => hjj h.symm)
  have hproc : procBalance [j, j'] inputs [p₁, p₂] = .ok [l, r₀] := by
    rcases hinp with rfl | rfl <;>
      simp [procBalance, inputAt, chan, bind, Except.bind, setStereo, List.find?, e1, e2]
  have hG : procG P (.prim (.balance [j, j'])) inputs [p₁, p₂] = .ok (.prim (.balance [j, j']), [l, r₀]) := by
    simp only [procG, procPrim, hproc]
    rfl
  rw [hG] at g9
  cases g9
  exact ⟨l, x, r₀, y, ⟨m, _, g5, g4⟩, hx1, hy1⟩

/-! ### An example -/

theorem orderKept_self {κ : Type} {eq : κ → κ → Bool} {l : List κ} (h : ∀ c ∈ l, eq c c = true) : OrderKept eq l l := by
  have hf : ∀ p : κ → Bool, (∀ c ∈ l, p c = true) → l.filter p = l := fun p hp => List.filter_eq_self.mpr hp
  unfold OrderKept
  rw [hf (fun o => l.any (fun c => eq o c)) (fun c hc => List.any_eq_true.mpr ⟨c, hc, h c hc⟩),
    hf (fun c => l.any (fun o => eq o c)) (fun c hc => List.any_eq_true.mpr ⟨c, hc, h c hc⟩)]
  exact List.forall₂_same.mpr h

/-- `o: constsig 3 >> mul ~a`, `p: balance ~a ~b`, `~b: constsig 5` and `~a: constsig v`. -/
def opsProg (v : Fl) : Ast Comp := [(c!"o", [.constsig (.fin 3), arithComp true (.ref c!"~a")]),
  (c!"p", [.balance c!"~a" c!"~b"]), (c!"~b", [.constsig (.fin 5)]), (c!"~a", [.constsig v])]

/-- The program with 2, and the same with 7. -/
abbrev opsLang : Lang := glicol Demo.plat 2 (Demo.table [(['1'], opsProg (.fin 2)), (['2'], opsProg (.fin 7))])

theorem ops_parse {code : Name} {p : Ast Comp} (h : opsLang.parse code = .ok (some p)) :
    p = opsProg (.fin 2) ∨ p = opsProg (.fin 7) := by
  have h : lookup [(['1'], opsProg (.fin 2)), (['2'], opsProg (.fin 7))] code = some p := Except.ok.inj h
  have := lookup_mem h
  simp only [List.mem_cons, Prod.mk.injEq, List.not_mem_nil, or_false] at this
  exact this.imp And.right And.right

theorem ops_mem {v : Fl} {k : Name} {c : List Comp} (h : (k, c) ∈ opsProg v) :
    (k = c!"o" ∧ c = [.constsig (.fin 3), arithComp true (.ref c!"~a")]) ∨ (k = c!"p" ∧ c = [.balance c!"~a" c!"~b"]) ∨
    (k = c!"~b" ∧ c = [.constsig (.fin 5)]) ∨ (k = c!"~a" ∧ c = [.constsig v]) := by
  simpa only [opsProg, List.mem_cons, Prod.mk.injEq, List.not_mem_nil, or_false] using h

theorem ops_clean {p : Ast Comp} (h : p = opsProg (.fin 2) ∨ p = opsProg (.fin 7)) : CleanProg opsLang p := by
  rcases h with rfl | rfl <;> refine ⟨fun k c hc => ?_, by decide⟩ <;>
    (show c.Pairwise (fun a b => Comp.eq a b = false)
     rcases ops_mem hc with ⟨_, rfl⟩ | ⟨_, rfl⟩ | ⟨_, rfl⟩ | ⟨_, rfl⟩ <;> decide +kernel)

theorem ops_wf : ParserWf opsLang := by
  intro code p h
  rcases ops_parse h with rfl | rfl <;> refine ⟨by decide, fun k c hc => ?_⟩ <;>
    (rcases ops_mem hc with ⟨_, rfl⟩ | ⟨_, rfl⟩ | ⟨_, rfl⟩ | ⟨_, rfl⟩ <;> exact List.cons_ne_nil _ _)

/-- All hypotheses are met by an engine in which `o` and `p` are kept from the program before and `~a` is changed, and the
next block is as the theorems say: 3 times 7, and 7 on the left and 5 on the right. -/
example : ExtShape Demo.plat 2 (fun _ => True) ∧ ParserWf opsLang ∧ ∃ e : Engine opsLang,
    ReachBy opsLang (SteadyOn [c!"o", c!"p"]) e ∧ e.N = 2 ∧ e.ast = some (opsProg (.fin 7)) ∧
    ['~', 'i', 'n', 'p', 'u', 't'] ∈ e.index.map Prod.fst ∧ Chain (opsProg (.fin 7)) true c!"~a" 1 ∧
    Chain (opsProg (.fin 7)) true c!"~b" 1 ∧ Leads Comp.refs (opsProg (.fin 7)) true (.at c!"o" 1) .dest ∧
    Leads Comp.refs (opsProg (.fin 7)) true (.at c!"p" 0) .dest ∧
    PlaceSignal (.at c!"o" 1) e [(.rev, [])] [[[.fin 21, .fin 21], [.fin 21, .fin 21]]] ∧
    PlaceSignal (.at c!"p" 0) e [(.ident, [])] [[[.fin 7, .fin 7], [.fin 5, .fin 5]]] := by
  refine ⟨⟨fun _ _ _ _ _ => trivial, fun _ _ _ _ _ _ => trivial, ?_⟩, ops_wf, ?_⟩
  · intro s o ins b s' b' _ _ hb h
    cases h
    exact ⟨trivial, rfl, hb⟩
  let is (l r : Fl) : Option (List (List (List Fl))) → Bool := fun x => decide (x = some [[[l, l], [r, r]]])
  have his : ∀ l r x, is l r x = true → x = some [[[l, l], [r, r]]] := fun l r x h => of_decide_eq_true h
  have h : (match (Engine.new opsLang 2).updateWithCode TableOrder.ident ['1'] with
    | .ok (e0, none) =>
      (match e0.updateWithCode TableOrder.ident ['2'] with
      | .ok (e1, none) => decide (inputName ∈ e1.index.map Prod.fst) &&
        is (.fin 21) (.fin 21) (playAt c!"o" 1 [(.rev, [])] e1) && is (.fin 7) (.fin 5) (playAt c!"p" 0 [(.ident, [])] e1)
      | _ => false)
    | _ => false) = true := by kernel_rfl
  split at h
  · rename_i e0 h0
    split at h
    · rename_i e1 h1
      simp only [Bool.and_eq_true, decide_eq_true_eq] at h
      obtain ⟨⟨hin, s0⟩, s1⟩ := h
      have ast : ∀ {e e' : Engine opsLang} {code p}, Reachable opsLang e → opsLang.parse code = .ok (some p) →
          e.updateWithCode .ident code = .ok (e', none) → e'.ast = some p := by
        intro e e' code p hr hp hu
        unfold Engine.updateWithCode at hu
        rw [hp] at hu
        replace hu : e.updateAst .ident p = .ok (e', none) := hu
        obtain ⟨_, _, _, _, _, _, _, _, hacc⟩ := accepted (inv_reachable ops_wf hr) (ops_wf code p hp) hu
        exact congrArg Engine.ast hacc.eq
      have hr0 : ReachBy opsLang (SteadyOn [c!"o", c!"p"]) e0 := by
        refine .step (.update .ident ['1']) (.new 2) ?_ (by simp only [Op.apply, h0]; rfl)
        intro p hp
        refine ⟨ops_clean (ops_parse hp), fun k comps old _ _ hold => ?_⟩
        rcases hold with ⟨a, ha, _⟩ | ⟨rfl, _⟩
        · cases ha
        · simp [OrderKept]
      have ha0 := ast (.new 2) rfl h0
      have hr1 : ReachBy opsLang (SteadyOn [c!"o", c!"p"]) e1 := by
        refine .step (.update .ident ['2']) hr0 ?_ (by simp only [Op.apply, h1]; rfl)
        intro p hp
        have hp' : p = opsProg (.fin 7) := by cases hp; rfl
        subst hp'
        refine ⟨ops_clean (ops_parse hp), fun k comps old hk hm hold => ?_⟩
        have hold' : (k, old) ∈ opsProg (.fin 2) := by
          rcases hold with ⟨a, ha, hm'⟩ | ⟨rfl, hno⟩
          · rw [ha0] at ha
            cases ha
            exact hm'
          · refine absurd ?_ (hno _ ha0)
            simp only [List.mem_cons, List.not_mem_nil, or_false] at hk
            rcases hk with rfl | rfl <;> decide
        simp only [List.mem_cons, List.not_mem_nil, or_false] at hk
        have hsame : old = comps := by
          rcases ops_mem hm with ⟨h1, rfl⟩ | ⟨h1, rfl⟩ | ⟨h1, rfl⟩ | ⟨h1, rfl⟩ <;>
            rcases ops_mem hold' with ⟨h2, rfl⟩ | ⟨h2, rfl⟩ | ⟨h2, rfl⟩ | ⟨h2, rfl⟩ <;>
            rcases hk with rfl | rfl <;> first | rfl | (simp at h1; done) | (simp at h2; done)
        subst hsame
        refine orderKept_self ?_
        rcases ops_mem hm with ⟨_, rfl⟩ | ⟨_, rfl⟩ | ⟨_, rfl⟩ | ⟨_, rfl⟩ <;>
          exact (List.all_eq_true (p := fun c => opsLang.compEq c c)).mp (by decide +kernel)
      refine ⟨e1, hr1, ?_, ast (steady_clean hr0).reachable rfl h1, hin, .prog (comps := [.constsig (.fin 7)]) (by simp [opsProg]),
        .prog (comps := [.constsig (.fin 5)]) (by simp [opsProg]), ?_, ?_, playAt_spec (his _ _ _ s0), playAt_spec (his _ _ _ s1)⟩
      · have n0 : e0.N = 2 := apply_N ops_wf (.new 2) (op := .update .ident ['1']) (by simp only [Op.apply, h0]; rfl)
        exact (apply_N ops_wf (steady_clean hr0).reachable (op := .update .ident ['2']) (by simp only [Op.apply, h1]; rfl)).trans n0
      · exact .step (.out (.prog (comps := [.constsig (.fin 3), arithComp true (.ref c!"~a")]) (by simp [opsProg])) (by decide)) (.refl _)
      · exact .step (.out (.prog (comps := [.balance c!"~a" c!"~b"]) (by simp [opsProg])) (by decide)) (.refl _)
    · cases h
  · cases h

end Props

end Verif
