import Verif.Lemmas.ScriptFirst
import Verif.Lemmas.UntouchedFlow
import Verif.Lemmas.SetOrder
import Verif.Lemmas.Eval
import Verif.Spec.Demo
import Verif.Spec.Text

/-!
# Chains that an edit does not touch (C73)
-/

namespace Verif
open Spec Props

variable {P : Plat} {N : Nat} {parse : Name → Except Panic (Option (Ast Comp))}

/-! ### The node across the edit -/

/-- The references that the builder reports are those of the component, unless a sequencer repeats one. -/
theorem makeRefs_nodup {c : Comp} (h : ∀ e, c = .seq e → c.refs.Nodup) : makeRefs c = c.refs := by
  cases c with
  | seq e =>
    have hn := h e rfl
    have key : ∀ (es : List (Fl × NatRef)) (acc : List Name),
        (acc ++ es.flatMap (fun x => x.2.refs)).Nodup →
        es.foldl (fun acc e => match e.2 with
          | .nat _ => acc
          | .ref r => if acc.contains r then acc else acc ++ [r]) acc = acc ++ es.flatMap (fun x => x.2.refs) := by
      intro es
      induction es with
      | nil => intro acc _; simp
      | cons e es ih =>
        intro acc hn
        obtain ⟨t, v⟩ := e
        cases v with
        | nat n => exact ih acc hn
        | ref r =>
          replace hn : (acc ++ ([r] ++ es.flatMap (fun x => x.2.refs))).Nodup := hn
          show es.foldl _ (if acc.contains r then acc else acc ++ [r]) = acc ++ ([r] ++ es.flatMap (fun x => x.2.refs))
          have hr : acc.contains r = false := by
            rw [List.contains_eq_mem]
            simp only [decide_eq_false_iff_not]
            intro hm
            rw [List.nodup_append] at hn
            exact hn.2.2 r hm r (by simp) rfl
          rw [hr, if_neg (by simp), ih _ (by rw [List.append_assoc]; exact hn), List.append_assoc]
    exact (key e [] (by simpa [Comp.refs] using hn)).trans (by simp [Comp.refs])
  | _ => rfl

/-- Wiring messages only change the list of inputs. -/
theorem wire_set {gs : List (Msg Fl)} (hg : ∀ g, g ∈ gs → IsWiring g) : ∀ {n n' : GNode P}, n.keepsOrder →
    gs.foldlM (msgG P) n = .ok n' → n' = n.setOrder n'.order := by
  induction gs with
  | nil => intro n n' _ h; cases h; exact GNode.setOrder_self.symm
  | cons g gs ih =>
    intro n n' hk h
    rw [List.foldlM_cons, except_bind_ok] at h
    obtain ⟨n1, h1, h⟩ := h
    have h2 := msgG_set (hg g (by simp)) hk h1
    have h3 := ih (fun g h => hg g (List.mem_cons_of_mem _ h)) ((msgG_wiring (hg g (by simp)) h1).1.mpr hk) h
    rw [h3]
    rw [GNode.order_set ((msgG_wiring (hg g (by simp)) h1).1.mpr hk)]
    conv_lhs => rw [h2]
    exact GNode.setOrder_set

theorem wire_pass {gs : List (Msg Fl)} : ∀ {n' : GNode P}, gs.foldlM (msgG P) (.prim .pass) = .ok n' →
    n' = .prim .pass := by
  induction gs with
  | nil => intro n' h; cases h; rfl
  | cons g gs ih =>
    intro n' h
    rw [List.foldlM_cons, except_bind_ok] at h
    obtain ⟨n1, h1, h⟩ := h
    have := (msgG_kind h1).2.2.2.2 rfl
    rw [this] at h
    exact ih h

/-- The components whose nodes may remember more inputs after the edit than before. -/
def Comp.grows (i : Nat) (c : Comp) : Prop := c.effect = true ∧ c.refs = [] ∧ i ≠ 0

/-- The node before the edit and the node after it. -/
def Twins (i : Nat) (c : Comp) (n0 n1 : GNode P) : Prop :=
  (¬ c.grows i → n1 = n0) ∧ (c.grows i → ∃ l, n1 = n0.setOrder l ∧ n0.order.head? = l.head?)

/-- How a component to which the theorem applies is used. -/
theorem PlaysOn.cases {i : Nat} {c : Comp} (h : PlaysOn i c) :
    (c.effect = true ∧ c.refs = [] ∧ (i ≠ 0 → c.isArrange = false)) ∨ (c.modulated = true ∧ c.effect = true ∧ c.refs ≠ []) ∨
    (c.isGet = true ∧ c.effect = false ∧ i = 0 ∧ ∃ r, c.refs = [r]) ∨ (c.effect = false ∧ i = 0 ∧ c.refs = []) := by
  cases c <;> first
    | exact .inr (.inr (.inr ⟨rfl, h, rfl⟩))
    | exact .inr (.inr (.inl ⟨rfl, rfl, h, _, rfl⟩))
    | exact .inr (.inr (.inr ⟨rfl, h.1, h.2⟩))
    | exact h.elim
    | exact .inl ⟨rfl, h, fun _ => rfl⟩
    | exact .inl ⟨rfl, rfl, fun _ => rfl⟩
    | (rename_i x
       by_cases hr : (Comp.arrange x).refs = []
       · exact .inl ⟨rfl, hr, fun hi => ((h.resolve_left hi) hr).elim⟩
       · exact .inr (.inl ⟨rfl, rfl, hr⟩))
    | (refine Classical.byCases (fun hr => .inl ⟨rfl, hr, fun _ => rfl⟩) (fun hr => .inr (.inl ⟨rfl, rfl, hr⟩)))

/-- Wiring a node as it is wired already. -/
theorem twins_of_wire {i : Nat} {c : Comp} {n0 n1 : GNode P} {left : Option Nat} {srcs : List Nat} (hplay : PlaysOn i c)
    (hkin : Kin c n0) (hl0 : i = 0 → left = none) (hl1 : i ≠ 0 → ∃ l, left = some l) (hs : c.refs = [] → srcs = [])
    (hord : n0.keepsOrder → (n0.empties ∨ c.refs = []) → (c.refs ≠ [] → n0.order = left.toList ++ srcs) ∧
      (left.toList ++ srcs) <+: n0.order)
    (hwire : (wiring c.refs srcs left).foldlM (msgG P) n0 = .ok n1) : Twins i c n0 n1 := by
  have hwiring : ∀ g : Msg Fl, g ∈ wiring c.refs srcs left → IsWiring g := by
    intro g hg
    unfold wiring at hg
    rcases List.mem_append.mp hg with hg | hg
    · split at hg
      · cases hg
      · rcases List.mem_cons.mp hg with rfl | hg
        · trivial
        · obtain ⟨_, _, rfl⟩ := List.mem_map.mp hg
          trivial
    · obtain ⟨_, _, rfl⟩ := List.mem_map.mp hg
      trivial
  rcases PlaysOn.cases hplay with ⟨hE, hR, hA⟩ | ⟨hM, hE, hR⟩ | ⟨hG, hE, hi0, _⟩ | ⟨hE, hi0, hR⟩
  · -- not modulated
    have hks := hkin.effect hE
    have h2 := (hord hks (.inr hR)).2
    rw [hR] at hwire
    rw [hs hR] at h2
    by_cases hz : i = 0
    · rw [hl0 hz] at hwire
      cases hwire
      exact ⟨fun _ => rfl, fun h => absurd hz h.2.2⟩
    · refine ⟨fun h => absurd ⟨hE, hR, hz⟩ h, fun _ => ?_⟩
      obtain ⟨l, rfl⟩ := hl1 hz
      simp only [wiring, if_true, List.nil_append, Option.toList_some, List.map_cons, List.map_nil, List.foldlM_cons,
        List.foldlM_nil, except_bind_ok] at hwire
      obtain ⟨n1, m1, m2⟩ := hwire
      cases m2
      refine ⟨_, msgG_front hks m1, ?_⟩
      obtain ⟨t, ht⟩ := h2
      rw [← ht]
      rfl
  · -- modulated
    have hks := hkin.effect hE
    have hem0 := (hkin.modulated hM).1
    have h1 := (hord hks (.inl hem0)).1 hR
    have hset := wire_set hwiring hks hwire
    have hkn : n1.keepsOrder := by
      rw [hset]
      exact GNode.keeps_set hks
    have hem : n1.empties := by
      have : ∀ {gs : List (Msg Fl)} {x y : GNode P}, gs.foldlM (msgG P) x = .ok y → x.empties → y.empties := by
        intro gs
        induction gs with
        | nil => intro x y h hx; cases h; exact hx
        | cons g gs ih =>
          intro x y h hx
          rw [List.foldlM_cons, except_bind_ok] at h
          obtain ⟨z, h1, h⟩ := h
          exact ih h ((msgG_kind h1).2.1.mpr hx)
      exact this hwire hem0
    have hw := (wire_order (glicol_orderLaws P 0 (fun _ => .ok none)) (n := n0) (n' := n1) hkn (.inl hem)
      (fun h => absurd h hR) hwire).1 hR
    have hw : n1.order = n0.order := hw.trans h1.symm
    rw [hw, GNode.setOrder_self] at hset
    exact ⟨fun _ => hset, fun h => absurd h.2.1 hR⟩
  · have hg := hkin.get hG
    subst hg
    rw [wire_pass hwire]
    exact ⟨fun _ => rfl, fun h => by have := h.1; rw [hE] at this; cases this⟩
  · rw [hR, hl0 hi0] at hwire
    cases hwire
    exact ⟨fun _ => rfl, fun h => by have := h.1; rw [hE] at this; cases this⟩

/-- An edit leaves the nodes of untouched chains as they are, except that those that are not modulated remember the node
on their left once more. -/
theorem untouched_twins (hL : ParserWf (glicol P N parse)) {ks : List Name} {e e' : Engine (glicol P N parse)}
    (hr : ReachBy (glicol P N parse) (SteadyOn ks) e) {τ : TableOrder} {code : Name} {a0 a1 : Ast Comp}
    (h0 : e.ast = some a0) (hrw0 : ∀ r, progRefs (glicol P N parse) a0 r → RefWf r)
    (hp : parse code = .ok (some a1)) (hc : CleanProg (glicol P N parse) a1)
    (hrw1 : ∀ r, progRefs (glicol P N parse) a1 r → RefWf r) (hu : e.updateWithCode τ code = .ok (e', none))
    (hK : Untouched Comp.eq Comp.refs a0 a1 ks) {k : Name} (hk : k ∈ ks) {comps : List Comp} (hkc : (k, comps) ∈ a0)
    {i : Nat} {c : Comp} (hi : comps[i]? = some c) (hplay : PlaysOn i c) :
    ∃ nodes n d0 d1, (k, nodes) ∈ e.index ∧ (k, nodes) ∈ e'.index ∧ nodes[i]? = some n ∧ e.graph.node? n = some d0 ∧
      e'.graph.node? n = some d1 ∧ d1.buffers = d0.buffers ∧ Kin c d0.node ∧ Twins i c d0.node d1.node := by
  have hcl := steady_clean hr
  have hI := inv_reachable hL hcl.reachable
  have hI' : Inv e' := inv_reachable hL (.step (.update τ code) hcl.reachable (by simp only [Op.apply, hu]; rfl))
  have hq := glicol_eqLaws P N parse
  have hl := glicol_refLaws P N parse
  have same : ∀ {r : Name}, r ∈ ks → ∀ {x : List Comp}, (r, x) ∈ a0 → x ≠ [] → ∃ nodes, (r, nodes) ∈ e.index ∧
      (r, nodes) ∈ e'.index ∧ nodes.length = x.length := by
    intro r hrk x hx hne
    obtain ⟨y, h1, h2, h3⟩ := untouched_chain hK hrk
    have := key_unique (hI.ast a0 h0).names hx h1
    subst this
    exact untouched_nodes hL hq hcl h0 hp hc hu h1 h2 (fun c h => (h3 c h).1) hne
  obtain ⟨comps', hk0, hk1, hcs⟩ := untouched_chain hK hk
  have := key_unique (hI.ast a0 h0).names hkc hk0
  subst this
  have hci := List.mem_of_getElem? hi
  obtain ⟨nodes, hn0, hn1, hlen⟩ := same hk hkc (by rintro rfl; cases hi)
  obtain ⟨n, hn⟩ : ∃ n, nodes[i]? = some n :=
    ⟨_, List.getElem?_eq_getElem (hlen ▸ (List.getElem?_eq_some_iff.mp hi).1)⟩
  obtain ⟨d1, hd1⟩ := sits_live hI' (.at hn1 hn)
  obtain ⟨d0, rs, srcs, w1, _, w3, w4, w5⟩ := wired_update hL hq hl hcl hp hc hrw1 hu hk1 hi hn1 hn hd1
  have hin : inOld e.ast k c = true := by
    unfold inOld
    rw [isOld_oldChain hI (.inl ⟨a0, h0, hk0⟩)]
    exact List.any_eq_true.mpr ⟨c, hci, (hcs c hci).1⟩
  obtain ⟨rfl, hd0⟩ := w1 hin
  have hkin : Kin c d0.node := Kept.reach hL hq kin_kept hr h0 hk hk0 hn0 hi hn hd0
  refine ⟨nodes, n, d0, d1, hn0, hn1, hn, hd0, hd1, w4, hkin, ?_⟩
  have hmk : ∀ smp sr bpm seed nd rs, (glicol P N parse).make smp sr bpm seed c = .ok (nd, rs) →
      rs = (glicol P N parse).refs c := by
    intro smp sr bpm seed nd rs h
    have : rs = makeRefs c := makeNode_refs h
    rw [this]
    refine makeRefs_nodup ?_
    rintro es rfl
    exact hplay
  have horder : d0.node.keepsOrder → (d0.node.empties ∨ c.refs = []) → ∃ srcs, SourceList e.index c.refs srcs ∧
      (c.refs ≠ [] → d0.node.order = (if i = 0 then [] else (nodes[i - 1]?).toList) ++ srcs) ∧
      ((if i = 0 then [] else (nodes[i - 1]?).toList) ++ srcs) <+: d0.node.order :=
    fun h1 h2 => order_reach hL hq hl (glicol_orderLaws P N parse) order_drift hcl h0 hrw0 hk0 hn0 hi hn hd0 h1 h2 hmk
  have hleft : (if i = 0 then none else nodes[i - 1]?).toList = if i = 0 then [] else (nodes[i - 1]?).toList := by
    split <;> rfl
  have hpl : ∀ r, r ∈ c.refs → '.' ∉ r := fun r hr => ((hcs c hci).2 r hr).2.1
  refine twins_of_wire hplay hkin (left := if i = 0 then none else nodes[i - 1]?) (srcs := srcs) (fun h => if_pos h) ?_ ?_ ?_
    w5
  · intro hz
    rw [if_neg hz]
    exact ⟨_, List.getElem?_eq_getElem (by have := (List.getElem?_eq_some_iff.mp hn).1; omega)⟩
  · intro h
    exact sourceList_unique hI'.keysNodup hpl w3 (h ▸ SourceList.nil)
  · intro h1 h2
    obtain ⟨s, k1, k2, k3⟩ := horder h1 h2
    have hsame : srcs = s := by
      refine sourceList_unique hI'.keysNodup hpl w3 (sourceList_move k1 fun r hr => ⟨hpl r hr, fun x hx => ?_⟩)
      obtain ⟨j1, _, _⟩ := (hcs c hci).2 r hr
      obtain ⟨y, j2, _⟩ := untouched_chain hK j1
      obtain ⟨ns, j3, j4, _⟩ := same j1 j2 ((hI.ast a0 h0).nonempty _ _ j2)
      have := lookup_of_mem hI.keysNodup j3
      rw [lookup_of_mem hI.keysNodup hx] at this
      cases this
      exact j4
    subst hsame
    rw [hleft]
    exact ⟨k2, k3⟩

/-! ### A block -/

/-- The two engines agree on the untouched chains whose signals reach the output in both. -/
def Agree (a0 a1 : Ast Comp) (b0 b1 : Bool) (ks : List Name) (e0 e1 : Engine (glicol P N parse)) : Prop :=
  ∀ k i comps c, k ∈ ks → Leads Comp.refs a0 b0 (.at k i) .dest → Leads Comp.refs a1 b1 (.at k i) .dest →
    (k, comps) ∈ a0 → comps[i]? = some c →
    ∃ n d0 d1, Sits e0 (.at k i) n ∧ Sits e1 (.at k i) n ∧ e0.graph.node? n = some d0 ∧ e1.graph.node? n = some d1 ∧
      d1.buffers = d0.buffers ∧ Kin c d0.node ∧ Twins i c d0.node d1.node

/-- An engine that plays the program. -/
structure PlaysProg (a : Ast Comp) (b : Bool) (e : Engine (glicol P N parse)) : Prop where
  reach : CleanReach (glicol P N parse) e
  ast : e.ast = some a
  refs : ∀ r, progRefs (glicol P N parse) a r → RefWf r
  input : b = true ↔ ['~', 'i', 'n', 'p', 'u', 't'] ∈ e.index.map Prod.fst

theorem PlaysProg.block {a : Ast Comp} {b : Bool} {e e' : Engine (glicol P N parse)} (h : PlaysProg a b e) {ho : HashOrder}
    {ins out : List (List Fl)} (hb : e.nextBlock ho ins = .ok (e', out)) : PlaysProg a b e' := by
  obtain ⟨h1, h2, _, _⟩ := nextBlock_same hb
  exact ⟨.step (.nextBlock ho ins) h.reach trivial (by simp only [Op.apply, hb]; rfl), h1.trans h.ast, h.refs, by rw [h2]; exact h.input⟩

theorem nodup_le_one {α : Type} {l : List α} (hn : l.Nodup) {a : α} (h : ∀ x, x ∈ l → x = a) : l = [] ∨ l = [a] := by
  match l with
  | [] => exact .inl rfl
  | [x] => exact .inr (by rw [h x (by simp)])
  | x :: y :: l =>
    have h1 := h x (by simp)
    have h2 := h y (by simp)
    subst h1
    subst h2
    simp at hn

theorem inputs_keys {e : Engine (glicol P N parse)} (hI : Inv e) {inputs : List (Nat × List (List Fl))} {srcs : List Place}
    (h : List.Forall₂ (fun inp q => Sits e q inp.1) inputs srcs) (hn : srcs.Nodup) : (inputs.map Prod.fst).Nodup := by
  induction h with
  | nil => exact List.nodup_nil
  | @cons x q inputs srcs hx hrest ih =>
    rw [List.nodup_cons] at hn
    rw [List.map_cons, List.nodup_cons]
    refine ⟨fun hm => ?_, ih hn.2⟩
    obtain ⟨y, hy, hxy⟩ := List.mem_map.mp hm
    obtain ⟨q', hq', hs⟩ := forall₂_mem_left hrest y hy
    rw [hxy] at hs
    rw [sits_place hI hx hs] at hn
    exact hn.1 hq'

/-- The inputs of a place are the same, up to their order. -/
theorem inputs_perm {i0 i1 : List (Nat × List (List Fl))} {s0 s1 : List Place}
    {R0 R1 : Nat × List (List Fl) → Place → Prop} (h0 : List.Forall₂ R0 i0 s0) (h1 : List.Forall₂ R1 i1 s1)
    (hn0 : s0.Nodup) (hn1 : s1.Nodup) (hs : ∀ q, q ∈ s0 ↔ q ∈ s1)
    (hR : ∀ x y q, q ∈ s0 → R0 x q → R1 y q → x = y) : i0.Perm i1 := by
  have hp : s1.Perm s0 := (List.perm_ext_iff_of_nodup hn1 hn0).mpr (fun q => (hs q).symm)
  obtain ⟨w, k1, k2⟩ := List.perm_comp_forall₂ hp h0.flip
  have : w = i1 := by
    have hmem : ∀ q, q ∈ s1 → q ∈ s0 := fun q => (hs q).mpr
    clear k2 hp hs hn0 hn1 h0
    induction h1 generalizing w with
    | nil => cases k1; rfl
    | cons hx _ ih =>
      cases k1 with
      | cons hy hrest =>
        rw [ih _ hrest (fun q hq => hmem q (List.mem_cons_of_mem _ hq)), hR _ _ _ (hmem _ (by simp)) hy hx]
  subst this
  exact k2.symm

theorem forall₂_length_le {α β : Type} {R : α → β → Prop} {l : List α} {l' : List β} (h : List.Forall₂ R l l') {a : β}
    (hl : l' = [] ∨ l' = [a]) : l.length ≤ 1 := by
  rw [h.length_eq]
  rcases hl with rfl | rfl <;> simp

/-- Processing twins on the same inputs. -/
theorem twins_proc (hx : ExtFirst P) {i : Nat} {c : Comp} {n0 n1 n0' n1' : GNode P} {i0 i1 : List (Nat × List Buf)} {buf o0 o1 : List Buf}
    (hplay : PlaysOn i c) (hkin : Kin c n0) (ht : Twins i c n0 n1) (hp : i0.Perm i1) (hn : (i0.map Prod.fst).Nodup)
    (h1 : c.refs = [] → i ≠ 0 → ∃ x, i0 = [x]) (h2 : ∀ r, c.refs = [r] → i = 0 → i0.length ≤ 1)
    (h3 : c.refs = [] → i = 0 → i0 = [])
    (p0 : procG P n0 i0 buf = .ok (n0', o0)) (p1 : procG P n1 i1 buf = .ok (n1', o1)) :
    o1 = o0 ∧ Kin c n0' ∧ Twins i c n0' n1' := by
  have hk := procG_kind p0
  refine and_left_comm.mp ⟨hkin.same hk.1, ?_⟩
  by_cases hg : c.grows i
  · obtain ⟨l, rfl, hl⟩ := ht.2 hg
    obtain ⟨x, rfl⟩ := h1 hg.2.1 hg.2.2
    rw [List.singleton_perm.mp hp |>.symm] at p1
    have hA : c.isArrange = false := by
      rcases PlaysOn.cases hplay with ⟨_, _, hA⟩ | ⟨_, _, hR⟩ | ⟨_, hE, _⟩ | ⟨hE, _⟩
      · exact hA hg.2.2
      · exact absurd hg.2.1 hR
      · rw [hg.1] at hE; cases hE
      · rw [hg.1] at hE; cases hE
    rw [procG_head hx hl (hkin.head hg.1 hA hg.2.1) p0] at p1
    cases p1
    exact ⟨rfl, fun h => absurd hg h, fun _ => ⟨l, rfl, by rw [hk.2]; exact hl⟩⟩
  · have := ht.1 hg
    subst this
    have hsame : procG P n1 i0 buf = procG P n1 i1 buf := by
      have hsmall : i0.length ≤ 1 → i0 = i1 := by
        intro hle
        match i0, hle with
        | [], _ => exact (List.nil_perm.mp hp).symm
        | [x], _ => exact (List.singleton_perm.mp hp)
      rcases PlaysOn.cases hplay with ⟨hE, hR, hA⟩ | ⟨hM, hE, hR⟩ | ⟨hG, hE, hi0, r, hr⟩ | ⟨hE, hi0, hR⟩
      · have hz : i = 0 := Classical.byContradiction fun hz => hg ⟨hE, hR, hz⟩
        rw [hsmall (by rw [h3 hR hz]; exact Nat.zero_le _)]
      · exact procG_perm (hkin.modulated hM).2 hp hn
      · rw [hsmall (h2 r hr hi0)]
      · rw [hsmall (by rw [h3 hR hi0]; exact Nat.zero_le _)]
    rw [hsame, p1] at p0
    cases p0
    exact ⟨rfl, fun _ => rfl, fun h => absurd h hg⟩

section Block
variable {a0 a1 : Ast Comp} {b0 b1 : Bool} {ks : List Name} {e0 e1 e0' e1' : Engine (glicol P N parse)}

/-- A block keeps the agreement. -/
theorem agree_block (hx : ExtFirst P) (hL : ParserWf (glicol P N parse)) (h0 : PlaysProg a0 b0 e0) (h1 : PlaysProg a1 b1 e1)
    (hK : Untouched Comp.eq Comp.refs a0 a1 ks)
    (hplay : ∀ k, k ∈ ks → ∀ comps, (k, comps) ∈ a0 → ∀ i c, comps[i]? = some c → PlaysOn i c)
    (h : Agree a0 a1 b0 b1 ks e0 e1) {ho0 ho1 : HashOrder} {ins0 ins1 out0 out1 : List (List Fl)}
    (k0 : e0.nextBlock ho0 ins0 = .ok (e0', out0)) (k1 : e1.nextBlock ho1 ins1 = .ok (e1', out1)) :
    Agree a0 a1 b0 b1 ks e0' e1' := by
  have hq := glicol_eqLaws P N parse
  have hl := glicol_refLaws P N parse
  have hI0 := inv_reachable hL h0.reach.reachable
  have hI1 := inv_reachable hL h1.reach.reachable
  have hn0 := (hI0.ast a0 h0.ast).names
  have hn1 := (hI1.ast a1 h1.ast).names
  have hin0 := clean_noInput hL h0.reach a0 h0.ast
  have hin1 := clean_noInput hL h1.reach a1 h1.ast
  obtain ⟨sig0, prev0, _, c0⟩ := c48_block_computes_the_program_partial hL hq hl h0.reach a0 h0.ast h0.refs ho0 ins0 out0 k0
    b0 h0.input
  obtain ⟨sig1, prev1, _, c1⟩ := c48_block_computes_the_program_partial hL hq hl h1.reach a1 h1.ast h1.refs ho1 ins1 out1 k1
    b1 h1.input
  -- by induction on the height of the chain and the position
  have main : ∀ (H i : Nat) k comps c, height ks k = H → k ∈ ks → Leads Comp.refs a0 b0 (.at k i) .dest →
      Leads Comp.refs a1 b1 (.at k i) .dest → (k, comps) ∈ a0 → comps[i]? = some c →
      sig1 (.at k i) = sig0 (.at k i) ∧ ∃ n d0 d1, Sits e0' (.at k i) n ∧ Sits e1' (.at k i) n ∧
        e0'.graph.node? n = some d0 ∧ e1'.graph.node? n = some d1 ∧ d1.buffers = d0.buffers ∧ Kin c d0.node ∧
        Twins i c d0.node d1.node := by
    intro H
    induction H using Nat.strong_induction_on with
    | _ H ihH =>
      intro i
      induction i using Nat.strong_induction_on with
      | _ i ihi =>
        intro k comps c hH hk l0 l1 hkc hi
        obtain ⟨n, d0, d1, s0, s1, g0, g1, hbuf, hkin, htw⟩ := h k i comps c hk l0 l1 hkc hi
        obtain ⟨m0, x0, x0', bufs0, in0, src0, y1, y2, y3, _, y5, y6, y7, y8, y9, y10⟩ := c0 _ l0
        obtain ⟨m1, x1, x1', bufs1, in1, src1, z1, z2, z3, _, z5, z6, z7, z8, z9, z10⟩ := c1 _ l1
        cases sits_node hI0 s0 y1
        cases sits_node hI1 s1 z1
        rw [g0] at y2
        rw [g1] at z2
        cases y2
        cases z2
        have hne : Place.at k i ≠ .at ['~', 'i', 'n', 'p', 'u', 't'] 0 := by
          intro he
          cases he
          exact hin0 (List.mem_map.mpr ⟨_, hkc, rfl⟩)
        rw [y3 hne] at y7
        rw [z3 hne] at z7
        have hbuf : bufs1 = bufs0 := hbuf
        subst hbuf
        -- the sources
        have hflow : ∀ {q}, Flow Comp.refs a0 b0 q (.at k i) ↔ Flow Comp.refs a1 b1 q (.at k i) :=
          untouched_flow hK hn0 hn1 hin0 hin1 hk
        have hsrc : ∀ q, q ∈ src0 ↔ q ∈ src1 := fun q =>
          (y9 q).trans ((and_congr hflow Iff.rfl).trans (z9 q).symm)
        have hsame : ∀ (x y : Nat × List (List Fl)) (q : Place), q ∈ src0 →
            (Sits e0 q x.1 ∧ (x.2 = sig0 q ∨ (Leads Comp.refs a0 b0 (.at k i) q ∧ x.2 = prev0 q))) →
            (Sits e1 q y.1 ∧ (y.2 = sig1 q ∨ (Leads Comp.refs a1 b1 (.at k i) q ∧ y.2 = prev1 q))) → x = y := by
          rintro ⟨xn, xb⟩ ⟨yn, yb⟩ q hqs ⟨t1, t2⟩ ⟨u1, u2⟩
          have hf := ((y9 q).mp hqs).1
          have t3 : xb = sig0 q := t2.resolve_right fun hc => untouched_acyclic hK hn0 hin0 hk hf hc.1
          have u3 : yb = sig1 q := u2.resolve_right fun hc =>
            untouched_acyclic (untouched_symm hK) hn1 hin1 hk (hflow.mp hf) hc.1
          have q0 : Leads Comp.refs a0 b0 q .dest := .step hf l0
          have q1 : Leads Comp.refs a1 b1 q .dest := .step (hflow.mp hf) l1
          have hsig : sig1 q = sig0 q ∧ ∃ n, Sits e0 q n ∧ Sits e1 q n := by
            rcases untouched_source hK hn0 hin0 hk hkc hf with ⟨j, rfl, rfl, c', hc'⟩ |
              ⟨cc, r, m, rc, c', _, _, rfl, v1, v2, v3, _, v5⟩
            · refine ⟨(ihi j (Nat.lt_succ_self j) k comps c' hH hk q0 q1 hkc hc').1, ?_⟩
              obtain ⟨n', _, _, w1, w2, _⟩ := h k j comps c' hk q0 q1 hkc hc'
              exact ⟨n', w1, w2⟩
            · refine ⟨(ihH _ (hH ▸ v2) m r rc c' rfl v1 q0 q1 v3 v5).1, ?_⟩
              obtain ⟨n', _, _, w1, w2, _⟩ := h r m rc c' v1 q0 q1 v3 v5
              exact ⟨n', w1, w2⟩
          obtain ⟨hs, n', w1, w2⟩ := hsig
          have e1 : xn = n' := sits_node hI0 t1 w1
          have e2 : yn = n' := sits_node hI1 u1 w2
          rw [t3, u3, hs, e1, e2]
        have hperm : in0.Perm in1 := inputs_perm y10 z10 y8 z8 hsrc hsame
        have hkeys : (in0.map Prod.fst).Nodup := inputs_keys hI0 (y10.imp fun _ _ h => h.1) y8
        have hfl0 : ∀ q, q ∈ src0 → (∃ j, i = j + 1 ∧ q = .at k j) ∨ ∃ r n rc, r ∈ c.refs ∧ q = .at r n ∧ (r, rc) ∈ a0 ∧
            rc.length = n + 1 := by
          intro q hqs
          rcases untouched_source hK hn0 hin0 hk hkc ((y9 q).mp hqs).1 with ⟨j, v1, v2, _⟩ |
            ⟨cc, r, m, rc, c', v1, v2, v3, _, _, v4, v5, _⟩
          · exact .inl ⟨j, v1, v2⟩
          · rw [hi] at v1
            cases v1
            exact .inr ⟨r, m, rc, v2, v3, v4, v5⟩
        have hp := twins_proc hx (hplay k hk comps hkc i c hi) hkin htw hperm hkeys ?_ ?_ ?_ y7 z7
        · refine ⟨hp.1, n, _, _, y5, z5, y6, z6, hp.1, hp.2⟩
        · intro hR hz
          obtain ⟨j, rfl⟩ := Nat.exists_eq_succ_of_ne_zero hz
          have hmem : Place.at k j ∈ src0 := by
            rw [y9]
            refine ⟨.next (.prog hkc) (List.getElem?_eq_some_iff.mp hi).1, ?_⟩
            intro he
            cases he
          have hone : src0 = [Place.at k j] := by
            refine (nodup_le_one (a := Place.at k j) y8 ?_).resolve_left (fun he => by rw [he] at hmem; cases hmem)
            intro q hqs
            rcases hfl0 q hqs with ⟨j', v1, v2⟩ | ⟨r, _, _, v1, _⟩
            · cases v1
              exact v2
            · rw [hR] at v1
              cases v1
          rw [hone] at y10
          cases y10 with
          | cons _ hrest => cases hrest; exact ⟨_, rfl⟩
        · intro r hr hz
          by_cases hex : ∃ rc n, (r, rc) ∈ a0 ∧ rc.length = n + 1
          · obtain ⟨rc, m, v1, v2⟩ := hex
            refine forall₂_length_le y10 (nodup_le_one (a := Place.at r m) y8 ?_)
            intro q hqs
            rcases hfl0 q hqs with ⟨j', u1, _⟩ | ⟨r', m', rc', u1, u2, u3, u4⟩
            · omega
            · rw [hr] at u1
              cases List.mem_singleton.mp u1
              have := key_unique hn0 u3 v1
              subst this
              rw [u2]
              congr 1
              omega
          · refine forall₂_length_le (a := Place.dest) y10 (.inl ?_)
            rw [List.eq_nil_iff_forall_not_mem]
            intro q hqs
            rcases hfl0 q hqs with ⟨j', u1, _⟩ | ⟨r', m', rc', u1, u2, u3, u4⟩
            · omega
            · rw [hr] at u1
              cases List.mem_singleton.mp u1
              exact hex ⟨_, _, u3, u4⟩
        · intro hR hz
          have hnil : src0 = [] := by
            rw [List.eq_nil_iff_forall_not_mem]
            intro q hqs
            rcases hfl0 q hqs with ⟨j', u1, _⟩ | ⟨r', m', rc', u1, u2, u3, u4⟩
            · omega
            · rw [hR] at u1
              cases u1
          rw [hnil] at y10
          cases y10
          rfl
  intro k i comps c hk l0 l1 hkc hi
  exact (main _ i k comps c rfl hk l0 l1 hkc hi).2

/-- What the places play over several blocks. -/
theorem agree_signal (hx : ExtFirst P) (hL : ParserWf (glicol P N parse)) (hK : Untouched Comp.eq Comp.refs a0 a1 ks)
    (hplay : ∀ k, k ∈ ks → ∀ comps, (k, comps) ∈ a0 → ∀ i c, comps[i]? = some c → PlaysOn i c) {k : Name} {i : Nat}
    (hk : k ∈ ks) (l0 : Leads Comp.refs a0 b0 (.at k i) .dest) (l1 : Leads Comp.refs a1 b1 (.at k i) .dest)
    {comps : List Comp} {c : Comp} (hkc : (k, comps) ∈ a0) (hi : comps[i]? = some c)
    {steps0 : List (HashOrder × List (List Fl))} {xs : List (List (List Fl))} (s0 : PlaceSignal (.at k i) e0 steps0 xs) :
    ∀ {steps1 : List (HashOrder × List (List Fl))} {ys : List (List (List Fl))} {e1 : Engine (glicol P N parse)},
    PlaysProg a0 b0 e0 → PlaysProg a1 b1 e1 → Agree a0 a1 b0 b1 ks e0 e1 → PlaceSignal (.at k i) e1 steps1 ys →
    steps0.length = steps1.length → xs = ys := by
  induction s0 with
  | nil =>
    intro steps1 ys e1 _ _ _ s1 hlen
    cases s1 with
    | nil => rfl
    | cons => cases hlen
  | cons h1 h2 h3 _ ih =>
    intro steps1 ys e1 p0 p1 hag s1 hlen
    cases s1 with
    | nil => cases hlen
    | cons j1 j2 j3 j4 =>
      have hag' := agree_block hx hL p0 p1 hK hplay hag h1 j1
      have q0 := p0.block h1
      have q1 := p1.block j1
      obtain ⟨n, d0, d1, t1, t2, t3, t4, t5, _⟩ := hag' k i comps c hk l0 l1 hkc hi
      cases sits_node (inv_reachable hL q0.reach.reachable) t1 h2
      cases sits_node (inv_reachable hL q1.reach.reachable) t2 j2
      rw [h3] at t3
      rw [j3] at t4
      cases t3
      cases t4
      rw [ih q0 q1 hag' j4 (Nat.succ.inj hlen), t5]

end Block

namespace Props

/-! ### C73 -/

/-- **C73** (partial). Chains that an edit does not touch play on undisturbed: a place of such a chain, if its signal
reaches the output before and after the edit, produces block for block the signal it would have produced without the
edit — whatever happens to the other chains, whatever the iteration orders of the maps, and whatever the external
input. The history before the edit is arbitrary (programs, messages, blocks, settings), except that programs do not
repeat components and do not re-order the components of these chains.
Missing: the components excluded by `PlaysOn`, chains with feedback or with patterns `base..` among them, chains
containing `NaN`, histories that re-order or repeat components (C02, C05, C06). -/
theorem c73_untouched_chains_play_on_partial (hx : ExtFirst P) (hL : ParserWf (glicol P N parse)) {ks : List Name}
    {e0 e1 : Engine (glicol P N parse)} (hr : ReachBy (glicol P N parse) (SteadyOn ks) e0) {a0 a1 : Ast Comp}
    (h0 : e0.ast = some a0) (hrw0 : ∀ r, progRefs (glicol P N parse) a0 r → RefWf r) {τ : TableOrder} {code : Name}
    (hp : parse code = .ok (some a1)) (hc : CleanProg (glicol P N parse) a1)
    (hrw1 : ∀ r, progRefs (glicol P N parse) a1 r → RefWf r) (hu : e0.updateWithCode τ code = .ok (e1, none))
    (hK : Untouched Comp.eq Comp.refs a0 a1 ks)
    (hplay : ∀ k, k ∈ ks → ∀ comps, (k, comps) ∈ a0 → ∀ i c, comps[i]? = some c → PlaysOn i c)
    {b0 b1 : Bool} (hb0 : b0 = true ↔ ['~', 'i', 'n', 'p', 'u', 't'] ∈ e0.index.map Prod.fst)
    (hb1 : b1 = true ↔ ['~', 'i', 'n', 'p', 'u', 't'] ∈ e1.index.map Prod.fst) {k : Name} {i : Nat} (hk : k ∈ ks)
    (l0 : Leads Comp.refs a0 b0 (.at k i) .dest) (l1 : Leads Comp.refs a1 b1 (.at k i) .dest)
    {steps0 steps1 : List (HashOrder × List (List Fl))} {xs ys : List (List (List Fl))}
    (s0 : PlaceSignal (.at k i) e0 steps0 xs) (s1 : PlaceSignal (.at k i) e1 steps1 ys)
    (hlen : steps0.length = steps1.length) : xs = ys := by
  have hcl := steady_clean hr
  have hcl1 : CleanReach (glicol P N parse) e1 := .step (.update τ code) hcl
    (fun p h => by rw [show (glicol P N parse).parse code = _ from hp] at h; cases h; exact hc)
    (by simp only [Op.apply, hu]; rfl)
  have hI := inv_reachable hL hcl.reachable
  have hI1 := inv_reachable hL hcl1.reachable
  have h1 : e1.ast = some a1 := by
    have hu' := hu
    unfold Engine.updateWithCode at hu'
    rw [show (glicol P N parse).parse code = _ from hp] at hu'
    obtain ⟨_, _, _, _, _, _, _, _, hacc⟩ := accepted hI (hL code a1 hp) hu'
    exact congrArg Engine.ast hacc.eq
  have hag : Agree a0 a1 b0 b1 ks e0 e1 := by
    intro k i comps c hk _ _ hkc hi
    obtain ⟨nodes, n, d0, d1, t1, t2, t3, t4, t5, t6⟩ :=
      untouched_twins hL hr h0 hrw0 hp hc hrw1 hu hK hk hkc hi (hplay k hk comps hkc i c hi)
    exact ⟨n, d0, d1, .at t1 t3, .at t2 t3, t4, t5, t6⟩
  obtain ⟨comps, hkc, _⟩ := untouched_chain hK hk
  obtain ⟨c, hi⟩ : ∃ c, comps[i]? = some c := by
    have hin0 := clean_noInput hL hcl a0 h0
    have key : ∀ {n}, Chain a0 b0 k n → n = comps.length := by
      intro n hch
      cases hch with
      | prog h => rw [key_unique (hI.ast a0 h0).names h hkc]
      | input _ => exact absurd (List.mem_map.mpr ⟨_, hkc, rfl⟩) hin0
    cases l0 with
    | step hf _ =>
      cases hf with
      | next hch hlt => rw [key hch] at hlt; exact ⟨_, List.getElem?_eq_getElem (by omega)⟩
      | out hch _ => have := key hch; exact ⟨_, List.getElem?_eq_getElem (by omega)⟩
      | ref _ _ _ _ hch => have := key hch; exact ⟨_, List.getElem?_eq_getElem (by omega)⟩
  exact agree_signal hx hL hK hplay hk l0 l1 hkc hi s0 ⟨hcl, h0, hrw0, hb0⟩ ⟨hcl1, h1, hrw1, hb1⟩ hag s1 hlen

/-! ### An example -/

/-- The chains of the example that stay: `o: imp 14700 >> eval x:=x+in;x >> mul ~a` and `~a: constsig 3 >> add 1`. -/
def stayO : List Comp := [.imp (.num (.fin 14700)), .eval c!"x:=x+in;x", .mul (.ref c!"~a")]
def stayA : List Comp := [.constsig (.fin 3), .add (.num (.fin 1))]

/-- The program before the edit, with `p: constsig 5`. -/
def stayOld : Ast Comp := [(c!"o", stayO), (c!"~a", stayA), (c!"p", [.constsig (.fin 5)])]

/-- The program after the edit, with `p: constsig 7 >> mul ~a` and another chain. -/
def stayNew : Ast Comp := [(c!"q", [.constsig (.fin 2)]), (c!"~a", stayA), (c!"o", stayO),
  (c!"p", [.constsig (.fin 7), .mul (.ref c!"~a")])]

/-- A platform with scripts. -/
def stayPlat : Plat := ⟨Demo.plat.libm, .ident, scripts Spec.Demo.fasteval Spec.Demo.rhai⟩

/-- The language of the example with these two programs. -/
abbrev stayLang : Lang := glicol stayPlat 2 (Demo.table [(['1'], stayOld), (['2'], stayNew)])

/-- Renders blocks and lists what a place plays. -/
def playAt {L : Lang} (k : Name) (i : Nat) : List (HashOrder × List (List L.Num)) → Engine L → Option (List (List (List L.Num)))
  | [], _ => some []
  | (ho, ins) :: steps, e =>
    match nextBlockFuel 1000 ho e ins with
    | some (.ok (e1, _)) =>
      match lookup e1.index k with
      | some nodes =>
        match nodes[i]? with
        | some n =>
          match e1.graph.node? n with
          | some d => (playAt k i steps e1).map (d.buffers :: ·)
          | none => none
        | none => none
      | none => none
    | _ => none

theorem playAt_spec {L : Lang} {k : Name} {i : Nat} {steps : List (HashOrder × List (List L.Num))} {e : Engine L}
    {xs : List (List (List L.Num))} (h : playAt k i steps e = some xs) : PlaceSignal (.at k i) e steps xs := by
  induction steps generalizing e xs with
  | nil => cases h; exact .nil
  | cons s steps ih =>
    obtain ⟨ho, ins⟩ := s
    unfold playAt at h
    split at h
    · rename_i e1 out hb
      split at h
      · rename_i nodes hn
        split at h
        · rename_i n hi
          split at h
          · rename_i d hd
            obtain ⟨ys, hy, rfl⟩ := Option.map_eq_some_iff.mp h
            exact .cons (nextBlockFuel_spec hb) (.at (lookup_mem hn) hi) hd (ih hy)
          · cases h
        · cases h
      · cases h
    · cases h

theorem stay_parse {code : Name} {p : Ast Comp} (h : stayLang.parse code = .ok (some p)) : p = stayOld ∨ p = stayNew := by
  have h : lookup [(['1'], stayOld), (['2'], stayNew)] code = some p := Except.ok.inj h
  have := lookup_mem h
  simp only [List.mem_cons, Prod.mk.injEq, List.not_mem_nil, or_false] at this
  exact this.imp And.right And.right

theorem stay_old_mem {k : Name} {c : List Comp} (h : (k, c) ∈ stayOld) :
    (k = c!"o" ∧ c = stayO) ∨ (k = c!"~a" ∧ c = stayA) ∨ (k = c!"p" ∧ c = [.constsig (.fin 5)]) := by
  simpa only [stayOld, List.mem_cons, Prod.mk.injEq, List.not_mem_nil, or_false] using h

theorem stay_new_mem {k : Name} {c : List Comp} (h : (k, c) ∈ stayNew) :
    (k = c!"q" ∧ c = [.constsig (.fin 2)]) ∨ (k = c!"~a" ∧ c = stayA) ∨ (k = c!"o" ∧ c = stayO) ∨
    (k = c!"p" ∧ c = [.constsig (.fin 7), .mul (.ref c!"~a")]) := by
  simpa only [stayNew, List.mem_cons, Prod.mk.injEq, List.not_mem_nil, or_false] using h

theorem stay_clean {p : Ast Comp} (h : p = stayOld ∨ p = stayNew) : CleanProg stayLang p := by
  rcases h with rfl | rfl
  · refine ⟨fun k c hc => ?_, by decide⟩
    show c.Pairwise (fun a b => Comp.eq a b = false)
    rcases stay_old_mem hc with ⟨_, rfl⟩ | ⟨_, rfl⟩ | ⟨_, rfl⟩ <;> decide +kernel
  · refine ⟨fun k c hc => ?_, by decide⟩
    show c.Pairwise (fun a b => Comp.eq a b = false)
    rcases stay_new_mem hc with ⟨_, rfl⟩ | ⟨_, rfl⟩ | ⟨_, rfl⟩ | ⟨_, rfl⟩ <;> decide +kernel

theorem stay_wf : ParserWf stayLang := by
  intro code p h
  rcases stay_parse h with rfl | rfl
  · refine ⟨by decide, fun k c hc => ?_⟩
    rcases stay_old_mem hc with ⟨_, rfl⟩ | ⟨_, rfl⟩ | ⟨_, rfl⟩ <;> exact List.cons_ne_nil _ _
  · refine ⟨by decide, fun k c hc => ?_⟩
    rcases stay_new_mem hc with ⟨_, rfl⟩ | ⟨_, rfl⟩ | ⟨_, rfl⟩ | ⟨_, rfl⟩ <;> exact List.cons_ne_nil _ _

theorem stay_comp {c : Comp} {r : Name} (key : c ∈ stayO ∨ c ∈ stayA ∨ c ∈ [Comp.constsig (.fin 5)] ∨
    c ∈ [Comp.constsig (.fin 2)] ∨ c ∈ [Comp.constsig (.fin 7), .mul (.ref c!"~a")]) (hr : r ∈ c.refs) : r = c!"~a" := by
  have hm : c.refs = [] ∨ c.refs = [c!"~a"] := by
    simp only [stayO, stayA, List.mem_cons, List.not_mem_nil, or_false] at key
    rcases key with (rfl | rfl | rfl) | (rfl | rfl) | rfl | rfl | rfl | rfl <;> first | exact .inl rfl | exact .inr rfl
  rcases hm with hm | hm <;> rw [hm] at hr
  · cases hr
  · exact List.mem_singleton.mp hr

theorem stay_refs {p : Ast Comp} (h : p = stayOld ∨ p = stayNew) {r : Name} (hr : progRefs stayLang p r) : r = c!"~a" := by
  obtain ⟨k, comps, c, h1, h2, h3⟩ := hr
  rcases h with rfl | rfl
  · rcases stay_old_mem h1 with ⟨_, rfl⟩ | ⟨_, rfl⟩ | ⟨_, rfl⟩
    · exact stay_comp (.inl h2) h3
    · exact stay_comp (.inr (.inl h2)) h3
    · exact stay_comp (.inr (.inr (.inl h2))) h3
  · rcases stay_new_mem h1 with ⟨_, rfl⟩ | ⟨_, rfl⟩ | ⟨_, rfl⟩ | ⟨_, rfl⟩
    · exact stay_comp (.inr (.inr (.inr (.inl h2)))) h3
    · exact stay_comp (.inr (.inl h2)) h3
    · exact stay_comp (.inl h2) h3
    · exact stay_comp (.inr (.inr (.inr (.inr h2)))) h3

/-- The chains `o` and `~a` stay. -/
theorem stay_untouched : Untouched Comp.eq Comp.refs stayOld stayNew [c!"o", c!"~a"] := by
  refine .cons (comps := stayO) (.cons (comps := stayA) .nil (by simp) (by simp [stayOld]) (by simp [stayNew]) ?_) (by decide)
    (by simp [stayOld]) (by simp [stayNew]) ?_
  · intro c hc
    simp only [stayA, List.mem_cons, List.not_mem_nil, or_false] at hc
    rcases hc with rfl | rfl
    · exact ⟨by decide +kernel, fun r hr => by cases hr⟩
    · exact ⟨by decide +kernel, fun r hr => by cases hr⟩
  · intro c hc
    simp only [stayO, List.mem_cons, List.not_mem_nil, or_false] at hc
    rcases hc with rfl | rfl | rfl
    · exact ⟨by decide +kernel, fun r hr => by cases hr⟩
    · exact ⟨by decide +kernel, fun r hr => by cases hr⟩
    · refine ⟨by decide +kernel, fun r hr => ?_⟩
      have : r = c!"~a" := by simpa [Comp.refs, NumRef.refs] using hr
      subst this
      exact ⟨by simp, by decide⟩

/-- All hypotheses of C73 are met, and the impulses go on where they were (a new node would start with one), as does the formula, which
adds them up: the old program plays for a block, then the edit changes one chain and adds another. -/
example : ExtFirst stayPlat ∧ ∃ e0 e1 : Engine stayLang, ReachBy stayLang (SteadyOn [c!"o", c!"~a"]) e0 ∧ e0.ast = some stayOld ∧
    e0.updateWithCode .ident ['2'] = .ok (e1, none) ∧
    (∀ k, k ∈ [c!"o", c!"~a"] → ∀ comps, (k, comps) ∈ stayOld → ∀ i c, comps[i]? = some c → PlaysOn i c) ∧
    ['~', 'i', 'n', 'p', 'u', 't'] ∈ e0.index.map Prod.fst ∧ ['~', 'i', 'n', 'p', 'u', 't'] ∈ e1.index.map Prod.fst ∧
    Leads Comp.refs stayOld true (.at c!"o" 2) .dest ∧ Leads Comp.refs stayNew true (.at c!"o" 2) .dest ∧
    PlaceSignal (.at c!"o" 2) e0 [(.ident, []), (.ident, [])] [[[.fin 4, .fin 8], [.fin 4, .fin 8]], [[.fin 8, .fin 8], [.fin 8, .fin 8]]] ∧
    PlaceSignal (.at c!"o" 2) e1 [(.rev, []), (.ident, [])] [[[.fin 4, .fin 8], [.fin 4, .fin 8]], [[.fin 8, .fin 8], [.fin 8, .fin 8]]] := by
  refine ⟨scripts_first demo_rhai32, ?_⟩
  let isFour : Option (List (List (List Fl))) → Bool := fun x => decide (x = some [[[.fin 4, .fin 8], [.fin 4, .fin 8]], [[.fin 8, .fin 8], [.fin 8, .fin 8]]])
  have hfour : ∀ x, isFour x = true → x = some [[[.fin 4, .fin 8], [.fin 4, .fin 8]], [[.fin 8, .fin 8], [.fin 8, .fin 8]]] := fun x h => of_decide_eq_true h
  have h : (match (Engine.new stayLang 2).updateWithCode TableOrder.ident ['1'] with
    | .ok (e, none) =>
      (match nextBlockFuel 1000 .ident e [] with
      | some (.ok (e0, _)) =>
        (match e0.updateWithCode TableOrder.ident ['2'] with
        | .ok (e1, none) => decide (inputName ∈ e0.index.map Prod.fst) && decide (inputName ∈ e1.index.map Prod.fst) &&
          isFour (playAt c!"o" 2 [(.ident, []), (.ident, [])] e0) && isFour (playAt c!"o" 2 [(.rev, []), (.ident, [])] e1)
        | _ => false)
      | _ => false)
    | _ => false) = true := by kernel_rfl
  split at h
  · rename_i e he
    split at h
    · rename_i e0 out hb
      split at h
      · rename_i e1 h1
        simp only [Bool.and_eq_true, decide_eq_true_eq] at h
        obtain ⟨⟨⟨i0, i1⟩, s0⟩, s1⟩ := h
        have hb := nextBlockFuel_spec hb
        have hr1 : ReachBy stayLang (SteadyOn [c!"o", c!"~a"]) e := by
          refine .step (.update .ident ['1']) (.new 2) ?_ (by simp only [Op.apply, he]; rfl)
          intro p hp
          refine ⟨stay_clean (stay_parse hp), fun k comps old _ _ hold => ?_⟩
          rcases hold with ⟨a, ha, _⟩ | ⟨rfl, _⟩
          · cases ha
          · simp [OrderKept]
        have hI := inv_reachable stay_wf (steady_clean hr1).reachable
        have hast : e.ast = some stayOld := by
          have hu' := he
          unfold Engine.updateWithCode at hu'
          rw [show stayLang.parse ['1'] = .ok (some stayOld) from rfl] at hu'
          replace hu' : (Engine.new stayLang 2).updateAst .ident stayOld = .ok (e, none) := hu'
          obtain ⟨_, _, _, _, _, _, _, _, hacc⟩ := accepted (inv_reachable stay_wf (.new 2)) (stay_wf ['1'] stayOld rfl) hu'
          exact congrArg Engine.ast hacc.eq
        refine ⟨e0, e1, .step (.nextBlock .ident []) hr1 trivial (by simp only [Op.apply, hb]; rfl),
          (nextBlock_same hb).1.trans hast, h1, ?_, i0, i1, ?_, ?_, playAt_spec (hfour _ s0), playAt_spec (hfour _ s1)⟩
        · intro k hk comps hc i c hi
          rcases stay_old_mem hc with ⟨_, rfl⟩ | ⟨_, rfl⟩ | ⟨rfl, rfl⟩
          · rcases i with _ | _ | _ | i <;> cases hi
            · exact ⟨rfl, rfl⟩
            · trivial
            · trivial
          · rcases i with _ | _ | i <;> cases hi
            · rfl
            · trivial
          · simp at hk
        · exact .step (.out (.prog (comps := stayO) (by simp [stayOld])) (by decide)) (.refl _)
        · exact .step (.out (.prog (comps := stayO) (by simp [stayNew])) (by decide)) (.refl _)
      · cases h
    · cases h
  · cases h

/-! ### What is excluded -/

/-- `~a: constsig 72`, `~b: constsig 84`, `o: speed 22050 >> seq ~a ~a ~b _` and `p: constsig 1`; the edit changes `p`. -/
def twiceProgs : List (Name × Ast Comp) :=
  let stay : Ast Comp := [(c!"~a", [.constsig (.fin 72)]), (c!"~b", [.constsig (.fin 84)]),
    (c!"o", [.speed (.fin 22050), .seq [(.fin 0, .ref c!"~a"), (.fin (1 / 4), .ref c!"~a"), (.fin (2 / 4), .ref c!"~b")]])]
  [(['1'], stay ++ [(c!"p", [.constsig (.fin 1)])]), (['2'], stay ++ [(c!"p", [.constsig (.fin 2)])])]

/-- C73 fails for a sequencer that names a chain twice: an edit of another chain makes `seq ~a ~a ~b _` play `~a`, `~a`,
`~a`. (`up 1` and `up 2` are the pitches of 72 and 84, one and two octaves above 60.) -/
theorem c73_seq_counterexample (P : Plat) :
    let up (k : Nat) : Fl := P.libm.powf (.fin 2) (.fin k)
    ∃ e0 e1 : Engine (glicol P 4 (Demo.table twiceProgs)),
      (Engine.new (glicol P 4 (Demo.table twiceProgs)) 4).updateWithCode .ident ['1'] = .ok (e0, none) ∧
      e0.updateWithCode .ident ['2'] = .ok (e1, none) ∧
      PlaceSignal (.at c!"o" 1) e0 [(.ident, [])] [[[up 1, up 1, up 2, .fin 0], [.fin 0, .fin 0, .fin 0, .fin 0]]] ∧
      PlaceSignal (.at c!"o" 1) e1 [(.ident, [])] [[[up 1, up 1, up 1, .fin 0], [.fin 0, .fin 0, .fin 0, .fin 0]]] := by
  intro up
  have h : (match (Engine.new (glicol P 4 (Demo.table twiceProgs)) 4).updateWithCode TableOrder.ident ['1'] with
    | .ok (e0, none) =>
      (match e0.updateWithCode TableOrder.ident ['2'] with
      | .ok (e1, none) => some (playAt c!"o" 1 [(.ident, [])] e0, playAt c!"o" 1 [(.ident, [])] e1)
      | _ => none)
    | _ => none) = some (some [[[up 1, up 1, up 2, .fin 0], [.fin 0, .fin 0, .fin 0, .fin 0]]], some [[[up 1, up 1, up 1, .fin 0], [.fin 0, .fin 0, .fin 0, .fin 0]]]) := by kernel_rfl
  split at h
  · rename_i e0 h0
    split at h
    · rename_i e1 h1
      have h := Prod.mk.inj (Option.some.inj h)
      exact ⟨e0, e1, h0, h1, playAt_spec h.1, playAt_spec h.2⟩
    · cases h
  · cases h

end Props

end Verif
