import Verif.Lemmas.Kin
import Verif.Props.Resend
import Verif.Props.Flow

/-! The places of untouched chains and their nodes across an edit (helpers for C73). -/

namespace Verif
open Spec Props

/-- The height of a chain in the list of untouched chains. -/
def height : List Name → Name → Nat
  | [], _ => 0
  | k :: ks, r => if r = k then ks.length + 1 else height ks r

theorem height_le (ks : List Name) (r : Name) : height ks r ≤ ks.length := by
  induction ks with
  | nil => exact Nat.le_refl _
  | cons k ks ih => 
    unfold height
    split
    · exact Nat.le_refl _
    · exact Nat.le_succ_of_le ih

section Flow
variable {C : Type} {eq : C → C → Bool} {refs : C → List Name} {a0 a1 : Ast C} {ks : List Name}

theorem untouched_chain (h : Untouched eq refs a0 a1 ks) {k : Name} (hk : k ∈ ks) :
    ∃ comps, (k, comps) ∈ a0 ∧ (k, comps) ∈ a1 ∧
      ∀ c, c ∈ comps → eq c c = true ∧ ∀ r, r ∈ refs c → r ∈ ks ∧ '.' ∉ r ∧ height ks r < height ks k := by
  induction h with
  | nil => cases hk
  | @cons k' ks comps h hn h0 h1 hc ih =>
    rcases List.mem_cons.mp hk with rfl | hk'
    · refine ⟨comps, h0, h1, fun c hcc => ⟨(hc c hcc).1, fun r hr => ?_⟩⟩
      obtain ⟨h2, h3⟩ := (hc c hcc).2 r hr
      refine ⟨List.mem_cons_of_mem _ h2, h3, ?_⟩
      have hne : r ≠ k := by rintro rfl; exact hn h2
      have := height_le ks r
      simp only [height, if_neg hne, if_true]
      omega
    · obtain ⟨comps', h2, h3, h4⟩ := ih hk'
      refine ⟨comps', h2, h3, fun c hcc => ⟨(h4 c hcc).1, fun r hr => ?_⟩⟩
      obtain ⟨h5, h6, h7⟩ := (h4 c hcc).2 r hr
      have hne : r ≠ k' := by rintro rfl; exact hn h5
      have hnk : k ≠ k' := by rintro rfl; exact hn hk'
      refine ⟨List.mem_cons_of_mem _ h5, h6, ?_⟩
      simp only [height, if_neg hne, if_neg hnk]
      exact h7

theorem key_unique {a : Ast C} (hn : (a.map Prod.fst).Nodup) {k : Name} {x y : List C} (h1 : (k, x) ∈ a)
    (h2 : (k, y) ∈ a) : x = y := by
  have := List.inj_on_of_nodup_map hn h1 h2 rfl
  exact (Prod.mk.inj this).2

/-- What flows into a place of a chain, given that its references are plain names of chains of the program. -/
theorem flow_into {a : Ast C} (hn : (a.map Prod.fst).Nodup) (hin : inputName ∉ a.map Prod.fst) {b : Bool} {k : Name}
    {comps : List C} (hk : (k, comps) ∈ a)
    (hr : ∀ c, c ∈ comps → ∀ r, r ∈ refs c → '.' ∉ r ∧ r ∈ a.map Prod.fst) {q : Place} {i : Nat} :
    Flow refs a b q (.at k i) ↔ (∃ j, i = j + 1 ∧ q = .at k j ∧ i < comps.length) ∨
      ∃ c r rc n, comps[i]? = some c ∧ r ∈ refs c ∧ (r, rc) ∈ a ∧ rc.length = n + 1 ∧ q = .at r n := by
  have hchain : ∀ {k' : Name} {x : List C} {n : Nat}, (k', x) ∈ a → Chain a b k' n → n = x.length := by
    intro k' x n hx hc
    cases hc with
    | prog h => rw [key_unique hn h hx]
    | input _ => exact absurd (List.mem_map.mpr ⟨_, hx, rfl⟩) hin
  constructor
  · intro h
    cases h with
    | next hc hi =>
      rw [hchain hk hc] at hi
      exact .inl ⟨_, rfl, rfl, hi⟩
    | ref h1 h2 h3 h4 h5 =>
      rw [key_unique hn h1 hk] at h2
      obtain ⟨h6, h7⟩ := hr _ (List.mem_of_getElem? h2) _ h3
      obtain ⟨⟨r, rc⟩, h8, rfl⟩ := List.mem_map.mp h7
      cases h4 with
      | named _ => exact .inr ⟨_, _, rc, _, h2, h3, h8, (hchain h8 h5).symm, rfl⟩
      | pattern _ _ => exact absurd (by simp) h6
  · rintro (⟨j, rfl, rfl, h⟩ | ⟨c, r, rc, n, h1, h2, h3, h4, rfl⟩)
    · exact .next (.prog hk) h
    · refine .ref hk h1 h2 (.named (hr _ (List.mem_of_getElem? h1) _ h2).1) ?_
      rw [← h4]
      exact .prog h3

/-- An untouched chain hears the same places in both programs. -/
theorem untouched_flow (h : Untouched eq refs a0 a1 ks) (hn0 : (a0.map Prod.fst).Nodup) (hn1 : (a1.map Prod.fst).Nodup)
    (hi0 : inputName ∉ a0.map Prod.fst) (hi1 : inputName ∉ a1.map Prod.fst) {b0 b1 : Bool} {k : Name} (hk : k ∈ ks)
    {q : Place} {i : Nat} : Flow refs a0 b0 q (.at k i) ↔ Flow refs a1 b1 q (.at k i) := by
  obtain ⟨comps, k0, k1, hc⟩ := untouched_chain h hk
  have key : ∀ {c}, c ∈ comps → ∀ {r}, r ∈ refs c → ∃ rc, (r, rc) ∈ a0 ∧ (r, rc) ∈ a1 := by
    intro c hcc r hr
    obtain ⟨rc, h1, h2, _⟩ := untouched_chain h ((hc c hcc).2 r hr).1
    exact ⟨rc, h1, h2⟩
  rw [flow_into hn0 hi0 k0, flow_into hn1 hi1 k1]
  · constructor
    · rintro (h | ⟨c, r, rc, n, h1, h2, h3, h4, rfl⟩)
      · exact .inl h
      · obtain ⟨rc', j1, j2⟩ := key (List.mem_of_getElem? h1) h2
        rw [key_unique hn0 h3 j1] at h4
        exact .inr ⟨c, r, rc', n, h1, h2, j2, h4, rfl⟩
    · rintro (h | ⟨c, r, rc, n, h1, h2, h3, h4, rfl⟩)
      · exact .inl h
      · obtain ⟨rc', j1, j2⟩ := key (List.mem_of_getElem? h1) h2
        rw [key_unique hn1 h3 j2] at h4
        exact .inr ⟨c, r, rc', n, h1, h2, j1, h4, rfl⟩
  · intro c hcc r hr
    obtain ⟨rc, _, h1⟩ := key hcc hr
    exact ⟨((hc c hcc).2 r hr).2.1, List.mem_map.mpr ⟨_, h1, rfl⟩⟩
  · intro c hcc r hr
    obtain ⟨rc, h1, _⟩ := key hcc hr
    exact ⟨((hc c hcc).2 r hr).2.1, List.mem_map.mpr ⟨_, h1, rfl⟩⟩

/-- The place `q` lies in the untouched chains, below the place `i` of the chain `k`. -/
def Below (ks : List Name) (q : Place) (k : Name) (i : Nat) : Prop :=
  ∃ k' j, q = .at k' j ∧ k' ∈ ks ∧ (height ks k' < height ks k ∨ (k' = k ∧ j < i))

theorem untouched_source (h : Untouched eq refs a0 a1 ks) (hn0 : (a0.map Prod.fst).Nodup)
    (hi0 : inputName ∉ a0.map Prod.fst) {b : Bool} {k : Name} (hk : k ∈ ks) {q : Place} {i : Nat} {comps : List C}
    (hkc : (k, comps) ∈ a0) (hf : Flow refs a0 b q (.at k i)) :
    (∃ j, i = j + 1 ∧ q = .at k j ∧ ∃ c', comps[j]? = some c') ∨
    ∃ c r n rc c', comps[i]? = some c ∧ r ∈ refs c ∧ q = .at r n ∧ r ∈ ks ∧ height ks r < height ks k ∧ (r, rc) ∈ a0 ∧
      rc.length = n + 1 ∧ rc[n]? = some c' := by
  obtain ⟨comps', k0, k1, hc⟩ := untouched_chain h hk
  have := key_unique hn0 hkc k0
  subst this
  rw [flow_into hn0 hi0 k0] at hf
  · rcases hf with ⟨j, rfl, rfl, hlt⟩ | ⟨c, r, rc, n, h1, h2, h3, h4, rfl⟩
    · exact .inl ⟨j, rfl, rfl, _, List.getElem?_eq_getElem (by omega)⟩
    · obtain ⟨j1, j2, j3⟩ := (hc c (List.mem_of_getElem? h1)).2 r h2
      exact .inr ⟨c, r, n, rc, _, h1, h2, rfl, j1, j3, h3, h4, List.getElem?_eq_getElem (by omega)⟩
  · intro c hcc r hr
    obtain ⟨h1, h2, _⟩ := (hc c hcc).2 r hr
    obtain ⟨rc, h3, _⟩ := untouched_chain h h1
    exact ⟨h2, List.mem_map.mpr ⟨_, h3, rfl⟩⟩

theorem untouched_below (h : Untouched eq refs a0 a1 ks) (hn0 : (a0.map Prod.fst).Nodup)
    (hi0 : inputName ∉ a0.map Prod.fst) {b : Bool} {k : Name} (hk : k ∈ ks) {q : Place} {i : Nat}
    (hf : Flow refs a0 b q (.at k i)) : Below ks q k i := by
  obtain ⟨comps, k0, k1, hc⟩ := untouched_chain h hk
  rw [flow_into hn0 hi0 k0] at hf
  · rcases hf with ⟨j, rfl, rfl, _⟩ | ⟨c, r, rc, n, h1, h2, h3, h4, rfl⟩
    · exact ⟨k, j, rfl, hk, .inr ⟨rfl, Nat.lt_succ_self j⟩⟩
    · obtain ⟨j1, j2, j3⟩ := (hc c (List.mem_of_getElem? h1)).2 r h2
      exact ⟨r, n, rfl, j1, .inl j3⟩
  · intro c hcc r hr
    obtain ⟨h1, h2, _⟩ := (hc c hcc).2 r hr
    obtain ⟨rc, h3, _⟩ := untouched_chain h h1
    exact ⟨h2, List.mem_map.mpr ⟨_, h3, rfl⟩⟩

/-- There is no feedback within the untouched chains. -/
theorem untouched_leads (h : Untouched eq refs a0 a1 ks) (hn0 : (a0.map Prod.fst).Nodup)
    (hi0 : inputName ∉ a0.map Prod.fst) {b : Bool} {p q : Place} (hl : Leads refs a0 b p q) {k : Name} {i : Nat}
    (hq : q = .at k i) (hk : k ∈ ks) : p = .at k i ∨ Below ks p k i := by
  induction hl with
  | refl p => exact .inl hq
  | @step p x q hf _ ih =>
    rcases ih hq with rfl | ⟨k', j, rfl, h1, h2⟩
    · exact .inr (untouched_below h hn0 hi0 hk hf)
    · obtain ⟨k2, j2, rfl, h3, h4⟩ := untouched_below h hn0 hi0 h1 hf
      refine .inr ⟨k2, j2, rfl, h3, ?_⟩
      rcases h2 with h2 | ⟨rfl, h2⟩ <;> rcases h4 with h4 | ⟨rfl, h4⟩ <;> first
        | exact .inl (by omega)
        | exact .inr ⟨rfl, by omega⟩

theorem untouched_acyclic (h : Untouched eq refs a0 a1 ks) (hn0 : (a0.map Prod.fst).Nodup)
    (hi0 : inputName ∉ a0.map Prod.fst) {b : Bool} {q : Place} {k : Name} {i : Nat} (hk : k ∈ ks)
    (hf : Flow refs a0 b q (.at k i)) : ¬ Leads refs a0 b (.at k i) q := by
  intro hl
  obtain ⟨k', j, rfl, h1, h2⟩ := untouched_below h hn0 hi0 hk hf
  rcases untouched_leads h hn0 hi0 hl rfl h1 with h3 | ⟨k2, j2, h3, _, h4⟩
  · cases h3
    rcases h2 with h2 | ⟨_, h2⟩ <;> omega
  · cases h3
    rcases h2 with h2 | ⟨rfl, h2⟩ <;> rcases h4 with h4 | ⟨h5, h4⟩ <;> (try subst h5) <;> omega

theorem untouched_symm (h : Untouched eq refs a0 a1 ks) : Untouched eq refs a1 a0 ks := by
  induction h with
  | nil => exact .nil
  | cons _ h1 h2 h3 h4 ih => exact .cons ih h1 h3 h2 h4

end Flow

section Nodes
variable {L : Lang}

theorem filter_zip_all {α : Type} {f : α × Nat → Bool} : ∀ {l : List α} {ns : List Nat}, l.length = ns.length →
    (∀ x, x ∈ l.zip ns → f x = true) → ((l.zip ns).filter f).map (·.2) = ns := by
  intro l ns hl hf
  rw [List.filter_eq_self.mpr hf]
  exact List.map_snd_zip (by omega)

/-- An edit leaves the nodes of untouched chains in place. -/
theorem untouched_nodes (hL : ParserWf L) (hq : EqLaws L) {e e' : Engine L} (hr : CleanReach L e)
    {τ : TableOrder} {code : Name} {a0 new : Ast L.Comp} (h0 : e.ast = some a0) (hparse : L.parse code = .ok (some new))
    (hc : CleanProg L new) (h : e.updateWithCode τ code = .ok (e', none)) {k : Name} {comps : List L.Comp}
    (hk0 : (k, comps) ∈ a0) (hk : (k, comps) ∈ new) (heq : ∀ c, c ∈ comps → L.compEq c c = true) (hne : comps ≠ []) :
    ∃ nodes, (k, nodes) ∈ e.index ∧ (k, nodes) ∈ e'.index ∧ nodes.length = comps.length := by
  obtain ⟨nodes, old, h1, h2, h3, h4, h5, _⟩ := chain_of_update hL hq hr hparse hc h hk (.inl ⟨a0, h0, hk0⟩)
  have hany : ∀ {ns : List Nat} x, x ∈ comps.zip ns → comps.any (fun o => L.compEq o x.1) = true := by
    intro ns x hx
    have := (List.of_mem_zip (a := x.1) (b := x.2) hx).1
    exact List.any_eq_true.mpr ⟨x.1, this, heq _ this⟩
  have hany' : ∀ {ns : List Nat} x, x ∈ comps.zip ns → comps.any (fun c => L.compEq x.1 c) = true := by
    intro ns x hx
    have := (List.of_mem_zip (a := x.1) (b := x.2) hx).1
    exact List.any_eq_true.mpr ⟨x.1, this, heq _ this⟩
  rw [filter_zip_all h2.symm (hany), filter_zip_all h3.symm (hany')] at h5
  subst h5
  exact ⟨nodes, h4 hne, h1, h2⟩

theorem sourceList_move {t t' : Table} {rs : List Name} {s : List Nat} (h : SourceList t rs s)
    (hr : ∀ r, r ∈ rs → '.' ∉ r ∧ ∀ c, (r, c) ∈ t → (r, c) ∈ t') : SourceList t' rs s := by
  induction h with
  | nil => exact .nil
  | named h1 h2 h3 _ ih =>
    exact .named h1 ((hr _ (by simp)).2 _ h2) h3 (ih (fun r hr' => hr r (List.mem_cons_of_mem _ hr')))
  | pattern h1 _ _ _ => exact absurd (by simp) (hr _ (List.mem_cons_self)).1

end Nodes

end Verif
