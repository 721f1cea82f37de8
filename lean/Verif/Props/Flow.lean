import Verif.Lemmas.InForce
import Verif.Props.Api
import Verif.Lemmas.Places
import Verif.Lemmas.Eval
import Verif.Props.Mirror
import Verif.Spec.Flow

/-!
# A block computes the program in force
-/

namespace Verif.Props
open Verif Spec

variable {L : Lang}

/-! ### The built-in chain -/

theorem input_one (hL : ParserWf L) {e : Engine L} (hr : CleanReach L e) :
    ∀ c, lookup e.index inputName = some c → c.length = 1 := by
  induction hr with
  | new N => intro c hc; cases hc; rfl
  | @step e e1 op hr hA happ ih =>
    have hI := inv_reachable hL hr.reachable
    cases op with
    | update τ code =>
      simp only [Op.apply, except_bind_ok] at happ
      obtain ⟨⟨e2, r⟩, h1, happ⟩ := happ
      cases happ
      unfold Engine.updateWithCode at h1
      rw [except_bind_ok] at h1
      obtain ⟨p, hpp, h1⟩ := h1
      split at h1
      · cases h1; exact ih
      · rename_i new
        have hw := hL code new hpp
        cases r with
        | none =>
          obtain ⟨diff, t1, gone1, t2, gone2, g3, cr, g5, ha⟩ := accepted hI hw h1
          have hno : inputName ∉ oldKeys e := by
            intro h
            obtain ⟨a, ha, hka⟩ := mem_oldKeys.mp h
            exact clean_noInput hL hr a ha hka
          have hsu := staged_untouched hI hw ha.staged (hA new hpp).noInput hno
          change ∀ c, lookup e2.index ['~', 'i', 'n', 'p', 'u', 't'] = some c → c.length = 1
          rw [hsu]
          exact ih
        | some x =>
          rw [(sameEngine_of_rejected hI hw h1).1.index]
          exact ih
    | sendMsg m =>
      have := onlyNodes_sendMsg happ
      rw [this.eq]; exact ih
    | setBpm v =>
      obtain ⟨h1, _, _⟩ := setBpm_nodes happ
      rw [h1]; exact ih
    | setSr v => cases happ; exact ih
    | setSeed v => cases happ; exact ih
    | setTrackAmp v => cases happ; exact ih
    | addSample n s => cases happ; exact ih
    | nextBlock ho buf =>
      simp only [Op.apply, except_bind_ok] at happ
      obtain ⟨⟨e2, out⟩, h1, happ⟩ := happ
      cases happ
      obtain ⟨e3, g, d, h2, h3, _, _, rfl⟩ := nextBlock_ok h1
      have h4 := onlyNodes_copyInputs h2
      show ∀ c, lookup e3.index inputName = some c → _
      rw [h4.eq]; exact ih
    | reset =>
      cases happ
      intro c hc
      cases hc

/-! ### Edges and flow -/

theorem adjacent_iff {c : List Nat} {a b : Nat} : Adjacent c a b ↔ ∃ i, c[i]? = some a ∧ c[i + 1]? = some b := by
  constructor
  · rintro ⟨pre, post, rfl⟩
    exact ⟨pre.length, by simp, by simp⟩
  · rintro ⟨i, h1, h2⟩
    obtain ⟨l1, e1⟩ := List.getElem?_eq_some_iff.mp h1
    obtain ⟨l2, e2⟩ := List.getElem?_eq_some_iff.mp h2
    refine ⟨c.take i, c.drop (i + 2), ?_⟩
    subst e1 e2
    rw [← List.drop_eq_getElem_cons l2, ← List.drop_eq_getElem_cons l1, List.take_append_drop]

/-- What the proof needs to know about an engine. -/
structure Ctx (e : Engine L) (a : Ast L.Comp) (b : Bool) : Prop where
  inv : Inv e
  ast : e.ast = some a
  mirrors : Mirrors e
  wf : ProgWf a
  noInput : inputName ∉ keys a
  one : ∀ c, lookup e.index inputName = some c → c.length = 1
  input : b = true ↔ inputName ∈ keys e.index
  edges : ∀ x y, (x, y) ∈ e.graph.edges ↔ Wanted L e.dest e.index a x y

variable {e : Engine L} {a : Ast L.Comp} {b : Bool}

theorem Ctx.chain (h : Ctx e a b) {k : Name} {n : Nat} : Chain a b k n ↔ ∃ c, (k, c) ∈ e.index ∧ c.length = n := by
  constructor
  · intro hc
    cases hc with
    | prog hm =>
      obtain ⟨c, h1, h2⟩ := h.mirrors.len a h.ast k _ hm
      exact ⟨c, lookup_mem h1, h2⟩
    | input hb =>
      have hk := h.input.mp hb
      obtain ⟨⟨k, c⟩, hm, rfl⟩ := List.mem_map.mp hk
      exact ⟨c, hm, h.one c (lookup_of_mem h.inv.keysNodup hm)⟩
  · rintro ⟨c, hm, rfl⟩
    by_cases hk : k ∈ oldKeys e
    · obtain ⟨a', ha', hka⟩ := mem_oldKeys.mp hk
      rw [h.ast] at ha'
      cases ha'
      obtain ⟨⟨k', comps⟩, hm', rfl⟩ := List.mem_map.mp hka
      obtain ⟨c', h1, h2⟩ := h.mirrors.len a h.ast k' comps hm'
      rw [lookup_of_mem h.inv.keysNodup hm] at h1
      cases h1
      rw [h2]
      exact .prog hm'
    · have hki : k ∈ keys e.index := List.mem_map.mpr ⟨_, hm, rfl⟩
      have hin := h.mirrors.onlyInput k hki hk
      subst hin
      rw [h.one c (lookup_of_mem h.inv.keysNodup hm)]
      exact .input (h.input.mpr hki)

theorem last_iff {c : List Nat} {x : Nat} : c.getLast? = some x ↔ ∃ n, c.length = n + 1 ∧ c[n]? = some x := by
  rw [List.getLast?_eq_getElem?]
  constructor
  · intro h
    obtain ⟨hl, _⟩ := List.getElem?_eq_some_iff.mp h
    exact ⟨c.length - 1, by omega, h⟩
  · rintro ⟨n, h1, h2⟩
    rw [h1]
    exact h2

theorem Ctx.denotes (h : Ctx e a b) {r : Name} {x : Nat} :
    Denotes e.index r x ↔ ∃ k n, Means r k ∧ Chain a b k (n + 1) ∧ Sits e (.at k n) x := by
  constructor
  · intro hd
    cases hd with
    | named h1 h2 h3 =>
      obtain ⟨n, hn, hx⟩ := last_iff.mp h3
      exact ⟨_, n, .named h1, h.chain.mpr ⟨_, h2, hn⟩, .at h2 hx⟩
    | pattern h1 h2 h3 h4 =>
      obtain ⟨n, hn, hx⟩ := last_iff.mp h4
      exact ⟨_, n, .pattern h1 h3, h.chain.mpr ⟨_, h2, hn⟩, .at h2 hx⟩
  · rintro ⟨k, n, hm, hc, hs⟩
    obtain ⟨c, h1, h2⟩ := h.chain.mp hc
    cases hs with
    | «at» h3 h4 =>
      have : c = _ := Option.some.inj ((lookup_of_mem h.inv.keysNodup h1).symm.trans (lookup_of_mem h.inv.keysNodup h3))
      subst this
      have hl := last_iff.mpr ⟨n, h2, h4⟩
      cases hm with
      | named h5 => exact .named h5 h1 hl
      | pattern h5 h6 => exact .pattern h5 h1 h6 hl

theorem Ctx.same (h : Ctx e a b) {k : Name} {c c' : List Nat} (h1 : (k, c) ∈ e.index) (h2 : (k, c') ∈ e.index) :
    c = c' :=
  Option.some.inj ((lookup_of_mem h.inv.keysNodup h1).symm.trans (lookup_of_mem h.inv.keysNodup h2))

/-- Edges connect exactly the places between which a signal flows. -/
theorem Ctx.flow (h : Ctx e a b) {p q : Place} {x y : Nat} (hp : Sits e p x) (hq : Sits e q y) :
    (x, y) ∈ e.graph.edges ↔ Flow L.refs a b p q := by
  rw [h.edges]
  constructor
  · intro hw
    cases hw with
    | chain hm hadj =>
      obtain ⟨i, h1, h2⟩ := adjacent_iff.mp hadj
      rw [sits_place h.inv hp (.at hm h1), sits_place h.inv hq (.at hm h2)]
      refine .next (h.chain.mpr ⟨_, hm, rfl⟩) ?_
      exact (List.getElem?_eq_some_iff.mp h2).1
    | out hm ht hl =>
      obtain ⟨n, hn, hx⟩ := last_iff.mp hl
      rw [sits_place h.inv hp (.at hm hx), sits_place h.inv hq .dest]
      exact .out (h.chain.mpr ⟨_, hm, hn⟩) ht
    | ref hm hi hr ht hc hd =>
      obtain ⟨k, n, h1, h2, h3⟩ := h.denotes.mp hd
      rw [sits_place h.inv hp h3, sits_place h.inv hq (.at ht hc)]
      exact .ref hm hi hr h1 h2
  · intro hf
    cases hf with
    | next hc hi =>
      cases hp with
      | «at» h1 h2 =>
        cases hq with
        | «at» h3 h4 =>
          have := h.same h1 h3
          subst this
          exact .chain h1 (adjacent_iff.mpr ⟨_, h2, h4⟩)
    | out hc ht =>
      cases hq
      cases hp with
      | «at» h1 h2 =>
        obtain ⟨c, h3, h4⟩ := h.chain.mp hc
        have := h.same h1 h3
        subst this
        exact .out h1 ht (last_iff.mpr ⟨_, h4, h2⟩)
    | ref hm hi hr hmean hc =>
      cases hq with
      | «at» h3 h4 => exact .ref hm hi hr h3 h4 (h.denotes.mpr ⟨_, _, hmean, hc, hp⟩)

theorem Ctx.live (h : Ctx e a b) {x y : Nat} (hxy : (x, y) ∈ e.graph.edges) : (∃ p, Sits e p x) ∧ ∃ p, Sits e p y := by
  obtain ⟨h1, h2⟩ := h.inv.edges _ hxy
  exact ⟨live_sits h.inv h1, live_sits h.inv h2⟩

theorem Ctx.leads (h : Ctx e a b) {x y : Nat} {p q : Place} (hp : Sits e p x) (hq : Sits e q y) :
    Feeds e.graph.edges x y ↔ Leads L.refs a b p q := by
  constructor
  · intro hf
    induction hf generalizing p with
    | refl x =>
      rw [sits_place h.inv hp hq]
      exact .refl _
    | @step x z y hxz _ ih =>
      obtain ⟨_, r, hz⟩ := h.live hxz
      exact .step ((h.flow hp hz).mp hxz) (ih hz hq)
  · intro hf
    induction hf generalizing x with
    | refl p =>
      rw [sits_node h.inv hp hq]
      exact .refl _
    | @step p r q hpr _ ih =>
      obtain ⟨z, hz⟩ : ∃ z, Sits e r z := by
        cases hpr with
        | next hc hi =>
          obtain ⟨c, h1, h2⟩ := h.chain.mp hc
          exact ⟨_, .at h1 (List.getElem?_eq_getElem (by omega))⟩
        | out => exact ⟨_, .dest⟩
        | ref hm hi hr hmean hc =>
          obtain ⟨c, h1, h2⟩ := h.mirrors.len a h.ast _ _ hm
          obtain ⟨hl, _⟩ := List.getElem?_eq_some_iff.mp hi
          exact ⟨_, .at (lookup_mem h1) (List.getElem?_eq_getElem (by omega))⟩
      exact .step ((h.flow hp hz).mpr hpr) (ih hz hq)

/-! ### External input -/

theorem copyInput_other {e e' : Engine L} {ch : Nat} {x : List L.Num} (h : e.copyInput ch x = .ok e') {n : Nat} {d : L.Data}
    (hd : e'.graph.node? n = some d) :
    ∃ d0, e.graph.node? n = some d0 ∧ d0.node = d.node ∧ ((∀ c, lookup e.index inputName = some c → c[0]? ≠ some n) → d0 = d) := by
  unfold Engine.copyInput at h
  split at h
  · cases h
  · rename_i nodes hl
    split at h
    · cases h
    · rename_i i hi
      rw [except_bind_ok] at h
      obtain ⟨g, h1, h⟩ := h
      cases h
      obtain ⟨d0, d1, k1, k2, _, _, _, k3⟩ := Graph.modify_ok h1
      change g.node? n = some d at hd
      rw [k3] at hd
      by_cases hni : i = n
      · subst hni
        rw [if_pos rfl] at hd
        cases hd
        refine ⟨d0, k1, ?_, fun hne => absurd hi (hne _ hl)⟩
        split at k2
        · cases k2
        · split at k2
          · cases k2; rfl
          · cases k2
      · rw [if_neg hni] at hd
        exact ⟨d, hd, rfl, fun _ => rfl⟩

theorem copyInputs_other {e e' : Engine L} {ins : List (List L.Num)} (h : e.copyInputs ins = .ok e') {n : Nat} {d : L.Data}
    (hd : e'.graph.node? n = some d) :
    ∃ d0, e.graph.node? n = some d0 ∧ d0.node = d.node ∧ ((∀ c, lookup e.index inputName = some c → c[0]? ≠ some n) → d0 = d) := by
  unfold Engine.copyInputs at h
  split at h
  · cases h; exact ⟨d, hd, rfl, fun _ => rfl⟩
  · exact copyInput_other h hd
  · rw [except_bind_ok] at h
    obtain ⟨e1, h1, h2⟩ := h
    obtain ⟨d1, k1, k2, k3⟩ := copyInput_other h2 hd
    obtain ⟨d0, j1, j2, j3⟩ := copyInput_other h1 k1
    refine ⟨d0, j1, j2.trans k2, fun hn => (j3 hn).trans (k3 ?_)⟩
    have : e1.index = e.index := by rw [(onlyNodes_copyInput h1).eq]
    rw [this]
    exact hn

theorem copyInput_fill {e e' : Engine L} {ch : Nat} {x : List L.Num} (h : e.copyInput ch x = .ok e') {n : Nat} {d : L.Data}
    {c : List Nat} (hc : lookup e.index inputName = some c) (h0 : c[0]? = some n) (hd : e'.graph.node? n = some d) :
    ∃ d0, e.graph.node? n = some d0 ∧ ch < d0.buffers.length ∧ d.buffers = d0.buffers.set ch x := by
  unfold Engine.copyInput at h
  rw [hc] at h
  simp only [h0] at h
  rw [except_bind_ok] at h
  obtain ⟨g, h1, h⟩ := h
  cases h
  obtain ⟨d0, d1, k1, k2, _, _, _, k3⟩ := Graph.modify_ok h1
  change g.node? n = some d at hd
  rw [k3, if_pos rfl] at hd
  cases hd
  refine ⟨d0, k1, ?_⟩
  split at k2
  · cases k2
  · rename_i b hb
    split at k2
    · cases k2
      exact ⟨(List.getElem?_eq_some_iff.mp hb).1, rfl⟩
    · cases k2

/-- The external input replaces the buffers of the input node. -/
theorem copyInputs_fill {e e' : Engine L} {ins : List (List L.Num)} (h : e.copyInputs ins = .ok e') {n : Nat} {d : L.Data}
    {c : List Nat} (hc : lookup e.index inputName = some c) (h0 : c[0]? = some n) (hd : e'.graph.node? n = some d) :
    ∃ d0, e.graph.node? n = some d0 ∧ d.buffers = fill ins d0.buffers := by
  unfold Engine.copyInputs at h
  split at h
  · cases h; exact ⟨d, hd, by simp [fill]⟩
  · obtain ⟨d0, k1, k2, k3⟩ := copyInput_fill h hc h0 hd
    refine ⟨d0, k1, ?_⟩
    rw [k3]
    cases hb : d0.buffers with
    | nil => rw [hb] at k2; simp at k2
    | cons a l => simp [fill]
  · rw [except_bind_ok] at h
    obtain ⟨e1, h1, h2⟩ := h
    have hidx : e1.index = e.index := by rw [(onlyNodes_copyInput h1).eq]
    obtain ⟨d1, k1, k2, k3⟩ := copyInput_fill h2 (hidx ▸ hc) h0 hd
    obtain ⟨d0, j1, j2, j3⟩ := copyInput_fill h1 hc h0 k1
    refine ⟨d0, j1, ?_⟩
    rw [k3, j3]
    rw [j3, List.length_set] at k2
    match hb : d0.buffers with
    | [] => rw [hb] at k2; simp at k2
    | [a] => rw [hb] at k2; simp at k2
    | a :: b :: l => simp [fill]

/-! ### C48 -/

/-- **C48** (partial). In every engine reached by programs without repeated components, a block computes the program in
force: every place from which a signal leads to the output runs its node once, on exactly the signals of the places
that flow into it, and the block returned is the signal of the output. `sig p` is the block the place `p` produces,
`prev p` the one it produced before. A source that itself depends on the place (feedback) may be heard one block
late. Only the node of the built-in chain `~input` has its buffers filled beforehand, with the external input.
Missing: programs with repeated components, for which it is false (C02, C05, C06). -/
theorem c48_block_computes_the_program_partial (hL : ParserWf L) (hq : EqLaws L) (hl : RefLaws L) {e e' : Engine L}
    (hr : CleanReach L e) (a : Ast L.Comp) (hast : e.ast = some a) (hrw : ∀ r, progRefs L a r → RefWf r)
    (ho : HashOrder) (ins out : List (List L.Num)) (h : e.nextBlock ho ins = .ok (e', out)) (b : Bool)
    (hb : b = true ↔ ['~', 'i', 'n', 'p', 'u', 't'] ∈ e.index.map Prod.fst) :
    ∃ sig prev : Place → List (List L.Num), out = sig .dest ∧
      ∀ p, Leads L.refs a b p .dest → ∃ (n : Nat) (node node' : L.Node) (bufs : List (List L.Num))
        (inputs : List (Nat × List (List L.Num))) (srcs : List Place),
        Sits e p n ∧ e.graph.node? n = some ⟨node, bufs⟩ ∧ (p ≠ .at ['~', 'i', 'n', 'p', 'u', 't'] 0 → prev p = bufs) ∧
        (p = .at ['~', 'i', 'n', 'p', 'u', 't'] 0 → prev p = fill ins bufs) ∧
        Sits e' p n ∧ e'.graph.node? n = some ⟨node', sig p⟩ ∧ L.proc node inputs (prev p) = .ok (node', sig p) ∧
        srcs.Nodup ∧ (∀ q, q ∈ srcs ↔ Flow L.refs a b q p ∧ q ≠ p) ∧
        List.Forall₂ (fun inp q => Sits e q inp.1 ∧
          (inp.2 = sig q ∨ (Leads L.refs a b p q ∧ inp.2 = prev q))) inputs srcs := by
  classical
  have hI := inv_reachable hL hr.reachable
  have hX : Ctx e a b := ⟨hI, hast, mirrors_clean hL hq hr, hI.ast a hast, clean_noInput hL hr a hast,
    input_one hL hr, hb, (inForce_clean hL hq hl hr).edges a hast hrw⟩
  obtain ⟨e1, g, dd, h1, h2, h3, rfl, rfl⟩ := nextBlock_ok h
  have hon := onlyNodes_copyInputs h1
  have hidx : e1.index = e.index := by rw [hon.eq]
  have hdest : e1.dest = e.dest := by rw [hon.eq]
  have hinp : e1.input = e.input := by rw [hon.eq]
  have hedg : e1.graph.edges = e.graph.edges := hon.shape.edges
  have hE : EdgesLive e1.graph := by
    intro x hx
    rw [hedg] at hx
    obtain ⟨k1, k2⟩ := hI.edges x hx
    exact ⟨(hon.shape.live _).mpr k1, (hon.shape.live _).mpr k2⟩
  have hd : ∃ x, e1.graph.node? e1.dest = some x := by
    rw [hdest]
    exact (hon.shape.live _).mpr ((hI.live _).mpr (.inl rfl))
  have hblk := c10_feedback_block L.proc ho e1.graph g e1.dest hE hd h2
  have sits' : ∀ {p n}, Sits e p n → Sits ({ e1 with graph := g, clock := e1.clock + e1.N } : Engine L) p n := by
    intro p n hs
    cases hs with
    | dest => rw [← hdest]; exact .dest
    | input => rw [← hinp]; exact .input
    | «at» k1 k2 => exact .at (by show _ ∈ e1.index; rw [hidx]; exact k1) k2
  -- the blocks before and after
  let num : Place → Nat := fun p => if hp : ∃ n, Sits e p n then hp.choose else 0
  have hnum : ∀ {p n}, Sits e p n → num p = n := by
    intro p n hs
    have hp : ∃ n, Sits e p n := ⟨n, hs⟩
    simp only [num, hp, dif_pos]
    exact sits_node hI hp.choose_spec hs
  let sig : Place → List (List L.Num) := fun p => ((g.node? (num p)).map (·.buffers)).getD []
  let prev : Place → List (List L.Num) := fun p => ((e1.graph.node? (num p)).map (·.buffers)).getD []
  refine ⟨sig, prev, ?_, ?_⟩
  · simp only [sig, hnum Sits.dest, ← hdest, h3, Option.map_some, Option.getD_some]
  · intro p hp
    obtain ⟨n, hn⟩ : ∃ n, Sits e p n := by
      cases hp with
      | refl => exact ⟨_, .dest⟩
      | step hf _ =>
        cases hf with
        | next hc hi =>
          obtain ⟨c, k1, k2⟩ := hX.chain.mp hc
          exact ⟨_, .at k1 (List.getElem?_eq_getElem (by omega))⟩
        | out hc =>
          obtain ⟨c, k1, k2⟩ := hX.chain.mp hc
          exact ⟨_, .at k1 (List.getElem?_eq_getElem (by omega))⟩
        | ref _ _ _ _ hc =>
          obtain ⟨c, k1, k2⟩ := hX.chain.mp hc
          exact ⟨_, .at k1 (List.getElem?_eq_getElem (by omega))⟩
    have hfeeds : Feeds e1.graph.edges n e1.dest := by
      rw [hedg, hdest]
      exact (hX.leads hn .dest).mpr hp
    obtain ⟨inputs, d, d', hin, k1, k2, k3, k4⟩ := hblk n hfeeds
    have hprev : prev p = d.buffers := by simp only [prev, hnum hn, k1, Option.map_some, Option.getD_some]
    have hsig : sig p = d'.buffers := by simp only [sig, hnum hn, k2, Option.map_some, Option.getD_some]
    obtain ⟨d0, j1, j2, j3⟩ := copyInputs_other h1 k1
    -- the places of the inputs
    have hplace : ∀ x, x ∈ inputs → ∃ q, Sits e q x.1 := by
      intro x hx
      have := (hin.2 x.1).mp (List.mem_map.mpr ⟨x, hx, rfl⟩)
      rw [hedg] at this
      exact (hX.live this.1).1
    let place : Nat → Place := fun k => if hk : ∃ q, Sits e q k then hk.choose else .dest
    have hpl : ∀ {k q}, Sits e q k → place k = q := by
      intro k q hs
      have hk : ∃ q, Sits e q k := ⟨q, hs⟩
      simp only [place, hk, dif_pos]
      exact sits_place hI hk.choose_spec hs
    refine ⟨n, d.node, d'.node, d0.buffers, inputs, inputs.map (fun x => place x.1), hn, ?_, ?_, ?_, sits' hn, ?_, ?_, ?_, ?_, ?_⟩
    · rw [j1, ← j2]
    · intro hne
      rw [hprev, j3 ?_]
      intro c hc h0
      exact hne (sits_place hI hn (.at (lookup_mem hc) h0))
    · rintro rfl
      cases hn with
      | «at» m1 m2 =>
        obtain ⟨dx, x1, x2⟩ := copyInputs_fill h1 (lookup_of_mem hI.keysNodup m1) m2 k1
        rw [j1] at x1
        cases x1
        rw [hprev, x2]
    · rw [hsig]; exact k2
    · rw [hsig, hprev]; exact k3
    · have hnd := hin.1
      rw [List.Nodup, List.pairwise_map] at hnd ⊢
      refine hnd.imp_of_mem ?_
      intro x y hx hy hxy heq
      obtain ⟨q, hq1⟩ := hplace x hx
      obtain ⟨q', hq2⟩ := hplace y hy
      rw [hpl hq1, hpl hq2] at heq
      subst heq
      exact hxy (sits_node hI hq1 hq2)
    · intro q
      constructor
      · intro hq
        obtain ⟨x, hx, rfl⟩ := List.mem_map.mp hq
        obtain ⟨q, hq1⟩ := hplace x hx
        rw [hpl hq1]
        have := (hin.2 x.1).mp (List.mem_map.mpr ⟨x, hx, rfl⟩)
        rw [hedg] at this
        refine ⟨(hX.flow hq1 hn).mp this.1, ?_⟩
        rintro rfl
        exact this.2 (sits_node hI hq1 hn)
      · rintro ⟨hf, hne⟩
        obtain ⟨k, hk⟩ : ∃ k, Sits e q k := by
          cases hf with
          | next hc hi =>
            obtain ⟨c, k1, k2⟩ := hX.chain.mp hc
            exact ⟨_, .at k1 (List.getElem?_eq_getElem (by omega))⟩
          | out hc =>
            obtain ⟨c, k1, k2⟩ := hX.chain.mp hc
            exact ⟨_, .at k1 (List.getElem?_eq_getElem (by omega))⟩
          | ref _ _ _ _ hc =>
            obtain ⟨c, k1, k2⟩ := hX.chain.mp hc
            exact ⟨_, .at k1 (List.getElem?_eq_getElem (by omega))⟩
        have hmem := (hin.2 k).mpr ⟨by rw [hedg]; exact (hX.flow hk hn).mpr hf, by
          rintro rfl
          exact hne (sits_place hI hk hn)⟩
        obtain ⟨x, hx, rfl⟩ := List.mem_map.mp hmem
        exact List.mem_map.mpr ⟨x, hx, hpl hk⟩
    · rw [List.forall₂_map_right_iff, List.forall₂_same]
      intro x hx
      obtain ⟨q, hq1⟩ := hplace x hx
      rw [hpl hq1]
      refine ⟨hq1, ?_⟩
      rcases k4 x.1 x.2 hx with ⟨dk, m1, m2⟩ | ⟨m0, dk, m1, m2⟩
      · left
        simp only [sig, hnum hq1, m1, Option.map_some, Option.getD_some, m2]
      · right
        rw [hedg] at m0
        refine ⟨(hX.leads hn hq1).mp m0, ?_⟩
        simp only [prev, hnum hq1, m1, Option.map_some, Option.getD_some, m2]

/-- The second component of `o` refers to `~a`; both are heard. -/
example : ParserWf Toy.lang ∧ EqLaws Toy.lang ∧ RefLaws Toy.lang ∧ CleanReach Toy.lang Toy.e1 ∧
    Toy.e1.ast = some Toy.prog1 ∧ (∀ r, progRefs Toy.lang Toy.prog1 r → RefWf r) ∧
    (∃ e' out, Toy.e1.nextBlock .ident [] = .ok (e', out)) ∧
    ['~', 'i', 'n', 'p', 'u', 't'] ∈ Toy.e1.index.map Prod.fst ∧
    Flow Toy.lang.refs Toy.prog1 true (.at Toy.nameA 0) (.at Toy.nameO 1) ∧
    Leads Toy.lang.refs Toy.prog1 true (.at Toy.nameO 1) .dest := by
  refine ⟨Toy.parserWf, toy_eqLaws, toy_refLaws, toy_clean1, rfl, ?_, ?_, by decide, ?_, ?_⟩
  · rintro r ⟨k, comps, c, hk, hc, hr⟩
    have hall : ∀ e ∈ Toy.prog1, ∀ c ∈ e.2, ∀ r ∈ c.2, r = Toy.nameA := by decide
    rw [hall (k, comps) hk c hc r hr]
    exact .inl (by decide)
  · exact ⟨_, _, nextBlockFuel_spec (k := 1000) rfl⟩
  · exact .ref (comps := [(1, []), (2, [Toy.nameA])]) (r := Toy.nameA) (List.Mem.head _) rfl (List.Mem.head _)
      (.named (by decide)) (.prog (comps := [(3, [])]) (.tail _ (.head _)))
  · exact .step (.out (.prog (comps := [(1, []), (2, [Toy.nameA])]) (List.Mem.head _)) (by decide)) (.refl _)

end Verif.Props
