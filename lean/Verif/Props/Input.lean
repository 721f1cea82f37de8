import Verif.Spec.Input
import Verif.Props.AnyTime
import Verif.Props.Settings

/-! # What is given as input is what `~input` plays (C81) -/

namespace Verif.Props.Input
open Verif Spec Props

section
variable {L : Lang}

theorem undisturbed_steady {ks : List Name} {e : Engine L} (h : ReachBy L (Undisturbed ks) e) : ReachBy L (SteadyOn ks) e := by
  induction h with
  | new N => exact .new N
  | step op _ hA happ ih => exact .step op ih hA.1 happ

theorem undisturbed_input {ks : List Name} {e : Engine L} (h : ReachBy L (Undisturbed ks) e) : InputReach L e := by
  induction h with
  | new N => exact .new N
  | @step e e1 op _ hA happ ih =>
    refine .step op ih ?_ happ
    obtain ⟨h1, h2⟩ := hA
    cases op with
    | update τ code => exact fun p hp => (h1 p hp).1.2
    | reset => exact absurd rfl h2
    | _ => trivial

/-- The node of `~input` stays what it is. -/
theorem input_node (hL : ParserWf L) {Z : L.Node → Prop} (hz : Z L.pass) (hm : ∀ n g n', Z n → L.msg n g = .ok n' → Z n')
    (hp : ∀ n ins b n' b', Z n → L.proc n ins b = .ok (n', b') → Z n') {e : Engine L} (h : InputReach L e) :
    (∀ a, e.ast = some a → inputName ∉ keys a) ∧ ∃ i d, lookup e.index inputName = some [i] ∧ e.graph.node? i = some d ∧ Z d.node := by
  have hD : Drift L (fun n n' => Z n → Z n') :=
    ⟨fun _ h => h, fun _ _ _ h1 h2 h => h2 (h1 h), fun _ _ _ _ h' h => hm _ _ _ h h', fun _ _ _ _ _ h' h => hp _ _ _ _ _ h h'⟩
  have hR : ∀ {n n' : L.Node}, Rewire L n n' → Z n → Z n' := by
    intro n n' hr
    induction hr with
    | refl => exact id
    | step _ ho _ ih => exact fun hc => ih (hm _ _ _ hc ho)
  induction h with
  | new N => exact ⟨(fun a ha => by cases ha), 2, freshData N 2 L.pass, rfl, rfl, hz⟩
  | @step e e1 op hr hk happ ih =>
    have hI := inv_reachable hL (inputReach_reachable hr)
    have quiet : QuietOp op → (∀ a, e1.ast = some a → inputName ∉ keys a) ∧
        ∃ i d, lookup e1.index inputName = some [i] ∧ e1.graph.node? i = some d ∧ Z d.node := by
      intro hq
      obtain ⟨h1, h2, h3⟩ := hD.each_quiet hq happ
      obtain ⟨a1, i, d, a2, a3, a4⟩ := ih
      obtain ⟨d', h4, h5⟩ := h3.1 i d a3
      exact ⟨by rw [h1]; exact a1, i, d', by rw [h2]; exact a2, h4, h5 a4⟩
    cases op with
    | update τ code =>
      simp only [Op.apply, except_bind_ok] at happ
      obtain ⟨⟨e2, r⟩, h1, happ⟩ := happ
      cases happ
      unfold Engine.updateWithCode at h1
      rw [except_bind_ok] at h1
      obtain ⟨p, hp', h1⟩ := h1
      split at h1
      · cases h1; exact ih
      · rename_i new
        have hw := hL code new hp'
        cases r with
        | none =>
          obtain ⟨diff, t1, gone1, t2, gone2, g3, cr, g5, hacc⟩ := accepted hI hw h1
          obtain ⟨a1, i, d, a2, a3, a4⟩ := ih
          have hno : inputName ∉ oldKeys e := by
            intro h
            obtain ⟨a, ha, hka⟩ := mem_oldKeys.mp h
            exact a1 a ha hka
          have hnn : inputName ∉ keys new := hk new hp'
          have hlk := staged_untouched hI hw hacc.staged hnn hno
          rw [a2] at hlk
          obtain ⟨n, hn, hrw⟩ := survives_rewired hI hacc
            (mem_flat.mpr ⟨inputName, [i], lookup_mem hlk, by simp⟩) a3
          refine ⟨?_, i, _, hlk, hn, hR hrw a4⟩
          intro a ha
          rw [congrArg Engine.ast hacc.eq] at ha
          cases ha
          exact hnn
        | some x =>
          have hs := (sameEngine_of_rejected hI hw h1).1
          obtain ⟨a1, i, d, a2, a3, a4⟩ := ih
          exact ⟨by rw [hs.ast]; exact a1, i, d, by rw [hs.index]; exact a2, by rw [hs.nodes]; exact a3, a4⟩
    | reset => exact absurd hk id
    | _ => exact quiet trivial

end

section
variable {P : Plat} {N : Nat} {parse : Name → Except Panic (Option (Ast Comp))}

theorem pass_msg {n n' : GNode P} {g : Msg Fl} (h : n = .prim .pass) (hm : msgG P n g = .ok n') : n' = .prim .pass := by
  subst h
  cases hm
  rfl

theorem pass_proc {n n' : GNode P} {ins : Ins} {b b' : List Buf} (h : n = .prim .pass) (hp : procG P n ins b = .ok (n', b')) :
    n' = .prim .pass ∧ b' = procPass ins b := by
  subst h
  cases hp
  exact ⟨rfl, rfl⟩

theorem opTag_pass {n : GNode P} {r : Name} (h : n.opTag = (Comp.get r).opTag) : n = .prim .pass := by
  cases n with
  | prim n => cases n <;> first | rfl | cases h
  | compound => cases h
  | script => cases h

theorem means_input {k : Name} (h : Means c!"~input" k) : k = c!"~input" := by
  generalize hz : (c!"~input" : Name) = z at h
  cases h with
  | named _ => rfl
  | pattern _ _ =>
    have : '.' ∈ (c!"~input" : Name) := by rw [hz]; simp
    exact absurd this (by decide)

theorem chain_input {a : Ast Comp} (hin : inputName ∉ a.map Prod.fst) {n : Nat} (h : Chain a true c!"~input" (n + 1)) : n = 0 := by
  generalize hz : (c!"~input" : Name) = z at h
  generalize hw : n + 1 = w at h
  cases h with
  | prog h => subst hz; exact absurd (List.mem_map.mpr ⟨_, h, rfl⟩) hin
  | input _ => omega

theorem forall₂_single {α β : Type} {R : α → β → Prop} {l : List α} {b : β} (h : List.Forall₂ R l [b]) : ∃ x, l = [x] ∧ R x b := by
  cases h with
  | cons h1 h2 =>
    cases h2
    exact ⟨_, rfl, h1⟩

/-- What `~input` plays in a block: what it is given, and on a side for which nothing is given what it held before. -/
theorem input_block {T : P.ext.State → Prop} (hx : ExtShape P N T) (hL : ParserWf (glicol P N parse)) {ks : List Name}
    {e e' : Engine (glicol P N parse)} (hr : ReachBy _ (Undisturbed ks) e) (hN : e.N = N) {a : Ast Comp} (hast : e.ast = some a)
    (hrw : ∀ r, progRefs (glicol P N parse) a r → RefWf r) (hlead : Leads Comp.refs a true (.at c!"~input" 0) .dest)
    {ho : HashOrder} {ins out : List (List Fl)} (hblk : e.nextBlock ho ins = .ok (e', out)) :
    ∃ x y, Holds e (.at c!"~input" 0) [x, y] ∧ Holds e' (.at c!"~input" 0) (fill ins [x, y]) ∧
      ∀ {k : Name} {comps : List Comp}, k ∈ ks → (k, comps) ∈ a → comps[0]? = some (.get c!"~input") →
        Leads Comp.refs a true (.at k 0) .dest → Holds e' (.at k 0) (fill ins [x, y]) := by
  have hir := undisturbed_input hr
  have hst := undisturbed_steady hr
  have hcl := steady_clean hst
  obtain ⟨hno, i, d, b1, b2, b3⟩ := input_node hL (Z := fun n => n = GNode.prim (P := P) .pass) rfl (fun _ _ _ h hm => pass_msg h hm)
    (fun _ _ _ _ _ h hp => (pass_proc h hp).1) hir
  obtain ⟨_, i', d', b1', b2', b4⟩ := inputOk_reach hL (glicol_shape hx) hir hN
  rw [b1] at b1'
  cases b1'
  rw [b2] at b2'
  cases b2'
  have hmem : c!"~input" ∈ e.index.map Prod.fst := List.mem_map.mpr ⟨_, lookup_mem b1, rfl⟩
  have hin : inputName ∉ a.map Prod.fst := hno a hast
  have hI := inv_reachable hL hcl.reachable
  obtain ⟨sig, prev, _, hc⟩ := c48_block_computes_the_program_partial hL (glicol_eqLaws P N parse) (glicol_refLaws P N parse) hcl a
    hast hrw ho ins out hblk true ⟨fun _ => hmem, fun _ => rfl⟩
  obtain ⟨n, node, node', bufs, inputs, qs, c1, c2, _, c4, c5, c6, c7, _, c9, c10⟩ := hc _ hlead
  have hni : n = i := by
    cases c1 with
    | «at» m1 m2 =>
      have := lookup_of_mem hI.keysNodup m1
      rw [show lookup e.index c!"~input" = some [i] from b1] at this
      cases this
      cases m2
      rfl
  subst hni
  rw [b2] at c2
  cases c2
  have hqs : qs = [] := by
    cases qs with
    | nil => rfl
    | cons q qs => exact absurd ((c9 q).mp List.mem_cons_self).1 (flow_input hin)
  subst hqs
  cases c10
  obtain ⟨rfl, hsig⟩ := pass_proc b3 c7
  rw [c4 rfl] at hsig
  obtain ⟨x, y, rfl⟩ : ∃ x y, bufs = [x, y] := by
    have hlen : bufs.length = 2 := by simpa using congrArg List.length b4
    match bufs, hlen with
    | [x, y], _ => exact ⟨x, y, rfl⟩
  refine ⟨x, y, ⟨n, _, c1, b2⟩, ⟨n, _, c5, by rw [c6, hsig]; rfl⟩, ?_⟩
  have hfill : ∃ l r, fill ins [x, y] = [l, r] := by
    match ins with
    | [] => exact ⟨_, _, rfl⟩
    | [l] => exact ⟨_, _, rfl⟩
    | l :: r :: _ => exact ⟨_, _, rfl⟩
  intro k comps hks hk hi hl
  obtain ⟨m, node, node', bufs, inputs, qs, d1, d2, d3, _, d5, d6, d7, d8, d9, d10⟩ := hc _ hl
  have hne : Place.at k 0 ≠ .at c!"~input" 0 := by
    intro he
    cases he
    exact hin (List.mem_map.mpr ⟨_, hk, rfl⟩)
  rw [d3 hne] at d7
  obtain ⟨nodes, hn, hnm⟩ : ∃ nodes, (k, nodes) ∈ e.index ∧ nodes[0]? = some m := by
    cases d1 with
    | «at» m1 m2 => exact ⟨_, m1, m2⟩
  have htag := Kept.reach hL (glicol_eqLaws P N parse) opTag_kept hst hast hks hk hn hi hnm d2
  have hpass := opTag_pass htag
  have hlen : bufs.length = 2 := op_pair hx hL hcl.reachable hN m _ d2 (by rw [htag]; decide)
  have hflow : ∀ q, Flow Comp.refs a true q (.at k 0) ↔ q = .at c!"~input" 0 := by
    intro q
    constructor
    · intro hf
      generalize hp : Place.at k 0 = p at hf
      cases hf with
      | next => cases hp
      | out => cases hp
      | ref h1 h2 h3 h4 h5 =>
        cases hp
        rw [key_unique (hI.ast a hast).names h1 hk, hi] at h2
        cases h2
        simp only [Comp.refs, List.mem_cons, List.not_mem_nil, or_false] at h3
        subst h3
        have hk' : _ = c!"~input" := means_input h4
        subst hk'
        exact congrArg _ (chain_input hin h5)
    · rintro rfl
      exact .ref hk hi (List.mem_singleton.mpr rfl) (.named (by decide)) (.input rfl)
  have hqs : qs = [.at c!"~input" 0] := by
    have h0 : ∀ q, q ∈ qs ↔ q = .at c!"~input" 0 := fun q =>
      (d9 q).trans ⟨fun h => (hflow q).mp h.1, fun h => ⟨(hflow q).mpr h, fun h' => hne (h'.symm.trans h)⟩⟩
    match qs, d8 with
    | [], _ => exact absurd ((h0 _).mpr rfl) (by simp)
    | [q], _ => rw [(h0 q).mp (by simp)]
    | q :: q' :: _, hnd =>
      have e1 := (h0 q).mp (by simp)
      have e2 := (h0 q').mp (by simp)
      simp [e1, e2] at hnd
  subst hqs
  obtain ⟨z, rfl, hz1, hz2⟩ := forall₂_single d10
  have hz : z.2 = fill ins [x, y] := by
    rcases hz2 with h | ⟨h, _⟩
    · rw [h, hsig]; rfl
    · exact absurd (leads_input hin h rfl) hne
  obtain ⟨rfl, ho'⟩ := pass_proc hpass d7
  refine ⟨m, GNode.prim .pass, d5, ?_⟩
  rw [d6, ho']
  obtain ⟨l, r, hlr⟩ := hfill
  obtain ⟨u, v, rfl⟩ := List.length_eq_two.mp hlen
  obtain ⟨z1, z2⟩ := z
  simp only at hz
  rw [hz, hlr]
  exact congrArg (fun t => some (NodeData.mk (GNode.prim (P := P) .pass) t)) hlr.symm

/-- **C81** (partial). Whatever was done before, as long as no program had a chain `~input` or repeated components and `reset` was not called:
in a block for which two signals are given, `~input` plays the first on the left and the second on the right, and so does a chain that begins
with `~input`, in the same block. Missing: after `reset` giving input panics (`c13_input_after_reset_panics`); chains that re-order components. -/
theorem c81_input_is_heard_partial {T : P.ext.State → Prop} (hx : ExtShape P N T) (hL : ParserWf (glicol P N parse)) {ks : List Name}
    {e e' : Engine (glicol P N parse)} (hr : ReachBy _ (Undisturbed ks) e) (hN : e.N = N) {a : Ast Comp} (hast : e.ast = some a)
    (hrw : ∀ r, progRefs (glicol P N parse) a r → RefWf r) (hlead : Leads Comp.refs a true (.at c!"~input" 0) .dest)
    {ho : HashOrder} {l r : List Fl} {out : List (List Fl)} (hblk : e.nextBlock ho [l, r] = .ok (e', out)) :
    Holds e' (.at c!"~input" 0) [l, r] ∧
      ∀ k comps, k ∈ ks → (k, comps) ∈ a → comps[0]? = some (.get c!"~input") → Leads Comp.refs a true (.at k 0) .dest →
        Holds e' (.at k 0) [l, r] := by
  obtain ⟨x, y, _, h2, h3⟩ := input_block hx hL hr hN hast hrw hlead hblk
  exact ⟨h2, fun k comps h4 h5 h6 h7 => h3 h4 h5 h6 h7⟩

/-- What happens on a side for which nothing is given: `~input` plays again what it played before. -/
theorem c81_side_not_given {T : P.ext.State → Prop} (hx : ExtShape P N T) (hL : ParserWf (glicol P N parse)) {ks : List Name}
    {e e' : Engine (glicol P N parse)} (hr : ReachBy _ (Undisturbed ks) e) (hN : e.N = N) {a : Ast Comp} (hast : e.ast = some a)
    (hrw : ∀ r, progRefs (glicol P N parse) a r → RefWf r) (hlead : Leads Comp.refs a true (.at c!"~input" 0) .dest)
    {ho : HashOrder} {ins out : List (List Fl)} (hblk : e.nextBlock ho ins = .ok (e', out)) :
    ∃ x y, Holds e (.at c!"~input" 0) [x, y] ∧ (ins = [] → Holds e' (.at c!"~input" 0) [x, y]) ∧
      ∀ l, ins = [l] → Holds e' (.at c!"~input" 0) [l, y] := by
  obtain ⟨x, y, h1, h2, _⟩ := input_block hx hL hr hN hast hrw hlead hblk
  exact ⟨x, y, h1, fun h => by subst h; exact h2, fun l h => by subst h; exact h2⟩

end

/-- `o: ~input >> mul 2.0` (rs/main/examples/input.rs). -/
def inProg : Ast Comp := [(c!"o", [.get c!"~input", arithComp true (.num (.fin 2))])]

abbrev inLang : Lang := glicol Demo.plat 2 (Demo.table [(['1'], inProg)])

theorem in_parse {code : Name} {p : Ast Comp} (h : inLang.parse code = .ok (some p)) : p = inProg := by
  have h : lookup [(['1'], inProg)] code = some p := Except.ok.inj h
  have := lookup_mem h
  simp only [List.mem_cons, Prod.mk.injEq, List.not_mem_nil, or_false] at this
  exact this.2

theorem in_mem {k : Name} {c : List Comp} (h : (k, c) ∈ inProg) :
    k = c!"o" ∧ c = [.get c!"~input", arithComp true (.num (.fin 2))] := by
  simpa only [inProg, List.mem_cons, Prod.mk.injEq, List.not_mem_nil, or_false] using h

theorem in_wf : ParserWf inLang := by
  intro code p h
  rw [in_parse h]
  refine ⟨by decide, fun k c hc => ?_⟩
  rw [(in_mem hc).2]
  exact List.cons_ne_nil _ _

/-- All hypotheses are met by the engine that plays the program of the example, and the block is made. -/
example : ExtShape Demo.plat 2 (fun _ => True) ∧ ParserWf inLang ∧ ∃ e e' : Engine inLang, ∃ out,
    ReachBy inLang (Undisturbed [c!"o"]) e ∧ e.N = 2 ∧ e.ast = some inProg ∧ (∀ r, progRefs inLang inProg r → RefWf r) ∧
    Leads Comp.refs inProg true (.at c!"~input" 0) .dest ∧ (c!"o", [.get c!"~input", arithComp true (.num (.fin 2))]) ∈ inProg ∧
    Leads Comp.refs inProg true (.at c!"o" 0) .dest ∧
    e.nextBlock .ident [[.fin 1, .fin 2], [.fin 3, .fin 4]] = .ok (e', out) ∧ out = [[.fin 2, .fin 4], [.fin 6, .fin 8]] := by
  refine ⟨⟨fun _ _ _ _ _ => trivial, fun _ _ _ _ _ _ => trivial, ?_⟩, in_wf, ?_⟩
  · intro s o ins b s' b' _ _ hb h
    cases h
    exact ⟨trivial, rfl, hb⟩
  let is : List (List Fl) → Bool := fun x => decide (x = [[.fin 2, .fin 4], [.fin 6, .fin 8]])
  have his : ∀ x, is x = true → x = [[.fin 2, .fin 4], [.fin 6, .fin 8]] := fun x h => of_decide_eq_true h
  have h : (match (Engine.new inLang 2).updateWithCode TableOrder.ident ['1'] with
    | .ok (e0, none) =>
      (match nextBlockFuel 1000 .ident e0 [[.fin 1, .fin 2], [.fin 3, .fin 4]] with
      | some (.ok (_, out)) => is out
      | _ => false)
    | _ => false) = true := by kernel_rfl
  split at h
  · rename_i e0 h0
    split at h
    · rename_i e1 out h1
      have hr0 : ReachBy inLang (Undisturbed [c!"o"]) e0 := by
        refine .step (.update .ident ['1']) (.new 2) ⟨?_, by simp⟩ (by simp only [Op.apply, h0]; rfl)
        intro p hp
        rw [in_parse hp]
        refine ⟨⟨fun k c hc => ?_, by decide⟩, fun k comps old _ _ hold => ?_⟩
        · show c.Pairwise (fun a b => Comp.eq a b = false)
          rw [(in_mem hc).2]
          decide +kernel
        · rcases hold with ⟨a, ha, _⟩ | ⟨rfl, _⟩
          · cases ha
          · simp [OrderKept]
      have hlo : Leads Comp.refs inProg true (.at c!"o" 0) .dest :=
        .step (.next (n := 2) (.prog (List.mem_singleton.mpr rfl)) (by decide)) (.step (.out (.prog (List.mem_singleton.mpr rfl)) (by decide)) (.refl _))
      refine ⟨e0, e1, out, hr0, ?_, ?_, ?_, ?_, List.mem_singleton.mpr rfl, hlo, nextBlockFuel_spec h1, his _ h⟩
      · exact apply_N in_wf (.new 2) (op := .update .ident ['1']) (by simp only [Op.apply, h0]; rfl)
      · unfold Engine.updateWithCode at h0
        replace h0 : (Engine.new inLang 2).updateAst .ident inProg = .ok (e0, none) := h0
        obtain ⟨_, _, _, _, _, _, _, _, hacc⟩ := accepted (inv_reachable in_wf (.new 2)) (in_wf ['1'] inProg rfl) h0
        exact congrArg Engine.ast hacc.eq
      · rintro r ⟨k, c, comp, hc, hm, hr⟩
        replace hm : comp ∈ ([.get c!"~input", arithComp true (.num (.fin 2))] : List Comp) := (in_mem hc).2 ▸ hm
        rcases List.mem_cons.mp hm with rfl | hm
        · cases List.mem_singleton.mp hr
          exact .inl (by decide)
        · rw [List.mem_singleton.mp hm] at hr
          cases hr
      · exact .step (.ref (List.mem_singleton.mpr rfl) rfl (List.mem_singleton.mpr rfl) (.named (by decide)) (.input rfl)) hlo
    · cases h
  · cases h

/-- **C81 does not hold** for blocks without input: `o: ~input` plays what was given for the block before once more, and on the right also when
only one signal is given. -/
theorem c81_no_input_counterexample (P : Plat) (fe : Name → Option Fl) :
    Spec.PagePlay.gets (Engine.new (glicol P 2 (Parse.parse fe)) 2) [.update .ident c!"o: ~input", .nextBlock .ident [[.fin 1, .fin 2], [.fin 3, .fin 4]],
        .nextBlock .ident [], .nextBlock .ident [[.fin 5, .fin 6]], .nextBlock .ident []] =
      [.answer none, .block [[.fin 1, .fin 2], [.fin 3, .fin 4]], .block [[.fin 1, .fin 2], [.fin 3, .fin 4]],
        .block [[.fin 5, .fin 6], [.fin 3, .fin 4]], .block [[.fin 5, .fin 6], [.fin 3, .fin 4]]] :=
  Settings.getsFuel_spec (by kernel_rfl)

end Verif.Props.Input
