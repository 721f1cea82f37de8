import Verif.Spec.Untouched
import Verif.Props.Order
import Verif.Props.Compose
import Verif.Lemmas.NodeInv

/-! Facts about the node at a place that hold after every history (helpers for C73). -/

namespace Verif
open Spec Props

variable {L : Lang}

/-- A relation between the states of a node that every call other than an update or a reset respects. -/
structure Drift (L : Lang) (R : L.Node → L.Node → Prop) : Prop where
  refl : ∀ n, R n n
  trans : ∀ a b c, R a b → R b c → R a c
  msg : ∀ n g n', (IsUser g ∨ ∃ v, g = .setBPM v) → L.msg n g = .ok n' → R n n'
  proc : ∀ n ins b n' b', L.proc n ins b = .ok (n', b') → R n n'

/-- The relation on nodes with buffers. -/
def onNode (R : L.Node → L.Node → Prop) (d d' : L.Data) : Prop := R d.node d'.node

variable {R : L.Node → L.Node → Prop}

theorem Drift.each_refl (h : Drift L R) (g : Graph L.Data) : Each (onNode R) g g := .refl (fun d => h.refl d.node) g

theorem Drift.each_trans (h : Drift L R) {g1 g2 g3 : Graph L.Data} (h1 : Each (onNode R) g1 g2)
    (h2 : Each (onNode R) g2 g3) : Each (onNode R) g1 g3 := by
  refine h1.trans ?_ h2
  intro a b c; exact h.trans a.node b.node c.node

theorem Drift.each_modify (h : Drift L R) {g g' : Graph L.Data} {i : Nat} {f : L.Data → Except Panic L.Data}
    (hf : ∀ d d', f d = .ok d' → R d.node d'.node) (hm : g.modify i f = .ok g') : Each (onNode R) g g' := by
  obtain ⟨a, a', h1, h2, _, _, _, h6⟩ := Graph.modify_ok hm
  refine ⟨?_, ?_⟩
  · intro j d hj
    by_cases hij : i = j
    · subst hij
      rw [h1] at hj
      cases hj
      exact ⟨a', by rw [h6, if_pos rfl], hf _ _ h2⟩
    · exact ⟨d, by rw [h6, if_neg hij]; exact hj, h.refl _⟩
  · intro j d hj
    rw [h6] at hj
    by_cases hij : i = j
    · subst hij
      rw [if_pos rfl] at hj
      cases hj
      exact ⟨a, h1, hf _ _ h2⟩
    · rw [if_neg hij] at hj
      exact ⟨d, hj, h.refl _⟩

theorem Drift.each_copyInput (h : Drift L R) {e e' : Engine L} {ch : Nat} {b : List L.Num}
    (hc : e.copyInput ch b = .ok e') : Each (onNode R) e.graph e'.graph := by
  unfold Engine.copyInput at hc
  split at hc
  · cases hc
  · split at hc
    · cases hc
    · rw [except_bind_ok] at hc
      obtain ⟨g, h1, hc⟩ := hc
      cases hc
      refine h.each_modify ?_ h1
      intro d d' hf
      split at hf
      · cases hf
      · split at hf
        · cases hf
          exact h.refl _
        · cases hf

theorem Drift.each_copyInputs (h : Drift L R) {e e' : Engine L} {buf : List (List L.Num)}
    (hc : e.copyInputs buf = .ok e') : Each (onNode R) e.graph e'.graph := by
  unfold Engine.copyInputs at hc
  split at hc
  · cases hc; exact h.each_refl _
  · exact h.each_copyInput hc
  · rw [except_bind_ok] at hc
    obtain ⟨e4, k1, k2⟩ := hc
    exact h.each_trans (h.each_copyInput k1) (h.each_copyInput k2)

theorem Drift.each_sendMsg (h : Drift L R) {m : Name} {e e' : Engine L} (hs : e.sendMsg m = .ok e') :
    Each (onNode R) e.graph e'.graph := by
  replace hs : (commandsOf m).foldlM Engine.command e = .ok e' := hs
  generalize commandsOf m = cmds at hs
  induction cmds generalizing e with
  | nil =>
    simp only [List.foldlM_nil, pure, Except.pure, Except.ok.injEq] at hs
    subst hs
    exact h.each_refl _
  | cons c cmds ih =>
    rw [List.foldlM_cons, except_bind_ok] at hs
    obtain ⟨e1, h1, hs⟩ := hs
    refine h.each_trans ?_ (ih hs)
    unfold Engine.command at h1
    split at h1
    · cases h1; exact h.each_refl _
    · rename_i k p msg hc
      rcases deliver_cases h1 with rfl | ⟨nodes, i, g, hl, hi, rfl, h2⟩
      · exact h.each_refl _
      · refine h.each_modify ?_ h2
        intro d d' hf
        rw [except_bind_ok] at hf
        obtain ⟨n, hn, hf⟩ := hf
        cases hf
        exact h.msg _ _ _ (.inl (parseCommand_user hc)) hn

/-- A block changes the nodes by processing them only. -/
theorem Drift.each_block (h : Drift L R) {e e' : Engine L} {ho : HashOrder} {ins out : List (List L.Num)}
    (hb : e.nextBlock ho ins = .ok (e', out)) : Each (onNode R) e.graph e'.graph := by
  obtain ⟨e3, g, d, h2, h3, _, _, rfl⟩ := nextBlock_ok hb
  refine h.each_trans (h.each_copyInputs h2) ?_
  exact (process_inv (R := onNode R) (J := fun _ _ => True) (fun d => h.refl d.node) (fun _ _ _ => h.trans _ _ _)
    (fun i d ins n' b' _ _ hp => ⟨trivial, h.proc _ _ _ _ _ hp⟩) (fun _ _ _ => trivial) h3).2

/-- The calls other than updates and resets. -/
def QuietOp : Op L → Prop
  | .update _ _ | .reset => False
  | _ => True

theorem Drift.each_quiet (h : Drift L R) {e e' : Engine L} {op : Op L} (ho : QuietOp op) (ha : op.apply e = .ok e') :
    e'.ast = e.ast ∧ e'.index = e.index ∧ Each (onNode R) e.graph e'.graph := by
  cases op with
  | update τ code => exact ho.elim
  | reset => exact ho.elim
  | sendMsg m =>
    have := (onlyNodes_sendMsg ha).eq
    exact ⟨by rw [this], by rw [this], h.each_sendMsg ha⟩
  | setBpm v =>
    obtain ⟨h1, h2, h3⟩ := setBpm_nodes ha
    refine ⟨by rw [h1], by rw [h1], ?_, ?_⟩
    · intro i d hd
      have := h3 i
      rw [hd] at this
      obtain ⟨n, hn, hn'⟩ := this
      exact ⟨_, hn', h.msg _ _ _ (.inr ⟨v, rfl⟩) hn⟩
    · intro i d hd
      have := h3 i
      cases hx : e.graph.node? i with
      | none => rw [hx] at this; rw [this] at hd; cases hd
      | some d0 =>
        rw [hx] at this
        obtain ⟨n, hn, hn'⟩ := this
        rw [hn'] at hd
        cases hd
        exact ⟨d0, rfl, h.msg _ _ _ (.inr ⟨v, rfl⟩) hn⟩
  | setSr v => cases ha; exact ⟨rfl, rfl, h.each_refl _⟩
  | setSeed v => cases ha; exact ⟨rfl, rfl, h.each_refl _⟩
  | setTrackAmp v => cases ha; exact ⟨rfl, rfl, h.each_refl _⟩
  | addSample n s => cases ha; exact ⟨rfl, rfl, h.each_refl _⟩
  | nextBlock ho buf =>
    simp only [Op.apply, except_bind_ok] at ha
    obtain ⟨⟨e2, out⟩, h1, ha⟩ := ha
    cases ha
    have := nextBlock_same h1
    exact ⟨this.1, this.2.1, h.each_block h1⟩

theorem steady_clean {ks : List Name} {e : Engine L} (h : ReachBy L (SteadyOn ks) e) : CleanReach L e := by
  induction h with
  | new N => exact .new N
  | @step e e1 op _ hA happ ih =>
    refine .step op ih ?_ happ
    cases op with
    | update τ code => exact fun p hp => (hA p hp).1
    | _ => trivial

/-- Where the node at a place comes from in an accepted update: from the old node of an equal component, or built. -/
theorem place_source (hL : ParserWf L) (hq : EqLaws L) {e e' : Engine L} (hr : CleanReach L e)
    {τ : TableOrder} {code : Name} {new : Ast L.Comp} (hparse : L.parse code = .ok (some new))
    (hc : CleanProg L new) (h : e.updateWithCode τ code = .ok (e', none)) {k : Name}
    {comps old : List L.Comp} (hk : (k, comps) ∈ new) (hold : IsOld e k old) (hord : OrderKept L.compEq old comps)
    {nodes : List Nat} {i b : Nat} {c : L.Comp} {d : L.Data} (hn : (k, nodes) ∈ e'.index) (hi : comps[i]? = some c)
    (hb : nodes[i]? = some b) (hd : e'.graph.node? b = some d) :
    (∃ (j : Nat) (o : L.Comp) (oldNodes : List Nat) (d0 : L.Data), old[j]? = some o ∧ L.compEq o c = true ∧
      (k, oldNodes) ∈ e.index ∧ oldNodes[j]? = some b ∧ e.graph.node? b = some d0 ∧ Rewire L d0.node d.node) ∨
    ∃ nd rs, L.make e.samples e.sr e.bpm e.seed c = .ok (nd, rs) ∧ Rewire L nd.node d.node := by
  obtain ⟨nodes', h1, _, h3⟩ := (c02_table_mirrors_program_partial hL hq hr τ code new hparse hc h).2 k comps old hk hold
  have hI' : Inv e' := inv_reachable hL (.step (.update τ code) hr.reachable (by simp only [Op.apply, h]; rfl))
  have hnn : nodes' = nodes := by
    have a := lookup_of_mem hI'.keysNodup h1
    rw [lookup_of_mem hI'.keysNodup hn] at a
    exact (Option.some.inj a).symm
  subst hnn
  obtain ⟨h4, h5⟩ := h3 i c b hi hb
  by_cases hex : ∃ o, o ∈ old ∧ L.compEq o c = true
  · left
    obtain ⟨j, o, on, h6, h7, h8, h9⟩ := h5 hex hord
    have hlive : e.graph.Live b := by
      have hI := inv_reachable hL hr.reachable
      exact (hI.live _).mpr (.inr (.inr (mem_flat.mpr ⟨k, on, h8, List.mem_of_getElem? h9⟩)))
    obtain ⟨d0, hd0⟩ := hlive
    obtain ⟨nodes2, _, m1, _, _, _, _, _, hsv⟩ := chain_of_update hL hq hr hparse hc h hk hold
    have hnn : nodes2 = nodes' := by
      have a := lookup_of_mem hI'.keysNodup m1
      rw [lookup_of_mem hI'.keysNodup hn] at a
      exact (Option.some.inj a).symm
    subst hnn
    obtain ⟨d1, n', g1, g2, g3⟩ := hsv b (List.mem_of_getElem? hb) ⟨d0, hd0⟩
    rw [hd] at g2
    cases g2
    exact ⟨j, o, on, d1, h6, h7, h8, h9, g1, g3⟩
  · right
    obtain ⟨_, nd, rs, n', h6, h7, h8⟩ := h4 (fun o ho => by
      cases hx : L.compEq o c with
      | false => rfl
      | true => exact absurd ⟨o, ho, hx⟩ hex)
    rw [hd] at h7
    cases h7
    exact ⟨nd, rs, h6, h8⟩

/-- A relation between components and nodes that holds for built nodes and is respected by equality of components,
messages and processing. -/
structure Kept (L : Lang) (Q : L.Comp → L.Node → Prop) : Prop where
  make : ∀ smp sr bpm seed c nd rs, L.make smp sr bpm seed c = .ok (nd, rs) → Q c nd.node
  eq : ∀ o c n, L.compEq o c = true → Q o n → Q c n
  msg : ∀ c n g n', Q c n → L.msg n g = .ok n' → Q c n'
  proc : ∀ c n ins b n' b', Q c n → L.proc n ins b = .ok (n', b') → Q c n'

theorem Kept.drift {Q : L.Comp → L.Node → Prop} (h : Kept L Q) : Drift L (fun n n' => ∀ c, Q c n → Q c n') :=
  ⟨fun _ _ h => h, fun _ _ _ h1 h2 c hc => h2 c (h1 c hc), fun _ _ _ _ hm c hc => h.msg c _ _ _ hc hm,
    fun _ _ _ _ _ hp c hc => h.proc c _ _ _ _ _ hc hp⟩

theorem Kept.rewire {Q : L.Comp → L.Node → Prop} (h : Kept L Q) {n n' : L.Node} (hr : Rewire L n n') {c : L.Comp} :
    Q c n → Q c n' := by
  induction hr with
  | refl => exact id
  | step _ ho _ ih => exact fun hc => ih (h.msg _ _ _ _ hc ho)

theorem Kept.reach (hL : ParserWf L) (hq : EqLaws L) {Q : L.Comp → L.Node → Prop} (hQ : Kept L Q) {ks : List Name}
    {e : Engine L} (h : ReachBy L (SteadyOn ks) e) : ∀ {a : Ast L.Comp}, e.ast = some a → ∀ {k : Name}, k ∈ ks →
    ∀ {comps : List L.Comp} {nodes : List Nat} {i b : Nat} {c : L.Comp} {d : L.Data}, (k, comps) ∈ a →
    (k, nodes) ∈ e.index → comps[i]? = some c → nodes[i]? = some b → e.graph.node? b = some d → Q c d.node := by
  induction h with
  | new N => intro a ha; cases ha
  | @step e e1 op hr hA happ ih =>
    intro a ha k hks comps nodes i b c d hk hn hi hb hd
    have quiet : QuietOp op → Q c d.node := by
      intro hqt
      obtain ⟨h1, h2, h3⟩ := hQ.drift.each_quiet hqt happ
      obtain ⟨d0, h4, h5⟩ := h3.2 b d hd
      exact h5 c (ih (h1 ▸ ha) hks hk (h2 ▸ hn) hi hb h4)
    have hI := inv_reachable hL (reachBy_reachable hr)
    cases op with
    | update τ code =>
      simp only [Op.apply, except_bind_ok] at happ
      obtain ⟨⟨e2, r⟩, hu, happ⟩ := happ
      cases happ
      have h1 := hu
      unfold Engine.updateWithCode at h1
      rw [except_bind_ok] at h1
      obtain ⟨p, hp, h1⟩ := h1
      split at h1
      · cases h1; exact ih ha hks hk hn hi hb hd
      · rename_i new
        have hw := hL code new hp
        cases r with
        | none =>
          obtain ⟨diff, t1, gone1, t2, gone2, g3, cr, g5, hacc⟩ := accepted hI hw h1
          have : a = new := by
            rw [congrArg Engine.ast hacc.eq] at ha
            cases ha
            rfl
          subst this
          obtain ⟨hc, hord⟩ := hA a hp
          obtain ⟨old, hold⟩ : ∃ old, IsOld e k old := by
            cases hast : e.ast with
            | none => exact ⟨[], .inr ⟨rfl, fun a h => by rw [hast] at h; cases h⟩⟩
            | some a0 =>
              by_cases hka : k ∈ a0.map Prod.fst
              · obtain ⟨⟨k', o⟩, ho, rfl⟩ := List.mem_map.mp hka
                exact ⟨o, .inl ⟨a0, hast, ho⟩⟩
              · exact ⟨[], .inr ⟨rfl, fun a h => by rw [hast] at h; cases h; exact hka⟩⟩
          rcases place_source hL hq (steady_clean hr) hp hc hu hk hold (hord k comps old hks hk hold) hn hi hb hd with
            ⟨j, o, on, d0, h2, h3, h4, h5, h6, h7⟩ | ⟨nd, rs, h2, h3⟩
          · refine hQ.rewire h7 (hQ.eq o c _ h3 ?_)
            rcases hold with ⟨a0, h8, h9⟩ | ⟨rfl, _⟩
            · exact ih h8 hks h9 h4 h2 h5 h6
            · cases h2
          · exact hQ.rewire h3 (hQ.make _ _ _ _ _ _ _ h2)
        | some x =>
          have hs := (sameEngine_of_rejected hI hw h1).1
          rw [hs.ast] at ha
          rw [hs.index] at hn
          rw [hs.nodes] at hd
          exact ih ha hks hk hn hi hb hd
    | reset => cases happ; cases ha
    | _ => exact quiet trivial

/-- What the node at a place remembers of its inputs, between updates. -/
theorem order_reach (hL : ParserWf L) (hq : EqLaws L) (hl : RefLaws L)
    {K R : L.Node → Prop} {ord : L.Node → List Nat} (ho : OrderLaws L K R ord)
    (hD : Drift L (fun n n' => ord n' = ord n ∧ (K n' ↔ K n) ∧ (R n' ↔ R n)))
    {e : Engine L} (h : CleanReach L e) : ∀ {a : Ast L.Comp}, e.ast = some a → (∀ r, progRefs L a r → RefWf r) →
    ∀ {k : Name} {comps : List L.Comp} {nodes : List Nat} {i b : Nat} {c : L.Comp} {d : L.Data}, (k, comps) ∈ a →
    (k, nodes) ∈ e.index → comps[i]? = some c → nodes[i]? = some b → e.graph.node? b = some d → K d.node →
    (R d.node ∨ L.refs c = []) →
    (∀ smp sr bpm seed nd rs, L.make smp sr bpm seed c = .ok (nd, rs) → rs = L.refs c) →
    ∃ srcs, SourceList e.index (L.refs c) srcs ∧
      (L.refs c ≠ [] → ord d.node = (if i = 0 then [] else (nodes[i - 1]?).toList) ++ srcs) ∧
      ((if i = 0 then [] else (nodes[i - 1]?).toList) ++ srcs) <+: ord d.node := by
  induction h with
  | new N => intro a ha; cases ha
  | @step e e1 op hr hA happ ih =>
    intro a ha hrw k comps nodes i b c d hk hn hi hb hd hK hR hmk
    have quiet : QuietOp op → ∃ srcs, SourceList e1.index (L.refs c) srcs ∧
      (L.refs c ≠ [] → ord d.node = (if i = 0 then [] else (nodes[i - 1]?).toList) ++ srcs) ∧
      ((if i = 0 then [] else (nodes[i - 1]?).toList) ++ srcs) <+: ord d.node := by
      intro hqt
      obtain ⟨h1, h2, h3⟩ := hD.each_quiet hqt happ
      obtain ⟨d0, h4, h5, h6, h7⟩ := h3.2 b d hd
      rw [h2, h5]
      exact ih (h1 ▸ ha) hrw hk (h2 ▸ hn) hi hb h4 (h6.mp hK) (hR.imp_left h7.mp) hmk
    have hI := inv_reachable hL hr.reachable
    cases op with
    | update τ code =>
      simp only [Op.apply, except_bind_ok] at happ
      obtain ⟨⟨e2, r⟩, hu, happ⟩ := happ
      cases happ
      have h1 := hu
      unfold Engine.updateWithCode at h1
      rw [except_bind_ok] at h1
      obtain ⟨p, hp, h1⟩ := h1
      split at h1
      · cases h1; exact ih ha hrw hk hn hi hb hd hK hR hmk
      · rename_i new
        have hw := hL code new hp
        cases r with
        | none =>
          obtain ⟨diff, t1, gone1, t2, gone2, g3, cr, g5, hacc⟩ := accepted hI hw h1
          have : a = new := by
            rw [congrArg Engine.ast hacc.eq] at ha
            cases ha
            rfl
          subst this
          exact c47_input_order_partial hL hq hl ho hr τ code a hp (hA a hp) hrw hu k comps nodes i b c d hk hi hn hb hd hK
            hR (fun nd rs => hmk _ _ _ _ nd rs)
        | some x =>
          have hs := (sameEngine_of_rejected hI hw h1).1
          rw [hs.ast] at ha
          rw [hs.index] at hn ⊢
          rw [hs.nodes] at hd
          exact ih ha hrw hk hn hi hb hd hK hR hmk
    | reset => cases happ; cases ha
    | _ => exact quiet trivial

end Verif
