import Verif.Lemmas.Update
import Verif.Props.Schedule

/-! The engine invariant holds after every history of calls (helpers). -/

namespace Verif
open Spec

variable {L : Lang}

/-- `g'` differs from `g` only in the contents of live nodes. -/
structure SameShape {α : Type} (g g' : Graph α) : Prop where
  free : g'.free = g.free
  len : g'.slots.length = g.slots.length
  edges : g'.edges = g.edges
  live : ∀ i, g'.Live i ↔ g.Live i

theorem SameShape.refl {α : Type} (g : Graph α) : SameShape g g := ⟨rfl, rfl, rfl, fun _ => Iff.rfl⟩

theorem SameShape.trans {α : Type} {a b c : Graph α} (h1 : SameShape a b) (h2 : SameShape b c) :
    SameShape a c :=
  ⟨h2.free.trans h1.free, h2.len.trans h1.len, h2.edges.trans h1.edges,
    fun i => (h2.live i).trans (h1.live i)⟩

theorem sameShape_modify {α : Type} {g g' : Graph α} {i : Nat} {f : α → Except Panic α}
    (h : g.modify i f = .ok g') : SameShape g g' := by
  obtain ⟨a, a', h1, _, h3, h4, h5, h6⟩ := Graph.modify_ok h
  refine ⟨h4, h5, h3, ?_⟩
  intro j
  unfold Graph.Live
  rw [h6]
  by_cases hj : i = j
  · subst hj; simp [h1]
  · simp [hj]

theorem sameShape_foldlM {α β : Type} {f : Graph α → β → Except Panic (Graph α)}
    (hf : ∀ g b g', f g b = .ok g' → SameShape g g') {l : List β} :
    ∀ {g g' : Graph α}, l.foldlM f g = .ok g' → SameShape g g' := by
  induction l with
  | nil =>
    intro g g' h
    simp only [List.foldlM_nil, pure, Except.pure, Except.ok.injEq] at h
    subst h
    exact .refl g
  | cons b l ih =>
    intro g g' h
    rw [List.foldlM_cons, except_bind_ok] at h
    obtain ⟨g1, h1, h2⟩ := h
    exact (hf _ _ _ h1).trans (ih h2)

theorem sameShape_process {ν β : Type} {proc : ProcFn ν β} {ho : HashOrder}
    {g g' : Graph (NodeData ν β)} {dest : Nat} (h : process proc ho g dest = .ok g') :
    SameShape g g' := by
  unfold process at h
  split at h
  · cases h
  · refine sameShape_foldlM ?_ h
    intro g n g' h
    unfold processNode at h
    split at h
    · cases h
    · exact sameShape_modify h

theorem sendAll_spec {m : Msg L.Num} {l : List (Option L.Data)} :
    ∀ {r : List (Option L.Data)}, sendAll m l = .ok r →
    List.Forall₂ (fun a b => match a with
      | none => b = none
      | some d => ∃ n, L.msg d.node m = .ok n ∧ b = some ⟨n, d.buffers⟩) l r := by
  induction l with
  | nil => intro r h; cases h; exact .nil
  | cons a l ih =>
    intro r h
    cases a with
    | none =>
      simp only [sendAll, except_bind_ok, Except.ok.injEq] at h
      obtain ⟨r', h1, rfl⟩ := h
      exact .cons rfl (ih h1)
    | some d =>
      simp only [sendAll, except_bind_ok, Except.ok.injEq] at h
      obtain ⟨n, hn, r', h1, rfl⟩ := h
      exact .cons ⟨n, hn, rfl⟩ (ih h1)

theorem forall₂_getElem? {α β : Type} {R : α → β → Prop} {l : List α} {r : List β}
    (h : List.Forall₂ R l r) (i : Nat) :
    (l[i]? = none ∧ r[i]? = none) ∨ ∃ a b, l[i]? = some a ∧ r[i]? = some b ∧ R a b := by
  induction h generalizing i with
  | nil => simp
  | cons hab _ ih =>
    cases i with
    | zero => exact .inr ⟨_, _, rfl, rfl, hab⟩
    | succ i => simpa using ih i

/-- Effect of a broadcast on every node. -/
theorem setBpm_nodes {e e' : Engine L} {v : L.Num} (h : e.setBpm v = .ok e') :
    e' = { e with bpm := v, graph := e'.graph } ∧ SameShape e.graph e'.graph ∧
    ∀ i, match e.graph.node? i with
      | none => e'.graph.node? i = none
      | some d => ∃ n, L.msg d.node (.setBPM v) = .ok n ∧ e'.graph.node? i = some ⟨n, d.buffers⟩ := by
  unfold Engine.setBpm at h
  rw [except_bind_ok] at h
  obtain ⟨s, hs, h⟩ := h
  cases h
  have hf := sendAll_spec hs
  have hnode : ∀ i, match e.graph.node? i with
      | none => (Graph.mk s e.graph.free e.graph.edges).node? i = none
      | some d => ∃ n, L.msg d.node (.setBPM v) = .ok n ∧
          (Graph.mk s e.graph.free e.graph.edges).node? i = some ⟨n, d.buffers⟩ := by
    intro i
    unfold Graph.node?
    rcases forall₂_getElem? hf i with ⟨h1, h2⟩ | ⟨a, b, h1, h2, h3⟩
    · simp [h1, h2]
    · rw [h1, h2]
      cases a with
      | none => simp at h3; simp [h3]
      | some d =>
        obtain ⟨n, h4, rfl⟩ := h3
        exact ⟨n, h4, rfl⟩
  refine ⟨rfl, ⟨rfl, hf.length_eq.symm, rfl, ?_⟩, hnode⟩
  intro i
  have := hnode i
  unfold Graph.Live
  cases hd : e.graph.node? i with
  | none => rw [hd] at this; simp [this]
  | some d =>
    rw [hd] at this
    obtain ⟨n, _, h2⟩ := this
    simp [h2]

/-- Shape-preserving change of the graph, with anything but program and table. -/
theorem Inv.of_shape {e e' : Engine L} (hI : Inv e) (hs : SameShape e.graph e'.graph)
    (h1 : e'.index = e.index) (h2 : e'.backup = e.backup) (h3 : e'.dest = e.dest)
    (h4 : e'.input = e.input) (h5 : e'.ast = e.ast) : Inv e' := by
  refine ⟨by rw [h1, h2]; exact hI.backup, ?_, by rw [h1]; exact hI.keysNodup,
    by rw [h1, h3, h4]; exact hI.flatNodup, ?_, ?_, by rw [h5]; exact hI.ast,
    by rw [h1, h5]; exact hI.astKeys⟩
  · refine ⟨by rw [hs.free]; exact hI.wf.nodup, ?_⟩
    intro i
    rw [hs.free, hI.wf.vacant, hs.len, ← Graph.not_live, ← Graph.not_live, hs.live]
  · intro i
    rw [hs.live, hI.live, h1, h3, h4]
  · intro p hp
    rw [hs.edges] at hp
    have := hI.edges p hp
    exact ⟨(hs.live _).mpr this.1, (hs.live _).mpr this.2⟩

theorem inv_new (L : Lang) (N : Nat) : Inv (Engine.new L N) := by
  have hg : (Engine.new L N).graph =
      ⟨[some (freshData N 2 L.sum2), some (freshData N 2 L.pass), some (freshData N 2 L.pass)], [], []⟩ := rfl
  have hn : ∀ i, (Engine.new L N).graph.Live i ↔ i = 0 ∨ i = 1 ∨ i = 2 := by
    intro i
    rw [hg]
    unfold Graph.Live Graph.node?
    match i with
    | 0 => simp
    | 1 => simp
    | 2 => simp
    | i + 3 => simp
  refine ⟨rfl, ⟨by rw [hg]; simp, ?_⟩, by simp [Engine.new, keys], ?_, ?_, ?_, ?_, ?_⟩
  · intro i
    rw [← Graph.not_live, hn, hg]
    simp
    omega
  · show ([0, 1, 2] : List Nat).Nodup
    decide
  · intro i
    rw [hn]
    show _ ↔ i = 0 ∨ i = 1 ∨ i ∈ ([2] : List Nat)
    simp
  · intro p hp
    rw [hg] at hp
    simp at hp
  · intro a h; simp [Engine.new, contextGraph] at h
  · intro a h; simp [Engine.new, contextGraph] at h

theorem inv_reset (e : Engine L) : Inv e.reset := by
  have hg : e.reset.graph =
      ⟨[some (freshData e.N 2 L.sum2), some (freshData e.N 2 L.pass)], [], []⟩ := rfl
  have hn : ∀ i, e.reset.graph.Live i ↔ i = 0 ∨ i = 1 := by
    intro i
    rw [hg]
    unfold Graph.Live Graph.node?
    match i with
    | 0 => simp
    | 1 => simp
    | i + 2 => simp
  refine ⟨rfl, ⟨by rw [hg]; simp, ?_⟩, by simp [Engine.reset, keys], ?_, ?_, ?_, ?_, ?_⟩
  · intro i
    rw [← Graph.not_live, hn, hg]
    simp
    omega
  · show ([0, 1] : List Nat).Nodup
    decide
  · intro i
    rw [hn]
    show _ ↔ i = 0 ∨ i = 1 ∨ i ∈ ([] : List Nat)
    simp
  · intro p hp
    rw [hg] at hp
    simp at hp
  · intro a h; simp [Engine.reset, contextGraph] at h
  · intro a h; simp [Engine.reset, contextGraph] at h

/-- Only the graph contents change. -/
structure OnlyNodes (e e' : Engine L) : Prop where
  eq : e' = { e with graph := e'.graph }
  shape : SameShape e.graph e'.graph

theorem OnlyNodes.refl (e : Engine L) : OnlyNodes e e := ⟨rfl, .refl _⟩

theorem OnlyNodes.trans {a b c : Engine L} (h1 : OnlyNodes a b) (h2 : OnlyNodes b c) :
    OnlyNodes a c := by
  refine ⟨?_, h1.shape.trans h2.shape⟩
  have e1 := h1.eq
  have e2 := h2.eq
  rw [e2]
  rw [e1]

theorem OnlyNodes.inv {e e' : Engine L} (h : OnlyNodes e e') (hI : Inv e) : Inv e' := by
  refine hI.of_shape h.shape ?_ ?_ ?_ ?_ ?_ <;> rw [h.eq]

theorem onlyNodes_deliver {e e' : Engine L} {k : Name} {p : Nat} {m : Msg L.Num}
    (h : e.deliver k p m = .ok e') : OnlyNodes e e' := by
  unfold Engine.deliver at h
  split at h
  · cases h; exact .refl e
  · split at h
    · cases h
    · rw [except_bind_ok] at h
      obtain ⟨g, h1, h⟩ := h
      cases h
      exact ⟨rfl, sameShape_modify h1⟩

theorem onlyNodes_command {e e' : Engine L} {cmd : Name} (h : e.command cmd = .ok e') :
    OnlyNodes e e' := by
  unfold Engine.command at h
  split at h
  · cases h; exact .refl e
  · exact onlyNodes_deliver h

theorem onlyNodes_sendMsg {e e' : Engine L} {m : Name} (h : e.sendMsg m = .ok e') :
    OnlyNodes e e' := by
  unfold Engine.sendMsg at h
  simp only at h
  generalize (splitOn ';' _).filter _ = cmds at h
  induction cmds generalizing e with
  | nil =>
    simp only [List.foldlM_nil, pure, Except.pure, Except.ok.injEq] at h
    subst h
    exact .refl e
  | cons c cmds ih =>
    rw [List.foldlM_cons, except_bind_ok] at h
    obtain ⟨e1, h1, h2⟩ := h
    exact (onlyNodes_command h1).trans (ih h2)

theorem onlyNodes_copyInput {e e' : Engine L} {ch : Nat} {b : List L.Num}
    (h : e.copyInput ch b = .ok e') : OnlyNodes e e' := by
  unfold Engine.copyInput at h
  split at h
  · cases h
  · split at h
    · cases h
    · rw [except_bind_ok] at h
      obtain ⟨g, h1, h⟩ := h
      cases h
      exact ⟨rfl, sameShape_modify h1⟩

theorem onlyNodes_copyInputs {e e' : Engine L} {buf : List (List L.Num)}
    (h : e.copyInputs buf = .ok e') : OnlyNodes e e' := by
  unfold Engine.copyInputs at h
  split at h
  · cases h; exact .refl e
  · exact onlyNodes_copyInput h
  · rw [except_bind_ok] at h
    obtain ⟨e1, h1, h2⟩ := h
    exact (onlyNodes_copyInput h1).trans (onlyNodes_copyInput h2)

theorem nextBlock_ok {ho : HashOrder} {e e' : Engine L} {buf out : List (List L.Num)}
    (h : e.nextBlock ho buf = .ok (e', out)) :
    ∃ e1 g d, e.copyInputs buf = .ok e1 ∧ process L.proc ho e1.graph e1.dest = .ok g ∧
      g.node? e1.dest = some d ∧ out = d.buffers ∧
      e' = { e1 with graph := g, clock := e1.clock + e1.N } := by
  unfold Engine.nextBlock at h
  rw [except_bind_ok] at h
  obtain ⟨e1, h1, h⟩ := h
  rw [except_bind_ok] at h
  obtain ⟨g, h2, h⟩ := h
  split at h
  · cases h
  · rename_i d hd
    cases h
    exact ⟨e1, g, d, h1, h2, hd, rfl, rfl⟩

theorem inv_nextBlock {ho : HashOrder} {e e' : Engine L} {buf out : List (List L.Num)}
    (hI : Inv e) (h : e.nextBlock ho buf = .ok (e', out)) : Inv e' := by
  obtain ⟨e1, g, d, h1, h2, _, _, rfl⟩ := nextBlock_ok h
  have hI1 := (onlyNodes_copyInputs h1).inv hI
  exact hI1.of_shape (sameShape_process h2) rfl rfl rfl rfl rfl

theorem inv_update {τ : TableOrder} {e e' : Engine L} {code : Name} {r : Option EngineError}
    (hL : ParserWf L) (hI : Inv e) (h : e.updateWithCode τ code = .ok (e', r)) : Inv e' := by
  unfold Engine.updateWithCode at h
  rw [except_bind_ok] at h
  obtain ⟨p, hp, h⟩ := h
  split at h
  · cases h; exact hI
  · exact inv_updateAst hI (hL code _ hp) h

theorem inv_apply {e e' : Engine L} {op : Op L} (hL : ParserWf L) (hI : Inv e)
    (h : op.apply e = .ok e') : Inv e' := by
  cases op with
  | update τ code =>
    simp only [Op.apply, except_bind_ok] at h
    obtain ⟨⟨e1, r⟩, h1, h⟩ := h
    cases h
    exact inv_update hL hI h1
  | sendMsg m => exact (onlyNodes_sendMsg h).inv hI
  | setBpm v =>
    obtain ⟨h1, h2, _⟩ := setBpm_nodes h
    refine hI.of_shape h2 ?_ ?_ ?_ ?_ ?_ <;> rw [h1]
  | setSr v => cases h; exact hI.of_shape (.refl _) rfl rfl rfl rfl rfl
  | setSeed v => cases h; exact hI.of_shape (.refl _) rfl rfl rfl rfl rfl
  | setTrackAmp v => cases h; exact hI.of_shape (.refl _) rfl rfl rfl rfl rfl
  | addSample n s => cases h; exact hI.of_shape (.refl _) rfl rfl rfl rfl rfl
  | nextBlock ho buf =>
    simp only [Op.apply, except_bind_ok] at h
    obtain ⟨⟨e1, r⟩, h1, h⟩ := h
    cases h
    exact inv_nextBlock hI h1
  | reset => cases h; exact inv_reset e

theorem inv_reachable {e : Engine L} (hL : ParserWf L) (h : Reachable L e) : Inv e := by
  induction h with
  | new N => exact inv_new L N
  | step op _ ha ih => exact inv_apply hL ih ha

/-! ### Engines that cannot be told apart -/

theorem Spec.SameEngine.refl (e : Engine L) : SameEngine e e := by constructor <;> intros <;> rfl

theorem Spec.SameEngine.inv_edges {e e' : Engine L} (h : SameEngine e e') (hE : EdgesLive e.graph) :
    EdgesLive e'.graph := by
  intro p hp
  rw [h.edges] at hp
  have := hE p hp
  rw [h.nodes, h.nodes]
  exact this

theorem same_modify {g g' g1 : Graph L.Data} (he : g'.edges = g.edges)
    (hn : ∀ i, g'.node? i = g.node? i) {i : Nat} {f : L.Data → Except Panic L.Data}
    (h : g.modify i f = .ok g1) :
    ∃ g1', g'.modify i f = .ok g1' ∧ g1'.edges = g1.edges ∧ ∀ j, g1'.node? j = g1.node? j := by
  obtain ⟨a, a', h1, h2, h3, _, _, h6⟩ := Graph.modify_ok h
  have h1' : g'.node? i = some a := by rw [hn]; exact h1
  have : ∃ g1', g'.modify i f = .ok g1' := by
    unfold Graph.modify
    rw [h1']
    simp [h2]
  obtain ⟨g1', hg⟩ := this
  obtain ⟨b, b', k1, k2, k3, _, _, k6⟩ := Graph.modify_ok hg
  rw [h1'] at k1
  cases k1
  rw [h2] at k2
  cases k2
  refine ⟨g1', hg, by rw [k3, he, h3], ?_⟩
  intro j
  rw [k6, h6, hn]

theorem same_process {g g' g1 : Graph L.Data} (he : g'.edges = g.edges)
    (hn : ∀ i, g'.node? i = g.node? i) (hE : EdgesLive g) {ho : HashOrder} {dest : Nat}
    (hd : g.Live dest) (h : process L.proc ho g dest = .ok g1) :
    ∃ g1', process L.proc ho g' dest = .ok g1' ∧ g1'.edges = g1.edges ∧
      ∀ j, g1'.node? j = g1.node? j := by
  have hE' : EdgesLive g' := by
    intro p hp
    rw [he] at hp
    rw [hn, hn]
    exact hE p hp
  have hd' : g'.Live dest := by
    obtain ⟨a, ha⟩ := hd
    exact ⟨a, by rw [hn]; exact ha⟩
  obtain ⟨g1', h1, h2, _⟩ := Props.c11_noninterference L.proc ho g g' g1 dest hE hE' hd he.symm
    (fun n _ => (hn n).symm) h
  refine ⟨g1', h1, ?_, ?_⟩
  · rw [(sameShape_process h1).edges, (sameShape_process h).edges, he]
  · intro j
    by_cases hj : Feeds g.edges j dest
    · exact (h2 j hj).symm
    · obtain ⟨_, _, k3, _⟩ := Props.block_general L.proc ho g g1 dest hE hd h
      obtain ⟨_, _, k3', _⟩ := Props.block_general L.proc ho g' g1' dest hE' hd' h1
      rw [k3 j hj, k3' j (by rw [he]; exact hj), hn]

theorem Spec.SameEngine.of_graph {e e' : Engine L} (h : SameEngine e e') {g g' : Graph L.Data}
    (he : g'.edges = g.edges) (hn : ∀ i, g'.node? i = g.node? i) :
    SameEngine { e with graph := g } { e' with graph := g' } :=
  ⟨h.N, h.dest, h.input, h.ast, h.index, h.samples, h.bpm, h.sr, h.trackAmp, h.seed, h.clock,
    h.livecoding, he, hn⟩

theorem same_copyInput {e e' e1 : Engine L} (h : SameEngine e e') {ch : Nat} {b : List L.Num}
    (hc : e.copyInput ch b = .ok e1) : ∃ e1', e'.copyInput ch b = .ok e1' ∧ SameEngine e1 e1' := by
  unfold Engine.copyInput at hc ⊢
  rw [h.index]
  split at hc
  · cases hc
  · split at hc
    · cases hc
    · rename_i i hi
      rw [except_bind_ok] at hc
      obtain ⟨g, h1, hc⟩ := hc
      cases hc
      obtain ⟨g', k1, k2, k3⟩ := same_modify h.edges h.nodes h1
      refine ⟨{ e' with graph := g' }, ?_, h.of_graph k2 k3⟩
      simp only [except_bind_ok]
      exact ⟨g', k1, by rw [← h.index]⟩

theorem same_copyInputs {e e' e1 : Engine L} (h : SameEngine e e') {buf : List (List L.Num)}
    (hc : e.copyInputs buf = .ok e1) :
    ∃ e1', e'.copyInputs buf = .ok e1' ∧ SameEngine e1 e1' := by
  unfold Engine.copyInputs at hc ⊢
  split at hc
  · cases hc; exact ⟨e', rfl, h⟩
  · exact same_copyInput h hc
  · rw [except_bind_ok] at hc
    obtain ⟨e2, h1, h2⟩ := hc
    obtain ⟨e2', k1, k2⟩ := same_copyInput h h1
    obtain ⟨e3', k3, k4⟩ := same_copyInput k2 h2
    refine ⟨e3', ?_, k4⟩
    simp only [except_bind_ok]
    exact ⟨e2', k1, k3⟩

theorem same_nextBlock {e e' e1 : Engine L} (h : SameEngine e e') (hE : EdgesLive e.graph)
    (hd : e.graph.Live e.dest) {ho : HashOrder} {buf out : List (List L.Num)}
    (hb : e.nextBlock ho buf = .ok (e1, out)) :
    ∃ e1', e'.nextBlock ho buf = .ok (e1', out) ∧ SameEngine e1 e1' := by
  obtain ⟨e2, g, d, h1, h2, h3, rfl, rfl⟩ := nextBlock_ok hb
  obtain ⟨e2', k1, k2⟩ := same_copyInputs h h1
  have hon := onlyNodes_copyInputs h1
  have hE2 : EdgesLive e2.graph := by
    intro p hp
    rw [hon.shape.edges] at hp
    have := hE p hp
    exact ⟨(hon.shape.live _).mpr this.1, (hon.shape.live _).mpr this.2⟩
  have hd2 : e2.graph.Live e2.dest := by
    rw [hon.shape.live]
    have : e2.dest = e.dest := by rw [hon.eq]
    rw [this]; exact hd
  obtain ⟨g', m1, m2, m3⟩ := same_process k2.edges k2.nodes hE2 hd2 h2
  refine ⟨{ e2' with graph := g', clock := e2'.clock + e2'.N }, ?_, ?_⟩
  · unfold Engine.nextBlock
    simp only [except_bind_ok]
    refine ⟨e2', k1, g', ?_, ?_⟩
    · rw [k2.dest]; exact m1
    · rw [k2.dest, m3, h3]
  · have := k2.of_graph m2 m3
    exact ⟨this.N, this.dest, this.input, this.ast, this.index, this.samples, this.bpm, this.sr,
      this.trackAmp, this.seed, by simp [k2.clock, k2.N], this.livecoding, this.edges, this.nodes⟩

end Verif
