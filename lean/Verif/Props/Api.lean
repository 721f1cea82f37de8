import Verif.Lemmas.Message
import Verif.Lemmas.NodeInv
import Verif.Props.Engine

/-! # C12, C13, C14: reset, external input, messages -/

namespace Verif.Props
open Verif Spec

variable {L : Lang}

theorem slot_lt {α} {g : Graph α} {i : Nat} {d : α} (h : g.node? i = some d) :
    i < g.slots.length := by
  unfold Graph.node? at h
  by_cases hx : i < g.slots.length
  · exact hx
  · rw [List.getElem?_eq_none (by omega)] at h
    cases h

theorem copyInputs_two {e : Engine L} {i : Nat} {d : L.Data} {x y b0 b1 : List L.Num}
    (a2 : lookup e.index inputName = some [i]) (a3 : e.graph.node? i = some d)
    (hxy : d.buffers = [x, y]) (h0 : x.length = b0.length) (h1 : y.length = b1.length) :
    e.copyInputs [b0, b1] = .ok { e with graph := { e.graph with
      slots := e.graph.slots.set i (some ⟨d.node, [b0, b1]⟩) } } := by
  have hil := slot_lt a3
  have hc0 : e.copyInput 0 b0 = .ok { e with graph := { e.graph with
      slots := e.graph.slots.set i (some ⟨d.node, [b0, y]⟩) } } := by
    unfold Engine.copyInput
    rw [a2]
    simp only [List.getElem?_cons_zero]
    unfold Graph.modify
    rw [a3]
    simp only [hxy, List.getElem?_cons_zero, h0, if_true, List.set_cons_zero]
    rfl
  have hc1 : ({ e with graph := { e.graph with
      slots := e.graph.slots.set i (some ⟨d.node, [b0, y]⟩) } } : Engine L).copyInput 1 b1 =
      .ok { e with graph := { e.graph with slots := e.graph.slots.set i (some ⟨d.node, [b0, b1]⟩) } } := by
    unfold Engine.copyInput
    simp only [a2, List.getElem?_cons_zero]
    have hn : ({ e.graph with slots := e.graph.slots.set i (some ⟨d.node, [b0, y]⟩) } :
        Graph L.Data).node? i = some ⟨d.node, [b0, y]⟩ := by
      unfold Graph.node?
      simp [hil]
    unfold Graph.modify
    rw [hn]
    simp only [List.getElem?_cons_succ, List.getElem?_cons_zero, h1, if_true,
      List.set_cons_succ, List.set_cons_zero, List.set_set]
    rfl
  unfold Engine.copyInputs
  simp only [hc0]
  simp only [bind, Except.bind, hc1]

/-! ### C12 -/

/-- **C12** (partial). `reset` forgets the history: what is left depends only on the block length and
the sample rate, and agrees with a new engine of that sample rate in every setting, in having no
program, no samples, no connections, and silent freshly made destination and context input nodes.
Missing: the chain table, which a new engine has `~input` in and a reset one does not
(`c12_reset_drops_input`). -/
theorem c12_reset_is_new_partial (e : Engine L) :
    (∀ e2 : Engine L, e2.N = e.N → e2.sr = e.sr → e2.reset = e.reset) ∧
    ∃ fresh : Engine L, fresh = (Engine.new L e.N).setSr e.sr ∧
      e.reset.N = fresh.N ∧ e.reset.sr = fresh.sr ∧ e.reset.dest = fresh.dest ∧
      e.reset.input = fresh.input ∧ e.reset.ast = fresh.ast ∧ e.reset.samples = fresh.samples ∧
      e.reset.bpm = fresh.bpm ∧ e.reset.trackAmp = fresh.trackAmp ∧ e.reset.seed = fresh.seed ∧
      e.reset.clock = fresh.clock ∧ e.reset.livecoding = fresh.livecoding ∧
      e.reset.needUpdate = fresh.needUpdate ∧ e.reset.graph.edges = fresh.graph.edges ∧
      e.reset.graph.node? e.reset.dest = fresh.graph.node? fresh.dest ∧
      e.reset.graph.node? e.reset.input = fresh.graph.node? fresh.input ∧
      (∀ i, i ≠ e.reset.dest → i ≠ e.reset.input → e.reset.graph.node? i = none) ∧
      (∀ k c, (k, c) ∈ fresh.index → k ≠ ['~', 'i', 'n', 'p', 'u', 't'] → (k, c) ∈ e.reset.index) := by
  refine ⟨?_, _, rfl, rfl, rfl, rfl, rfl, rfl, rfl, rfl, rfl, rfl, rfl, rfl, rfl, rfl, rfl, rfl, ?_, ?_⟩
  · intro e2 h1 h2
    cases e; cases e2
    simp only at h1 h2
    subst h1 h2
    rfl
  · intro i h1 h2
    have hd : e.reset.dest = 0 := rfl
    have hi : e.reset.input = 1 := rfl
    rw [hd] at h1
    rw [hi] at h2
    have hg : e.reset.graph.slots =
      [some (freshData e.N 2 L.sum2), some (freshData e.N 2 L.pass)] := rfl
    unfold Graph.node?
    rw [hg]
    match i with
    | 0 => exact absurd rfl h1
    | 1 => exact absurd rfl h2
    | i + 2 => rfl
  · intro k c h hk
    have hi : ((Engine.new L e.N).setSr e.sr).index = [(inputName, [2])] := rfl
    rw [hi, List.mem_singleton] at h
    cases h
    exact absurd rfl hk

/-- A running engine with a program, a changed tempo and a clock, to which the theorem applies. -/
example : Toy.e1.ast = some Toy.prog1 ∧ Toy.e1.reset.ast = none ∧ Toy.e1.graph.edges ≠ [] ∧
    Toy.e1.reset.graph.edges = [] := by
  refine ⟨rfl, rfl, by decide, rfl⟩

/-- **C12 does not hold in full**: a new engine has the chain `~input`, a reset engine never has, so
supplying external input makes it panic, for every language and block length. -/
theorem c12_reset_drops_input (L : Lang) (N : Nat) (b0 b1 : List L.Num) (h0 : b0.length = N)
    (h1 : b1.length = N) (e : Engine L) (hN : e.N = N) (ho : HashOrder) :
    (∃ c, (['~', 'i', 'n', 'p', 'u', 't'], c) ∈ (Engine.new L N).index) ∧
    (∃ e1, (Engine.new L N).copyInputs [b0, b1] = .ok e1) ∧
    (∀ c, (['~', 'i', 'n', 'p', 'u', 't'], c) ∉ e.reset.index) ∧
    e.reset.nextBlock ho [b0, b1] = .error .missing := by
  subst hN
  refine ⟨⟨[2], List.Mem.head _⟩, ?_, ?_, rfl⟩
  · exact ⟨_, copyInputs_two (e := Engine.new L e.N) (i := 2) (d := freshData e.N 2 L.pass)
      (x := List.replicate e.N L.zero) (y := List.replicate e.N L.zero) rfl rfl rfl
      (by simp [h0]) (by simp [h1])⟩
  · intro c h
    have : e.reset.index = [] := rfl
    rw [this] at h
    cases h

example : Toy.e1.N = 2 ∧ [1, 2].length = 2 := ⟨rfl, rfl⟩

/-! ### C13 -/

/-- The `~input` node: in the table, alive, with two buffers of block length. -/
def InputOk (e : Engine L) : Prop :=
  (∀ a, e.ast = some a → inputName ∉ keys a) ∧
  ∃ i d, lookup e.index inputName = some [i] ∧ e.graph.node? i = some d ∧
    d.buffers.map List.length = [e.N, e.N]

theorem staged_untouched {e : Engine L} {new : Ast L.Comp} {diff t1 gone1 t2 gone2 g3 t3 cr}
    (hI : Inv e) (hp : ProgWf new) (hs : Staged e new diff t1 gone1 t2 gone2 g3 t3 cr) {k : Name}
    (h1 : k ∉ keys new) (h2 : k ∉ oldKeys e) : lookup t3 k = lookup e.index k := by
  have f := staged_facts hI hp hs
  obtain ⟨_, _, b3⟩ := dropChains_spec hI.keysNodup hs.chains
  have hl1 := b3 k
  simp only [h2, false_and, if_false] at hl1
  have hl2 := dropNodes_lookup hs.nodes k
  obtain ⟨p1, _⟩ := diffAll_perKey hp.names hs.diffEq k
  obtain ⟨q1, q2⟩ := p1 h1
  rw [posOf_reverse, q1, hl1] at hl2
  have hl2' : lookup t2 k = lookup e.index k := by
    cases hx : lookup e.index k with
    | none => rw [hx] at hl2; exact hl2
    | some c =>
      rw [hx] at hl2
      obtain ⟨c', e1, e2⟩ := hl2
      simp only [List.reverse_nil, eraseSeq, Option.some.injEq] at e1
      rw [e2, e1]
  have hl3 := insertNodes_lookup hs.ins k
  obtain ⟨i1, _⟩ := insOf_eq k diff.adds cr f.made.length_eq
  rw [i1, q2, hl2'] at hl3
  simp only [List.map_nil, List.zip_nil_left, insSeq, Option.some.injEq] at hl3
  exact hl3.symm

theorem survives_rewired {τ : TableOrder} {e e' : Engine L} {new : Ast L.Comp}
    {diff t1 gone1 t2 gone2 g3 created g5} (hI : Inv e)
    (h : Accepted τ e new e' diff t1 gone1 t2 gone2 g3 created g5) {i : Nat} {d : L.Data}
    (hi : i ∈ flat e'.index) (hd : e.graph.node? i = some d) :
    ∃ n, e'.graph.node? i = some ⟨n, d.buffers⟩ ∧ Rewire L d.node n := by
  have f := h.facts
  obtain ⟨_, r2, _⟩ := removeAll_spec (ids := gone1 ++ gone2) f.wf
  have hcr : i ∉ created := by
    intro hc; rw [(f.cr i hc).1] at hd; cases hd
  have ht2 : i ∈ flat t2 := by
    rw [f.permT3.mem_iff, List.mem_append] at hi
    exact hi.resolve_right hcr
  have hg : i ∉ gone1 ++ gone2 := fun hg => ((h.live hI).2.2 i hg).2.1 ht2
  have h4 : ((removeAll g3 (gone1 ++ gone2)).clearEdges).node? i = some d := by
    show (removeAll g3 (gone1 ++ gone2)).node? i = some d
    rw [r2]
    simp only [hg, if_false]
    rw [f.nodes i hcr]
    exact hd
  obtain ⟨n, h5, h6⟩ := h.adds.rewired.some i d h4
  exact ⟨n, h5, h6⟩

theorem survives_accepted {τ : TableOrder} {e e' : Engine L} {new : Ast L.Comp}
    {diff t1 gone1 t2 gone2 g3 created g5} (hI : Inv e)
    (h : Accepted τ e new e' diff t1 gone1 t2 gone2 g3 created g5) {i : Nat} {d : L.Data}
    (hi : i ∈ flat e'.index) (hd : e.graph.node? i = some d) :
    ∃ n, e'.graph.node? i = some ⟨n, d.buffers⟩ := by
  obtain ⟨n, h1, _⟩ := survives_rewired hI h hi hd
  exact ⟨n, h1⟩

/-- Buffers keep their shape, node by node. -/
def SameBufs (g g' : Graph L.Data) : Prop := ∀ i d, g.node? i = some d →
  ∃ d', g'.node? i = some d' ∧ d'.buffers.map List.length = d.buffers.map List.length

theorem SameBufs.refl (g : Graph L.Data) : SameBufs g g := fun _ d h => ⟨d, h, rfl⟩

theorem SameBufs.trans {a b c : Graph L.Data} (h1 : SameBufs a b) (h2 : SameBufs b c) :
    SameBufs a c := by
  intro i d h
  obtain ⟨d1, e1, e2⟩ := h1 i d h
  obtain ⟨d2, e3, e4⟩ := h2 i d1 e1
  exact ⟨d2, e3, e4.trans e2⟩

theorem sameBufs_modify {g g' : Graph L.Data} {i : Nat} {f : L.Data → Except Panic L.Data}
    (hf : ∀ d d', f d = .ok d' → d'.buffers.map List.length = d.buffers.map List.length)
    (h : g.modify i f = .ok g') : SameBufs g g' := by
  obtain ⟨a, a', h1, h2, _, _, _, h6⟩ := Graph.modify_ok h
  intro j d hj
  rw [h6]
  by_cases hij : i = j
  · subst hij
    rw [h1] at hj
    cases hj
    exact ⟨a', by simp, hf _ _ h2⟩
  · simp only [hij, if_false]
    exact ⟨d, hj, rfl⟩

theorem lens_eq {N : Nat} {a b : List (List L.Num)} (h : a.length = b.length) (ha : BlockLen N a)
    (hb : BlockLen N b) : a.map List.length = b.map List.length := by
  have h1 : ∀ {l : List (List L.Num)}, BlockLen N l → l.map List.length = List.replicate l.length N := by
    intro l hl
    rw [List.eq_replicate_iff]
    refine ⟨by simp, ?_⟩
    intro x hx
    obtain ⟨y, hy, rfl⟩ := List.mem_map.mp hx
    exact hl y hy
  rw [h1 ha, h1 hb, h]

theorem sameBufs_process {N : Nat} {S : L.Node → Prop} (hs : Shape L N S) {ho : HashOrder}
    {g g' : Graph L.Data} {dest : Nat} (hg : All (fun _ => InShape N S) g)
    (h : process L.proc ho g dest = .ok g') : SameBufs g g' := by
  have := (process_inv (R := fun d d' : L.Data =>
    d'.buffers.map List.length = d.buffers.map List.length) (fun _ => rfl)
    (fun _ _ _ h1 h2 => h2.trans h1) (by
      intro i d ins n' b' h1 h2 h3
      obtain ⟨k1, k2, k3⟩ := hs.proc d.node ins d.buffers n' b' h1.1 (by
        intro e he
        obtain ⟨dk, h1, h2⟩ := h2.2 e.1 e.2 he
        rw [← h2]
        exact h1.2) h1.2 h3
      exact ⟨⟨k1, k3⟩, lens_eq k2 k3 h1.2⟩) hg h).2
  exact this.1

theorem sameBufs_copyInput {e e' : Engine L} {ch : Nat} {b : List L.Num}
    (h : e.copyInput ch b = .ok e') : SameBufs e.graph e'.graph := by
  unfold Engine.copyInput at h
  split at h
  · cases h
  · split at h
    · cases h
    · rw [except_bind_ok] at h
      obtain ⟨g, h1, h⟩ := h
      cases h
      refine sameBufs_modify ?_ h1
      intro d d' hd
      split at hd
      · cases hd
      · rename_i b0 hb
        split at hd
        · rename_i hlen
          cases hd
          simp only [List.map_set]
          apply List.ext_getElem?
          intro j
          rw [List.getElem?_set]
          by_cases hj : ch = j
          · subst hj
            obtain ⟨hl, hg⟩ := List.getElem?_eq_some_iff.mp hb
            simp only [List.length_map, hl, if_true, List.getElem?_map, hb, Option.map_some, hlen]
          · simp [hj]
        · cases hd

theorem sameBufs_deliver {e e' : Engine L} {k : Name} {p : Nat} {m : Msg L.Num}
    (h : e.deliver k p m = .ok e') : SameBufs e.graph e'.graph := by
  unfold Engine.deliver at h
  split at h
  · cases h; exact .refl _
  · split at h
    · cases h
    · rw [except_bind_ok] at h
      obtain ⟨g, h1, h⟩ := h
      cases h
      refine sameBufs_modify ?_ h1
      intro d d' hd
      rw [except_bind_ok] at hd
      obtain ⟨n, _, hd⟩ := hd
      cases hd
      rfl

theorem sameBufs_sendMsg {e e' : Engine L} {m : Name} (h : e.sendMsg m = .ok e') :
    SameBufs e.graph e'.graph := by
  unfold Engine.sendMsg at h
  simp only at h
  generalize (splitOn ';' _).filter _ = cmds at h
  induction cmds generalizing e with
  | nil =>
    simp only [List.foldlM_nil, pure, Except.pure, Except.ok.injEq] at h
    subst h
    exact .refl _
  | cons c cmds ih =>
    rw [List.foldlM_cons, except_bind_ok] at h
    obtain ⟨e1, h1, h⟩ := h
    refine SameBufs.trans ?_ (ih h)
    unfold Engine.command at h1
    split at h1
    · cases h1; exact .refl _
    · exact sameBufs_deliver h1

theorem InputOk.of_same {e e' : Engine L} (h : InputOk e) (h1 : e'.index = e.index)
    (h2 : e'.ast = e.ast) (h3 : e'.N = e.N) (h4 : SameBufs e.graph e'.graph) : InputOk e' := by
  obtain ⟨a1, i, d, a2, a3, a4⟩ := h
  obtain ⟨d', b1, b2⟩ := h4 i d a3
  exact ⟨by rw [h2]; exact a1, i, d', by rw [h1]; exact a2, b1, by rw [b2, h3]; exact a4⟩

theorem inputReach_reachable {e : Engine L} (h : InputReach L e) : Reachable L e := by
  induction h with
  | new N => exact .new N
  | step op _ _ ha ih => exact .step op ih ha

theorem inputOk_reach (hL : ParserWf L) {N : Nat} {S : L.Node → Prop} (hs : Shape L N S) {e : Engine L}
    (h : InputReach L e) (hN : e.N = N) : InputOk e := by
  induction h with
  | new N =>
    refine ⟨(fun a ha => by cases ha), 2, freshData N 2 L.pass, rfl, rfl, ?_⟩
    simp [freshData, Engine.new, contextGraph]
  | @step e e1 op hr hk happ ih =>
    have hI := inv_reachable hL (inputReach_reachable hr)
    have hNe : e.N = N := (apply_N hL (inputReach_reachable hr) happ).symm.trans hN
    have ih := ih hNe
    cases op with
    | update τ code =>
      simp only [Op.apply, except_bind_ok] at happ
      obtain ⟨⟨e2, r⟩, h1, happ⟩ := happ
      cases happ
      unfold Engine.updateWithCode at h1
      rw [except_bind_ok] at h1
      obtain ⟨p, hp, h1⟩ := h1
      split at h1
      · cases h1; exact ih
      · rename_i new
        have hw := hL code new hp
        cases r with
        | none =>
          obtain ⟨diff, t1, gone1, t2, gone2, g3, cr, g5, hacc⟩ := accepted hI hw h1
          obtain ⟨a1, i, d, a2, a3, a4⟩ := ih
          have hno : inputName ∉ oldKeys e := by
            intro h
            obtain ⟨a, ha, hka⟩ := mem_oldKeys.mp h
            exact a1 a ha hka
          have hnn : inputName ∉ keys new := hk new hp
          have hlk := staged_untouched hI hw hacc.staged hnn hno
          rw [a2] at hlk
          obtain ⟨n, hn⟩ := survives_accepted hI hacc
            (mem_flat.mpr ⟨inputName, [i], lookup_mem hlk, by simp⟩) a3
          refine ⟨?_, i, _, hlk, hn, ?_⟩
          · intro a ha
            rw [congrArg Engine.ast hacc.eq] at ha
            cases ha
            exact hnn
          · rw [congrArg Engine.N hacc.eq]; exact a4
        | some x =>
          have hs := (sameEngine_of_rejected hI hw h1).1
          exact ih.of_same hs.index hs.ast hs.N (fun i d hd => ⟨d, by rw [hs.nodes]; exact hd, rfl⟩)
    | sendMsg m =>
      have := (onlyNodes_sendMsg happ).eq
      exact ih.of_same (by rw [this]) (by rw [this]) (by rw [this]) (sameBufs_sendMsg happ)
    | setBpm v =>
      obtain ⟨h1, _, h3⟩ := setBpm_nodes happ
      refine ih.of_same (by rw [h1]) (by rw [h1]) (by rw [h1]) ?_
      intro i d hd
      have := h3 i
      rw [hd] at this
      obtain ⟨n, _, hn⟩ := this
      exact ⟨_, hn, rfl⟩
    | setSr v => cases happ; exact ih.of_same rfl rfl rfl (.refl _)
    | setSeed v => cases happ; exact ih.of_same rfl rfl rfl (.refl _)
    | setTrackAmp v => cases happ; exact ih.of_same rfl rfl rfl (.refl _)
    | addSample n s => cases happ; exact ih.of_same rfl rfl rfl (.refl _)
    | nextBlock ho buf =>
      simp only [Op.apply, except_bind_ok] at happ
      obtain ⟨⟨e2, out⟩, h1, happ⟩ := happ
      cases happ
      obtain ⟨e3, g, d, h2, h3, _, _, rfl⟩ := nextBlock_ok h1
      have heq := (onlyNodes_copyInputs h2).eq
      have hb : SameBufs e.graph e3.graph := by
        unfold Engine.copyInputs at h2
        split at h2
        · cases h2; exact .refl _
        · exact sameBufs_copyInput h2
        · rw [except_bind_ok] at h2
          obtain ⟨e4, k1, k2⟩ := h2
          exact (sameBufs_copyInput k1).trans (sameBufs_copyInput k2)
      refine ih.of_same (by show e3.index = _; rw [heq]) (by show e3.ast = _; rw [heq])
        (by show e3.N = _; rw [heq]) ?_
      exact hb.trans (sameBufs_process hs
        (all_copyInputs hs.inv (shaped_reach hL hs (inputReach_reachable hr) hNe) h2) h3)
    | reset => exact absurd hk id

/-- **C13** (partial). In every state reached without `reset` and without a program defining `~input`,
two input slices of block length are accepted: they end up in the two buffers of the node of the
built-in chain, nothing else changes, and the block is then rendered as one without input. Missing:
histories with `reset`, where it is false (`c13_input_after_reset_panics`), and programs that
redefine `~input` (`c13_redefined_input_panics` in `Verif/Props/EngineBugs.lean`). -/
theorem c13_external_input_accepted_partial (hL : ParserWf L) {e : Engine L} {S : L.Node → Prop}
    (hs : Shape L e.N S) (hr : InputReach L e) (b0 b1 : List L.Num) (h0 : b0.length = e.N) (h1 : b1.length = e.N) :
    ∃ (i : Nat) (d : L.Data) (e1 : Engine L), (['~', 'i', 'n', 'p', 'u', 't'], [i]) ∈ e.index ∧ e.graph.node? i = some d ∧
      e1 = { e with graph := e1.graph } ∧ e1.graph.edges = e.graph.edges ∧
      e1.graph.node? i = some ⟨d.node, [b0, b1]⟩ ∧
      (∀ j, j ≠ i → e1.graph.node? j = e.graph.node? j) ∧
      ∀ ho, e.nextBlock ho [b0, b1] = e1.nextBlock ho [] := by
  obtain ⟨_, i, d, a2, a3, a4⟩ := inputOk_reach hL hs hr rfl
  have hlen : d.buffers.length = 2 := by
    have := congrArg List.length a4
    simpa using this
  obtain ⟨x, y, hxy⟩ : ∃ x y, d.buffers = [x, y] := by
    match hd : d.buffers, hlen with
    | [x, y], _ => exact ⟨x, y, rfl⟩
  rw [hxy] at a4
  simp only [List.map_cons, List.map_nil, List.cons.injEq, and_true] at a4
  have hil := slot_lt a3
  have hc := copyInputs_two a2 a3 hxy (a4.1.trans h0.symm) (a4.2.trans h1.symm)
  refine ⟨i, d, { e with graph := { e.graph with
    slots := e.graph.slots.set i (some ⟨d.node, [b0, b1]⟩) } }, lookup_mem a2, a3, ?_, ?_, ?_, ?_, ?_⟩
  · rfl
  · rfl
  · show ({ e.graph with slots := e.graph.slots.set i (some ⟨d.node, [b0, b1]⟩) } :
        Graph L.Data).node? i = _
    unfold Graph.node?
    simp [hil]
  · intro j hj
    show ({ e.graph with slots := e.graph.slots.set i (some ⟨d.node, [b0, b1]⟩) } :
        Graph L.Data).node? j = _
    unfold Graph.node?
    simp [Ne.symm hj]
  · intro ho
    unfold Engine.nextBlock
    rw [hc]
    rfl

theorem toy_shape : Shape Toy.lang 2 (fun _ => True) := by
  refine ⟨trivial, trivial, ?_, fun _ _ _ _ _ => trivial, ?_⟩
  · intro samples sr bpm seed c nd rs h
    refine ⟨trivial, ?_⟩
    simp only [Toy.lang] at h
    split at h
    · cases h
    · cases h
      intro b hb
      rcases List.mem_cons.mp hb with rfl | hb
      · rfl
      · rw [List.mem_singleton.mp hb]; rfl
  · intro n ins b n' b' _ _ hb h
    refine ⟨trivial, ?_⟩
    have hm : ∀ (v : Nat), (b.map (fun c => c.map (fun _ => v))).length = b.length ∧
        BlockLen 2 (b.map (fun c => c.map (fun _ => v))) := by
      intro v
      refine ⟨by simp, ?_⟩
      intro x hx
      obtain ⟨y, hy, rfl⟩ := List.mem_map.mp hx
      rw [List.length_map]
      exact hb y hy
    cases h
    split
    · exact hm _
    · exact hm _

/-- The engine playing `prog1` meets the hypotheses; the block renders without panic. -/
example : InputReach Toy.lang Toy.e1 ∧ Shape Toy.lang Toy.e1.N (fun _ => True) := by
  refine ⟨?_, toy_shape⟩
  refine .step (.update TableOrder.ident Toy.t1) (.new 2) ?_ ?_
  · intro p hp
    have h1 : Toy.lang.parse Toy.t1 = .ok (some Toy.prog1) := rfl
    rw [h1] at hp
    cases hp
    decide
  · show (do let (e', _) ← Toy.e0.updateWithCode TableOrder.ident Toy.t1; .ok e') = Except.ok Toy.e1
    rw [Toy.e1_eq]; rfl

/-- **C13 does not hold in full**: for every language there is a reachable state in which every
non-empty external input makes `next_block` panic. -/
theorem c13_input_after_reset_panics (L : Lang) (N : Nat) :
    ∃ e, Reachable L e ∧ e.N = N ∧ ∀ ho b bs, e.nextBlock ho (b :: bs) = .error .missing := by
  refine ⟨(Engine.new L N).reset, .step .reset (.new N) rfl, rfl, ?_⟩
  intro ho b bs
  cases bs <;> rfl

/-! ### C14 -/

theorem deliver_hit {e e' : Engine L} {k : Name} {p : Nat} {m : Msg L.Num}
    (h : e.deliver k p m = .ok e') :
    (e' = e ∧ k ∉ e.index.map Prod.fst) ∨
    ∃ nodes n d node', (k, nodes) ∈ e.index ∧ nodes[p]? = some n ∧ e.graph.node? n = some d ∧
      L.msg d.node m = .ok node' ∧ e' = { e with graph := e'.graph } ∧
      e'.graph.edges = e.graph.edges ∧ e'.graph.node? n = some ⟨node', d.buffers⟩ ∧
      ∀ j, j ≠ n → e'.graph.node? j = e.graph.node? j := by
  unfold Engine.deliver at h
  split at h
  · rename_i hl
    cases h
    exact .inl ⟨rfl, lookup_none.mp hl⟩
  · rename_i nodes hl
    split at h
    · cases h
    · rename_i n hp
      rw [except_bind_ok] at h
      obtain ⟨g, h1, h⟩ := h
      cases h
      obtain ⟨a, a', k1, k2, k3, _, _, k6⟩ := Graph.modify_ok h1
      rw [except_bind_ok] at k2
      obtain ⟨node', k4, k5⟩ := k2
      cases k5
      refine .inr ⟨nodes, n, a, node', lookup_mem hl, hp, k1, k4, rfl, k3, ?_, ?_⟩
      · show g.node? n = _
        rw [k6]; simp
      · intro j hj
        show g.node? j = _
        rw [k6]; simp [Ne.symm hj]

theorem exec_command {e e' : Engine L} {fs : List Name}
    (hne : fs ≠ []) (hc : ∀ f, f ∈ fs → ',' ∉ f) (h : e.command (join ',' fs) = .ok e') :
    Exec e fs e' := by
  unfold Engine.command parseCommand at h
  rw [splitOn_join hne hc] at h
  match fs, hne with
  | [a], _ => simp only [Except.ok.injEq] at h; subst h; exact .short (by simp)
  | [a, b], _ => simp only [Except.ok.injEq] at h; subst h; exact .short (by simp)
  | [a, b, c], _ => simp only [Except.ok.injEq] at h; subst h; exact .short (by simp)
  | chain :: p :: q :: v :: rest, _ =>
    simp only at h
    rcases deliver_hit h with ⟨rfl, hk⟩ | ⟨nodes, n, d, node', h1, h2, h3, h4, h5, h6, h7, h8⟩
    · exact .unknown hk
    · exact .hit position_spec position_spec valueMsg_spec h1 h2 h3 h4 h5 h6 h7 h8

/-- **C14.** Every message text splits into commands in one way, and a call of `send_msg` that does
not panic has exactly the effect of these commands one after the other: commands with fewer than
four fields or an unknown chain do nothing, the others deliver their message to the addressed node
and change nothing else. -/
theorem c14_messages_reach_their_node (hL : ParserWf L) {e e' : Engine L} (hr : Reachable L e)
    (msg : Name) (h : e.sendMsg msg = .ok e') :
    (∃ cmds, Splits msg cmds) ∧ ∀ cmds, Splits msg cmds → Runs e cmds e' := by
  have hws : msg.filter (fun c => !isWhitespace c) =
      msg.filter (fun c => !decide (c.toNat ∈ whiteSpace)) := by
    apply List.filter_congr
    intro c _
    rw [whitespace_iff]
  refine ⟨?_, ?_⟩
  · let body := msg.filter (fun c => !decide (c.toNat ∈ whiteSpace))
    refine ⟨(splitOn ';' body).map (splitOn ','), ?_, ⟨?_, ?_⟩, ?_, ?_⟩
    · rw [List.map_map]
      have : (join ',' ∘ splitOn ',') = id := by funext s; exact join_splitOn ',' s
      rw [this, List.map_id, join_splitOn]
    · simp [splitOn_ne_nil]
    · intro fs hfs
      obtain ⟨s, _, rfl⟩ := List.mem_map.mp hfs
      exact splitOn_ne_nil _ _
    · intro fs f hfs hf
      obtain ⟨s, _, rfl⟩ := List.mem_map.mp hfs
      exact (splitOn_pieces f hf).1
    · intro fs f hfs hf hsemi
      obtain ⟨s, hs, rfl⟩ := List.mem_map.mp hfs
      exact (splitOn_pieces s hs).1 ((splitOn_pieces f hf).2 ';' hsemi)
  · intro cmds hsp
    have hI := inv_reachable hL hr
    unfold Engine.sendMsg at h
    simp only at h
    rw [hws, hsp.text, splitOn_join (by simpa using hsp.nonempty.1) (by
      intro p hp hsemi
      obtain ⟨fs, hfs, rfl⟩ := List.mem_map.mp hp
      rw [mem_join (by decide)] at hsemi
      obtain ⟨f, hf, hc⟩ := hsemi
      exact hsp.semi fs f hfs hf hc)] at h
    have hne := hsp.nonempty.2
    have hcomma := hsp.comma
    clear hsp hws hr
    induction cmds generalizing e with
    | nil =>
      simp only [List.map_nil, List.filter_nil, List.foldlM_nil, pure, Except.pure,
        Except.ok.injEq] at h
      subst h
      exact .nil e
    | cons fs cmds ih =>
      simp only [List.map_cons, List.filter_cons] at h
      split at h
      · rw [List.foldlM_cons, except_bind_ok] at h
        obtain ⟨e1, h1, h2⟩ := h
        have hx := exec_command (hne fs (by simp)) (fun f hf => hcomma fs f (by simp) hf) h1
        exact .cons hx (ih h2 ((onlyNodes_command h1).inv hI)
          (fun x hx => hne x (List.mem_cons_of_mem _ hx))
          (fun x f hx hf => hcomma x f (List.mem_cons_of_mem _ hx) hf))
      · rename_i hemp
        refine .cons (.short ?_) (ih h hI (fun x hx => hne x (List.mem_cons_of_mem _ hx))
          (fun x f hx hf => hcomma x f (List.mem_cons_of_mem _ hx) hf))
        match fs, hne fs (by simp) with
        | [a], _ => simp
        | a :: b :: r, _ => simp [join] at hemp

/-- Two commands, the first for the second node of chain `o`, the second for an unknown chain. -/
example : ∃ e', Toy.e1.sendMsg ['o', ',', '1', ',', ' ', '0', ',', '7', ';', 'x', ',', '0', ',', '0', ',', '1'] = .ok e' ∧
    Reachable Toy.lang Toy.e1 ∧ 
    (e'.graph.node? 4).map (fun d => (d.node : Toy.Node).made) = some 7 ∧
    (Toy.e1.graph.node? 4).map (fun d => (d.node : Toy.Node).made) = some 2 ∧
    e'.graph.node? 3 = Toy.e1.graph.node? 3 :=
  ⟨_, rfl, Toy.reach1, rfl, rfl, rfl⟩

end Verif.Props
