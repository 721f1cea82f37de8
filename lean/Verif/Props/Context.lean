import Verif.Lemmas.Context
import Verif.Lemmas.Eval
import Verif.Lemmas.KernelRfl
import Verif.Spec.Demo

/-!
# C62: graphs put together by hand

The interface `AudioContext` of the crate `glicol_synth`, for nodes of any kind (a `Lang` gives the nodes).
-/

namespace Verif.Props
open Verif Spec Context
variable {L : Lang}

/-- **C62** (start): a new context consists of the output, node 0, and the input, node 1. -/
theorem c62_new (L : Lang) (N channels : Nat) :
    Shows (Context.new L N channels) ⟨[freshData N channels L.sum2, freshData N channels L.pass], [], []⟩ ∧
    (Context.new L N channels).dest = 0 ∧ (Context.new L N channels).input = 1 :=
  ⟨(fits_new N channels).shows, rfl, rfl⟩

/-- **C62** (partial: without `add_node_chain`): after any past, building calls have the noted effect: the nodes are
those added before and since, each after exactly the messages to it in order, with their buffers untouched; the wires
are those laid; nothing else changes. -/
theorem c62_as_noted_partial {c c' : Context L} (hm : Made c) {s : Sheet L} (hs : Shows c s) {xs : List (Call L)}
    (hb : ∀ x ∈ xs, Builds x) {rs : List (Reply L)} (h : c.run xs = .ok (c', rs)) :
    Shows c' (s.notes c.N xs) ∧ c'.dest = c.dest ∧ c'.input = c.input := by
  obtain ⟨h1, _, h2, h3⟩ := fits_run (hm.sound.fits hs) hb h
  exact ⟨h1.shows, h2, h3⟩

/-- **C62** (a sheet for every context): whatever has happened, the context can be written down. -/
theorem c62_sheet {c : Context L} (hm : Made c) : ∃ s : Sheet L, Shows c s ∧ s.mail = [] ∧ 2 ≤ s.nodes.length := by
  obtain ⟨s, hs, h⟩ := hm.sound.tidy.sheet
  exact ⟨s, hs.shows, h, by rw [← hs.len]; exact hm.sound.two⟩

/-- **C62** (no panic, partial: without `add_node_chain`): building calls that mention only nodes that are there do not
panic, as long as the nodes themselves take the messages. -/
theorem c62_no_panic_partial {c : Context L} (hm : Made c) {s : Sheet L} (hs : Shows c s) {xs : List (Call L)}
    (hb : ∀ x ∈ xs, Builds x) (hk : Known c.N s xs)
    (hd : ∀ i d, (s.notes c.N xs).nodes[i]? = some d → ∃ n, Reads d.node ((s.notes c.N xs).letters i) n) :
    ∃ c' rs, c.run xs = .ok (c', rs) :=
  ctxRun_total (hm.sound.fits hs) hb hk hd

theorem handles_call {c c' : Context L} {s : Sheet L} {x : Call L} {r : Reply L} (hs : Fits c.graph s)
    (hx : ∀ y, x = y → y ≠ .reset) (hc : c.call x = .ok (c', r)) :
    c'.graph.slots.length = c.graph.slots.length + (handles r).length ∧
    handles r = List.range' c.graph.slots.length (handles r).length := by
  cases x with
  | addNodeChain ds =>
    obtain ⟨h1, h2⟩ := fits_addAll (ds := ds) hs
    simp only [Context.call] at hc
    rw [except_bind_ok] at hc
    obtain ⟨g, hg, hc⟩ := hc
    cases hc
    have hf := fits_edgesOnly h2 hg
    refine ⟨?_, ?_⟩
    · rw [hf.len, hs.len]
      simp only [handles, h1, List.length_append, List.length_range']
    · simp only [handles, h1, List.length_range', hs.len]
  | nextBlock ho =>
    rw [Context.call, except_bind_ok] at hc
    obtain ⟨g, hg, hc⟩ := hc
    split at hc
    · cases hc
    · cases hc
      exact ⟨(sameShape_process hg).len, rfl⟩
  | reset => exact absurd rfl (hx _ rfl)
  | _ =>
    obtain ⟨hf, _, _, _, hg⟩ := fits_call hs (by trivial) hc
    rw [hg, hf.len, hs.len]
    refine ⟨?_, ?_⟩ <;>
      simp [Sheet.note, Sheet.gives]

/-- **C62** (handles): as long as the context is not reset, the nodes handed out are numbered 2, 3, 4, … in the order
in which they are added, whatever else is done; so no two are the same, and none is the output or the input. -/
theorem c62_handles {N channels : Nat} {xs : List (Call L)} (hx : .reset ∉ xs) {c : Context L} {rs : List (Reply L)}
    (h : (Context.new L N channels).run xs = .ok (c, rs)) :
    (rs.flatMap handles) = List.range' 2 (rs.flatMap handles).length := by
  have key : ∀ (xs : List (Call L)) (c0 c : Context L) (rs : List (Reply L)), Sound c0 → .reset ∉ xs → c0.run xs = .ok (c, rs) →
      (rs.flatMap handles) = List.range' c0.graph.slots.length (rs.flatMap handles).length := by
    intro xs
    induction xs with
    | nil => intro c0 c rs _ _ h; cases h; rfl
    | cons x xs ih =>
      intro c0 c rs hs hx h
      obtain ⟨c1, r, rs', h1, h2, rfl⟩ := ctxRun_cons.mp h
      obtain ⟨s, hf, _⟩ := hs.tidy.sheet
      obtain ⟨h3, h4⟩ := handles_call hf (fun y hy hr => hx (by rw [hy, hr]; exact .head _)) h1
      have h5 := ih c1 c rs' (sound_call hs h1).1 (fun hm => hx (.tail _ hm)) h2
      rw [List.flatMap_cons, List.length_append, ← List.range'_append_1, ← h3, ← h5, ← h4]
  exact key xs _ c rs (sound_new N channels) hx h

/-- **C62** (`chain`): a chain is the wires from each node to the next, laid one by one. -/
theorem c62_chain (c : Context L) (l : List Nat) :
    (c.run [.chain l]).map Prod.fst = (c.run ((l.zip l.tail).map fun w => .connect w.1 w.2)).map Prod.fst := by
  have key : ∀ (l : List Nat) (c : Context L), (Context.chain c.graph l).map (fun g => { c with graph := g }) =
      (c.run ((l.zip l.tail).map fun w => .connect w.1 w.2)).map Prod.fst := by
    intro l
    induction l with
    | nil => intro c; rfl
    | cons a l ih =>
      cases l with
      | nil => intro c; rfl
      | cons b l =>
        intro c
        show (Context.chain c.graph (a :: b :: l)).map (fun g => { c with graph := g }) =
          (c.run (.connect a b :: ((b :: l).zip l).map fun w => .connect w.1 w.2)).map Prod.fst
        rw [Context.chain, Context.run, Context.call]
        cases hc : Verif.connect c.graph a b with
        | error e => rfl
        | ok g =>
          have := ih { c with graph := g }
          simp only [bind, Except.bind]
          simp only [List.tail_cons] at this
          rw [this]
          cases (Context.run { c with graph := g } (((b :: l).zip l).map fun w => .connect w.1 w.2)) <;> rfl
  rw [← key l c]
  simp only [Context.run, Context.call, bind, Except.bind]
  cases Context.chain c.graph l <;> rfl

/-- **C62** (`chain_boxed`): it adds the nodes one by one, then chains them. -/
theorem c62_chain_boxed (c : Context L) (ns : List L.Node) :
    ∃ c1 is, c.run (ns.map .mono) = .ok (c1, is.map (fun i => .nodes [i])) ∧
      c.run [.chainBoxed (ns.map (freshData c.N 1))] = (c1.run [.chain is]).map (fun r => (r.1, [.nodes is])) := by
  have key : ∀ (ns : List L.Node) (c : Context L), c.run (ns.map .mono) =
      .ok ({ c with graph := (addAll c.graph (ns.map (freshData c.N 1))).1 },
        (addAll c.graph (ns.map (freshData c.N 1))).2.map (fun i => .nodes [i])) := by
    intro ns
    induction ns with
    | nil => intro c; rfl
    | cons n ns ih =>
      intro c
      have := ih (c.addNode 1 n).1
      rw [List.map_cons, Context.run]
      simp only [Context.call, bind, Except.bind]
      rw [this]
      rfl
  refine ⟨_, _, key ns c, ?_⟩
  simp only [Context.run, Context.call, bind, Except.bind]
  cases Context.chain (addAll c.graph (ns.map (freshData c.N 1))).1 (addAll c.graph (ns.map (freshData c.N 1))).2 <;> rfl

theorem run_tags (c : Context L) (t : List (Name × Nat)) (xs : List (Call L)) :
    (Context.run { c with tags := t } xs).map Prod.snd = (c.run xs).map Prod.snd := by
  have hcall : ∀ (x : Call L) (c : Context L) (t : List (Name × Nat)),
      (∃ e, Context.call { c with tags := t } x = .error e ∧ c.call x = .error e) ∨
      ∃ c' t' r, Context.call { c with tags := t } x = .ok ({ c' with tags := t' }, r) ∧ c.call x = .ok (c', r) := by
    intro x c t
    cases x with
    | mono n => exact .inr ⟨_, t, _, rfl, rfl⟩
    | stereo n => exact .inr ⟨_, t, _, rfl, rfl⟩
    | multi chan n => exact .inr ⟨_, t, _, rfl, rfl⟩
    | connect a b =>
      simp only [Context.call, bind, Except.bind]
      cases Verif.connect c.graph a b with
      | error e => exact .inl ⟨e, rfl, rfl⟩
      | ok g => exact .inr ⟨_, t, _, rfl, rfl⟩
    | connectAt a b pos =>
      simp only [Context.call, bind, Except.bind]
      cases connectWithOrder c.graph a b pos with
      | error e => exact .inl ⟨e, rfl, rfl⟩
      | ok g => exact .inr ⟨_, t, _, rfl, rfl⟩
    | chain l =>
      simp only [Context.call, bind, Except.bind]
      cases Context.chain c.graph l with
      | error e => exact .inl ⟨e, rfl, rfl⟩
      | ok g => exact .inr ⟨_, t, _, rfl, rfl⟩
    | chainBoxed ds =>
      simp only [Context.call, bind, Except.bind]
      cases Context.chain (addAll c.graph ds).1 (addAll c.graph ds).2 with
      | error e => exact .inl ⟨e, rfl, rfl⟩
      | ok g => exact .inr ⟨_, t, _, rfl, rfl⟩
    | addNodeChain ds =>
      simp only [Context.call, bind, Except.bind]
      cases edgesOnly (addAll c.graph ds).1 (addAll c.graph ds).2 with
      | error e => exact .inl ⟨e, rfl, rfl⟩
      | ok g => exact .inr ⟨_, t, _, rfl, rfl⟩
    | sendMsg i m =>
      simp only [Context.call, bind, Except.bind]
      cases sendTo c.graph i m with
      | error e => exact .inl ⟨e, rfl, rfl⟩
      | ok g => exact .inr ⟨_, t, _, rfl, rfl⟩
    | sendAll m =>
      simp only [Context.call, bind, Except.bind]
      cases Verif.sendAll m c.graph.slots with
      | error e => exact .inl ⟨e, rfl, rfl⟩
      | ok g => exact .inr ⟨_, t, _, rfl, rfl⟩
    | nextBlock ho =>
      simp only [Context.call, bind, Except.bind]
      cases process L.proc ho c.graph c.dest with
      | error e => exact .inl ⟨e, rfl, rfl⟩
      | ok g =>
        simp only
        cases g.node? c.dest with
        | none => exact .inl ⟨_, rfl, rfl⟩
        | some d => exact .inr ⟨_, t, _, rfl, rfl⟩
    | reset => exact .inr ⟨_, t, _, rfl, rfl⟩
    | tag name i => exact .inr ⟨{ c with tags := insert c.tags name i }, insert t name i, .nothing, rfl, rfl⟩
  induction xs generalizing c t with
  | nil => rfl
  | cons x xs ih =>
    rw [Context.run, Context.run]
    rcases hcall x c t with ⟨e, h1, h2⟩ | ⟨c', t', r, h1, h2⟩
    · rw [h1, h2]
    · rw [h1, h2]
      simp only [bind, Except.bind]
      have := ih c' t'
      cases ha : Context.run { c' with tags := t' } xs with
      | error e =>
        rw [ha] at this
        cases hb : c'.run xs with
        | error e' => rw [hb] at this; cases this; rfl
        | ok p => rw [hb] at this; cases this
      | ok p =>
        rw [ha] at this
        cases hb : c'.run xs with
        | error e' => rw [hb] at this; cases this
        | ok q =>
          rw [hb] at this
          simp only [Except.map, Except.ok.injEq] at this
          simp only [Except.map, this]

/-- **C62** (`reset`): after any past, `reset` is a fresh start: whatever is called then gives the same replies and
blocks, and panics in the same places, as on a new context. -/
theorem c62_reset {N channels : Nat} {past : List (Call L)} {c : Context L} {rs : List (Reply L)}
    (h : (Context.new L N channels).run past = .ok (c, rs)) (xs : List (Call L)) :
    (c.reset.run xs).map Prod.snd = ((Context.new L N channels).run xs).map Prod.snd := by
  obtain ⟨_, hN, hc⟩ := sound_run (sound_new N channels) h
  have : c.reset = { Context.new L N channels with tags := c.tags } := by
    unfold Context.reset
    rw [hN, hc]
    cases c
    cases hN
    cases hc
    rfl
  rw [this]
  exact run_tags _ _ xs

theorem feeds_mono {E E' : List (Nat × Nat)} (h : ∀ e, e ∈ E → e ∈ E') {a b : Nat} (hf : Feeds E a b) : Feeds E' a b := by
  induction hf with
  | refl a => exact .refl a
  | step he _ ih => exact .step (h _ he) ih

/-- **C62** (sound): if the wires form no loop on their way to the output, a block is the sound of the graph as noted:
every node that leads to the output, after its messages, is run once on the blocks its sources put out; the others
rest; what is heard are the buffers of the output. -/
theorem c62_block {c c' : Context L} (hm : Made c) {s : Sheet L} (hs : Shows c s) (hA : AcyclicTo s.wires 0) {ho : HashOrder}
    {out : List (List L.Num)} (h : c.run [.nextBlock ho] = .ok (c', [.sound out])) :
    ∃ s' : Sheet L, Shows c' s' ∧ s'.wires = s.wires ∧ s'.nodes.length = s.nodes.length ∧ s'.mail = [] ∧
      (∃ d, s'.nodes[0]? = some d ∧ d.buffers = out) ∧
      (∀ n d, s.nodes[n]? = some d → ¬ Feeds s.wires n 0 →
        ∃ k, Reads d.node (s.letters n) k ∧ s'.nodes[n]? = some ⟨k, d.buffers⟩) ∧
      ∀ n, Feeds s.wires n 0 → ∃ inputs d d' k, InputsOf s.wires n inputs ∧ s.nodes[n]? = some d ∧
        Reads d.node (s.letters n) k ∧ s'.nodes[n]? = some d' ∧ L.proc k inputs d.buffers = .ok (d'.node, d'.buffers) ∧
        ∀ a b, (a, b) ∈ inputs → ∃ da, s'.nodes[a]? = some da ∧ da.buffers = b := by
  obtain ⟨c1, r, rs', h1, h2, h3⟩ := ctxRun_cons.mp h
  cases h3
  cases h2
  rw [Context.call, except_bind_ok] at h1
  obtain ⟨g, hg, h1⟩ := h1
  have hsd := hm.sound
  have hf := hsd.fits hs
  rw [hsd.dest] at hg
  have hwm : ∀ e, e ∈ c.graph.edges ↔ e ∈ s.wires := by
    intro e
    rw [hf.wires, List.mem_reverse]
  have hfe : ∀ a b, Feeds c.graph.edges a b ↔ Feeds s.wires a b :=
    fun a b => ⟨feeds_mono fun e he => (hwm e).mp he, feeds_mono fun e he => (hwm e).mpr he⟩
  have hA' : AcyclicTo c.graph.edges 0 := by
    intro a b hab hne hb hc
    exact hA a b ((hwm _).mp hab) hne ((hfe _ _).mp hb) ((hfe _ _).mp hc)
  have h0 : 0 < s.nodes.length := by rw [← hf.len]; have := hsd.two; omega
  obtain ⟨hin, hout, he⟩ := c09_block L.proc ho c.graph g 0 hf.live (hf.lt_iff.mpr h0) hA' hg
  have ht := tidy_process hsd.tidy hg
  obtain ⟨s', hs', hmail⟩ := ht.sheet
  have hnode : ∀ i d, s'.nodes[i]? = some d ↔ g.node? i = some d := by
    have hl : ∀ i d, s'.nodes[i]? = some d → g.node? i = some d := by
      intro i d hd
      obtain ⟨n, hn, hgn⟩ := hs'.node i d hd
      have : s'.letters i = [] := by simp [Sheet.letters, hmail]
      rw [this] at hn
      cases hn
      exact hgn
    intro i d
    refine ⟨hl i d, fun hd => ?_⟩
    have hi := hs'.lt_iff.mp ⟨d, hd⟩
    have := hl i _ (List.getElem?_eq_getElem hi)
    rw [hd] at this
    cases this
    exact List.getElem?_eq_getElem hi
  have hold : ∀ i d, c.graph.node? i = some d → ∃ d0 k, s.nodes[i]? = some d0 ∧ Reads d0.node (s.letters i) k ∧ d = ⟨k, d0.buffers⟩ := by
    intro i d hd
    have hi := hf.lt_iff.mp ⟨d, hd⟩
    obtain ⟨k, hk, hgk⟩ := hf.node i _ (List.getElem?_eq_getElem hi)
    rw [hd] at hgk
    cases hgk
    exact ⟨_, k, List.getElem?_eq_getElem hi, hk, rfl⟩
  split at h1
  · cases h1
  · rename_i d hd
    cases h1
    rw [hsd.dest] at hd
    refine ⟨s', hs'.shows, ?_, ?_, hmail, ⟨d, (hnode 0 d).mpr hd, rfl⟩, ?_, ?_⟩
    · have := hs'.wires
      rw [he, hf.wires] at this
      exact (List.reverse_inj.mp this).symm
    · rw [← hs'.len, ← hf.len]
      exact (sameShape_process hg).len
    · intro n d0 hd0 hn
      obtain ⟨k, hk, hgk⟩ := hf.node n d0 hd0
      refine ⟨k, hk, (hnode _ _).mpr ?_⟩
      rw [hout n (fun hc => hn ((hfe _ _).mp hc))]
      exact hgk
    · intro n hn
      obtain ⟨inputs, d1, d', hio, hd1, hd', hp, hk⟩ := hin n ((hfe _ _).mpr hn)
      obtain ⟨d0, k, hd0, hr, rfl⟩ := hold n d1 hd1
      refine ⟨inputs, d0, d', k, ⟨hio.1, fun a => by rw [hio.2 a, hwm]⟩, hd0, hr, (hnode _ _).mpr hd', hp, ?_⟩
      intro a b hab
      obtain ⟨da, hda, hb⟩ := hk a b hab
      exact ⟨da, (hnode _ _).mpr hda, hb⟩

/-- **C62** (preparing on the side): while a graph is playing, nodes can be added, wired up and sent messages without
being heard, as long as no wire leads from them to the nodes there were: the blocks are those without these calls. -/
theorem c62_aside {c : Context L} (hm : Made c) {s : Sheet L} (hs : Shows c s) {zs : List (Call L)}
    (hz : ∀ z ∈ zs, Aside s.nodes.length z ∨ Renders z) {c' : Context L} {rs : List (Reply L)} (h : c.run zs = .ok (c', rs)) :
    ∃ c1 bs, c.run (zs.filter (fun | .nextBlock _ => true | _ => false)) = .ok (c1, bs) ∧ sounds bs = sounds rs := by
  have hf := hm.sound.fits hs
  exact aside_run (embeds_refl hm.sound.tidy) hm.sound hm.sound (by rw [hf.len]; exact hz) h

/-! ### Concrete cases and counterexamples -/

section
open Demo

/-- The real nodes: a constant signal, and a multiplication by 1/2. -/
abbrev half (P : Plat) : GNode P := .prim (.mul ⟨.fin (1 / 2), []⟩)

/-- A constant signal of 42. -/
abbrev const42 (P : Plat) : GNode P := .prim (.constSig (ConstSig.new (.fin 42) 44100))

/-- A run of calls with fuel for the traversals. Only used to evaluate examples. -/
def ctxRunFuel (k : Nat) (c : Context L) : List (Call L) → Option (Except Panic (Context L × List (Reply L)))
  | [] => some (.ok (c, []))
  | .nextBlock ho :: xs =>
    match processFuel k L.proc ho c.graph c.dest with
    | none => none
    | some (.error e) => some (.error e)
    | some (.ok g) =>
      match g.node? c.dest with
      | none => some (.error .noSuchNode)
      | some d => (ctxRunFuel k { c with graph := g } xs).map (·.map fun r => (r.1, .sound d.buffers :: r.2))
  | x :: xs =>
    match c.call x with
    | .error e => some (.error e)
    | .ok (c1, r) => (ctxRunFuel k c1 xs).map (·.map fun q => (q.1, r :: q.2))

theorem ctxRunFuel_spec {k : Nat} {xs : List (Call L)} : ∀ {c : Context L} {r : Except Panic (Context L × List (Reply L))},
    ctxRunFuel k c xs = some r → c.run xs = r := by
  induction xs with
  | nil => intro c r h; cases h; rfl
  | cons x xs ih =>
    intro c r h
    have other : ∀ x : Call L, (match c.call x with
        | .error e => some (.error e)
        | .ok (c1, r) => (ctxRunFuel k c1 xs).map (·.map fun q => (q.1, r :: q.2))) = some r → c.run (x :: xs) = r := by
      intro x h
      rw [Context.run]
      cases hc : c.call x with
      | error e => rw [hc] at h; cases h; rfl
      | ok p =>
        rw [hc] at h
        simp only at h
        cases hr : ctxRunFuel k p.1 xs with
        | none => rw [hr] at h; cases h
        | some q =>
          rw [hr] at h
          cases h
          simp only [bind, Except.bind, ih hr]
          cases q <;> rfl
    cases x with
    | nextBlock ho =>
      apply other
      rw [ctxRunFuel] at h
      simp only [Context.call]
      cases hp : processFuel k L.proc ho c.graph c.dest with
      | none => rw [hp] at h; cases h
      | some q =>
        rw [hp] at h
        rw [processFuel_spec hp]
        cases q with
        | error e => exact h
        | ok g =>
          simp only [bind, Except.bind] at h ⊢
          cases hd : g.node? c.dest with
          | none => rw [hd] at h; exact h
          | some d => rw [hd] at h; exact h
    | _ => exact other _ h

/-- The replies of a run. -/
theorem replies_of_fuel {k : Nat} {c : Context L} {xs : List (Call L)} {rs : List (Reply L)}
    (h : (ctxRunFuel k c xs).map (·.map Prod.snd) = some (.ok rs)) : ∃ c', c.run xs = .ok (c', rs) := by
  cases hr : ctxRunFuel k c xs with
  | none => rw [hr] at h; cases h
  | some q =>
    rw [hr] at h
    cases q with
    | error e => cases h
    | ok p =>
      cases h
      exact ⟨p.1, ctxRunFuel_spec hr⟩

/-- The panic of a run. -/
theorem panic_of_fuel {k : Nat} {c : Context L} {xs : List (Call L)} {e : Panic}
    (h : (ctxRunFuel k c xs).map (·.map Prod.snd) = some (.error e)) : c.run xs = .error e := by
  cases hr : ctxRunFuel k c xs with
  | none => rw [hr] at h; cases h
  | some q =>
    rw [hr] at h
    cases q with
    | error e' => cases h; exact ctxRunFuel_spec hr
    | ok p => cases h

/-- The constant through the multiplication to the output, built with `chain` (stereo nodes, two samples). -/
theorem c62_example (P : Plat) (parse : Name → Except Panic (Option (Ast Comp))) :
    ∃ c, (Context.new (glicol P 2 parse) 2 2).run
      [.mono (const42 P), .stereo (half P), .chain [2, 3, 0], .nextBlock .ident, .sendMsg 3 (.setToNumber 0 (.fin 2)),
        .nextBlock .ident] = .ok (c, [.nodes [2], .nodes [3], .nothing,
          .sound [[.fin 21, .fin 21], [.fin 21, .fin 21]], .nothing, .sound [[.fin 84, .fin 84], [.fin 84, .fin 84]]]) :=
  replies_of_fuel (k := 50) (by kernel_rfl)

/-- **C62** fails for `add_node_chain`: it does not tell the nodes where their inputs come from. A signal multiplied
by another one plays if the first chain is put together with `chain_boxed`; if it is put together with
`add_node_chain`, rendering panics. -/
theorem c62_add_node_chain_counterexample (P : Plat) (parse : Name → Except Panic (Option (Ast Comp))) :
    (∃ c, (Context.new (glicol P 2 parse) 2 2).run
      [.chainBoxed [freshData 2 1 (const42 P), freshData 2 2 (half P)], .mono (const42 P), .connect 4 3, .connect 3 0,
        .nextBlock .ident] = .ok (c, [.nodes [2, 3], .nodes [4], .nothing, .nothing,
          .sound [[.fin 1764, .fin 1764], [.fin 1764, .fin 1764]]])) ∧
    (∃ c, (Context.new (glicol P 2 parse) 2 2).run
      [.addNodeChain [freshData 2 1 (const42 P), freshData 2 2 (half P)], .mono (const42 P), .connect 4 3, .connect 3 0] =
        .ok (c, [.nodes [2, 3], .nodes [4], .nothing, .nothing])) ∧
    (Context.new (glicol P 2 parse) 2 2).run
      [.addNodeChain [freshData 2 1 (const42 P), freshData 2 2 (half P)], .mono (const42 P), .connect 4 3, .connect 3 0,
        .nextBlock .ident] = .error .indexOutOfBounds :=
  ⟨replies_of_fuel (k := 50) (by kernel_rfl), replies_of_fuel (k := 50) (by kernel_rfl),
    panic_of_fuel (k := 50) (by kernel_rfl)⟩

/-- **C62** fails for tags: `reset` keeps them, so a tag then names a node that is gone; using it panics. -/
theorem c62_tags_counterexample (L : Lang) (N channels : Nat) (n : L.Node) (m : Msg L.Num) :
    ∃ c rs, (Context.new L N channels).run [.mono n, .tag ['e', 'n', 'v'] 2, .reset] = .ok (c, rs) ∧
      lookup c.tags ['e', 'n', 'v'] = some 2 ∧ c.run [.sendMsg 2 m] = .error .noSuchNode ∧
      lookup (Context.new L N channels).tags ['e', 'n', 'v'] = none :=
  ⟨_, _, rfl, rfl, rfl, rfl⟩

/-- The hypotheses of `c62_as_noted_partial` and `c62_no_panic_partial` are met by the calls of `c62_example`. -/
example (P : Plat) (parse : Name → Except Panic (Option (Ast Comp))) :
    ∃ (c : Context (glicol P 2 parse)) (s : Sheet (glicol P 2 parse)) (c' : Context (glicol P 2 parse)) (rs : _), Made c ∧ Shows c s ∧
      (∀ x ∈ ([.mono (const42 P), .stereo (half P), .chain [2, 3, 0]] : List (Call (glicol P 2 parse))), Builds x) ∧
      Known c.N s [.mono (const42 P), .stereo (half P), .chain [2, 3, 0]] ∧
      c.run [.mono (const42 P), .stereo (half P), .chain [2, 3, 0]] = .ok (c', rs) ∧
      (s.notes c.N [.mono (const42 P), .stereo (half P), .chain [2, 3, 0]]).wires = [(2, 3), (3, 0)] := by
  obtain ⟨c', h⟩ := replies_of_fuel (k := 50) (c := Context.new (glicol P 2 parse) 2 2)
    (xs := [.mono (const42 P), .stereo (half P), .chain [2, 3, 0]]) (rs := [.nodes [2], .nodes [3], .nothing]) (by kernel_rfl)
  refine ⟨_, _, c', _, ⟨2, 2, [], [], rfl⟩, (c62_new _ 2 2).1, ?_, ?_, h, rfl⟩
  · simp [Builds]
  · refine ⟨by simp [mentions], by simp [mentions], ?_, trivial⟩
    simp [mentions, links, Sheet.note]

/-- The hypotheses of `c62_block` and `c62_aside` are met while the calls of `c62_example` are played: a multiplication
is added and wired to the constant, but not to the output. -/
example (P : Plat) (parse : Name → Except Panic (Option (Ast Comp))) :
    ∃ (c : Context (glicol P 2 parse)) (s : Sheet (glicol P 2 parse)) (c' : Context (glicol P 2 parse)) (rs : _), Made c ∧ Shows c s ∧
      AcyclicTo s.wires 0 ∧
      (∀ z ∈ ([.nextBlock .ident, .stereo (half P), .connect 2 4, .nextBlock .ident] : List (Call (glicol P 2 parse))),
        Aside s.nodes.length z ∨ Renders z) ∧
      c.run [.nextBlock .ident, .stereo (half P), .connect 2 4, .nextBlock .ident] = .ok (c', rs) ∧
      sounds rs = [[[.fin 21, .fin 21], [.fin 21, .fin 21]], [[.fin 21, .fin 21], [.fin 21, .fin 21]]] := by
  obtain ⟨c', h⟩ := replies_of_fuel (k := 50) (c := Context.new (glicol P 2 parse) 2 2)
    (xs := [.mono (const42 P), .stereo (half P), .chain [2, 3, 0]] ++ [.nextBlock .ident, .stereo (half P), .connect 2 4, .nextBlock .ident])
    (rs := [.nodes [2], .nodes [3], .nothing] ++ [.sound [[.fin 21, .fin 21], [.fin 21, .fin 21]], .nodes [4], .nothing,
      .sound [[.fin 21, .fin 21], [.fin 21, .fin 21]]]) (by kernel_rfl)
  obtain ⟨c, r1, r2, h1, h2, h3⟩ := ctxRun_append.mp h
  have hr : r1.length = 3 := by
    have : ∀ (xs : List (Call (glicol P 2 parse))) (c c' : Context (glicol P 2 parse)) (rs : _), c.run xs = .ok (c', rs) →
        rs.length = xs.length := by
      intro xs
      induction xs with
      | nil => intro c c' rs h; cases h; rfl
      | cons x xs ih =>
        intro c c' rs h
        obtain ⟨c1, r, rs', _, h2, rfl⟩ := ctxRun_cons.mp h
        simp [ih _ _ _ h2]
    exact this _ _ _ _ h1
  obtain ⟨_, rfl⟩ := List.append_inj h3 (by rw [hr]; rfl)
  have hs := (c62_as_noted_partial ⟨2, 2, [], [], rfl⟩ (c62_new (glicol P 2 parse) 2 2).1 (by simp [Builds]) h1).1
  refine ⟨c, _, c', _, ⟨2, 2, _, _, h1⟩, hs, ?_, ?_, h2, rfl⟩
  · have hw : ((Sheet.notes (Context.new (glicol P 2 parse) 2 2).N ⟨[freshData 2 2 (glicol P 2 parse).sum2,
        freshData 2 2 (glicol P 2 parse).pass], [], []⟩ [.mono (const42 P), .stereo (half P), .chain [2, 3, 0]]).wires) =
        [(2, 3), (3, 0)] := rfl
    rw [hw]
    have hz : ∀ a b, Feeds [(2, 3), (3, 0)] a b → a = b ∨ (a = 2 ∧ b = 3) ∨ (a = 2 ∧ b = 0) ∨ (a = 3 ∧ b = 0) := by
      intro a b hab
      induction hab with
      | refl => exact .inl rfl
      | step he _ ih =>
        simp only [List.mem_cons, Prod.mk.injEq, List.not_mem_nil, or_false] at he
        omega
    intro a b hab hne hb hc
    simp only [List.mem_cons, Prod.mk.injEq, List.not_mem_nil, or_false] at hab
    have := hz _ _ hc
    omega
  · intro z hz
    simp only [List.mem_cons, List.not_mem_nil, or_false] at hz
    rcases hz with rfl | rfl | rfl | rfl
    · exact .inr trivial
    · exact .inl trivial
    · exact .inl (by decide : 4 ≤ 4)
    · exact .inr trivial

end

end Verif.Props
