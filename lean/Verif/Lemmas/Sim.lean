import Verif.Spec.TrackAmp
import Verif.Lemmas.Table
import Mathlib.Data.List.Forall2

/-! Engines whose nodes correspond one to one behave alike (helpers for C82). -/

namespace Verif.Sim
open Verif Spec

/-- Both fail with the same error, or both give related results. -/
inductive ESim {ε α β : Type} (A : α → β → Prop) : Except ε α → Except ε β → Prop
  | ok {a : α} {b : β} : A a b → ESim A (.ok a) (.ok b)
  | err (x : ε) : ESim A (.error x) (.error x)

theorem ESim.bind {ε α β α' β' : Type} {A : α → β → Prop} {B : α' → β' → Prop} {x : Except ε α} {y : Except ε β}
    {f : α → Except ε α'} {g : β → Except ε β'} (h : ESim A x y) (hf : ∀ a b, A a b → ESim B (f a) (g b)) :
    ESim B (x >>= f) (y >>= g) := by
  cases h with
  | ok h => exact hf _ _ h
  | err x => exact .err x

theorem esim_refl {ε α : Type} (x : Except ε α) : ESim Eq x x := by
  cases x
  · exact .err _
  · exact .ok rfl

/-- Both absent, or both present and related. -/
inductive OSim {α β : Type} (A : α → β → Prop) : Option α → Option β → Prop
  | some {a : α} {b : β} : A a b → OSim A (some a) (some b)
  | none : OSim A none none

section
variable {ν β : Type} (R : ν → ν → Prop)

/-- Related nodes with the same buffers. -/
def DSim (d d' : NodeData ν β) : Prop := R d.node d'.node ∧ d.buffers = d'.buffers

/-- The same graph with related nodes. -/
structure GSim (g g' : Graph (NodeData ν β)) : Prop where
  slots : List.Forall₂ (OSim (DSim R)) g.slots g'.slots
  free : g.free = g'.free
  edges : g.edges = g'.edges

variable {R} {g g' : Graph (NodeData ν β)}

theorem forall₂_get {α γ : Type} {A : α → γ → Prop} {l : List α} {l' : List γ} (h : List.Forall₂ A l l') (i : Nat) :
    OSim A l[i]? l'[i]? := by
  induction h generalizing i with
  | nil => exact .none
  | cons h _ ih =>
    cases i with
    | zero => exact .some h
    | succ i => exact ih i

theorem forall₂_set {α γ : Type} {A : α → γ → Prop} {l : List α} {l' : List γ} (h : List.Forall₂ A l l') (i : Nat)
    {a : α} {b : γ} (hab : A a b) : List.Forall₂ A (l.set i a) (l'.set i b) := by
  induction h generalizing i with
  | nil => exact .nil
  | cons h hs ih =>
    cases i with
    | zero => exact .cons hab hs
    | succ i => exact .cons h (ih i)

theorem GSim.node (h : GSim R g g') (i : Nat) : OSim (DSim R) (g.node? i) (g'.node? i) := by
  unfold Graph.node?
  cases h' : g.slots[i]? <;> cases h'' : g'.slots[i]? <;> have := forall₂_get h.slots i <;> rw [h', h''] at this <;> cases this
  · exact .none
  · assumption

theorem GSim.addNode (h : GSim R g g') {d d' : NodeData ν β} (hd : DSim R d d') :
    GSim R (g.addNode d).1 (g'.addNode d').1 ∧ (g.addNode d).2 = (g'.addNode d').2 := by
  obtain ⟨s, f, E⟩ := g
  obtain ⟨s', f', E'⟩ := g'
  obtain ⟨h1, rfl, rfl⟩ := h
  cases f with
  | nil => exact ⟨⟨List.rel_append h1 (.cons (.some hd) .nil), rfl, rfl⟩, h1.length_eq⟩
  | cons i rest => exact ⟨⟨forall₂_set h1 i (.some hd), rfl, rfl⟩, rfl⟩

theorem GSim.removeNode (h : GSim R g g') (i : Nat) : GSim R (g.removeNode i) (g'.removeNode i) := by
  unfold Graph.removeNode
  have := h.node i
  generalize g.node? i = x, g'.node? i = y at this
  cases this with
  | none => exact h
  | some _ => exact ⟨forall₂_set h.slots i .none, by rw [h.free], by rw [h.edges]⟩

theorem GSim.addEdge (h : GSim R g g') (a b : Nat) : ESim (GSim R) (g.addEdge a b) (g'.addEdge a b) := by
  unfold Graph.addEdge
  have h1 := h.node a
  have h2 := h.node b
  generalize g.node? a = x, g'.node? a = y at h1
  generalize g.node? b = x', g'.node? b = y' at h2
  cases h1 <;> cases h2 <;> first
    | exact .ok ⟨h.slots, h.free, by rw [h.edges]⟩
    | exact .err _

theorem GSim.clearEdges (h : GSim R g g') : GSim R g.clearEdges g'.clearEdges := ⟨h.slots, h.free, rfl⟩

theorem GSim.modify (h : GSim R g g') (i : Nat) {f f' : NodeData ν β → Except Panic (NodeData ν β)}
    (hf : ∀ d d', DSim R d d' → ESim (DSim R) (f d) (f' d')) : ESim (GSim R) (g.modify i f) (g'.modify i f') := by
  unfold Graph.modify
  have h1 := h.node i
  generalize g.node? i = x, g'.node? i = y at h1
  cases h1 with
  | none => exact .err _
  | @some d d' hd =>
    have h2 := hf _ _ hd
    simp only
    generalize f d = u, f' d' = v at h2
    cases h2 with
    | err => exact .err _
    | ok h2 => exact .ok ⟨forall₂_set h.slots i (.some h2), h.free, h.edges⟩

theorem GSim.incoming (h : GSim R g g') : g.incoming = g'.incoming := by
  funext n
  unfold Graph.incoming
  rw [h.edges]

theorem GSim.gather (h : GSim R g g') (ho : HashOrder) (n : Nat) : gatherInputs ho g n = gatherInputs ho g' n := by
  unfold gatherInputs
  rw [h.incoming]
  simp only
  congr 1
  funext k
  have h1 := h.node k
  generalize g.node? k = x, g'.node? k = y at h1
  cases h1 with
  | none => rfl
  | some hd => simp only [hd.2]

variable {proc : ProcFn ν β}

theorem GSim.processNode (h : GSim R g g') (hp : ∀ n n' ins b, R n n' → ESim (fun x y => R x.1 y.1 ∧ x.2 = y.2) (proc n ins b) (proc n' ins b))
    (ho : HashOrder) (n : Nat) : ESim (GSim R) (Verif.processNode proc ho g n) (Verif.processNode proc ho g' n) := by
  unfold Verif.processNode
  rw [h.gather]
  cases gatherInputs ho g' n with
  | error e => exact .err e
  | ok ins =>
    refine h.modify n (fun d d' hd => ?_)
    have h1 := hp d.node d'.node ins d.buffers hd.1
    rw [← hd.2]
    generalize proc d.node ins d.buffers = u, proc d'.node ins d.buffers = v at h1
    cases h1 with
    | err => exact .err _
    | ok h1 => exact .ok h1

theorem GSim.process (h : GSim R g g') (hp : ∀ n n' ins b, R n n' → ESim (fun x y => R x.1 y.1 ∧ x.2 = y.2) (proc n ins b) (proc n' ins b))
    (ho : HashOrder) (dest : Nat) : ESim (GSim R) (Verif.process proc ho g dest) (Verif.process proc ho g' dest) := by
  unfold Verif.process
  rw [h.incoming, h.slots.length_eq]
  cases dfsPostOrder g'.incoming g'.slots.length [dest] [] [] with
  | error e => exact .err e
  | ok order =>
    simp only
    induction order generalizing g g' with
    | nil => exact .ok h
    | cons n ns ih =>
      rw [List.foldlM_cons, List.foldlM_cons]
      exact (h.processNode hp ho n).bind (fun a b hab => ih hab)

end

section
variable {L : Lang} {R : L.Node → L.Node → Prop}

/-- Related nodes react alike. -/
structure NodeSim (L : Lang) (R : L.Node → L.Node → Prop) : Prop where
  msg : ∀ n n' g, R n n' → ESim R (L.msg n g) (L.msg n' g)
  proc : ∀ n n' ins b, R n n' → ESim (fun x y => R x.1 y.1 ∧ x.2 = y.2) (L.proc n ins b) (L.proc n' ins b)
  sum2 : R L.sum2 L.sum2
  pass : R L.pass L.pass

variable {g g' : Graph L.Data}

theorem msg_modify (hN : NodeSim L R) (h : GSim R g g') (i : Nat) (m : Msg L.Num) :
    ESim (GSim R) (g.modify i (fun d => do let n ← L.msg d.node m; .ok ⟨n, d.buffers⟩))
      (g'.modify i (fun d => do let n ← L.msg d.node m; .ok ⟨n, d.buffers⟩)) :=
  h.modify i (fun _ _ hd => (hN.msg _ _ m hd.1).bind (fun _ _ hn => .ok ⟨hn, hd.2⟩))

theorem connect_sim (hN : NodeSim L R) (h : GSim R g g') (a b : Nat) : ESim (GSim R) (connect g a b) (connect g' a b) :=
  (h.addEdge a b).bind (fun _ _ h => msg_modify hN h b _)

theorem connectWithOrder_sim (hN : NodeSim L R) (h : GSim R g g') (a b pos : Nat) :
    ESim (GSim R) (connectWithOrder g a b pos) (connectWithOrder g' a b pos) :=
  (h.addEdge a b).bind (fun _ _ h => msg_modify hN h b _)

theorem connectAll_sim (hN : NodeSim L R) (b : Nat) : ∀ (as : List Nat) {g g' : Graph L.Data}, GSim R g g' →
    ESim (GSim R) (connectAll g b as) (connectAll g' b as)
  | [], _, _, h => .ok h
  | a :: as, _, _, h => (connect_sim hN h a b).bind (fun _ _ h => connectAll_sim hN b as h)

theorem connectRefs_sim (hN : NodeSim L R) (t : Table) (b : Nat) : ∀ (rs : List Name) {g g' : Graph L.Data}, GSim R g g' →
    ESim (GSim R) (connectRefs t g b rs) (connectRefs t g' b rs)
  | [], _, _, h => .ok h
  | r :: rs, g, g', h => by
    unfold connectRefs
    cases refSources t r with
    | error e => exact .err e
    | ok srcs => exact (connectAll_sim hN b srcs h).bind (fun _ _ h => connectRefs_sim hN t b rs h)

theorem resetOnce_sim (hN : NodeSim L R) (done : List Nat) (b : Nat) (h : GSim R g g') :
    ESim (GSim R) (resetOnce done b g) (resetOnce done b g') := by
  unfold resetOnce
  split
  · exact .ok h
  · exact msg_modify hN h b _

theorem connectPairs_sim (hN : NodeSim L R) (t : Table) : ∀ (ps : List RefPair) (done : List Nat) {g g' : Graph L.Data}, GSim R g g' →
    ESim (fun x y => GSim R x.1 y.1 ∧ x.2 = y.2) (connectPairs t ps done g) (connectPairs t ps done g')
  | [], _, _, _, h => .ok ⟨h, rfl⟩
  | (refs, name, pos) :: rest, done, g, g', h => by
    unfold connectPairs
    cases lookup t name with
    | none => exact .ok ⟨h, rfl⟩
    | some chain =>
      simp only
      cases chain[pos]? with
      | none => exact .err _
      | some b =>
        exact (resetOnce_sim hN done b h).bind (fun _ _ h => (connectRefs_sim hN t b refs h).bind
          (fun _ _ h => connectPairs_sim hN t rest _ h))

theorem connectChain_sim (hN : NodeSim L R) : ∀ (c : List Nat) {g g' : Graph L.Data}, GSim R g g' →
    ESim (GSim R) (connectChain g c) (connectChain g' c)
  | [], _, _, h => .ok h
  | [_], _, _, h => .ok h
  | a :: b :: rest, _, _, h => (connectWithOrder_sim hN h a b 0).bind (fun _ _ h => connectChain_sim hN (b :: rest) h)

theorem connectOut_sim (hN : NodeSim L R) (dest : Nat) (k : Name) (c : List Nat) (h : GSim R g g') :
    ESim (GSim R) (connectOut dest k c g) (connectOut dest k c g') := by
  unfold connectOut
  split
  · exact .ok h
  · split
    · exact .ok h
    · exact connectWithOrder_sim hN h _ _ _

theorem connectTable_sim (hN : NodeSim L R) (dest : Nat) : ∀ (t : Table) {g g' : Graph L.Data}, GSim R g g' →
    ESim (GSim R) (connectTable dest t g) (connectTable dest t g')
  | [], _, _, h => .ok h
  | (k, chain) :: rest, _, _, h => (connectChain_sim hN chain h).bind (fun _ _ h => (connectOut_sim hN dest k chain h).bind
      (fun _ _ h => connectTable_sim hN dest rest h))

theorem removeAll_sim (ids : List Nat) (h : GSim R g g') : GSim R (removeAll g ids) (removeAll g' ids) := by
  unfold removeAll
  induction ids generalizing g g' with
  | nil => exact h
  | cons i ids ih => exact ih (h.removeNode i)

/-- Nodes to insert that are related. -/
def ASim (R : L.Node → L.Node → Prop) (x y : Name × Nat × L.Data) : Prop := x.1 = y.1 ∧ x.2.1 = y.2.1 ∧ DSim R x.2.2 y.2.2

/-- Differences that insert related nodes. -/
structure DiffSim (R : L.Node → L.Node → Prop) (d d' : Diff L) : Prop where
  removes : d.removes = d'.removes
  refpairs : d.refpairs = d'.refpairs
  adds : List.Forall₂ (ASim R) d.adds d'.adds

theorem insertNodes_sim {as as' : List (Name × Nat × L.Data)} (ha : List.Forall₂ (ASim R) as as') : ∀ (t : Table) {g g' : Graph L.Data},
    GSim R g g' → ESim (fun x y => GSim R x.1 y.1 ∧ x.2 = y.2) (insertNodes as g t) (insertNodes as' g' t) := by
  induction ha with
  | nil => exact fun t g g' h => .ok ⟨h, rfl⟩
  | @cons x y as as' hxy _ ih =>
    obtain ⟨k, pos, nd⟩ := x
    obtain ⟨k', pos', nd'⟩ := y
    obtain ⟨rfl, rfl, hd⟩ := hxy
    intro t g g' h
    obtain ⟨h1, h2⟩ := h.addNode hd
    unfold insertNodes
    simp only at h1 h2
    rcases hx : g.addNode nd with ⟨g1, i⟩
    rcases hy : g'.addNode nd' with ⟨g1', i'⟩
    rw [hx, hy] at h1 h2
    simp only at h1 h2
    subst h2
    simp only
    cases lookup t k with
    | none =>
      refine (ih _ h1).bind (fun a b hab => ?_)
      obtain ⟨a1, a2, a3⟩ := a
      obtain ⟨b1, b2, b3⟩ := b
      obtain ⟨h3, h4⟩ := hab
      cases h4
      exact .ok ⟨h3, rfl⟩
    | some chain =>
      simp only
      split
      · refine (ih _ h1).bind (fun a b hab => ?_)
        obtain ⟨a1, a2, a3⟩ := a
        obtain ⟨b1, b2, b3⟩ := b
        obtain ⟨h3, h4⟩ := hab
        cases h4
        exact .ok ⟨h3, rfl⟩
      · exact .err _

/-- Results of `makenode` that are related. -/
def MSim (R : L.Node → L.Node → Prop) (x y : L.Data × List Name) : Prop := DSim R x.1 y.1 ∧ x.2 = y.2

variable {mk mk' : L.Comp → Except Stop (L.Data × List Name)}

theorem addNodes_sim (name : Name) : ∀ {l : List (Nat × L.Comp)}, (∀ p ∈ l, ESim (MSim R) (mk p.2) (mk' p.2)) →
    ESim (DiffSim R) (addNodes mk name l) (addNodes mk' name l)
  | [], _ => .ok ⟨rfl, rfl, .nil⟩
  | (i, c) :: l, h => by
    refine (h (i, c) List.mem_cons_self).bind (fun a b hab => ?_)
    obtain ⟨a1, a2⟩ := a
    obtain ⟨b1, b2⟩ := b
    obtain ⟨h1, h2⟩ := hab
    cases h2
    refine (addNodes_sim name (fun q hq => h q (List.mem_cons_of_mem _ hq))).bind (fun a b hab => ?_)
    exact .ok ⟨hab.removes, by rw [hab.refpairs], .cons ⟨rfl, rfl, h1⟩ hab.adds⟩

theorem mem_enumFrom {β : Type} {l : List β} {n : Nat} {p : Nat × β} (h : p ∈ enumFrom n l) : p.2 ∈ l := by
  induction l generalizing n with
  | nil => cases h
  | cons b l ih =>
    rcases List.mem_cons.mp h with rfl | h
    · exact List.mem_cons_self
    · exact List.mem_cons_of_mem _ (ih h)

theorem diffChain_sim (old : Option (Ast L.Comp)) (name : Name) {new : List L.Comp} (h : ∀ c ∈ new, ESim (MSim R) (mk c) (mk' c)) :
    ESim (DiffSim R) (diffChain mk old name new) (diffChain mk' old name new) := by
  unfold diffChain
  split
  · exact addNodes_sim name (fun p hp => h _ (mem_enumFrom hp))
  · refine (addNodes_sim name (fun p hp => h _ (mem_enumFrom (List.mem_filter.mp hp).1))).bind (fun a b hab => ?_)
    exact .ok ⟨by rw [hab.removes], by rw [hab.refpairs], hab.adds⟩

theorem diffAll_sim (old : Option (Ast L.Comp)) : ∀ {new : Ast L.Comp},
    (∀ k comps, (k, comps) ∈ new → ∀ c ∈ comps, ESim (MSim R) (mk c) (mk' c)) →
    ESim (DiffSim R) (diffAll mk old new) (diffAll mk' old new)
  | [], _ => .ok ⟨rfl, rfl, .nil⟩
  | (name, comps) :: new, h => by
    refine (diffChain_sim old name (h name comps List.mem_cons_self)).bind (fun a b hab => ?_)
    refine (diffAll_sim old (fun k cs hk => h k cs (List.mem_cons_of_mem _ hk))).bind (fun a' b' hab' => ?_)
    exact .ok ⟨by simp only [Diff.append, hab.removes, hab'.removes], by simp only [Diff.append, hab.refpairs, hab'.refpairs],
      List.rel_append hab.adds hab'.adds⟩

/-- The same engine with related nodes and other settings. -/
structure Alike (R : L.Node → L.Node → Prop) (e e' : Engine L) : Prop where
  N : e.N = e'.N
  graph : GSim R e.graph e'.graph
  dest : e.dest = e'.dest
  input : e.input = e'.input
  ast : e.ast = e'.ast
  index : e.index = e'.index
  backup : e.backup = e'.backup

/-- The engines can make the same nodes, up to relatedness, of the components of `new`. -/
def MakeSim (R : L.Node → L.Node → Prop) (e e' : Engine L) (new : Ast L.Comp) : Prop :=
  ∀ k comps, (k, comps) ∈ new → ∀ c ∈ comps,
    ESim (MSim R) (L.make e.samples e.sr e.bpm e.seed c) (L.make e'.samples e'.sr e'.bpm e'.seed c)

/-- The settings of the engine. -/
def settings (e : Engine L) : List (Name × L.Smp) × Nat × L.Num × Nat := (e.samples, e.sr, e.bpm, e.seed)

/-- What an update gives for engines that are alike. -/
def UpSim (R : L.Node → L.Node → Prop) (e e' : Engine L) (x y : Engine L × Option EngineError) : Prop :=
  Alike R x.1 y.1 ∧ x.2 = y.2 ∧ settings x.1 = settings e ∧ settings y.1 = settings e'

theorem updateAst_sim (hN : NodeSim L R) {e e' : Engine L} (h : Alike R e e') (τ : TableOrder) {new : Ast L.Comp} (hm : MakeSim R e e' new) :
    ESim (UpSim R e e') (e.updateAst τ new) (e'.updateAst τ new) := by
  obtain ⟨N, g, dest, input, ast, index, backup, temp, samples, bpm, sr, ta, seed, clock, lc, nu⟩ := e
  obtain ⟨N', g', dest', input', ast', index', backup', temp', samples', bpm', sr', ta', seed', clock', lc', nu'⟩ := e'
  obtain ⟨rfl, hg, rfl, rfl, rfl, rfl, rfl⟩ := h
  unfold Engine.updateAst
  have hd := diffAll_sim ast hm
  simp only [oldKeys] at hg hd ⊢
  generalize diffAll (L.make samples sr bpm seed) ast new = u, diffAll (L.make samples' sr' bpm' seed') ast new = v at hd
  cases hd with
  | err x =>
    cases x with
    | err x => exact .ok ⟨⟨rfl, hg, rfl, rfl, rfl, rfl, rfl⟩, rfl, rfl, rfl⟩
    | panic p => exact .err p
  | @ok d d' hd =>
    simp only
    rw [← hd.removes, ← hd.refpairs]
    refine (esim_refl _).bind (fun r1 r1' h1 => ?_)
    subst h1
    obtain ⟨t1, gone1⟩ := r1
    refine (esim_refl _).bind (fun r2 r2' h2 => ?_)
    subst h2
    obtain ⟨t2, gone2⟩ := r2
    · skip
      · skip
        refine (insertNodes_sim hd.adds t2 hg).bind (fun a b hab => ?_)
        obtain ⟨g3, t3, cr⟩ := a
        obtain ⟨g3', t3', cr'⟩ := b
        obtain ⟨hg3, h3⟩ := hab
        cases h3
        simp only
        cases refCheck t3 new (d.refpairs.flatMap (·.1)) with
        | some r => exact .ok ⟨⟨rfl, removeAll_sim cr hg3, rfl, rfl, rfl, rfl, rfl⟩, rfl, rfl, rfl⟩
        | none =>
          simp only
          refine (connectPairs_sim hN (τ.ord t3) d.refpairs [] (removeAll_sim (gone1 ++ gone2) hg3).clearEdges).bind (fun a b hab => ?_)
          obtain ⟨g5, bad⟩ := a
          obtain ⟨g5', bad'⟩ := b
          obtain ⟨hg5, h3⟩ := hab
          cases h3
          cases bad with
          | some x => exact .ok ⟨⟨rfl, hg5, rfl, rfl, rfl, rfl, rfl⟩, rfl, rfl, rfl⟩
          | none =>
            simp only
            refine (connectTable_sim hN dest (τ.ord t3) hg5).bind (fun a b hab => ?_)
            exact .ok ⟨⟨rfl, hab, rfl, rfl, rfl, rfl, rfl⟩, rfl, rfl, rfl⟩

theorem update_sim (hN : NodeSim L R) {e e' : Engine L} (h : Alike R e e') (τ : TableOrder) (code : Name)
    (hm : ∀ new, L.parse code = .ok (some new) → MakeSim R e e' new) :
    ESim (UpSim R e e') (e.updateWithCode τ code) (e'.updateWithCode τ code) := by
  unfold Engine.updateWithCode
  cases hp : L.parse code with
  | error p => exact .err p
  | ok x =>
    cases x with
    | none => exact .ok ⟨h, rfl, rfl, rfl⟩
    | some new => exact updateAst_sim hN h τ (hm new hp)

/-- Engines that are alike after a step that keeps the settings. -/
def StepSim (R : L.Node → L.Node → Prop) (e e' : Engine L) (x y : Engine L) : Prop :=
  Alike R x y ∧ settings x = settings e ∧ settings y = settings e'

theorem copyInput_sim {e e' : Engine L} (h : Alike R e e') (ch : Nat) (b : List L.Num) :
    ESim (StepSim R e e') (e.copyInput ch b) (e'.copyInput ch b) := by
  unfold Engine.copyInput
  rw [h.index]
  cases lookup e'.index inputName with
  | none => exact .err _
  | some nodes =>
    simp only
    cases nodes[0]? with
    | none => exact .err _
    | some i =>
      simp only
      refine (h.graph.modify i (fun d d' hd => ?_)).bind (fun g g' hg => .ok ⟨⟨h.N, hg, h.dest, h.input, h.ast, rfl, h.backup⟩, rfl, rfl⟩)
      rw [← hd.2]
      cases d.buffers[ch]? with
      | none => exact .err _
      | some b0 =>
        simp only
        split
        · exact .ok ⟨hd.1, rfl⟩
        · exact .err _

theorem copyInputs_sim {e e' : Engine L} (h : Alike R e e') (buf : List (List L.Num)) :
    ESim (StepSim R e e') (e.copyInputs buf) (e'.copyInputs buf) := by
  unfold Engine.copyInputs
  split
  · exact .ok ⟨h, rfl, rfl⟩
  · exact copyInput_sim h _ _
  · refine (copyInput_sim h 0 _).bind (fun a b hab => ?_)
    obtain ⟨h1, h2, h3⟩ := hab
    have := copyInput_sim h1 1
    rename_i b1 _
    have := this b1
    rw [show StepSim R a b = StepSim R e e' from by unfold StepSim; rw [h2, h3]] at this
    exact this

theorem nextBlock_sim (hN : NodeSim L R) {e e' : Engine L} (h : Alike R e e') (ho : HashOrder) (buf : List (List L.Num)) :
    ESim (fun x y => StepSim R e e' x.1 y.1 ∧ x.2 = y.2) (e.nextBlock ho buf) (e'.nextBlock ho buf) := by
  unfold Engine.nextBlock
  refine (copyInputs_sim h buf).bind (fun a b hab => ?_)
  obtain ⟨h1, h2, h3⟩ := hab
  rw [h1.dest]
  refine (h1.graph.process hN.proc ho b.dest).bind (fun g g' hg => ?_)
  have h4 := hg.node b.dest
  generalize g.node? b.dest = x, g'.node? b.dest = y at h4
  cases h4 with
  | none => exact .err _
  | some hd => exact .ok ⟨⟨⟨h1.N, hg, rfl, h1.input, h1.ast, h1.index, h1.backup⟩, h2, h3⟩, hd.2⟩

theorem sendAll_sim (hN : NodeSim L R) (m : Msg L.Num) {s s' : List (Option L.Data)} (h : List.Forall₂ (OSim (DSim R)) s s') :
    ESim (List.Forall₂ (OSim (DSim R))) (sendAll (L := L) m s) (sendAll (L := L) m s') := by
  induction h with
  | nil => exact .ok .nil
  | cons h _ ih =>
    cases h with
    | none => exact ih.bind (fun _ _ h => .ok (.cons .none h))
    | some hd => exact (hN.msg _ _ m hd.1).bind (fun _ _ hn => ih.bind (fun _ _ h => .ok (.cons (.some ⟨hn, hd.2⟩) h)))

theorem command_sim (hN : NodeSim L R) {e e' : Engine L} (h : Alike R e e') (cmd : Name) :
    ESim (StepSim R e e') (e.command cmd) (e'.command cmd) := by
  unfold Engine.command
  cases parseCommand L cmd with
  | none => exact .ok ⟨h, rfl, rfl⟩
  | some x =>
    obtain ⟨chain, pos, m⟩ := x
    simp only [Engine.deliver]
    rw [h.index]
    cases lookup e'.index chain with
    | none => exact .ok ⟨h, rfl, rfl⟩
    | some nodes =>
      simp only
      cases nodes[pos]? with
      | none => exact .err _
      | some i =>
        exact (msg_modify hN h.graph i m).bind (fun g g' hg => .ok ⟨⟨h.N, hg, h.dest, h.input, h.ast, rfl, h.backup⟩, rfl, rfl⟩)

theorem sendMsg_sim (hN : NodeSim L R) {e e' : Engine L} (h : Alike R e e') (msg : Name) :
    ESim (StepSim R e e') (e.sendMsg msg) (e'.sendMsg msg) := by
  unfold Engine.sendMsg
  simp only
  generalize (splitOn ';' (msg.filter (fun c => !isWhitespace c))).filter (fun c => !c.isEmpty) = cmds
  have : ∀ (cmds : List Name) (a b : Engine L), StepSim R e e' a b → ESim (StepSim R e e') (cmds.foldlM Engine.command a) (cmds.foldlM Engine.command b) := by
    intro cmds
    induction cmds with
    | nil => exact fun a b h => .ok h
    | cons c cmds ih =>
      intro a b hab
      rw [List.foldlM_cons, List.foldlM_cons]
      obtain ⟨h1, h2, h3⟩ := hab
      refine (command_sim hN h1 c).bind (fun x y hxy => ih x y ?_)
      exact ⟨hxy.1, hxy.2.1.trans h2, hxy.2.2.trans h3⟩
  exact this cmds e e' ⟨h, rfl, rfl⟩

theorem new_sim (hN : NodeSim L R) (N : Nat) : Alike R (Engine.new L N) (Engine.new L N) :=
  ⟨rfl, ⟨.cons (.some ⟨hN.sum2, rfl⟩) (.cons (.some ⟨hN.pass, rfl⟩) (.cons (.some ⟨hN.pass, rfl⟩) .nil)), rfl, rfl⟩, rfl, rfl, rfl, rfl, rfl⟩

theorem reset_sim (hN : NodeSim L R) {e e' : Engine L} (h : Alike R e e') : Alike R e.reset e'.reset :=
  ⟨h.N, ⟨.cons (.some ⟨hN.sum2, by simp only [freshData, h.N]⟩) (.cons (.some ⟨hN.pass, by simp only [freshData, h.N]⟩) .nil), rfl, rfl⟩,
    rfl, rfl, rfl, rfl, rfl⟩

open Verif.Spec.PagePlay

/-- Calls that set the tempo make no difference to nodes that only store it. -/
theorem gets_tempo (hN : NodeSim L R) (hb : ∀ n n' v, R n n' → ∃ m, L.msg n (.setBPM v) = .ok m ∧ R m n')
    (keep : Op L → Bool) (hk : ∀ op, keep op = false ↔ ∃ v, op = .setBpm v) :
    ∀ (ops : List (Op L)), (∀ τ code new, Op.update τ code ∈ ops → L.parse code = .ok (some new) → ∀ k comps, (k, comps) ∈ new →
      ∀ c ∈ comps, ∀ smp sr b b' seed, ESim (MSim R) (L.make smp sr b seed c) (L.make smp sr b' seed c)) →
    ∀ e e' : Engine L, Alike R e e' → e.samples = e'.samples → e.sr = e'.sr → e.seed = e'.seed →
      gets e ops = gets e' (ops.filter keep)
  | [], _, _, _, _, _, _, _ => rfl
  | op :: ops, hm, e, e', h, h1, h2, h3 => by
    have ih := gets_tempo hN hb keep hk ops (fun τ code new hx => hm τ code new (List.mem_cons_of_mem _ hx))
    have hset : ∀ {x : Engine L} {y : Engine L}, settings x = settings e → settings y = settings e' →
        x.samples = y.samples ∧ x.sr = y.sr ∧ x.seed = y.seed := by
      intro x y hx hy
      simp only [settings, Prod.mk.injEq] at hx hy
      obtain ⟨a1, a2, a3, a4⟩ := hx
      obtain ⟨b1, b2, b3, b4⟩ := hy
      exact ⟨a1.trans (h1.trans b1.symm), a2.trans (h2.trans b2.symm), a4.trans (h3.trans b4.symm)⟩
    cases op with
    | setBpm v =>
      rw [List.filter_cons_of_neg (by rw [(hk _).mpr ⟨v, rfl⟩]; decide)]
      obtain ⟨s, hs, hs'⟩ : ∃ s, sendAll (L := L) (.setBPM v) e.graph.slots = .ok s ∧ List.Forall₂ (OSim (DSim R)) s e'.graph.slots := by
        have := h.graph.slots
        generalize e.graph.slots = u, e'.graph.slots = w at this
        induction this with
        | nil => exact ⟨[], rfl, .nil⟩
        | cons hd _ ih =>
          obtain ⟨s, hs, hs'⟩ := ih
          cases hd with
          | none => exact ⟨none :: s, by simp only [sendAll, hs]; rfl, .cons .none hs'⟩
          | @some d d' hd =>
            obtain ⟨m, h4, h5⟩ := hb _ _ v hd.1
            exact ⟨some ⟨m, d.buffers⟩ :: s, by simp only [sendAll, hs, h4]; rfl, .cons (.some ⟨h5, hd.2⟩) hs'⟩
      simp only [gets, Op.apply, Engine.setBpm, hs, bind, Except.bind]
      exact ih _ _ ⟨h.N, ⟨hs', h.graph.free, h.graph.edges⟩, h.dest, h.input, h.ast, h.index, h.backup⟩ h1 h2 h3
    | update τ code =>
      rw [List.filter_cons_of_pos (by cases hx : keep (.update τ code) with | true => rfl | false => obtain ⟨v, hv⟩ := (hk _).mp hx; cases hv)]
      have hu := update_sim hN h τ code (fun new hp k comps hkc c hc => by
        rw [h1, h2, h3]
        exact hm τ code new List.mem_cons_self hp k comps hkc c hc _ _ _ _ _)
      simp only [gets]
      generalize e.updateWithCode τ code = u, e'.updateWithCode τ code = w at hu
      cases hu with
      | err x => rfl
      | @ok a b hab =>
        obtain ⟨a1, a2⟩ := a
        obtain ⟨b1, b2⟩ := b
        obtain ⟨g1, g2, g3, g4⟩ := hab
        cases g2
        obtain ⟨k1, k2, k3⟩ := hset g3 g4
        simp only
        rw [ih _ _ g1 k1 k2 k3]
    | nextBlock ho buf =>
      rw [List.filter_cons_of_pos (by cases hx : keep (.nextBlock ho buf) with | true => rfl | false => obtain ⟨v, hv⟩ := (hk _).mp hx; cases hv)]
      have hu := nextBlock_sim hN h ho buf
      simp only [gets]
      generalize e.nextBlock ho buf = u, e'.nextBlock ho buf = w at hu
      cases hu with
      | err x => rfl
      | @ok a b hab =>
        obtain ⟨a1, a2⟩ := a
        obtain ⟨b1, b2⟩ := b
        obtain ⟨⟨g1, g3, g4⟩, g2⟩ := hab
        cases g2
        obtain ⟨k1, k2, k3⟩ := hset g3 g4
        simp only
        rw [ih _ _ g1 k1 k2 k3]
    | sendMsg t =>
      rw [List.filter_cons_of_pos (by cases hx : keep (.sendMsg t) with | true => rfl | false => obtain ⟨v, hv⟩ := (hk _).mp hx; cases hv)]
      have hu := sendMsg_sim hN h t
      simp only [gets, Op.apply]
      generalize e.sendMsg t = u, e'.sendMsg t = w at hu
      cases hu with
      | err x => rfl
      | ok hab =>
        obtain ⟨g1, g3, g4⟩ := hab
        obtain ⟨k1, k2, k3⟩ := hset g3 g4
        exact ih _ _ g1 k1 k2 k3
    | reset =>
      rw [List.filter_cons_of_pos (by cases hx : keep .reset with | true => rfl | false => obtain ⟨v, hv⟩ := (hk _).mp hx; cases hv)]
      exact ih _ _ (reset_sim hN h) rfl h2 rfl
    | setSr v =>
      rw [List.filter_cons_of_pos (by cases hx : keep (.setSr v) with | true => rfl | false => obtain ⟨v, hv⟩ := (hk _).mp hx; cases hv)]
      exact ih _ _ ⟨h.N, h.graph, h.dest, h.input, h.ast, h.index, h.backup⟩ h1 rfl h3
    | setSeed v =>
      rw [List.filter_cons_of_pos (by cases hx : keep (.setSeed v) with | true => rfl | false => obtain ⟨v, hv⟩ := (hk _).mp hx; cases hv)]
      exact ih _ _ ⟨h.N, h.graph, h.dest, h.input, h.ast, h.index, h.backup⟩ h1 h2 rfl
    | setTrackAmp v =>
      rw [List.filter_cons_of_pos (by cases hx : keep (.setTrackAmp v) with | true => rfl | false => obtain ⟨v, hv⟩ := (hk _).mp hx; cases hv)]
      exact ih _ _ ⟨h.N, h.graph, h.dest, h.input, h.ast, h.index, h.backup⟩ h1 h2 h3
    | addSample n s =>
      rw [List.filter_cons_of_pos (by cases hx : keep (.addSample n s) with | true => rfl | false => obtain ⟨v, hv⟩ := (hk _).mp hx; cases hv)]
      exact ih _ _ ⟨h.N, h.graph, h.dest, h.input, h.ast, h.index, h.backup⟩ (by simp only [Engine.addSample, h1]) h2 h3

end
end Verif.Sim
