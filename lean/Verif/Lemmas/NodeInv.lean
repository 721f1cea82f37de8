import Verif.Lemmas.Total

/-! Facts about all nodes of the engine that hold after every history (helpers). -/

namespace Verif
open Spec

section Process
variable {ν β : Type}

/-- Every node of the graph has the property. -/
def All {α : Type} (J : Nat → α → Prop) (g : Graph α) : Prop := ∀ i d, g.node? i = some d → J i d

/-- Node by node, `g'` is related to `g`. -/
def Each {α : Type} (R : α → α → Prop) (g g' : Graph α) : Prop :=
  (∀ i d, g.node? i = some d → ∃ d', g'.node? i = some d' ∧ R d d') ∧
  ∀ i d', g'.node? i = some d' → ∃ d, g.node? i = some d ∧ R d d'

theorem Each.refl {α : Type} {R : α → α → Prop} (hr : ∀ d, R d d) (g : Graph α) : Each R g g :=
  ⟨fun _ d h => ⟨d, h, hr d⟩, fun _ d h => ⟨d, h, hr d⟩⟩

theorem Each.trans {α : Type} {R : α → α → Prop} (ht : ∀ a b c, R a b → R b c → R a c)
    {g1 g2 g3 : Graph α} (h1 : Each R g1 g2) (h2 : Each R g2 g3) : Each R g1 g3 := by
  refine ⟨?_, ?_⟩
  · intro i d hd
    obtain ⟨d1, h3, h4⟩ := h1.1 i d hd
    obtain ⟨d2, h5, h6⟩ := h2.1 i d1 h3
    exact ⟨d2, h5, ht _ _ _ h4 h6⟩
  · intro i d hd
    obtain ⟨d1, h3, h4⟩ := h2.2 i d hd
    obtain ⟨d2, h5, h6⟩ := h1.2 i d1 h3
    exact ⟨d2, h5, ht _ _ _ h6 h4⟩

/-- What one node may rely on when it is processed. -/
def Inputs (J : Nat → NodeData ν β → Prop) (E : List (Nat × Nat)) (i : Nat)
    (ins : List (Nat × List β)) : Prop :=
  InputsOf E i ins ∧ ∀ k b, (k, b) ∈ ins → ∃ d, J k d ∧ d.buffers = b

theorem inputs_of {J : Nat → NodeData ν β → Prop} {ho : HashOrder} {g : Graph (NodeData ν β)} {n : Nat}
    {ins : List (Nat × List β)} (hg : All J g) (h : gatherInputs ho g n = .ok ins) :
    Inputs J g.edges n ins := by
  refine ⟨gatherInputs_spec h, ?_⟩
  intro k b hk
  obtain ⟨d, h1, h2⟩ := (gatherInputs_ok h).2 k b hk
  exact ⟨d, hg k d h1, h2⟩

/-- One node. -/
theorem processNode_inv {J : Nat → NodeData ν β → Prop} {R : NodeData ν β → NodeData ν β → Prop}
    {E : List (Nat × Nat)} {proc : ProcFn ν β} {ho : HashOrder} {g g' : Graph (NodeData ν β)} {n : Nat}
    (hr : ∀ d, R d d)
    (hp : ∀ i d ins n' b', J i d → Inputs J E i ins → proc d.node ins d.buffers = .ok (n', b') →
      J i ⟨n', b'⟩ ∧ R d ⟨n', b'⟩)
    (hE : g.edges = E) (hg : All J g) (h : processNode proc ho g n = .ok g') :
    All J g' ∧ Each R g g' ∧ g'.edges = E := by
  obtain ⟨ins, d, d', h1, h2, h3, h4, _, _, h7⟩ := processNode_ok h
  obtain ⟨hJ, hR⟩ := hp n d ins d'.node d'.buffers (hg n d h2) (hE ▸ inputs_of hg h1) h3
  refine ⟨?_, ⟨?_, ?_⟩, h4.trans hE⟩
  · intro i x hx
    rw [h7] at hx
    by_cases hi : n = i
    · subst hi
      simp only [if_true, Option.some.injEq] at hx
      subst hx
      exact hJ
    · simp only [hi, if_false] at hx
      exact hg i x hx
  · intro i x hx
    rw [h7]
    by_cases hi : n = i
    · subst hi
      rw [h2] at hx
      cases hx
      exact ⟨d', by simp, hR⟩
    · exact ⟨x, by simp [hi, hx], hr x⟩
  · intro i x hx
    rw [h7] at hx
    by_cases hi : n = i
    · subst hi
      simp only [if_true, Option.some.injEq] at hx
      subst hx
      exact ⟨d, h2, hR⟩
    · simp only [hi, if_false] at hx
      exact ⟨x, hx, hr x⟩

theorem process_inv {J : Nat → NodeData ν β → Prop} {R : NodeData ν β → NodeData ν β → Prop}
    {proc : ProcFn ν β} {ho : HashOrder} {g g' : Graph (NodeData ν β)} {dest : Nat}
    (hr : ∀ d, R d d) (ht : ∀ a b c, R a b → R b c → R a c)
    (hp : ∀ i d ins n' b', J i d → Inputs J g.edges i ins →
      proc d.node ins d.buffers = .ok (n', b') → J i ⟨n', b'⟩ ∧ R d ⟨n', b'⟩)
    (hg : All J g) (h : process proc ho g dest = .ok g') : All J g' ∧ Each R g g' := by
  unfold process at h
  split at h
  · cases h
  · rename_i order hord
    clear hord
    generalize hE : g.edges = E at hp
    revert g
    induction order with
    | nil =>
      intro g hg h _
      cases h
      exact ⟨hg, .refl hr _⟩
    | cons n order ih =>
      intro g hg h hE
      rw [List.foldlM_cons, except_bind_ok] at h
      obtain ⟨g1, h1, h⟩ := h
      obtain ⟨a1, a2, a3⟩ := processNode_inv hr hp hE hg h1
      obtain ⟨b1, b2⟩ := ih a1 h a3
      exact ⟨b1, a2.trans ht b2⟩

/-- A block is rendered without panic if every node can take its inputs and keeps the property. -/
theorem process_total {J : Nat → NodeData ν β → Prop}
    {proc : ProcFn ν β} {ho : HashOrder} {g : Graph (NodeData ν β)} {dest : Nat}
    (hl : EdgesLive g) (hd : ∃ x, g.node? dest = some x)
    (hp : ∀ i d ins, J i d → Inputs J g.edges i ins →
      ∃ n' b', proc d.node ins d.buffers = .ok (n', b') ∧ J i ⟨n', b'⟩)
    (hg : All J g) : ∃ g', process proc ho g dest = .ok g' ∧ All J g' := by
  obtain ⟨order, hord, hnd, hmem, hbef⟩ := Props.c09_traversal_order g dest hl hd
  unfold process
  rw [hord]
  simp only
  have hlive : ∀ n, n ∈ order → ∃ x, g.node? n = some x := by
    intro n hn
    have := (hmem n).mp hn
    cases this with
    | refl => exact hd
    | step he _ => exact (hl _ he).1
  clear hord hmem hd hnd hbef
  generalize hE : g.edges = E at hp
  induction order generalizing g with
  | nil => exact ⟨g, rfl, hg⟩
  | cons a order ih =>
    obtain ⟨d, hda⟩ := hlive a (by simp)
    obtain ⟨ins, hins⟩ := gatherInputs_live (ho := ho) (n := a) hl
    obtain ⟨n', b', hpr, hJ⟩ := hp a d ins (hg a d hda) (hE ▸ inputs_of hg hins)
    have hpn : ∃ g1, processNode proc ho g a = .ok g1 := by
      unfold processNode
      rw [hins]
      simp only [Graph.modify, hda, hpr]
      exact ⟨_, rfl⟩
    obtain ⟨g1, hg1⟩ := hpn
    rw [List.foldlM_cons, hg1]
    simp only [bind, Except.bind]
    obtain ⟨b1, b2, b3⟩ := processNode_inv (R := fun _ _ => True) (E := E) (fun _ => trivial) (by
      intro i d ins n' b' h1 h2 h3
      obtain ⟨n2, b2, h4, h5⟩ := hp i d ins h1 h2
      rw [h3] at h4
      cases h4
      exact ⟨h5, trivial⟩) hE hg hg1
    apply ih
    · intro e he
      rw [b3, ← hE] at he
      obtain ⟨⟨x, hx⟩, ⟨y, hy⟩⟩ := hl e he
      obtain ⟨x', hx', _⟩ := b2.1 _ _ hx
      obtain ⟨y', hy', _⟩ := b2.1 _ _ hy
      exact ⟨⟨x', hx'⟩, ⟨y', hy'⟩⟩
    · exact b1
    · intro n hn
      obtain ⟨x, hx⟩ := hlive n (List.mem_cons_of_mem _ hn)
      obtain ⟨x', hx', _⟩ := b2.1 _ _ hx
      exact ⟨x', hx'⟩
    · exact b3

end Process

variable {L : Lang}

theorem diffAll_made {e : Engine L} {new : Ast L.Comp} {diff : Diff L}
    (h : diffAll (L.make e.samples e.sr e.bpm e.seed) e.ast new = .ok diff)
    {k : Name} {p : Nat} {nd : L.Data} (hm : (k, p, nd) ∈ diff.adds) :
    ∃ cs c rs, (k, cs) ∈ new ∧ c ∈ cs ∧ L.make e.samples e.sr e.bpm e.seed c = .ok (nd, rs) := by
  obtain ⟨k', cs, dk, hk, hdk, hx⟩ := (diffAll_mem h).2.2 _ hm
  have main : ∀ {l : List (Nat × L.Comp)} {d : Diff L},
      addNodes (L.make e.samples e.sr e.bpm e.seed) k' l = .ok d → (k, p, nd) ∈ d.adds →
      (∀ x : Nat × L.Comp, x ∈ l → x.2 ∈ cs) → k = k' ∧ ∃ c rs, c ∈ cs ∧
        L.make e.samples e.sr e.bpm e.seed c = .ok (nd, rs) := by
    intro l d hd hmem hl
    have h2 := (addNodes_spec hd).2.1
    generalize d.adds = adds at h2 hmem
    clear hd
    induction h2 with
    | nil => cases hmem
    | @cons a b l1 l2 hab _ ih =>
      rcases List.mem_cons.mp hmem with h | h
      · subst h
        obtain ⟨h1, _, rs, h3⟩ := hab
        exact ⟨h1, a.2, rs, hl a (by simp), h3⟩
      · exact ih (fun x hx => hl x (List.mem_cons_of_mem _ hx)) h
  have hsnd : ∀ (n : Nat) (l : List L.Comp) (x : Nat × L.Comp), x ∈ enumFrom n l → x.2 ∈ l := by
    intro n l
    induction l generalizing n with
    | nil => intro x hx; cases hx
    | cons a l ih =>
      intro x hx
      rcases List.mem_cons.mp hx with rfl | hx
      · simp
      · exact List.mem_cons_of_mem _ (ih _ x hx)
  unfold diffChain at hdk
  split at hdk
  · obtain ⟨h1, c, rs, h2, h3⟩ := main hdk hx (hsnd 0 cs)
    subst h1
    exact ⟨cs, c, rs, hk, h2, h3⟩
  · simp only [except_bind_ok] at hdk
    obtain ⟨d, hd, hdk⟩ := hdk
    cases hdk
    obtain ⟨h1, c, rs, h2, h3⟩ := main hd hx
      (fun x hx => hsnd 0 cs x (List.mem_filter.mp hx).1)
    subst h1
    exact ⟨cs, c, rs, hk, h2, h3⟩

/-- Where the nodes of an accepted update come from. -/
theorem accepted_nodes {τ : TableOrder} {e e' : Engine L} {new : Ast L.Comp}
    {diff t1 gone1 t2 gone2 g3 created g5}
    (h : Accepted τ e new e' diff t1 gone1 t2 gone2 g3 created g5) {i : Nat} {d' : L.Data}
    (hd : e'.graph.node? i = some d') :
    (∃ d, e.graph.node? i = some d ∧ d'.buffers = d.buffers ∧ Rewire L d.node d'.node) ∨
    e.graph.node? i = none ∧ ∃ k cs c nd rs, (k, cs) ∈ new ∧ c ∈ cs ∧
      L.make e.samples e.sr e.bpm e.seed c = .ok (nd, rs) ∧
      d'.buffers = nd.buffers ∧ Rewire L nd.node d'.node := by
  have f := h.facts
  obtain ⟨_, r2, _⟩ := removeAll_spec (ids := gone1 ++ gone2) f.wf
  have hrw := h.adds.rewired
  obtain ⟨d, hd4, hbuf, hre⟩ : ∃ d, g3.node? i = some d ∧ d'.buffers = d.buffers ∧
      Rewire L d.node d'.node := by
    cases h4 : ((removeAll g3 (gone1 ++ gone2)).clearEdges).node? i with
    | none => rw [hrw.none i h4] at hd; cases hd
    | some d =>
      obtain ⟨n, h5, h6⟩ := hrw.some i d h4
      rw [hd] at h5
      cases h5
      have h4 : (removeAll g3 (gone1 ++ gone2)).node? i = some d := h4
      rw [r2] at h4
      split at h4
      · cases h4
      · exact ⟨d, h4, rfl, h6⟩
  by_cases hc : i ∈ created
  · right
    obtain ⟨⟨k, p, nd⟩, hmem, hnd⟩ : ∃ a, a ∈ diff.adds ∧ g3.node? i = some a.2.2 := by
      have hm := f.made
      generalize diff.adds = adds at hm
      clear * - hm hc
      induction hm with
      | nil => cases hc
      | cons hab _ ih =>
        rcases List.mem_cons.mp hc with rfl | hc
        · exact ⟨_, by simp, hab⟩
        · obtain ⟨a, h1, h2⟩ := ih hc
          exact ⟨a, List.mem_cons_of_mem _ h1, h2⟩
    rw [hd4] at hnd
    cases hnd
    obtain ⟨cs, c, rs, h1, h2, h3⟩ := diffAll_made h.staged.diffEq hmem
    exact ⟨(f.cr i hc).1, k, cs, c, _, rs, h1, h2, h3, hbuf, hre⟩
  · left
    rw [f.nodes i hc] at hd4
    exact ⟨d, hd4, hbuf, hre⟩

/-- The messages a user can cause to be sent to single nodes. -/
def IsUser {Num : Type} : Msg Num → Prop
  | .setToNumber _ _ => True
  | .setToSymbol _ _ => True
  | _ => False

/-- A property of single nodes that every allowed call preserves. `F` is what a node may assume about
the numbers of its inputs, `G` the messages it may be sent by the user. -/
structure NodeInv (L : Lang) (N : Nat) (A : Engine L → Op L → Prop) (J : L.Data → Prop)
    (F : L.Node → List Nat → Prop) (G : L.Node → Msg L.Num → Prop) : Prop where
  sum2 : J (freshData N 2 L.sum2)
  pass : J (freshData N 2 L.pass)
  make : ∀ e τ code p k cs c nd rs, ReachBy L A e → A e (.update τ code) → e.N = N →
    L.parse code = .ok (some p) → (k, cs) ∈ p → c ∈ cs →
    L.make e.samples e.sr e.bpm e.seed c = .ok (nd, rs) → J nd
  wire : ∀ d m n, J d → IsWiring m → L.msg d.node m = .ok n → J ⟨n, d.buffers⟩
  user : ∀ d m n, J d → IsUser m → G d.node m → L.msg d.node m = .ok n →
    J ⟨n, d.buffers⟩ ∧ ∀ m', G d.node m' → G n m'
  bpm : ∀ e v, ReachBy L A e → A e (.setBpm v) → ∀ d n, J d → L.msg d.node (.setBPM v) = .ok n → J ⟨n, d.buffers⟩
  copy : ∀ d ch b b0, J d → d.buffers[ch]? = some b0 → b0.length = b.length →
    J ⟨d.node, d.buffers.set ch b⟩
  proc : ∀ d ins n' b', J d → (∀ k b, (k, b) ∈ ins → ∃ d, J d ∧ d.buffers = b) →
    (ins.map Prod.fst).Nodup → F d.node (ins.map Prod.fst) → L.proc d.node ins d.buffers = .ok (n', b') → J ⟨n', b'⟩
  keep : ∀ n ins b n' b', L.proc n ins b = .ok (n', b') → ∀ ks, F n ks → F n' ks

/-- All nodes of a graph are given inputs as `F` says. -/
def AllFed (F : L.Node → List Nat → Prop) (g : Graph L.Data) : Prop :=
  ∀ i d, g.node? i = some d → ∀ ks : List Nat, (∀ k, k ∈ ks ↔ (k, i) ∈ g.edges ∧ k ≠ i) →
    F d.node ks

theorem NodeInv.rewire {N : Nat} {A : Engine L → Op L → Prop} {J : L.Data → Prop}
    {F : L.Node → List Nat → Prop} {G : L.Node → Msg L.Num → Prop} (hJ : NodeInv L N A J F G)
    {n n' : L.Node} (h : Rewire L n n') : ∀ {b : List (List L.Num)}, J ⟨n, b⟩ → J ⟨n', b⟩ := by
  induction h with
  | refl => exact fun h => h
  | step hm ho _ ih => exact fun h => ih (hJ.wire _ _ _ h hm ho)

theorem all_modify {α : Type} {J : α → Prop} {g g' : Graph α} {i : Nat} {f : α → Except Panic α}
    (hf : ∀ d d', J d → f d = .ok d' → J d') (hg : All (fun _ => J) g)
    (h : g.modify i f = .ok g') : All (fun _ => J) g' := by
  obtain ⟨a, a', h1, h2, _, _, _, h6⟩ := Graph.modify_ok h
  intro j d hj
  rw [h6] at hj
  by_cases hij : i = j
  · subst hij
    simp only [if_true, Option.some.injEq] at hj
    subst hj
    exact hf _ _ (hg _ _ h1) h2
  · simp only [hij, if_false] at hj
    exact hg j d hj

theorem all_copyInput {N : Nat} {A : Engine L → Op L → Prop} {J : L.Data → Prop}
    {F : L.Node → List Nat → Prop} {G : L.Node → Msg L.Num → Prop} (hJ : NodeInv L N A J F G)
    {e e' : Engine L} {ch : Nat} {b : List L.Num} (hg : All (fun _ => J) e.graph)
    (h : e.copyInput ch b = .ok e') : All (fun _ => J) e'.graph := by
  unfold Engine.copyInput at h
  split at h
  · cases h
  · split at h
    · cases h
    · rw [except_bind_ok] at h
      obtain ⟨g, h1, h⟩ := h
      cases h
      refine all_modify ?_ hg h1
      intro d d' hd hf
      split at hf
      · cases hf
      · rename_i b0 hb
        split at hf
        · rename_i hlen
          cases hf
          exact hJ.copy d ch b b0 hd hb hlen
        · cases hf

theorem all_copyInputs {N : Nat} {A : Engine L → Op L → Prop} {J : L.Data → Prop}
    {F : L.Node → List Nat → Prop} {G : L.Node → Msg L.Num → Prop} (hJ : NodeInv L N A J F G)
    {e e' : Engine L} {buf : List (List L.Num)} (hg : All (fun _ => J) e.graph)
    (h : e.copyInputs buf = .ok e') : All (fun _ => J) e'.graph := by
  unfold Engine.copyInputs at h
  split at h
  · cases h; exact hg
  · exact all_copyInput hJ hg h
  · rw [except_bind_ok] at h
    obtain ⟨e4, k1, k2⟩ := h
    exact all_copyInput hJ (all_copyInput hJ hg k1) k2

theorem parseCommand_user {cmd : Name} {k : Name} {p : Nat} {m : Msg L.Num}
    (h : parseCommand L cmd = some (k, p, m)) : IsUser m := by
  unfold parseCommand at h
  split at h
  · simp only [Option.some.injEq, Prod.mk.injEq] at h
    obtain ⟨_, _, rfl⟩ := h
    unfold valueMsg
    split <;> exact trivial
  · cases h

/-- The commands of a message. -/
def commandsOf (msg : Name) : List Name := (splitOn ';' (msg.filter (fun c => !isWhitespace c))).filter (fun c => !c.isEmpty)

/-- The nodes that are addressed take what they are sent. -/
def Takes (G : L.Node → Msg L.Num → Prop) (e : Engine L) (cmds : List Name) : Prop :=
  ∀ cmd, cmd ∈ cmds → ∀ k p m, parseCommand L cmd = some (k, p, m) → ∀ nodes i d, lookup e.index k = some nodes →
    nodes[p]? = some i → e.graph.node? i = some d → G d.node m

/-- One message to one node. -/
theorem deliver_cases {e e' : Engine L} {k : Name} {p : Nat} {m : Msg L.Num} (h : e.deliver k p m = .ok e') :
    e' = e ∨ ∃ nodes i g, lookup e.index k = some nodes ∧ nodes[p]? = some i ∧ e' = { e with graph := g } ∧
      sendTo e.graph i m = .ok g := by
  unfold Engine.deliver at h
  split at h
  · cases h; exact .inl rfl
  · rename_i nodes hl
    split at h
    · cases h
    · rename_i i hi
      rw [except_bind_ok] at h
      obtain ⟨g, h2, h⟩ := h
      cases h
      exact .inr ⟨nodes, i, g, hl, hi, rfl, h2⟩

theorem all_sendMsg {N : Nat} {A : Engine L → Op L → Prop} {J : L.Data → Prop}
    {F : L.Node → List Nat → Prop} {G : L.Node → Msg L.Num → Prop} (hJ : NodeInv L N A J F G)
    {m : Name} {e e' : Engine L} (hg : All (fun _ => J) e.graph) (hT : Takes G e (commandsOf m))
    (h : e.sendMsg m = .ok e') : All (fun _ => J) e'.graph := by
  replace h : (commandsOf m).foldlM Engine.command e = .ok e' := h
  generalize commandsOf m = cmds at h hT
  induction cmds generalizing e with
  | nil =>
    simp only [List.foldlM_nil, pure, Except.pure, Except.ok.injEq] at h
    subst h
    exact hg
  | cons c cmds ih =>
    rw [List.foldlM_cons, except_bind_ok] at h
    obtain ⟨e1, h1, h⟩ := h
    have hT' : Takes G e cmds := fun cmd hcmd => hT cmd (by simp [hcmd])
    unfold Engine.command at h1
    split at h1
    · cases h1; exact ih hg h hT'
    · rename_i k p msg hc
      rcases deliver_cases h1 with rfl | ⟨nodes, i, g, hl, hi, rfl, h2⟩
      · exact ih hg h hT'
      · obtain ⟨d, d', k1, k2, _, _, _, k6⟩ := Graph.modify_ok h2
        rw [except_bind_ok] at k2
        obtain ⟨n, hn, k2⟩ := k2
        cases k2
        have hu := hJ.user d msg n (hg i d k1) (parseCommand_user hc) (hT c (by simp) k p msg hc nodes i d hl hi k1) hn
        refine ih ?_ h ?_
        · intro j dj hj
          rw [k6] at hj
          split at hj
          · cases hj; exact hu.1
          · exact hg j dj hj
        · intro cmd hcmd k' p' m' hp' nodes' j dj a1 a2 a3
          replace a3 : g.node? j = some dj := a3
          rw [k6] at a3
          split at a3
          · rename_i hij
            cases a3
            subst hij
            exact hu.2 m' (hT' cmd hcmd k' p' m' hp' nodes' _ d a1 a2 k1)
          · exact hT' cmd hcmd k' p' m' hp' nodes' j dj a1 a2 a3

theorem all_process {N : Nat} {A : Engine L → Op L → Prop} {J : L.Data → Prop}
    {F : L.Node → List Nat → Prop} {G : L.Node → Msg L.Num → Prop} (hJ : NodeInv L N A J F G)
    {ho : HashOrder} {g g' : Graph L.Data} {dest : Nat} (hg : All (fun _ => J) g)
    (hF : AllFed F g) (h : process L.proc ho g dest = .ok g') : All (fun _ => J) g' := by
  have := (process_inv (R := fun _ _ => True)
    (J := fun i d => J d ∧ ∀ ks : List Nat, (∀ k, k ∈ ks ↔ (k, i) ∈ g.edges ∧ k ≠ i) → F d.node ks)
    (fun _ => trivial) (fun _ _ _ _ _ => trivial)
    (by
      rintro i d ins n' b' ⟨h1, hf⟩ ⟨⟨hnd, h2⟩, h3⟩ h4
      refine ⟨⟨hJ.proc d ins n' b' h1 ?_ hnd (hf _ h2) h4, ?_⟩, trivial⟩
      · intro k b hk
        obtain ⟨d', h5, h6⟩ := h3 k b hk
        exact ⟨d', h5.1, h6⟩
      · intro ks hks
        exact hJ.keep _ _ _ _ _ h4 _ (hf ks hks)) (fun i d hd => ⟨hg i d hd, hF i d hd⟩) h).1
  exact fun i d hd => (this i d hd).1

theorem reachBy_reachable {A : Engine L → Op L → Prop} {e : Engine L} (h : ReachBy L A e) : Reachable L e := by
  induction h with
  | new N => exact .new N
  | step op _ _ ha ih => exact .step op ih ha

/-- The block length never changes. -/
theorem apply_N (hL : ParserWf L) {e e' : Engine L} {op : Op L} (hr : Reachable L e)
    (h : op.apply e = .ok e') : e'.N = e.N := by
  have hI := inv_reachable hL hr
  cases op with
  | update τ code =>
    simp only [Op.apply, except_bind_ok] at h
    obtain ⟨⟨e2, r⟩, h1, h⟩ := h
    cases h
    unfold Engine.updateWithCode at h1
    rw [except_bind_ok] at h1
    obtain ⟨p, hp, h1⟩ := h1
    split at h1
    · cases h1; rfl
    · rename_i new
      have hw := hL code new hp
      cases r with
      | none =>
        obtain ⟨diff, t1, gone1, t2, gone2, g3, cr, g5, hacc⟩ := accepted hI hw h1
        show e2.N = _
        rw [hacc.eq]
      | some x => exact (sameEngine_of_rejected hI hw h1).1.N
  | sendMsg m => rw [(onlyNodes_sendMsg h).eq]
  | setBpm v => rw [(setBpm_nodes h).1]
  | setSr v => cases h; rfl
  | setSeed v => cases h; rfl
  | setTrackAmp v => cases h; rfl
  | addSample n s => cases h; rfl
  | nextBlock ho buf =>
    simp only [Op.apply, except_bind_ok] at h
    obtain ⟨⟨e2, out⟩, h1, h⟩ := h
    cases h
    obtain ⟨e3, g, d, h2, h3, _, _, rfl⟩ := nextBlock_ok h1
    show e3.N = _
    rw [(onlyNodes_copyInputs h2).eq]
  | reset => cases h; rfl

/-- The property holds for all nodes after every allowed history. -/
theorem nodeInv_reach (hL : ParserWf L) {N : Nat} {A : Engine L → Op L → Prop} {J : L.Data → Prop}
    {F : L.Node → List Nat → Prop} {G : L.Node → Msg L.Num → Prop} (hJ : NodeInv L N A J F G) {e : Engine L}
    (h : ReachBy L A e) (hN : e.N = N)
    (hG : ∀ e s, ReachBy L A e → A e (.sendMsg s) → Takes G e (commandsOf s))
    (hF : ∀ e1 buf e2, ReachBy L A e1 → e1.N = N → e1.copyInputs buf = .ok e2 → AllFed F e2.graph) :
    All (fun _ => J) e.graph := by
  induction h with
  | new N' =>
    have hN : N' = N := hN
    subst hN
    intro i d hd
    have hg : (Engine.new L N').graph.slots =
      [some (freshData N' 2 L.sum2), some (freshData N' 2 L.pass), some (freshData N' 2 L.pass)] := rfl
    unfold Graph.node? at hd
    rw [hg] at hd
    match i, hd with
    | 0, hd => cases hd; exact hJ.sum2
    | 1, hd => cases hd; exact hJ.pass
    | 2, hd => cases hd; exact hJ.pass
  | @step e e1 op hr hA happ ih =>
    have hNe : e.N = N := (apply_N hL (reachBy_reachable hr) happ).symm.trans hN
    have ih := ih hNe
    have hI := inv_reachable hL (reachBy_reachable hr)
    cases op with
    | update τ code =>
      simp only [Op.apply, except_bind_ok] at happ
      obtain ⟨⟨e2, r⟩, h1, happ⟩ := happ
      cases happ
      unfold Engine.updateWithCode at h1
      rw [except_bind_ok] at h1
      obtain ⟨p, hp, h1⟩ := h1
      split at h1
      · cases h1; exact ih
      · rename_i new
        have hw := hL code new hp
        cases r with
        | none =>
          obtain ⟨diff, t1, gone1, t2, gone2, g3, cr, g5, hacc⟩ := accepted hI hw h1
          intro i d' hd'
          rcases accepted_nodes hacc hd' with ⟨d, k1, k2, k3⟩ | ⟨_, k, cs, c, nd, rs, k1, k2, k3, k4, k5⟩
          · have := hJ.rewire k3 (b := d.buffers) (ih i d k1)
            rw [← k2] at this
            exact this
          · have := hJ.rewire k5 (b := nd.buffers)
              (hJ.make e τ code new k cs c nd rs hr hA hNe hp k1 k2 k3)
            rw [← k4] at this
            exact this
        | some x =>
          have hs := (sameEngine_of_rejected hI hw h1).1
          intro i d hd
          rw [hs.nodes] at hd
          exact ih i d hd
    | sendMsg m => exact all_sendMsg hJ ih (hG _ _ hr hA) happ
    | setBpm v =>
      obtain ⟨_, _, h3⟩ := setBpm_nodes happ
      intro i d hd
      have := h3 i
      cases hx : e.graph.node? i with
      | none => rw [hx] at this; rw [this] at hd; cases hd
      | some d0 =>
        rw [hx] at this
        obtain ⟨n, hn, hn'⟩ := this
        rw [hn'] at hd
        cases hd
        exact hJ.bpm e v hr hA d0 n (ih i d0 hx) hn
    | setSr v => cases happ; exact ih
    | setSeed v => cases happ; exact ih
    | setTrackAmp v => cases happ; exact ih
    | addSample n s => cases happ; exact ih
    | nextBlock ho buf =>
      simp only [Op.apply, except_bind_ok] at happ
      obtain ⟨⟨e2, out⟩, h1, happ⟩ := happ
      cases happ
      obtain ⟨e3, g, d, h2, h3, _, _, rfl⟩ := nextBlock_ok h1
      exact all_process hJ (all_copyInputs hJ ih h2) (hF _ _ _ hr hNe h2) h3
    | reset =>
      cases happ
      subst hNe
      intro i d hd
      have hg : e.reset.graph.slots =
        [some (freshData e.N 2 L.sum2), some (freshData e.N 2 L.pass)] := rfl
      unfold Graph.node? at hd
      rw [hg] at hd
      match i, hd with
      | 0, hd => cases hd; exact hJ.sum2
      | 1, hd => cases hd; exact hJ.pass

/-! ### Shapes of buffers -/

/-- The node invariant behind `Shape`. -/
def InShape (N : Nat) (S : L.Node → Prop) (d : L.Data) : Prop := S d.node ∧ BlockLen N d.buffers

theorem Spec.Shape.inv {N : Nat} {S : L.Node → Prop} (hs : Shape L N S) :
    NodeInv L N (fun _ _ => True) (InShape N S) (fun _ _ => True) (fun _ _ => True) := by
  have hfresh : ∀ n : L.Node, BlockLen N (freshData N 2 n).buffers := by
    intro n b hb
    rw [List.eq_of_mem_replicate hb, List.length_replicate]
  refine ⟨⟨hs.sum2, hfresh _⟩, ⟨hs.pass, hfresh _⟩, ?_, ?_, ?_, ?_, ?_, ?_,
    fun _ _ _ _ _ _ _ _ => trivial⟩
  · intro e τ code p k cs c nd rs _ _ _ _ _ _ h
    exact hs.make _ _ _ _ _ _ _ h
  · intro d m n h _ hm
    exact ⟨hs.msg _ _ _ h.1 hm, h.2⟩
  · intro d m n h _ _ hm
    exact ⟨⟨hs.msg _ _ _ h.1 hm, h.2⟩, fun _ _ => trivial⟩
  · intro _ v _ _ d n h hm
    exact ⟨hs.msg _ _ _ h.1 hm, h.2⟩
  · intro d ch b b0 h hb hl
    refine ⟨h.1, ?_⟩
    intro x hx
    rcases List.mem_or_eq_of_mem_set hx with hx | rfl
    · exact h.2 x hx
    · rw [← hl]; exact h.2 b0 (List.mem_of_getElem? hb)
  · intro d ins n' b' h hi _ _ hp
    obtain ⟨h1, h2, h3⟩ := hs.proc d.node ins d.buffers n' b' h.1 (by
      intro e he
      obtain ⟨dk, h1, h2⟩ := hi e.1 e.2 he
      rw [← h2]
      exact h1.2) h.2 hp
    exact ⟨h1, h3⟩

theorem reachable_by {e : Engine L} (h : Reachable L e) : ReachBy L (fun _ _ => True) e := by
  induction h with
  | new N => exact .new N
  | step op _ ha ih => exact .step op ih trivial ha

theorem shaped_reach (hL : ParserWf L) {N : Nat} {S : L.Node → Prop} (hs : Shape L N S) {e : Engine L}
    (h : Reachable L e) (hN : e.N = N) : All (fun _ => InShape N S) e.graph :=
  nodeInv_reach hL hs.inv (reachable_by h) hN (fun _ _ _ _ _ _ _ _ _ _ _ _ _ _ _ _ => trivial)
    (fun _ _ _ _ _ _ _ _ _ _ _ => trivial)

end Verif
