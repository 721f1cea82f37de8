import Verif.Lemmas.Graph

/-! # C09, C10, C11: processing one block

The theorems quantify over every graph, every node implementation `proc` and every hash
iteration order `ho`. -/

namespace Verif.Props
open Verif Spec

variable {ν β : Type}

/-- No proper cycle (self loops are ignored by the processor) in the part of the graph that
reaches `dest`. -/
def AcyclicTo (E : List (Nat × Nat)) (dest : Nat) : Prop :=
  ∀ a b, (a, b) ∈ E → a ≠ b → Feeds E b dest → ¬ Feeds E b a

/-- **C09** (traversal). For every graph whose edges connect live nodes, the traversal returns
each node that feeds the destination exactly once and nothing else, and a source precedes its
target unless the two lie on a common cycle. -/
theorem c09_traversal_order {α : Type} (g : Graph α) (dest : Nat) (hE : EdgesLive g)
    (hd : ∃ x, g.node? dest = some x) :
    ∃ order, dfsPostOrder g.incoming g.slots.length [dest] [] [] = .ok order ∧
      order.Nodup ∧ (∀ n, n ∈ order ↔ Feeds g.edges n dest) ∧
      ∀ a b, (a, b) ∈ g.edges → a ≠ b → Feeds g.edges b dest →
        Before order a b ∨ Feeds g.edges b a := by
  obtain ⟨x, hx⟩ := hd
  have hn : ∀ a b, b ∈ g.incoming a → b < g.slots.length := by
    intro a b hb
    obtain ⟨y, hy⟩ := (hE _ (Graph.mem_incoming.mp hb)).1
    exact Graph.node?_lt hy
  obtain ⟨order, ho⟩ := dfs_ok g.incoming g.slots.length hn [dest] [] [] (by
    intro y hy
    simp only [List.mem_singleton] at hy
    subst hy
    exact Graph.node?_lt hx)
  have post := dfs_post _ _ _ _ _ order ho (DfsInv.init g.incoming dest)
  have hmem : ∀ n, n ∈ order ↔ Feeds g.edges n dest := by
    intro n
    constructor
    · intro h
      obtain ⟨s, hs, hr⟩ := post.sound n h
      simp only [List.mem_singleton] at hs
      subst hs
      exact feeds_of_nreach hr
    · intro h
      have hr := nreach_of_feeds h
      induction hr with
      | refl =>
        rcases post.complete dest (by simp) with h1 | h1
        · cases h1
        · exact h1
      | step h1 hc ih =>
        have hb := ih (feeds_of_nreach h1)
        obtain ⟨r1, r2, hr12⟩ := List.append_of_mem hb
        rcases post.order r1 _ r2 hr12 _ hc with h2 | h2 | h2
        · cases h2
        · rw [hr12]; exact List.mem_append_left _ h2
        · exact h2.2
  refine ⟨order, ho, post.nodup, hmem, ?_⟩
  intro a b hab hne hb
  obtain ⟨r1, r2, hr12⟩ := List.append_of_mem ((hmem b).mpr hb)
  rcases post.order r1 b r2 hr12 a (Graph.mem_incoming.mpr hab) with h2 | h2 | h2
  · cases h2
  · left
    obtain ⟨l1, l2, h3⟩ := List.append_of_mem h2
    exact ⟨l1, l2, r2, by rw [hr12, h3]⟩
  · right
    exact feeds_of_nreach h2.1

/-- Helper: the block equation with feedback; `c09_block` and `c10_feedback_block` are its
readable forms. -/
theorem block_general (proc : ProcFn ν β) (ho : HashOrder) (g g' : Graph (NodeData ν β)) (dest : Nat)
    (hE : EdgesLive g) (hd : ∃ x, g.node? dest = some x)
    (h : process proc ho g dest = .ok g') :
    g'.edges = g.edges ∧ g'.slots.length = g.slots.length ∧
    (∀ n, ¬ Feeds g.edges n dest → g'.node? n = g.node? n) ∧
    (∀ n, Feeds g.edges n dest → ∃ inputs d d',
      InputsOf g.edges n inputs ∧ g.node? n = some d ∧ g'.node? n = some d' ∧
      proc d.node inputs d.buffers = .ok (d'.node, d'.buffers) ∧
      ∀ k b, (k, b) ∈ inputs →
        (∃ dk, g'.node? k = some dk ∧ dk.buffers = b) ∨
        (Feeds g.edges n k ∧ ∃ dk, g.node? k = some dk ∧ dk.buffers = b)) := by
  obtain ⟨order, hord, hnd, hmem, hbef⟩ := c09_traversal_order g dest hE hd
  unfold process at h
  rw [hord] at h
  simp only at h
  obtain ⟨he, _, hl, hout, hstep⟩ := fold_process order g g' hnd h
  refine ⟨he, hl, ?_, ?_⟩
  · intro n hn
    exact hout n (fun hm => hn ((hmem n).mp hm))
  · intro n hn
    obtain ⟨o1, o2, ho12⟩ := List.append_of_mem ((hmem n).mpr hn)
    obtain ⟨inputs, d, d', hio, _, hdn, hdn', hp, hks⟩ := hstep o1 n o2 ho12
    refine ⟨inputs, d, d', hio, hdn, hdn', hp, ?_⟩
    intro k b hkb
    have hkin : (k, n) ∈ g.edges ∧ k ≠ n := (hio.2 k).mp (List.mem_map.mpr ⟨(k, b), hkb, rfl⟩)
    rcases hbef k n hkin.1 hkin.2 hn with hB | hB
    · left
      apply (hks k b hkb).1
      obtain ⟨l1, l2, l3, hl⟩ := hB
      have e : o1 ++ n :: o2 = (l1 ++ k :: l2) ++ n :: l3 := by rw [← ho12, hl]
      have hn1 : n ∉ o1 := by
        intro hm
        rw [ho12] at hnd
        exact (List.nodup_append.mp hnd).2.2 n hm n (by simp) rfl
      have hn2 : n ∉ l1 ++ k :: l2 := by
        intro hm
        rw [hl] at hnd
        exact (List.nodup_append.mp hnd).2.2 n hm n (by simp) rfl
      have : o1 = l1 ++ k :: l2 := by
        obtain ⟨A', h1, h2⟩ := split_notin_left e hn1
        cases A' with
        | nil => simpa using h1.symm
        | cons a A' =>
          exfalso
          simp only [List.cons_append, List.cons.injEq] at h2
          apply hn2
          rw [h1, h2.1]
          simp
      rw [this]
      simp
    · by_cases hk : k ∈ o1
      · exact .inl ((hks k b hkb).1 hk)
      · exact .inr ⟨hB, (hks k b hkb).2 hk⟩

/-- **C09** (block equation). In a graph without feedback, after one block every node that feeds
the destination has been stepped exactly once, from its previous state and buffers, on the
buffers its sources have *after* the block (one entry per distinct source); all other nodes are
unchanged. -/
theorem c09_block (proc : ProcFn ν β) (ho : HashOrder) (g g' : Graph (NodeData ν β)) (dest : Nat)
    (hE : EdgesLive g) (hd : ∃ x, g.node? dest = some x) (hA : AcyclicTo g.edges dest)
    (h : process proc ho g dest = .ok g') :
    (∀ n, Feeds g.edges n dest → ∃ inputs d d',
      InputsOf g.edges n inputs ∧ g.node? n = some d ∧ g'.node? n = some d' ∧
      proc d.node inputs d.buffers = .ok (d'.node, d'.buffers) ∧
      ∀ k b, (k, b) ∈ inputs → ∃ dk, g'.node? k = some dk ∧ dk.buffers = b) ∧
    (∀ n, ¬ Feeds g.edges n dest → g'.node? n = g.node? n) ∧
    g'.edges = g.edges := by
  obtain ⟨he, _, hout, hin⟩ := block_general proc ho g g' dest hE hd h
  refine ⟨?_, hout, he⟩
  intro n hn
  obtain ⟨inputs, d, d', hio, h1, h2, h3, h4⟩ := hin n hn
  refine ⟨inputs, d, d', hio, h1, h2, h3, ?_⟩
  intro k b hkb
  have hk := (hio.2 k).mp (List.mem_map.mpr ⟨(k, b), hkb, rfl⟩)
  rcases h4 k b hkb with h5 | ⟨hc, _⟩
  · exact h5
  · exact absurd hc (hA k n hk.1 hk.2 hn)

/-- **C10** (totality). If no single node panics, processing a block succeeds on every graph whose
edges connect live nodes, whatever cycles, self loops and parallel edges it has. -/
theorem c10_feedback_terminates (proc : ProcFn ν β) (ho : HashOrder) (g : Graph (NodeData ν β))
    (dest : Nat) (hE : EdgesLive g) (hd : ∃ x, g.node? dest = some x)
    (hproc : ∀ s i b, ∃ r, proc s i b = .ok r) :
    ∃ g', process proc ho g dest = .ok g' := by
  obtain ⟨order, hord, hnd, hmem, hbef⟩ := c09_traversal_order g dest hE hd
  unfold process
  rw [hord]
  simp only
  have hlive : ∀ n, n ∈ order → ∃ x, g.node? n = some x := by
    intro n hn
    have := (hmem n).mp hn
    cases this with
    | refl => exact hd
    | step he _ => exact (hE _ he).1
  clear hord hmem hd hnd hbef
  induction order generalizing g with
  | nil => exact ⟨g, rfl⟩
  | cons a order ih =>
    obtain ⟨d, hda⟩ := hlive a (by simp)
    obtain ⟨ins, hins⟩ := gatherInputs_live (ho := ho) (n := a) hE
    obtain ⟨⟨s', b'⟩, hp⟩ := hproc d.node ins d.buffers
    have hpn : ∃ g1, processNode proc ho g a = .ok g1 := by
      unfold processNode
      rw [hins]
      simp only [Graph.modify, hda, hp]
      exact ⟨_, rfl⟩
    obtain ⟨g1, hg1⟩ := hpn
    rw [List.foldlM_cons, hg1]
    simp only [bind, Except.bind]
    obtain ⟨_, _, d', _, _, _, he1, _, _, hj⟩ := processNode_ok hg1
    have live1 : ∀ n, (∃ x, g.node? n = some x) → ∃ x, g1.node? n = some x := by
      rintro n ⟨x, hx⟩
      rw [hj n]
      by_cases han : a = n
      · exact ⟨d', by simp [han]⟩
      · exact ⟨x, by simp [han, hx]⟩
    apply ih
    · intro e he
      rw [he1] at he
      exact ⟨live1 _ (hE e he).1, live1 _ (hE e he).2⟩
    · intro n hn
      exact live1 n (hlive n (List.mem_cons_of_mem _ hn))

/-- **C10** (feedback semantics). On any graph, with or without cycles, every node that feeds the
destination is stepped exactly once; each input it sees is either what the source produced in
this block or, only if the node itself feeds that source, what the source produced before. -/
theorem c10_feedback_block (proc : ProcFn ν β) (ho : HashOrder) (g g' : Graph (NodeData ν β))
    (dest : Nat) (hE : EdgesLive g) (hd : ∃ x, g.node? dest = some x)
    (h : process proc ho g dest = .ok g') :
    ∀ n, Feeds g.edges n dest → ∃ inputs d d',
      InputsOf g.edges n inputs ∧ g.node? n = some d ∧ g'.node? n = some d' ∧
      proc d.node inputs d.buffers = .ok (d'.node, d'.buffers) ∧
      ∀ k b, (k, b) ∈ inputs →
        (∃ dk, g'.node? k = some dk ∧ dk.buffers = b) ∨
        (Feeds g.edges n k ∧ ∃ dk, g.node? k = some dk ∧ dk.buffers = b) :=
  (block_general proc ho g g' dest hE hd h).2.2.2

/-- Iterating blocks, each with its own hash order. -/
def blocks (proc : ProcFn ν β) (dest : Nat) :
    List HashOrder → Graph (NodeData ν β) → Except Panic (Graph (NodeData ν β))
  | [], g => .ok g
  | ho :: hos, g =>
    match process proc ho g dest with
    | .error e => .error e
    | .ok g' => blocks proc dest hos g'

theorem edgesLive_process (proc : ProcFn ν β) (ho : HashOrder) (g g' : Graph (NodeData ν β))
    (dest : Nat) (hE : EdgesLive g) (hd : ∃ x, g.node? dest = some x)
    (h : process proc ho g dest = .ok g') :
    EdgesLive g' ∧ (∀ n, (∃ x, g.node? n = some x) ↔ ∃ x, g'.node? n = some x) := by
  obtain ⟨he, _, hout, hin⟩ := block_general proc ho g g' dest hE hd h
  have live : ∀ n, (∃ x, g.node? n = some x) ↔ ∃ x, g'.node? n = some x := by
    intro n
    by_cases hn : Feeds g.edges n dest
    · obtain ⟨_, d, d', _, h1, h2, _⟩ := hin n hn
      exact ⟨fun _ => ⟨d', h2⟩, fun _ => ⟨d, h1⟩⟩
    · rw [hout n hn]
  refine ⟨?_, live⟩
  intro e hm
  rw [he] at hm
  exact ⟨(live _).mp (hE e hm).1, (live _).mp (hE e hm).2⟩

/-- **C11** (frozen). However many blocks are rendered, a node that does not feed the destination
keeps its state and buffers. -/
theorem c11_frozen (proc : ProcFn ν β) (dest : Nat) (hos : List HashOrder) :
    ∀ (g g' : Graph (NodeData ν β)), EdgesLive g → (∃ x, g.node? dest = some x) →
      blocks proc dest hos g = .ok g' →
      ∀ n, ¬ Feeds g.edges n dest → g'.node? n = g.node? n := by
  induction hos with
  | nil => intro g g' _ _ h n _; cases h; rfl
  | cons ho hos ih =>
    intro g g' hE hd h n hn
    unfold blocks at h
    split at h
    · cases h
    · rename_i g1 hg1
      obtain ⟨he, _, hout, _⟩ := block_general proc ho g g1 dest hE hd hg1
      obtain ⟨hE1, hl1⟩ := edgesLive_process proc ho g g1 dest hE hd hg1
      rw [ih g1 g' hE1 ((hl1 dest).mp hd) h n (by rw [he]; exact hn), hout n hn]

/-- Processing the same list of nodes on two graphs that agree on a source-closed set. -/
theorem fold_agree (proc : ProcFn ν β) (ho : HashOrder) (S : Nat → Prop) (order : List Nat) :
    ∀ (g1 g2 : Graph (NodeData ν β)), g1.edges = g2.edges →
      (∀ n, S n → g1.node? n = g2.node? n) →
      (∀ a b, (a, b) ∈ g1.edges → S b → S a) →
      (∀ n, n ∈ order → S n) →
      (∀ g1', order.foldlM (processNode proc ho) g1 = .ok g1' →
        ∃ g2', order.foldlM (processNode proc ho) g2 = .ok g2' ∧
          ∀ n, S n → g1'.node? n = g2'.node? n) := by
  induction order with
  | nil =>
    intro g1 g2 _ hag _ _ g1' h
    simp [pure, Except.pure] at h
    subst h
    exact ⟨g2, rfl, hag⟩
  | cons a order ih =>
    intro g1 g2 hed hag hcl hS g1' h
    rw [List.foldlM_cons] at h
    cases hp : processNode proc ho g1 a with
    | error e => rw [hp] at h; simp [bind, Except.bind] at h
    | ok h1 =>
      rw [hp] at h
      simp only [bind, Except.bind] at h
      obtain ⟨ins, d, d', hin, hd, hpr, he1, _, _, hj1⟩ := processNode_ok hp
      have hinc : g2.incoming a = g1.incoming a := by
        unfold Graph.incoming; rw [hed]
      have hSa : S a := hS a (by simp)
      have hgat : gatherInputs ho g2 a = .ok ins := by
        rw [← hin]
        unfold gatherInputs
        rw [hinc]
        have hk : ∀ k, k ∈ ho.ord a (dedupKeys ((g1.incoming a).filter (fun k => k != a))) →
            g2.node? k = g1.node? k := by
          intro k hk
          rw [(ho.perm a _).mem_iff, mem_dedupKeys, List.mem_filter, Graph.mem_incoming] at hk
          exact (hag k (hcl k a hk.1 hSa)).symm
        generalize ho.ord a _ = keys at hk ⊢
        simp only
        clear hin
        induction keys with
        | nil => rfl
        | cons k keys ihk =>
          simp only [List.mapM_cons]
          rw [hk k (by simp), ihk (fun k' hk' => hk k' (List.mem_cons_of_mem _ hk'))]
      have hd2 : g2.node? a = some d := by rw [← hag a hSa]; exact hd
      have hp2 : ∃ h2, processNode proc ho g2 a = .ok h2 := by
        unfold processNode
        rw [hgat]
        simp only [Graph.modify, hd2, hpr]
        exact ⟨_, rfl⟩
      obtain ⟨h2, hp2⟩ := hp2
      obtain ⟨ins2, e, e', hin2, he, hpr2, he2, _, _, hj2⟩ := processNode_ok hp2
      rw [hgat] at hin2; cases hin2
      rw [hd2] at he; cases he
      rw [hpr] at hpr2
      have hde : d' = e' := by
        cases d'; cases e'; simp only [Except.ok.injEq, Prod.mk.injEq] at hpr2
        simp [hpr2.1, hpr2.2]
      subst hde
      obtain ⟨g2', hg2', hag'⟩ := ih h1 h2 (by rw [he1, he2, hed]) (by
        intro n hn
        rw [hj1 n, hj2 n, hag n hn]) (by rw [he1]; exact hcl)
        (fun n hn => hS n (List.mem_cons_of_mem _ hn)) g1' h
      refine ⟨g2', ?_, hag'⟩
      rw [List.foldlM_cons, hp2]
      exact hg2'

/-- **C11** (non-interference). If two graphs have the same connections and agree on the nodes that
feed the destination, rendering a block gives the same result on all those nodes, in particular
the same output; the other nodes (and the free list) have no influence. -/
theorem c11_noninterference (proc : ProcFn ν β) (ho : HashOrder) (g1 g2 g1' : Graph (NodeData ν β))
    (dest : Nat) (hE1 : EdgesLive g1) (hE2 : EdgesLive g2)
    (hd : ∃ x, g1.node? dest = some x)
    (hed : g1.edges = g2.edges)
    (hag : ∀ n, Feeds g1.edges n dest → g1.node? n = g2.node? n)
    (h : process proc ho g1 dest = .ok g1') :
    ∃ g2', process proc ho g2 dest = .ok g2' ∧
      (∀ n, Feeds g1.edges n dest → g1'.node? n = g2'.node? n) ∧
      g1'.node? dest = g2'.node? dest := by
  have hd2 : ∃ x, g2.node? dest = some x := by
    obtain ⟨x, hx⟩ := hd
    exact ⟨x, by rw [← hag dest (.refl dest)]; exact hx⟩
  obtain ⟨order, hord, hnd, hmem, _⟩ := c09_traversal_order g1 dest hE1 hd
  obtain ⟨order2, hord2, _⟩ := c09_traversal_order g2 dest hE2 hd2
  have hinc : g2.incoming = g1.incoming := by
    funext n; unfold Graph.incoming; rw [hed]
  have hoo : order2 = order := by
    rw [hinc] at hord2
    exact dfs_bound_indep _ _ _ _ _ _ _ _ hord2 hord
  subst hoo
  unfold process at h ⊢
  rw [hord] at h
  rw [hord2]
  simp only at h ⊢
  obtain ⟨g2', h2, hag'⟩ := fold_agree proc ho (fun n => Feeds g1.edges n dest) order2 g1 g2 hed hag
    (fun a b hab hb => .step hab hb) (fun n hn => (hmem n).mp hn) g1' h
  exact ⟨g2', h2, hag', hag' dest (.refl dest)⟩

/-! ### Concrete instances of the hypotheses -/

/-- A test implementation: every node counts its steps and outputs one value, its own
count plus everything it reads. -/
def countProc : ProcFn Nat Nat := fun s ins _ =>
  .ok (s + 1, [s + 1 + (ins.map (fun i => i.2.foldl (· + ·) 0)).foldl (· + ·) 0])

/-- Diamond `1 → 2 → 0`, `1 → 3 → 0` with an unconnected node 4 and a parallel edge. -/
def diamond : Graph (NodeData Nat Nat) where
  slots := [some ⟨0, [0]⟩, some ⟨10, [0]⟩, some ⟨20, [0]⟩, some ⟨30, [0]⟩, some ⟨40, [7]⟩]
  free := []
  edges := [(3, 0), (2, 0), (1, 3), (1, 2), (1, 2)]

/-- A feedback loop `1 → 2 → 1` into the destination, with a self loop on 2. -/
def loop : Graph (NodeData Nat Nat) where
  slots := [some ⟨0, [0]⟩, some ⟨10, [5]⟩, some ⟨20, [6]⟩]
  free := []
  edges := [(2, 0), (2, 2), (2, 1), (1, 2)]

theorem diamond_live : EdgesLive diamond := by
  intro e he
  simp only [diamond, List.mem_cons, List.not_mem_nil, or_false] at he
  rcases he with rfl | rfl | rfl | rfl | rfl <;> exact ⟨⟨_, rfl⟩, ⟨_, rfl⟩⟩

theorem loop_live : EdgesLive loop := by
  intro e he
  simp only [loop, List.mem_cons, List.not_mem_nil, or_false] at he
  rcases he with rfl | rfl | rfl | rfl <;> exact ⟨⟨_, rfl⟩, ⟨_, rfl⟩⟩

theorem feeds_rank {E : List (Nat × Nat)} (rank : Nat → Nat)
    (hr : ∀ a b, (a, b) ∈ E → rank b < rank a) {a b : Nat} (h : Feeds E a b) :
    rank b ≤ rank a := by
  induction h with
  | refl => exact Nat.le_refl _
  | step he _ ih => exact Nat.le_trans ih (Nat.le_of_lt (hr _ _ he))

theorem diamond_acyclic : AcyclicTo diamond.edges 0 := by
  intro a b hab _ _ hf
  have hr : ∀ a b, (a, b) ∈ diamond.edges →
      (fun n => if n = 0 then 0 else if n = 1 then 2 else 1) b <
      (fun n => if n = 0 then 0 else if n = 1 then 2 else 1) a := by
    intro a b h
    simp only [diamond, List.mem_cons, List.not_mem_nil, or_false, Prod.mk.injEq] at h
    rcases h with ⟨rfl, rfl⟩ | ⟨rfl, rfl⟩ | ⟨rfl, rfl⟩ | ⟨rfl, rfl⟩ | ⟨rfl, rfl⟩ <;> decide
  have h1 := feeds_rank _ hr hf
  exact absurd (hr a b hab) (Nat.not_lt.mpr h1)

/-- The hypotheses of `c09_traversal_order`, `c09_block`, `c10_*` and `c11_frozen` hold for the
diamond, whose node 4 does not feed the destination. -/
example : EdgesLive diamond ∧ (∃ x, diamond.node? 0 = some x) ∧ AcyclicTo diamond.edges 0 ∧
    Feeds diamond.edges 1 0 ∧ ¬ Feeds diamond.edges 4 0 := by
  refine ⟨diamond_live, ⟨_, rfl⟩, diamond_acyclic, ?_, ?_⟩
  · exact .step (b := 2) (by decide) (.step (b := 0) (by decide) (.refl 0))
  · intro h
    cases h with
    | step he _ => simp [diamond] at he

/-- One block of the diamond: nodes 0-3 stepped once, node 1 read once despite the parallel
edge, node 4 untouched. -/
example : ∃ g', process countProc HashOrder.ident diamond 0 = .ok g' ∧
    g'.slots = [some ⟨1, [75]⟩, some ⟨11, [11]⟩, some ⟨21, [32]⟩, some ⟨31, [42]⟩, some ⟨40, [7]⟩] := by
  simp [process, diamond, dfsPostOrder, Graph.incoming, List.foldlM, processNode, gatherInputs,
    dedupKeys, HashOrder.ident, Graph.modify, Graph.node?, countProc, bind, Except.bind, pure,
    Except.pure, List.mapM_cons]

/-- One block of the feedback loop succeeds; node 1 reads the previous output of node 2. -/
example : ∃ g', process countProc HashOrder.ident loop 0 = .ok g' ∧
    g'.slots = [some ⟨1, [39]⟩, some ⟨11, [17]⟩, some ⟨21, [38]⟩] := by
  simp [process, loop, dfsPostOrder, Graph.incoming, List.foldlM, processNode, gatherInputs,
    dedupKeys, HashOrder.ident, Graph.modify, Graph.node?, countProc, bind, Except.bind, pure,
    Except.pure, List.mapM_cons]

/-- Two graphs that differ only in a node that is not heard satisfy the hypotheses of
`c11_noninterference`. -/
example : let g2 : Graph (NodeData Nat Nat) := { diamond with slots := diamond.slots.set 4 none, free := [4] }
    EdgesLive diamond ∧ EdgesLive g2 ∧ diamond.edges = g2.edges ∧
    (∀ n, Feeds diamond.edges n 0 → diamond.node? n = g2.node? n) ∧
    diamond.node? 4 ≠ g2.node? 4 := by
  refine ⟨diamond_live, ?_, rfl, ?_, by simp [diamond, Graph.node?]⟩
  · intro e he
    simp only [diamond, List.mem_cons, List.not_mem_nil, or_false] at he
    rcases he with rfl | rfl | rfl | rfl | rfl <;> exact ⟨⟨_, rfl⟩, ⟨_, rfl⟩⟩
  · intro n hn
    have hne : n ≠ 4 := by
      rintro rfl
      cases hn with
      | step he _ => simp [diamond] at he
    unfold Graph.node?
    simp only [diamond, List.getElem?_set]
    rw [if_neg (Ne.symm hne)]

end Verif.Props
