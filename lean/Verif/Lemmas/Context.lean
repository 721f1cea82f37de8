import Verif.Spec.Context
import Verif.Lemmas.History
import Verif.Props.Schedule

/-! Lemmas about the audio context (helpers). -/

namespace Verif
open Spec Context
variable {L : Lang}

/-! ### Messages -/

theorem reads_append {n n' n'' : L.Node} {ms ms' : List (Msg L.Num)} (h : Reads n ms n') (h' : Reads n' ms' n'') :
    Reads n (ms ++ ms') n'' := by
  induction h with
  | nil => exact h'
  | cons hm _ ih => exact .cons hm (ih h')

theorem reads_fun {n a b : L.Node} {ms : List (Msg L.Num)} (h : Reads n ms a) (h' : Reads n ms b) : a = b := by
  induction h with
  | nil => cases h'; rfl
  | cons hm _ ih =>
    cases h' with
    | cons hm' h' =>
      rw [hm] at hm'
      cases hm'
      exact ih h'

theorem reads_split {n n' : L.Node} {ms ms' : List (Msg L.Num)} (h : Reads n (ms ++ ms') n') :
    ∃ k, Reads n ms k ∧ Reads k ms' n' := by
  induction ms generalizing n with
  | nil => exact ⟨n, .nil n, h⟩
  | cons m ms ih =>
    cases h with
    | cons hm h =>
      obtain ⟨k, h1, h2⟩ := ih h
      exact ⟨k, .cons hm h1, h2⟩

theorem letters_append (s : Sheet L) (nodes : List L.Data) (wires : List (Nat × Nat)) (m : List (Nat × Msg L.Num)) (i : Nat) :
    (Sheet.mk nodes wires (s.mail ++ m)).letters i = s.letters i ++ (m.filter (fun p => p.1 == i)).map Prod.snd := by
  simp [Sheet.letters]

/-! ### The graph of a sheet -/

/-- What holds of the graph of a context. -/
structure Fits (g : Graph L.Data) (s : Sheet L) : Prop where
  free : g.free = []
  len : g.slots.length = s.nodes.length
  node : ∀ i d, s.nodes[i]? = some d → ∃ n, Reads d.node (s.letters i) n ∧ g.node? i = some ⟨n, d.buffers⟩
  wires : g.edges = s.wires.reverse
  mail : ∀ p ∈ s.mail, p.1 < s.nodes.length
  ends : ∀ w ∈ s.wires, w.1 < s.nodes.length ∧ w.2 < s.nodes.length

/-- Every message on the sheet can be delivered. -/
def Deliverable (s : Sheet L) : Prop := ∀ i d, s.nodes[i]? = some d → ∃ n, Reads d.node (s.letters i) n

/-- The second sheet continues the first. -/
def Continues (s s' : Sheet L) : Prop := s.nodes <+: s'.nodes ∧ s.mail <+: s'.mail

theorem Continues.refl (s : Sheet L) : Continues s s := ⟨List.prefix_rfl, List.prefix_rfl⟩

theorem Continues.trans {a b c : Sheet L} (h : Continues a b) (h' : Continues b c) : Continues a c :=
  ⟨h.1.trans h'.1, h.2.trans h'.2⟩

theorem Deliverable.mono {s s' : Sheet L} (h : Deliverable s') (hc : Continues s s') : Deliverable s := by
  intro i d hd
  obtain ⟨t, ht⟩ := hc.1
  obtain ⟨u, hu⟩ := hc.2
  have hd' : s'.nodes[i]? = some d := by
    rw [← ht, List.getElem?_append_left (List.getElem?_eq_some_iff.mp hd).1]
    exact hd
  obtain ⟨n, hn⟩ := h i d hd'
  have : s'.letters i = s.letters i ++ (u.filter (fun p => p.1 == i)).map Prod.snd := by
    simp [Sheet.letters, ← hu]
  rw [this] at hn
  obtain ⟨k, hk, _⟩ := reads_split hn
  exact ⟨k, hk⟩

theorem Fits.deliverable {g : Graph L.Data} {s : Sheet L} (h : Fits g s) : Deliverable s := by
  intro i d hd
  obtain ⟨n, hn, _⟩ := h.node i d hd
  exact ⟨n, hn⟩

theorem Fits.only {g : Graph L.Data} {s : Sheet L} (h : Fits g s) {i : Nat} (hi : s.nodes.length ≤ i) :
    g.node? i = none := by
  unfold Graph.node?
  rw [List.getElem?_eq_none (by rw [h.len]; exact hi)]
  rfl

theorem Fits.lt_iff {g : Graph L.Data} {s : Sheet L} (h : Fits g s) {i : Nat} :
    (∃ d, g.node? i = some d) ↔ i < s.nodes.length := by
  constructor
  · rintro ⟨d, hd⟩
    rw [← h.len]
    exact Graph.node?_lt hd
  · intro hi
    obtain ⟨n, _, hn⟩ := h.node i _ (List.getElem?_eq_getElem hi)
    exact ⟨_, hn⟩

theorem Fits.live {g : Graph L.Data} {s : Sheet L} (h : Fits g s) : EdgesLive g := by
  intro e he
  rw [h.wires, List.mem_reverse] at he
  exact ⟨h.lt_iff.mpr (h.ends e he).1, h.lt_iff.mpr (h.ends e he).2⟩

theorem Fits.shows {c : Context L} {s : Sheet L} (h : Fits c.graph s) : Shows c s :=
  ⟨h.node, fun _ hi => h.only hi, h.wires, h.mail, h.ends⟩

theorem fits_addNode {g : Graph L.Data} {s : Sheet L} (h : Fits g s) (d : L.Data) :
    (g.addNode d).2 = s.nodes.length ∧ Fits (g.addNode d).1 { s with nodes := s.nodes ++ [d] } := by
  have he : g.addNode d = ({ g with slots := g.slots ++ [some d] }, g.slots.length) := by
    unfold Graph.addNode
    rw [h.free]
  rw [he]
  have hnode : ∀ i, (Graph.mk (g.slots ++ [some d]) g.free g.edges).node? i =
      if i = s.nodes.length then some d else g.node? i := by
    intro i
    rw [← h.len]
    unfold Graph.node?
    simp only [List.getElem?_append, List.getElem?_singleton]
    by_cases h1 : i < g.slots.length
    · simp [h1, Nat.ne_of_lt h1]
    · by_cases h2 : i = g.slots.length
      · subst h2; simp
      · have h3 : i - g.slots.length ≠ 0 := by omega
        simp [h1, h2, h3]
  refine ⟨h.len, h.free, by simp [h.len], ?_, h.wires, ?_, ?_⟩
  · intro i e he
    simp only [List.getElem?_append, List.getElem?_singleton] at he
    rw [hnode]
    by_cases h1 : i < s.nodes.length
    · rw [if_neg (Nat.ne_of_lt h1)]
      rw [if_pos h1] at he
      exact h.node i e he
    · rw [if_neg h1] at he
      split at he
      · cases he
        have h2 : i = s.nodes.length := by omega
        subst h2
        refine ⟨d.node, ?_, by simp⟩
        have : s.letters s.nodes.length = [] := by
          simp only [Sheet.letters, List.map_eq_nil_iff, List.filter_eq_nil_iff]
          intro p hp heq
          have := h.mail p hp
          simp only [beq_iff_eq] at heq
          omega
        show Reads d.node (s.letters s.nodes.length) d.node
        rw [this]
        exact .nil _
      · cases he
  · intro p hp
    have := h.mail p hp
    simp only [List.length_append, List.length_singleton]
    omega
  · intro w hw
    have := h.ends w hw
    simp only [List.length_append, List.length_singleton]
    omega

theorem sendTo_node {g g' : Graph L.Data} {i : Nat} {m : Msg L.Num} (h : sendTo g i m = .ok g') :
    ∃ d n, g.node? i = some d ∧ L.msg d.node m = .ok n ∧ g'.edges = g.edges ∧ g'.free = g.free ∧
      g'.slots.length = g.slots.length ∧ ∀ j, g'.node? j = if i = j then some ⟨n, d.buffers⟩ else g.node? j := by
  obtain ⟨a, a', h1, h2, h3, h4, h5, h6⟩ := Graph.modify_ok h
  rw [except_bind_ok] at h2
  obtain ⟨n, hn, h2⟩ := h2
  cases h2
  exact ⟨a, n, h1, hn, h3, h4, h5, h6⟩

theorem fits_sendTo {g g' : Graph L.Data} {s : Sheet L} {i : Nat} {m : Msg L.Num} (h : Fits g s)
    (hs : sendTo g i m = .ok g') : Fits g' { s with mail := s.mail ++ [(i, m)] } := by
  obtain ⟨d, n, h1, h2, h3, h4, h5, h6⟩ := sendTo_node hs
  have hi : i < s.nodes.length := h.lt_iff.mp ⟨d, h1⟩
  refine ⟨h4.trans h.free, h5.trans h.len, ?_, h3.trans h.wires, ?_, h.ends⟩
  · intro j e he
    obtain ⟨k, hk1, hk2⟩ := h.node j e he
    rw [letters_append, h6 j]
    by_cases hij : i = j
    · subst hij
      rw [h1] at hk2
      cases hk2
      refine ⟨n, ?_, by simp⟩
      simp only [List.filter_cons, List.filter_nil, beq_self_eq_true, if_true, List.map_cons, List.map_nil]
      exact reads_append hk1 (.cons h2 (.nil _))
    · have hb : ((i : Nat) == j) = false := by simpa using hij
      rw [if_neg hij]
      refine ⟨k, ?_, hk2⟩
      simpa [hb] using hk1
  · intro p hp
    rcases List.mem_append.mp hp with hp | hp
    · exact h.mail p hp
    · simp only [List.mem_singleton] at hp
      subst hp
      exact hi

theorem sendTo_total {g : Graph L.Data} {s : Sheet L} {i : Nat} {m : Msg L.Num} (h : Fits g s) (hi : i < s.nodes.length)
    (hd : Deliverable { s with mail := s.mail ++ [(i, m)] }) : ∃ g', sendTo g i m = .ok g' := by
  obtain ⟨n, hn, hg⟩ := h.node i _ (List.getElem?_eq_getElem hi)
  obtain ⟨k, hk⟩ := hd i _ (List.getElem?_eq_getElem hi)
  rw [letters_append] at hk
  obtain ⟨n', hn', hk⟩ := reads_split hk
  cases reads_fun hn hn'
  simp only [List.filter_cons, List.filter_nil, beq_self_eq_true, if_true, List.map_cons, List.map_nil] at hk
  cases hk with
  | cons hm _ =>
    exact ⟨_, by simp only [sendTo, Graph.modify, hg, hm, bind, Except.bind]; rfl⟩

theorem fits_edge {g : Graph L.Data} {s : Sheet L} (h : Fits g s) {a b : Nat} (ha : a < s.nodes.length) (hb : b < s.nodes.length) :
    g.addEdge a b = .ok { g with edges := (a, b) :: g.edges } ∧
    Fits { g with edges := (a, b) :: g.edges } { s with wires := s.wires ++ [(a, b)] } := by
  obtain ⟨d, hd⟩ := h.lt_iff.mpr ha
  obtain ⟨e, he⟩ := h.lt_iff.mpr hb
  refine ⟨by simp only [Graph.addEdge, hd, he], h.free, h.len, h.node, ?_, h.mail, ?_⟩
  · simp [h.wires]
  · intro w hw
    rcases List.mem_append.mp hw with hw | hw
    · exact h.ends w hw
    · simp only [List.mem_singleton] at hw
      subst hw
      exact ⟨ha, hb⟩

theorem addEdge_live {g g' : Graph L.Data} {a b : Nat} (h : g.addEdge a b = .ok g') :
    (∃ d, g.node? a = some d) ∧ (∃ d, g.node? b = some d) ∧ g' = { g with edges := (a, b) :: g.edges } := by
  unfold Graph.addEdge at h
  split at h
  · rename_i d e hd he
    cases h
    exact ⟨⟨d, hd⟩, ⟨e, he⟩, rfl⟩
  · cases h

theorem connect_eq (g : Graph L.Data) (a b : Nat) :
    Verif.connect g a b = g.addEdge a b >>= fun g1 => sendTo g1 b (.index a) := rfl

theorem connectWithOrder_eq (g : Graph L.Data) (a b pos : Nat) :
    connectWithOrder g a b pos = g.addEdge a b >>= fun g1 => sendTo g1 b (.indexOrder pos a) := rfl

theorem fits_wire {g g' : Graph L.Data} {s : Sheet L} {a b : Nat} {m : Msg L.Num} (h : Fits g s)
    (hc : (g.addEdge a b >>= fun g1 => sendTo g1 b m) = .ok g') :
    a < s.nodes.length ∧ b < s.nodes.length ∧
    Fits g' { s with wires := s.wires ++ [(a, b)], mail := s.mail ++ [(b, m)] } := by
  rw [except_bind_ok] at hc
  obtain ⟨g1, h1, h2⟩ := hc
  obtain ⟨ha, hb, _⟩ := addEdge_live h1
  have ha := h.lt_iff.mp ha
  have hb := h.lt_iff.mp hb
  obtain ⟨he, hf⟩ := fits_edge h ha hb
  rw [he] at h1
  cases h1
  exact ⟨ha, hb, fits_sendTo hf h2⟩

theorem wire_total {g : Graph L.Data} {s : Sheet L} {a b : Nat} {m : Msg L.Num} (h : Fits g s)
    (ha : a < s.nodes.length) (hb : b < s.nodes.length)
    (hd : Deliverable { s with wires := s.wires ++ [(a, b)], mail := s.mail ++ [(b, m)] }) :
    ∃ g', (g.addEdge a b >>= fun g1 => sendTo g1 b m) = .ok g' := by
  obtain ⟨he, hf⟩ := fits_edge h ha hb
  obtain ⟨g', hg'⟩ := sendTo_total (m := m) hf hb hd
  exact ⟨g', by rw [he]; exact hg'⟩

theorem links_cons (a b : Nat) (l : List Nat) : links (a :: b :: l) = (a, b) :: links (b :: l) := rfl

theorem fits_chain {l : List Nat} : ∀ {g g' : Graph L.Data} {s : Sheet L}, Fits g s → Context.chain g l = .ok g' →
    Fits g' { s with wires := s.wires ++ links l, mail := s.mail ++ (links l).map told } := by
  induction l with
  | nil => intro g g' s h hc; cases hc; simpa [links] using h
  | cons a l ih =>
    cases l with
    | nil => intro g g' s h hc; cases hc; simpa [links] using h
    | cons b l =>
      intro g g' s h hc
      rw [Context.chain, except_bind_ok] at hc
      obtain ⟨g1, h1, h2⟩ := hc
      rw [connect_eq] at h1
      have := ih (fits_wire h h1).2.2 h2
      simpa only [links_cons, List.map_cons, List.append_assoc, List.singleton_append, told] using this

theorem chain_total {l : List Nat} : ∀ {g : Graph L.Data} {s : Sheet L}, Fits g s →
    (∀ w ∈ links l, w.1 < s.nodes.length ∧ w.2 < s.nodes.length) →
    Deliverable { s with wires := s.wires ++ links l, mail := s.mail ++ (links l).map told } →
    ∃ g', Context.chain g l = .ok g' := by
  induction l with
  | nil => intro g s _ _ _; exact ⟨g, rfl⟩
  | cons a l ih =>
    cases l with
    | nil => intro g s _ _ _; exact ⟨g, rfl⟩
    | cons b l =>
      intro g s h hk hd
      rw [links_cons] at hk hd
      obtain ⟨ha, hb⟩ := hk (a, b) (.head _)
      have hd1 : Deliverable { s with wires := s.wires ++ [(a, b)], mail := s.mail ++ [(b, .index a)] } := by
        refine hd.mono ⟨List.prefix_rfl, ?_⟩
        simp [told]
      obtain ⟨g1, h1⟩ := wire_total h ha hb hd1
      obtain ⟨g', h2⟩ := ih (fits_wire h h1).2.2 (fun w hw => hk w (.tail _ hw)) (by
        simpa only [List.map_cons, List.append_assoc, List.singleton_append, told] using hd)
      refine ⟨g', ?_⟩
      rw [Context.chain, connect_eq, h1]
      exact h2

theorem fits_addAll {ds : List L.Data} : ∀ {g : Graph L.Data} {s : Sheet L}, Fits g s →
    (addAll g ds).2 = List.range' s.nodes.length ds.length ∧
    Fits (addAll g ds).1 { s with nodes := s.nodes ++ ds } := by
  induction ds with
  | nil => intro g s h; exact ⟨rfl, by simpa [addAll] using h⟩
  | cons d ds ih =>
    intro g s h
    obtain ⟨h1, h2⟩ := fits_addNode h d
    obtain ⟨h3, h4⟩ := ih h2
    refine ⟨?_, by simpa only [addAll, List.append_assoc, List.singleton_append] using h4⟩
    simp only [List.length_append, List.length_singleton] at h3
    simp only [addAll, h1, h3, List.length_cons, List.range'_succ]

theorem mem_links {l : List Nat} {w : Nat × Nat} (h : w ∈ links l) : w.1 ∈ l ∧ w.2 ∈ l := by
  obtain ⟨h1, h2⟩ := List.of_mem_zip h
  exact ⟨h1, List.mem_of_mem_tail h2⟩

theorem fits_sendAll {g : Graph L.Data} {s : Sheet L} {m : Msg L.Num} {r : List (Option L.Data)} (h : Fits g s)
    (hs : Verif.sendAll m g.slots = .ok r) :
    Fits { g with slots := r } { s with mail := s.mail ++ (List.range s.nodes.length).map (fun i => (i, m)) } := by
  have hf := sendAll_spec hs
  refine ⟨h.free, hf.length_eq.symm.trans h.len, ?_, h.wires, ?_, h.ends⟩
  · intro i d hd
    obtain ⟨n, hn, hg⟩ := h.node i d hd
    have hi := (List.getElem?_eq_some_iff.mp hd).1
    rw [letters_append]
    have hl : ((List.range s.nodes.length).map (fun j => ((j, m) : Nat × Msg L.Num))).filter (fun p => p.1 == i) = [(i, m)] := by
      rw [List.filter_map]
      have : (List.range s.nodes.length).filter ((fun p : Nat × Msg L.Num => p.1 == i) ∘ fun j => (j, m)) = [i] := by
        have : ((fun p : Nat × Msg L.Num => p.1 == i) ∘ fun j => (j, m)) = fun j => j == i := rfl
        rw [this, List.filter_beq, List.nodup_range.count, if_pos (List.mem_range.mpr hi)]
        rfl
      rw [this]
      rfl
    rw [hl]
    rcases forall₂_getElem? hf i with ⟨h1, _⟩ | ⟨a, b, h1, h2, h3⟩
    · rw [List.getElem?_eq_none_iff, h.len] at h1
      exact absurd hi (Nat.not_lt.mpr h1)
    · rw [Graph.node?_eq_some, h1] at hg
      cases hg
      obtain ⟨n', hn', rfl⟩ := h3
      exact ⟨n', reads_append hn (.cons hn' (.nil _)), Graph.node?_eq_some.mpr h2⟩
  · intro p hp
    rcases List.mem_append.mp hp with hp | hp
    · exact h.mail p hp
    · simp only [List.mem_map, List.mem_range] at hp
      obtain ⟨i, hi, rfl⟩ := hp
      exact hi

theorem sendAll_total' {m : Msg L.Num} {l : List (Option L.Data)}
    (h : ∀ d, some d ∈ l → ∃ n, L.msg d.node m = .ok n) : ∃ r, Verif.sendAll m l = .ok r := by
  induction l with
  | nil => exact ⟨_, rfl⟩
  | cons a l ih =>
    obtain ⟨r, hr⟩ := ih (fun d hd => h d (.tail _ hd))
    cases a with
    | none => exact ⟨none :: r, by simp only [Verif.sendAll, hr, bind, Except.bind]⟩
    | some d =>
      obtain ⟨n, hn⟩ := h d (.head _)
      exact ⟨some ⟨n, d.buffers⟩ :: r, by simp only [Verif.sendAll, hr, hn, bind, Except.bind]⟩

theorem sendAll_total {g : Graph L.Data} {s : Sheet L} {m : Msg L.Num} (h : Fits g s)
    (hd : Deliverable { s with mail := s.mail ++ (List.range s.nodes.length).map (fun i => (i, m)) }) :
    ∃ r, Verif.sendAll m g.slots = .ok r := by
  apply sendAll_total'
  intro d hm
  obtain ⟨i, hi⟩ := List.mem_iff_getElem?.mp hm
  have hil : i < s.nodes.length := by
    rw [← h.len]
    exact (List.getElem?_eq_some_iff.mp hi).1
  obtain ⟨n, hn, hg⟩ := h.node i _ (List.getElem?_eq_getElem hil)
  rw [Graph.node?_eq_some, hi] at hg
  cases hg
  obtain ⟨k, hk⟩ := hd i _ (List.getElem?_eq_getElem hil)
  rw [letters_append] at hk
  obtain ⟨n', hn', hk⟩ := reads_split hk
  cases reads_fun hn hn'
  have hmem : m ∈ (((List.range s.nodes.length).map (fun j => ((j, m) : Nat × Msg L.Num))).filter (fun p => p.1 == i)).map Prod.snd :=
    List.mem_map.mpr ⟨(i, m), List.mem_filter.mpr ⟨List.mem_map.mpr ⟨i, List.mem_range.mpr hil, rfl⟩, by simp⟩, rfl⟩
  have hall : ∀ x ∈ (((List.range s.nodes.length).map (fun j => ((j, m) : Nat × Msg L.Num))).filter (fun p => p.1 == i)).map Prod.snd,
      x = m := by
    intro x hx
    simp only [List.mem_map, List.mem_filter] at hx
    obtain ⟨p, ⟨⟨j, _, rfl⟩, _⟩, rfl⟩ := hx
    rfl
  generalize (((List.range s.nodes.length).map (fun j => ((j, m) : Nat × Msg L.Num))).filter (fun p => p.1 == i)).map Prod.snd = ms at hk hmem hall
  cases hk with
  | nil => cases hmem
  | cons hm _ =>
    have := hall _ (.head _)
    subst this
    exact ⟨_, hm⟩

/-! ### Runs -/

theorem ctxRun_cons {c c' : Context L} {x : Call L} {xs : List (Call L)} {rs : List (Reply L)} :
    c.run (x :: xs) = .ok (c', rs) ↔ ∃ c1 r rs', c.call x = .ok (c1, r) ∧ c1.run xs = .ok (c', rs') ∧ rs = r :: rs' := by
  rw [Context.run]
  constructor
  · intro h
    rw [except_bind_ok] at h
    obtain ⟨⟨c1, r⟩, h1, h⟩ := h
    rw [except_bind_ok] at h
    obtain ⟨⟨c2, rs'⟩, h2, h⟩ := h
    cases h
    exact ⟨c1, r, rs', h1, h2, rfl⟩
  · rintro ⟨c1, r, rs', h1, h2, rfl⟩
    simp only [h1, h2, bind, Except.bind]

theorem ctxRun_append {c c' : Context L} {xs ys : List (Call L)} {rs : List (Reply L)} :
    c.run (xs ++ ys) = .ok (c', rs) ↔
      ∃ c1 r1 r2, c.run xs = .ok (c1, r1) ∧ c1.run ys = .ok (c', r2) ∧ rs = r1 ++ r2 := by
  induction xs generalizing c rs with
  | nil => simp [Context.run]
  | cons x xs ih =>
    rw [List.cons_append, ctxRun_cons]
    constructor
    · rintro ⟨c1, r, rs', h1, h2, rfl⟩
      obtain ⟨c2, r1, r2, h3, h4, rfl⟩ := ih.mp h2
      exact ⟨c2, r :: r1, r2, ctxRun_cons.mpr ⟨c1, r, r1, h1, h3, rfl⟩, h4, rfl⟩
    · rintro ⟨c2, r1, r2, h3, h4, rfl⟩
      obtain ⟨c1, r, r1', h5, h6, rfl⟩ := ctxRun_cons.mp h3
      exact ⟨c1, r, r1' ++ r2, h5, ih.mpr ⟨c2, r1', r2, h6, h4, rfl⟩, rfl⟩

theorem continues_note (N : Nat) (s : Sheet L) (x : Call L) : Continues s (s.note N x) := by
  cases x <;> exact ⟨by simp [Sheet.note], by simp [Sheet.note]⟩

theorem continues_notes (N : Nat) (xs : List (Call L)) : ∀ s : Sheet L, Continues s (s.notes N xs) := by
  induction xs with
  | nil => intro s; exact .refl s
  | cons x xs ih => intro s; exact (continues_note N s x).trans (ih _)

/-- One building call. -/
theorem fits_call {c c' : Context L} {s : Sheet L} {x : Call L} {r : Reply L} (h : Fits c.graph s) (hb : Builds x)
    (hc : c.call x = .ok (c', r)) :
    Fits c'.graph (s.note c.N x) ∧ c'.N = c.N ∧ c'.dest = c.dest ∧ c'.input = c.input ∧ handles r = s.gives x := by
  cases x with
  | mono n =>
    cases hc
    obtain ⟨h1, h2⟩ := fits_addNode h (freshData c.N 1 n)
    exact ⟨h2, rfl, rfl, rfl, congrArg (fun i => [i]) h1⟩
  | stereo n =>
    cases hc
    obtain ⟨h1, h2⟩ := fits_addNode h (freshData c.N 2 n)
    exact ⟨h2, rfl, rfl, rfl, congrArg (fun i => [i]) h1⟩
  | multi chan n =>
    cases hc
    obtain ⟨h1, h2⟩ := fits_addNode h (freshData c.N chan n)
    exact ⟨h2, rfl, rfl, rfl, congrArg (fun i => [i]) h1⟩
  | connect a b =>
    rw [Context.call, except_bind_ok] at hc
    obtain ⟨g, hg, hc⟩ := hc
    cases hc
    exact ⟨(fits_wire h hg).2.2, rfl, rfl, rfl, rfl⟩
  | connectAt a b pos =>
    rw [Context.call, except_bind_ok] at hc
    obtain ⟨g, hg, hc⟩ := hc
    cases hc
    exact ⟨(fits_wire h hg).2.2, rfl, rfl, rfl, rfl⟩
  | chain l =>
    rw [Context.call, except_bind_ok] at hc
    obtain ⟨g, hg, hc⟩ := hc
    cases hc
    exact ⟨fits_chain h hg, rfl, rfl, rfl, rfl⟩
  | chainBoxed ds =>
    obtain ⟨h1, h2⟩ := fits_addAll (ds := ds) h
    simp only [Context.call] at hc
    rw [except_bind_ok] at hc
    obtain ⟨g, hg, hc⟩ := hc
    cases hc
    rw [h1] at hg
    exact ⟨fits_chain h2 hg, rfl, rfl, rfl, h1⟩
  | addNodeChain ds => exact hb.elim
  | sendMsg i m =>
    rw [Context.call, except_bind_ok] at hc
    obtain ⟨g, hg, hc⟩ := hc
    cases hc
    exact ⟨fits_sendTo h hg, rfl, rfl, rfl, rfl⟩
  | sendAll m =>
    rw [Context.call, except_bind_ok] at hc
    obtain ⟨g, hg, hc⟩ := hc
    cases hc
    exact ⟨fits_sendAll h hg, rfl, rfl, rfl, rfl⟩
  | nextBlock ho => exact hb.elim
  | reset => exact hb.elim
  | tag name i =>
    cases hc
    exact ⟨h, rfl, rfl, rfl, rfl⟩

theorem call_total {c : Context L} {s : Sheet L} {x : Call L} (h : Fits c.graph s) (hb : Builds x)
    (hk : ∀ i ∈ mentions x, i < s.nodes.length) (hd : Deliverable (s.note c.N x)) : ∃ c' r, c.call x = .ok (c', r) := by
  cases x with
  | mono n => exact ⟨_, _, rfl⟩
  | stereo n => exact ⟨_, _, rfl⟩
  | multi chan n => exact ⟨_, _, rfl⟩
  | connect a b =>
    obtain ⟨g, hg⟩ := wire_total h (hk a (by simp [mentions])) (hk b (by simp [mentions])) hd
    exact ⟨_, _, by rw [Context.call, connect_eq, hg]; rfl⟩
  | connectAt a b pos =>
    obtain ⟨g, hg⟩ := wire_total h (hk a (by simp [mentions])) (hk b (by simp [mentions])) hd
    exact ⟨_, _, by rw [Context.call, connectWithOrder_eq, hg]; rfl⟩
  | chain l =>
    obtain ⟨g, hg⟩ := chain_total h (fun w hw => ⟨hk _ (List.mem_append_left _ (List.mem_map_of_mem hw)),
      hk _ (List.mem_append_right _ (List.mem_map_of_mem hw))⟩) hd
    exact ⟨_, _, by rw [Context.call, hg]; rfl⟩
  | chainBoxed ds =>
    obtain ⟨h1, h2⟩ := fits_addAll (ds := ds) h
    obtain ⟨g, hg⟩ := chain_total (l := List.range' s.nodes.length ds.length) h2 (fun w hw => by
      obtain ⟨ha, hb⟩ := mem_links hw
      simp only [List.mem_range'_1] at ha hb
      simp only [List.length_append]
      omega) hd
    refine ⟨{ c with graph := g }, .nodes (addAll c.graph ds).2, ?_⟩
    simp only [Context.call]
    rw [h1, hg]
    rfl
  | addNodeChain ds => exact hb.elim
  | sendMsg i m =>
    obtain ⟨g, hg⟩ := sendTo_total h (hk i (by simp [mentions])) hd
    exact ⟨_, _, by rw [Context.call, hg]; rfl⟩
  | sendAll m =>
    obtain ⟨g, hg⟩ := sendAll_total h hd
    exact ⟨_, _, by rw [Context.call, hg]; rfl⟩
  | nextBlock ho => exact hb.elim
  | reset => exact hb.elim
  | tag name i => exact ⟨_, _, rfl⟩

/-- Building calls. -/
theorem fits_run {xs : List (Call L)} : ∀ {c c' : Context L} {s : Sheet L} {rs : List (Reply L)}, Fits c.graph s →
    (∀ x ∈ xs, Builds x) → c.run xs = .ok (c', rs) →
    Fits c'.graph (s.notes c.N xs) ∧ c'.N = c.N ∧ c'.dest = c.dest ∧ c'.input = c.input := by
  induction xs with
  | nil => intro c c' s rs h _ hr; cases hr; exact ⟨h, rfl, rfl, rfl⟩
  | cons x xs ih =>
    intro c c' s rs h hb hr
    obtain ⟨c1, r, rs', h1, h2, rfl⟩ := ctxRun_cons.mp hr
    obtain ⟨hf, hN, hd, hi, _⟩ := fits_call h (hb x (.head _)) h1
    obtain ⟨hf', hN', hd', hi'⟩ := ih hf (fun y hy => hb y (.tail _ hy)) h2
    rw [hN] at hf'
    exact ⟨hf', hN'.trans hN, hd'.trans hd, hi'.trans hi⟩

theorem ctxRun_total {xs : List (Call L)} : ∀ {c : Context L} {s : Sheet L}, Fits c.graph s → (∀ x ∈ xs, Builds x) →
    Known c.N s xs → Deliverable (s.notes c.N xs) → ∃ c' rs, c.run xs = .ok (c', rs) := by
  induction xs with
  | nil => intro c s _ _ _ _; exact ⟨c, [], rfl⟩
  | cons x xs ih =>
    intro c s h hb hk hd
    obtain ⟨c1, r, h1⟩ := call_total h (hb x (.head _)) hk.1 (hd.mono (continues_notes c.N xs _))
    obtain ⟨hf, hN, _⟩ := fits_call h (hb x (.head _)) h1
    obtain ⟨c2, rs, h2⟩ := ih (c := c1) hf (fun y hy => hb y (.tail _ hy)) (by rw [hN]; exact hk.2) (by rw [hN]; exact hd)
    exact ⟨c2, r :: rs, ctxRun_cons.mpr ⟨c1, r, rs, h1, h2, rfl⟩⟩

end Verif

namespace Verif
open Spec Context
variable {L : Lang}

/-! ### Every context that can be reached -/

/-- What holds of the graph of any context. -/
structure Tidy (g : Graph L.Data) : Prop where
  free : g.free = []
  full : ∀ i, i < g.slots.length → ∃ d, g.node? i = some d
  ends : ∀ w ∈ g.edges, w.1 < g.slots.length ∧ w.2 < g.slots.length

theorem Fits.tidy {g : Graph L.Data} {s : Sheet L} (h : Fits g s) : Tidy g := by
  refine ⟨h.free, fun i hi => h.lt_iff.mpr (by rw [← h.len]; exact hi), fun w hw => ?_⟩
  rw [h.wires, List.mem_reverse] at hw
  rw [h.len]
  exact h.ends w hw

/-- The sheet that shows a graph as it is. -/
theorem Tidy.sheet {g : Graph L.Data} (h : Tidy g) : ∃ s : Sheet L, Fits g s ∧ s.mail = [] := by
  have hs : ∃ ds : List L.Data, g.slots = ds.map some := by
    refine ⟨g.slots.filterMap id, ?_⟩
    have : ∀ l : List (Option L.Data), (∀ x ∈ l, x.isSome) → l = (l.filterMap id).map some := by
      intro l
      induction l with
      | nil => intro _; rfl
      | cons a l ih =>
        intro hl
        cases a with
        | none => simpa using hl none (.head _)
        | some a =>
          have := ih (fun x hx => hl x (.tail _ hx))
          simpa using this
    apply this
    intro x hx
    obtain ⟨i, hi, rfl⟩ := List.mem_iff_getElem.mp hx
    obtain ⟨d, hd⟩ := h.full i hi
    rw [Graph.node?_eq_some, List.getElem?_eq_getElem hi] at hd
    cases hd' : g.slots[i] with
    | none => rw [hd'] at hd; cases hd
    | some _ => rfl
  obtain ⟨ds, hds⟩ := hs
  refine ⟨⟨ds, g.edges.reverse, []⟩, ⟨h.free, by simp [hds], ?_, by simp, by simp, ?_⟩, rfl⟩
  · intro i d hd
    exact ⟨d.node, .nil _, Graph.node?_eq_some.mpr (by rw [hds, List.getElem?_map]; simp only [hd]; rfl)⟩
  · intro w hw
    have := h.ends w (List.mem_reverse.mp hw)
    rw [hds, List.length_map] at this
    exact this

theorem fits_edgesOnly {l : List Nat} : ∀ {g g' : Graph L.Data} {s : Sheet L}, Fits g s → edgesOnly g l = .ok g' →
    Fits g' { s with wires := s.wires ++ links l } := by
  induction l with
  | nil => intro g g' s h hc; cases hc; simpa [links] using h
  | cons a l ih =>
    cases l with
    | nil => intro g g' s h hc; cases hc; simpa [links] using h
    | cons b l =>
      intro g g' s h hc
      rw [edgesOnly, except_bind_ok] at hc
      obtain ⟨g1, h1, h2⟩ := hc
      obtain ⟨ha, hb, _⟩ := addEdge_live h1
      obtain ⟨he, hf⟩ := fits_edge h (h.lt_iff.mp ha) (h.lt_iff.mp hb)
      rw [he] at h1
      cases h1
      have := ih hf h2
      simpa only [links_cons, List.append_assoc, List.singleton_append] using this

theorem fits_new (N channels : Nat) : Fits (Context.new L N channels).graph
    ⟨[freshData N channels L.sum2, freshData N channels L.pass], [], []⟩ := by
  refine ⟨rfl, rfl, ?_, rfl, by simp, by simp⟩
  intro i d hd
  match i with
  | 0 => cases hd; exact ⟨_, .nil _, rfl⟩
  | 1 => cases hd; exact ⟨_, .nil _, rfl⟩
  | i + 2 => cases hd

theorem tidy_process {ho : HashOrder} {g g' : Graph L.Data} {dest : Nat} (h : Tidy g)
    (hp : process L.proc ho g dest = .ok g') : Tidy g' := by
  have hs := sameShape_process hp
  refine ⟨hs.free.trans h.free, fun i hi => (hs.live i).mpr (h.full i (by rw [← hs.len]; exact hi)), ?_⟩
  rw [hs.edges, hs.len]
  exact h.ends

/-- What holds of any context. -/
structure Sound (c : Context L) : Prop where
  tidy : Tidy c.graph
  dest : c.dest = 0
  input : c.input = 1
  two : 2 ≤ c.graph.slots.length

theorem sound_new (N channels : Nat) : Sound (Context.new L N channels) :=
  ⟨(fits_new N channels).tidy, rfl, rfl, Nat.le_refl 2⟩

theorem sound_call {c c' : Context L} {x : Call L} {r : Reply L} (h : Sound c) (hc : c.call x = .ok (c', r)) :
    Sound c' ∧ c'.N = c.N ∧ c'.channels = c.channels := by
  obtain ⟨s, hs, _⟩ := h.tidy.sheet
  have hlen : ∀ {g : Graph L.Data} {s' : Sheet L}, Fits g s' → s.nodes <+: s'.nodes → 2 ≤ g.slots.length := by
    intro g s' hf hp
    rw [hf.len]
    have := hp.length_le
    have h2 := h.two
    rw [hs.len] at h2
    omega
  cases x with
  | addNodeChain ds =>
    obtain ⟨h1, h2⟩ := fits_addAll (ds := ds) hs
    simp only [Context.call] at hc
    rw [except_bind_ok] at hc
    obtain ⟨g, hg, hc⟩ := hc
    cases hc
    have hf := fits_edgesOnly h2 hg
    exact ⟨⟨hf.tidy, h.dest, h.input, hlen hf (List.prefix_append _ _)⟩, rfl, rfl⟩
  | nextBlock ho =>
    rw [Context.call, except_bind_ok] at hc
    obtain ⟨g, hg, hc⟩ := hc
    split at hc
    · cases hc
    · cases hc
      exact ⟨⟨tidy_process h.tidy hg, h.dest, h.input, by rw [(sameShape_process hg).len]; exact h.two⟩, rfl, rfl⟩
  | reset =>
    cases hc
    exact ⟨sound_new c.N c.channels |> fun h => ⟨h.tidy, h.dest, h.input, h.two⟩, rfl, rfl⟩
  | _ =>
    obtain ⟨hf, hN, hd, hi, _⟩ := fits_call hs (by trivial) hc
    refine ⟨⟨hf.tidy, hd.trans h.dest, hi.trans h.input, hlen hf (continues_note _ _ _).1⟩, hN, ?_⟩
    first
    | (cases hc; rfl)
    | (simp only [Context.call] at hc
       rw [except_bind_ok] at hc
       obtain ⟨g, hg, hc⟩ := hc
       cases hc
       rfl)

theorem sound_run {xs : List (Call L)} : ∀ {c c' : Context L} {rs : List (Reply L)}, Sound c → c.run xs = .ok (c', rs) →
    Sound c' ∧ c'.N = c.N ∧ c'.channels = c.channels := by
  induction xs with
  | nil => intro c c' rs h hr; cases hr; exact ⟨h, rfl, rfl⟩
  | cons x xs ih =>
    intro c c' rs h hr
    obtain ⟨c1, r, rs', h1, h2, rfl⟩ := ctxRun_cons.mp hr
    obtain ⟨ha, hb, hd⟩ := sound_call h h1
    obtain ⟨ha', hb', hd'⟩ := ih ha h2
    exact ⟨ha', hb'.trans hb, hd'.trans hd⟩

theorem Spec.Made.sound {c : Context L} (h : Made c) : Sound c := by
  obtain ⟨N, ch, xs, rs, h⟩ := h
  exact (sound_run (sound_new N ch) h).1

/-- A sheet that shows the context fits its graph. -/
theorem Sound.fits {c : Context L} (h : Sound c) {s : Sheet L} (hs : Shows c s) : Fits c.graph s := by
  refine ⟨h.tidy.free, ?_, hs.node, hs.wires, hs.mail, hs.ends⟩
  apply Nat.le_antisymm
  · by_contra hlt
    obtain ⟨d, hd⟩ := h.tidy.full s.nodes.length (by omega)
    rw [hs.only _ (Nat.le_refl _)] at hd
    cases hd
  · by_contra hlt
    obtain ⟨n, _, hn⟩ := hs.node c.graph.slots.length _ (List.getElem?_eq_getElem (by omega))
    exact absurd (Graph.node?_lt hn) (Nat.lt_irrefl _)

/-! ### Nodes on the side -/

/-- The first graph is the part of the second that consists of its oldest nodes. -/
structure Embeds (g1 g2 : Graph L.Data) : Prop where
  le : g1.slots.length ≤ g2.slots.length
  node : ∀ i, i < g1.slots.length → g2.node? i = g1.node? i
  inc : ∀ i, i < g1.slots.length → g2.incoming i = g1.incoming i
  closed : ∀ i k, k ∈ g1.incoming i → k < g1.slots.length

theorem dfs_agree (n1 n2 : Nat → List Nat) (b1 b2 : Nat) (hb : b1 ≤ b2) (heq : ∀ i, i < b1 → n2 i = n1 i)
    (hcl : ∀ i k, k ∈ n1 i → k < b1) (stack disc fin : List Nat) :
    (∀ x ∈ stack, x < b1) → dfsPostOrder n2 b2 stack disc fin = dfsPostOrder n1 b1 stack disc fin := by
  fun_induction dfsPostOrder n1 b1 stack disc fin with
  | case1 => intro _; rw [dfsPostOrder]
  | case2 nx st disc fin hd hf ih =>
    intro h
    rw [dfsPostOrder]
    simp only [hd, hf, if_true]
    exact ih (fun x hx => h x (.tail _ hx))
  | case3 nx st disc fin hd hf r0 hr0 ih =>
    intro h
    rw [dfsPostOrder]
    simp only [hd, hf, if_true, if_false]
    rw [ih (fun x hx => h x (.tail _ hx)), hr0]
  | case4 nx st disc fin hd hf e he ih =>
    intro h
    rw [dfsPostOrder]
    simp only [hd, hf, if_true, if_false]
    rw [ih (fun x hx => h x (.tail _ hx)), he]
  | case5 nx st disc fin hd hlt ih =>
    intro h
    rw [dfsPostOrder]
    rw [if_neg hd, dif_pos (Nat.lt_of_lt_of_le hlt hb), heq nx hlt]
    apply ih
    intro x hx
    rcases List.mem_append.mp hx with hx | hx
    · rw [List.mem_reverse, List.mem_filter] at hx
      exact hcl nx x hx.1
    · rcases List.mem_cons.mp hx with rfl | hx
      · exact hlt
      · exact h x (.tail _ hx)
  | case6 nx st disc fin hd hlt =>
    intro h
    exact absurd (h nx (.head _)) hlt

theorem dfs_lt (nbrs : Nat → List Nat) (b : Nat) (hcl : ∀ i k, k ∈ nbrs i → k < b) (stack disc fin : List Nat) :
    (∀ x ∈ stack, x < b) → ∀ r, dfsPostOrder nbrs b stack disc fin = .ok r → ∀ x ∈ r, x < b := by
  fun_induction dfsPostOrder nbrs b stack disc fin with
  | case1 => intro _ r h; cases h; simp
  | case2 nx st disc fin hd hf ih => intro h; exact ih (fun x hx => h x (.tail _ hx))
  | case3 nx st disc fin hd hf r0 hr0 ih =>
    intro h r hr
    cases hr
    intro x hx
    rcases List.mem_cons.mp hx with rfl | hx
    · exact h _ (.head _)
    · exact ih (fun x hx => h x (.tail _ hx)) r0 hr0 x hx
  | case4 nx st disc fin hd hf e he ih => intro h r hr; cases hr
  | case5 nx st disc fin hd hlt ih =>
    intro h
    apply ih
    intro x hx
    rcases List.mem_append.mp hx with hx | hx
    · rw [List.mem_reverse, List.mem_filter] at hx
      exact hcl nx x hx.1
    · rcases List.mem_cons.mp hx with rfl | hx
      · exact hlt
      · exact h x (.tail _ hx)
  | case6 nx st disc fin hd hlt => intro h r hr; cases hr

/-- Both fail, or both succeed with graphs in the same relation. -/
def Together (r1 r2 : Except Panic (Graph L.Data)) : Prop :=
  (∃ e, r1 = .error e ∧ r2 = .error e) ∨ ∃ g1 g2, r1 = .ok g1 ∧ r2 = .ok g2 ∧ Embeds g1 g2

theorem together_processNode {ho : HashOrder} {g1 g2 : Graph L.Data} (h : Embeds g1 g2) {n : Nat} (hn : n < g1.slots.length) :
    Together (processNode L.proc ho g1 n) (processNode L.proc ho g2 n) := by
  have hg : gatherInputs ho g2 n = gatherInputs ho g1 n := by
    unfold gatherInputs
    rw [h.inc n hn]
    have hk : ∀ k, k ∈ ho.ord n (dedupKeys ((g1.incoming n).filter (fun k => k != n))) → g2.node? k = g1.node? k := by
      intro k hk
      rw [(ho.perm n _).mem_iff, mem_dedupKeys, List.mem_filter] at hk
      exact h.node k (h.closed n k hk.1)
    generalize ho.ord n _ = keys at hk ⊢
    simp only
    induction keys with
    | nil => rfl
    | cons k keys ihk =>
      simp only [List.mapM_cons]
      rw [hk k (by simp), ihk (fun k' hk' => hk k' (List.mem_cons_of_mem _ hk'))]
  unfold processNode
  rw [hg]
  cases gatherInputs ho g1 n with
  | error e => exact .inl ⟨e, rfl, rfl⟩
  | ok ins =>
    simp only [Graph.modify, h.node n hn]
    cases g1.node? n with
    | none => exact .inl ⟨_, rfl, rfl⟩
    | some d =>
      simp only
      cases L.proc d.node ins d.buffers with
      | error e => exact .inl ⟨e, rfl, rfl⟩
      | ok r =>
        refine .inr ⟨_, _, rfl, rfl, ?_, ?_, ?_, ?_⟩
        · simpa using h.le
        · intro i hi
          simp only [List.length_set] at hi
          rw [Graph.node?_set hn, Graph.node?_set (Nat.lt_of_lt_of_le hn h.le), h.node i hi]
        · intro i hi
          simp only [List.length_set] at hi
          exact h.inc i hi
        · intro i k hk
          simp only [List.length_set]
          exact h.closed i k hk

theorem together_fold {ho : HashOrder} {order : List Nat} : ∀ {g1 g2 : Graph L.Data}, Embeds g1 g2 →
    (∀ n ∈ order, n < g1.slots.length) →
    Together (order.foldlM (processNode L.proc ho) g1) (order.foldlM (processNode L.proc ho) g2) := by
  induction order with
  | nil => intro g1 g2 h _; exact .inr ⟨g1, g2, rfl, rfl, h⟩
  | cons n order ih =>
    intro g1 g2 h hn
    rw [List.foldlM_cons, List.foldlM_cons]
    rcases together_processNode (ho := ho) h (hn n (.head _)) with ⟨e, h1, h2⟩ | ⟨a, b, h1, h2, h3⟩
    · rw [h1, h2]
      exact .inl ⟨e, rfl, rfl⟩
    · rw [h1, h2]
      have hl : a.slots.length = g1.slots.length := (processNode_ok h1).choose_spec.choose_spec.choose_spec.2.2.2.2.2.1
      exact ih h3 (fun m hm => by rw [hl]; exact hn m (.tail _ hm))

theorem together_process {ho : HashOrder} {g1 g2 : Graph L.Data} (h : Embeds g1 g2) {dest : Nat} (hd : dest < g1.slots.length) :
    Together (process L.proc ho g1 dest) (process L.proc ho g2 dest) := by
  have hst : ∀ x ∈ [dest], x < g1.slots.length := by simpa using hd
  unfold process
  rw [dfs_agree g1.incoming g2.incoming g1.slots.length g2.slots.length h.le h.inc h.closed [dest] [] [] hst]
  cases hr : dfsPostOrder g1.incoming g1.slots.length [dest] [] [] with
  | error e => exact .inl ⟨e, rfl, rfl⟩
  | ok order => exact together_fold h (dfs_lt _ _ h.closed _ _ _ hst order hr)

theorem embeds_refl {g : Graph L.Data} (h : Tidy g) : Embeds g g :=
  ⟨Nat.le_refl _, fun _ _ => rfl, fun _ _ => rfl, fun _ _ hk => (h.ends _ (Graph.mem_incoming.mp hk)).1⟩

/-- What a call on the side adds to the sheet. -/
theorem note_aside {N k : Nat} {s : Sheet L} {x : Call L} (hx : Aside k x) (hk : k ≤ s.nodes.length) :
    ∃ ds ws ms, s.note N x = ⟨s.nodes ++ ds, s.wires ++ ws, s.mail ++ ms⟩ ∧ (∀ w ∈ ws, k ≤ w.2) ∧ ∀ p ∈ ms, k ≤ p.1 := by
  cases x with
  | mono n => exact ⟨[freshData N 1 n], [], [], by simp [Sheet.note], by simp, by simp⟩
  | stereo n => exact ⟨[freshData N 2 n], [], [], by simp [Sheet.note], by simp, by simp⟩
  | multi chan n => exact ⟨[freshData N chan n], [], [], by simp [Sheet.note], by simp, by simp⟩
  | connect a b => exact ⟨[], [(a, b)], [(b, .index a)], by simp [Sheet.note], by simpa [Aside] using hx, by simpa [Aside] using hx⟩
  | connectAt a b pos =>
    exact ⟨[], [(a, b)], [(b, .indexOrder pos a)], by simp [Sheet.note], by simpa [Aside] using hx, by simpa [Aside] using hx⟩
  | chain l =>
    refine ⟨[], links l, (links l).map told, by simp [Sheet.note], hx, ?_⟩
    intro p hp
    obtain ⟨w, hw, rfl⟩ := List.mem_map.mp hp
    exact hx w hw
  | chainBoxed ds =>
    refine ⟨ds, links (List.range' s.nodes.length ds.length), (links (List.range' s.nodes.length ds.length)).map told,
      rfl, ?_, ?_⟩
    · intro w hw
      have := (mem_links hw).2
      simp only [List.mem_range'_1] at this
      omega
    · intro p hp
      obtain ⟨w, hw, rfl⟩ := List.mem_map.mp hp
      have := (mem_links hw).2
      simp only [List.mem_range'_1] at this
      simp only [told]
      omega
  | sendMsg i m => exact ⟨[], [], [(i, m)], by simp [Sheet.note], by simp, by simpa [Aside] using hx⟩
  | tag name i => exact ⟨[], [], [], by simp [Sheet.note], by simp, by simp⟩
  | addNodeChain ds => exact hx.elim
  | sendAll m => exact hx.elim
  | nextBlock ho => exact hx.elim
  | reset => exact hx.elim

theorem Spec.Aside.builds {k : Nat} {x : Call L} (hx : Aside k x) : Builds x := by
  cases x <;> trivial

theorem embeds_call {g : Graph L.Data} {c c' : Context L} {x : Call L} {r : Reply L} (h : Embeds g c.graph) (hs : Sound c)
    (hx : Aside g.slots.length x) (hc : c.call x = .ok (c', r)) : Embeds g c'.graph := by
  obtain ⟨s, hf, hm⟩ := hs.tidy.sheet
  have hk : g.slots.length ≤ s.nodes.length := by rw [← hf.len]; exact h.le
  obtain ⟨hf', _⟩ := fits_call hf hx.builds hc
  obtain ⟨ds, ws, ms, he, hw, hms⟩ := note_aside (N := c.N) (s := s) hx hk
  rw [he] at hf'
  refine ⟨?_, ?_, ?_, h.closed⟩
  · rw [hf'.len]
    simp only [List.length_append]
    omega
  · intro i hi
    rw [← h.node i hi]
    have hil : i < s.nodes.length := Nat.lt_of_lt_of_le hi hk
    obtain ⟨n, hn, hg⟩ := hf.node i _ (List.getElem?_eq_getElem hil)
    obtain ⟨n', hn', hg'⟩ := hf'.node i s.nodes[i] (by
      rw [List.getElem?_append_left hil]; exact List.getElem?_eq_getElem hil)
    rw [letters_append] at hn'
    have : ms.filter (fun p => p.1 == i) = [] := by
      rw [List.filter_eq_nil_iff]
      intro p hp heq
      have := hms p hp
      simp only [beq_iff_eq] at heq
      omega
    rw [this, List.map_nil, List.append_nil] at hn'
    rw [hg, hg', reads_fun hn hn']
  · intro i hi
    rw [← h.inc i hi]
    unfold Graph.incoming
    rw [hf'.wires, hf.wires, List.reverse_append, List.filter_append]
    have : ws.reverse.filter (fun e => e.2 == i) = [] := by
      rw [List.filter_eq_nil_iff]
      intro w hw' heq
      have := hw w (List.mem_reverse.mp hw')
      simp only [beq_iff_eq] at heq
      omega
    rw [this, List.nil_append]

theorem aside_run {zs : List (Call L)} : ∀ {c1 c2 c2' : Context L} {rs : List (Reply L)}, Embeds c1.graph c2.graph → Sound c1 →
    Sound c2 → (∀ z ∈ zs, Aside c1.graph.slots.length z ∨ Renders z) → c2.run zs = .ok (c2', rs) →
    ∃ c1' bs, c1.run (zs.filter (fun | .nextBlock _ => true | _ => false)) = .ok (c1', bs) ∧ sounds bs = sounds rs := by
  induction zs with
  | nil => intro c1 c2 c2' rs _ _ _ _ hr; cases hr; exact ⟨c1, [], rfl, rfl⟩
  | cons z zs ih =>
    intro c1 c2 c2' rs h hs1 hs2 hz hr
    obtain ⟨c3, r, rs', h1, h2, rfl⟩ := ctxRun_cons.mp hr
    rcases hz z (.head _) with ha | hp
    · have h3 := embeds_call h hs2 ha h1
      obtain ⟨c1', bs, h4, h5⟩ := ih h3 hs1 (sound_call hs2 h1).1 (fun y hy => hz y (.tail _ hy)) h2
      obtain ⟨s, hf, _⟩ := hs2.tidy.sheet
      refine ⟨c1', bs, ?_, ?_⟩
      · cases z <;> first | exact h4 | exact ha.elim
      · rw [h5]
        cases z <;> first | exact ha.elim | (cases h1; rfl) |
          (simp only [Context.call] at h1
           rw [except_bind_ok] at h1
           obtain ⟨g, _, h1⟩ := h1
           cases h1
           rfl)
    · cases z with
      | nextBlock ho =>
        rw [Context.call, except_bind_ok] at h1
        obtain ⟨g, hg, h1⟩ := h1
        have hdest : c2.dest = c1.dest := by rw [hs1.dest, hs2.dest]
        rw [hdest] at h1 hg
        have hd : c1.dest < c1.graph.slots.length := by rw [hs1.dest]; have := hs1.two; omega
        rcases together_process (ho := ho) h hd with ⟨e, _, h4⟩ | ⟨g1, g2, h3, h4, h5⟩
        · rw [hg] at h4; cases h4
        · rw [hg] at h4
          cases h4
          have hlen := (sameShape_process h3).len
          split at h1
          · cases h1
          · rename_i d hd2
            cases h1
            rw [← hdest] at h2
            have hd1 : g1.node? c1.dest = some d := by
              rw [← h5.node c1.dest (by rw [hlen]; exact hd)]
              exact hd2
            have hc1 : c1.call (.nextBlock ho) = .ok ({ c1 with graph := g1 }, .sound d.buffers) := by
              simp only [Context.call, h3, hd1, bind, Except.bind]
            have hc2 : c2.call (.nextBlock ho) = .ok ({ c2 with graph := g }, .sound d.buffers) := by
              simp only [Context.call, hdest, hg, hd2, bind, Except.bind]
            obtain ⟨c1', bs, h6, h7⟩ := ih (c1 := { c1 with graph := g1 }) (c2 := { c2 with graph := g }) h5
              (sound_call hs1 hc1).1 (sound_call hs2 hc2).1 (fun y hy => by rw [hlen]; exact hz y (.tail _ hy)) h2
            refine ⟨c1', _ :: bs, ctxRun_cons.mpr ⟨_, _, bs, hc1, h6, rfl⟩, ?_⟩
            simp only [sounds, List.filterMap_cons] at h7 ⊢
            rw [h7]
      | _ => exact hp.elim

end Verif
