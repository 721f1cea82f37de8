import Verif.Lemmas.KeepOrder

/-! When the drums and the small synthesizers do not panic (helpers for C37). -/

namespace Verif
open Spec Props

/-- What holds of the node number `i` inside a compound node. -/
structure InnerOk (m : Libm) (N : Nat) (E : List (Nat × Nat)) (i : Nat) (d : NodeData Prim Buf) :
    Prop where
  safe : d.node.Safe m
  fits : ∀ k, d.node.fits k
  takes : ∀ p v, TimeOk v → d.node.takesNumber p v
  sz : Sz N d.buffers
  ne : d.buffers ≠ []
  two : d.node.twoSided → 2 ≤ d.buffers.length
  dest : i = 0 → 2 ≤ d.buffers.length
  ord : d.node.keepsOrder = true → ∀ x, x ∈ d.node.order ↔ (x, i) ∈ E

/-- What holds of the graph inside a compound node. -/
structure PatchOk (m : Libm) (N : Nat) (g : Patch) : Prop where
  free : g.free = []
  full : ∀ i, i < g.slots.length → ∃ d, g.node? i = some d
  size : 2 ≤ g.slots.length
  live : EdgesLive g
  self : ∀ a, (a, a) ∉ g.edges
  inner : All (InnerOk m N g.edges) g

/-- A node that may be put into a compound node. -/
structure Part (m : Libm) (n : Prim) : Prop where
  safe : n.Safe m
  fits : ∀ k, n.fits k
  takes : ∀ p v, TimeOk v → n.takesNumber p v
  one : ¬ n.twoSided
  empty : n.order = []

variable {m : Libm} {N : Nat}

theorem patchOk_new : PatchOk m N (Patch.new N) := by
  have hs : ∀ n : Prim, Sz N (fresh N 2 n).buffers := fun n => fresh_sz (n := n)
  refine ⟨rfl, ?_, Nat.le_refl 2, ?_, ?_, ?_⟩
  · intro i hi
    have hi : i < 2 := hi
    have : i = 0 ∨ i = 1 := by omega
    obtain rfl | rfl := this <;> exact ⟨_, rfl⟩
  · intro e he
    cases he
  · intro a ha
    cases ha
  · intro i d hd
    have hi : i < 2 := Graph.node?_lt hd
    have : i = 0 ∨ i = 1 := by omega
    obtain rfl | rfl := this
    · cases hd
      exact ⟨trivial, fun _ => trivial, fun _ _ _ => trivial, hs _, by simp [fresh], fun _ => by simp [fresh],
        fun _ => by simp [fresh], fun h => by cases h⟩
    · cases hd
      exact ⟨trivial, fun _ => trivial, fun _ _ _ => trivial, hs _, by simp [fresh], fun _ => by simp [fresh],
        fun _ => by simp [fresh], fun h => by cases h⟩

theorem patchOk_add {g : Patch} {ch : Nat} {n : Prim} (hg : PatchOk m N g) (hn : Part m n)
    (hc : 1 ≤ ch) : PatchOk m N (g.addNode (fresh N ch n)).1 := by
  have e : (g.addNode (fresh N ch n)).1 = { g with slots := g.slots ++ [some (fresh N ch n)] } := by
    unfold Graph.addNode
    rw [hg.free]
  have hn? : ∀ i, Graph.node? { g with slots := g.slots ++ [some (fresh N ch n)] } i =
      if i = g.slots.length then some (fresh N ch n) else g.node? i := by
    intro i
    unfold Graph.node?
    by_cases h : i < g.slots.length
    · rw [List.getElem?_append_left h, if_neg (by omega)]
    · by_cases h2 : i = g.slots.length
      · subst h2
        rw [if_pos rfl]
        simp
      · rw [if_neg h2]
        rw [List.getElem?_eq_none (by simp; omega), List.getElem?_eq_none (by omega)]
  rw [e]
  have hsz := hg.size
  have hlt : ∀ {i d}, g.node? i = some d → i ≠ g.slots.length := fun h => by
    have := Graph.node?_lt h
    omega
  refine ⟨hg.free, ?_, ?_, ?_, hg.self, ?_⟩
  · intro i hi
    rw [hn?]
    by_cases h : i = g.slots.length
    · exact ⟨_, if_pos h⟩
    · rw [if_neg h]
      apply hg.full
      have : i < (g.slots ++ [some (fresh N ch n)]).length := hi
      rw [List.length_append] at this
      simp at this
      omega
  · show 2 ≤ (g.slots ++ [some (fresh N ch n)]).length
    rw [List.length_append]
    omega
  · intro x hx
    obtain ⟨⟨a, ha⟩, b, hb⟩ := hg.live x hx
    refine ⟨⟨a, ?_⟩, b, ?_⟩
    · rw [hn?, if_neg (hlt ha)]; exact ha
    · rw [hn?, if_neg (hlt hb)]; exact hb
  · intro i d hd
    rw [hn?] at hd
    by_cases h : i = g.slots.length
    · rw [if_pos h] at hd
      cases hd
      refine ⟨hn.safe, hn.fits, hn.takes, fresh_sz (n := n), ?_, fun h => absurd h hn.one, ?_, ?_⟩
      · show List.replicate ch _ ≠ []
        simp only [ne_eq, List.replicate_eq_nil_iff]
        omega
      · intro h0
        omega
      · intro _ x
        show x ∈ n.order ↔ _
        rw [hn.empty]
        simp only [List.not_mem_nil, false_iff]
        intro hx
        obtain ⟨_, b, hb⟩ := hg.live _ hx
        exact hlt hb h
    · rw [if_neg h] at hd
      exact hg.inner i d hd

theorem patchOk_nodes {l : List (Nat × Prim)} : ∀ {g : Patch}, PatchOk m N g →
    (∀ c, c ∈ l → 1 ≤ c.1 ∧ Part m c.2) → PatchOk m N (Patch.nodes N g l) := by
  induction l with
  | nil => intro g h _; exact h
  | cons a l ih =>
    intro g h hl
    have ha := hl a (by simp)
    exact ih (patchOk_add h ha.2 ha.1) (fun c hc => hl c (List.mem_cons_of_mem _ hc))

theorem nodes_length {l : List (Nat × Prim)} : ∀ {g : Patch}, g.free = [] →
    (Patch.nodes N g l).slots.length = g.slots.length + l.length := by
  induction l with
  | nil => intro g _; rfl
  | cons a l ih =>
    intro g h
    have e : (g.addNode (fresh N a.1 a.2)).1 =
        { g with slots := g.slots ++ [some (fresh N a.1 a.2)] } := by
      unfold Graph.addNode
      rw [h]
    have : Patch.nodes N g (a :: l) = Patch.nodes N (g.addNode (fresh N a.1 a.2)).1 l := rfl
    rw [this, e, ih (by exact h)]
    simp only [List.length_append, List.length_cons, List.length_nil]
    omega

theorem patchOk_connect {g g' : Patch} {a b : Nat} (hab : a ≠ b) (hg : PatchOk m N g)
    (h : Patch.connect m g a b = .ok g') :
    PatchOk m N g' ∧ g'.slots.length = g.slots.length := by
  unfold Patch.connect at h
  rw [except_bind_ok] at h
  obtain ⟨g1, h1, h2⟩ := h
  obtain ⟨rfl, hla, hlb⟩ := addEdge_ok h1
  unfold Patch.send at h2
  obtain ⟨d, d', k1, k2, k3, k4, k5, k6⟩ := Graph.modify_ok h2
  rw [except_bind_ok] at k2
  obtain ⟨n, hn, hd⟩ := k2
  cases hd
  have hN : ∀ j, Graph.node? { g with edges := (a, b) :: g.edges } j = g.node? j := fun _ => rfl
  have k3 : g'.edges = (a, b) :: g.edges := k3
  have hlive : ∀ j x, g.node? j = some x → ∃ y, g'.node? j = some y := by
    intro j x hx
    rw [k6]
    by_cases hj : b = j
    · exact ⟨_, if_pos hj⟩
    · rw [if_neg hj]
      exact ⟨x, hx⟩
  refine ⟨⟨k4.trans hg.free, ?_, ?_, ?_, ?_, ?_⟩, k5⟩
  · intro i hi
    rw [k5] at hi
    obtain ⟨x, hx⟩ := hg.full i hi
    exact hlive i x hx
  · rw [k5]
    exact hg.size
  · intro e he
    rw [k3] at he
    rcases List.mem_cons.mp he with rfl | he
    · obtain ⟨x, hx⟩ := hla
      obtain ⟨y, hy⟩ := hlb
      exact ⟨hlive _ x hx, hlive _ y hy⟩
    · obtain ⟨⟨x, hx⟩, y, hy⟩ := hg.live e he
      exact ⟨hlive _ x hx, hlive _ y hy⟩
  · intro x hx
    rw [k3] at hx
    rcases List.mem_cons.mp hx with h | h
    · cases h
      exact hab rfl
    · exact hg.self x h
  · rw [k3]
    intro i x hx
    rw [k6] at hx
    have hid := hg.inner b d k1
    by_cases hi : b = i
    · subst hi
      rw [if_pos rfl] at hx
      cases hx
      have hs := msgPrim_safe (g := .index a) trivial hn
      have hw := msgPrim_wiring (g := .index a) trivial hn
      refine ⟨hs.1 hid.safe, fun k => ?_, fun p v hv => ?_, hid.sz, hid.ne, fun h => ?_, hid.dest, ?_⟩
      · show n.fits k
        rw [hs.2.1]; exact hid.fits k
      · show n.takes (.setToNumber p v)
        rw [hs.2.2.2]; exact hid.takes p v hv
      · exact hid.two (by rw [← hs.2.2.1]; exact h)
      · intro hk x
        have hk : n.keepsOrder = true := hk
        rw [hw.1] at hk
        have ho := hw.2 hk
        have ho : d.node.order ++ [a] = n.order := by
          have : orderMsg true d.node.order (.index a) = .ok (d.node.order ++ [a]) := rfl
          rw [this] at ho
          exact Except.ok.inj ho
        show x ∈ n.order ↔ _
        rw [← ho, List.mem_append, hid.ord hk x, List.mem_singleton, List.mem_cons]
        simp only [Prod.mk.injEq, and_true]
        exact Or.comm
    · rw [if_neg hi] at hx
      have hix := hg.inner i x hx
      refine ⟨hix.safe, hix.fits, hix.takes, hix.sz, hix.ne, hix.two, hix.dest, fun hk y => ?_⟩
      rw [hix.ord hk y, List.mem_cons]
      constructor
      · exact Or.inr
      · rintro (h | h)
        · cases h
          exact absurd rfl hi
        · exact h

theorem patchOk_chain {l : List Nat} : ∀ {g g' : Patch}, l.Nodup → PatchOk m N g →
    Patch.chain m g l = .ok g' → PatchOk m N g' ∧ g'.slots.length = g.slots.length := by
  induction l with
  | nil => intro g g' _ hg h; cases h; exact ⟨hg, rfl⟩
  | cons a l ih =>
    intro g g' hl hg h
    cases l with
    | nil => cases h; exact ⟨hg, rfl⟩
    | cons b l =>
      simp only [Patch.chain, except_bind_ok] at h
      obtain ⟨g1, h1, h2⟩ := h
      rw [List.nodup_cons] at hl
      have hab : a ≠ b := fun h => hl.1 (by simp [h])
      obtain ⟨k1, k2⟩ := patchOk_connect hab hg h1
      obtain ⟨j1, j2⟩ := ih hl.2 k1 h2
      exact ⟨j1, j2.trans k2⟩

theorem patchOk_chains {l : List (List Nat)} : ∀ {g g' : Patch}, (∀ c, c ∈ l → c.Nodup) →
    PatchOk m N g → Patch.chains m g l = .ok g' →
    PatchOk m N g' ∧ g'.slots.length = g.slots.length := by
  induction l with
  | nil => intro g g' _ hg h; cases h; exact ⟨hg, rfl⟩
  | cons a l ih =>
    intro g g' hl hg h
    simp only [Patch.chains, except_bind_ok] at h
    obtain ⟨g1, h1, h2⟩ := h
    obtain ⟨k1, k2⟩ := patchOk_chain (hl a (by simp)) hg h1
    obtain ⟨j1, j2⟩ := ih (fun c hc => hl c (List.mem_cons_of_mem _ hc)) k1 h2
    exact ⟨j1, j2.trans k2⟩

/-- What holds of a compound node that cannot fail. -/
structure CompoundOk (m : Libm) (N : Nat) (c : Compound) : Prop where
  kind : c.kind ≠ .plate
  graph : PatchOk m N c.graph
  dest : c.dest = 0
  input : c.input = 2
  size : 3 ≤ c.graph.slots.length

theorem envperc_part {a d : Fl} (ha : secToSamples 44100 a ≤ 2 ^ 44)
    (hd : secToSamples 44100 d ≤ 2 ^ 44) : Part m (.envperc (EnvPerc.new a d 44100)) :=
  ⟨⟨(by norm_num : 44100 ≤ 2 ^ 24), ha, hd⟩, fun _ => trivial, fun _ _ hv _ => hv, fun h => h, rfl⟩

theorem dec_le (q : ℚ) (h : (secToSamples 44100 (dec q) ≤ 2 ^ 44) = true := by decide +kernel) :
    secToSamples 44100 (dec q) ≤ 2 ^ 44 := by simpa using h

theorem time_le {d : Fl} (h : TimeOk d) : secToSamples 44100 d ≤ 2 ^ 44 :=
  sec_le (by norm_num) h

/-- The nodes whose settings do not matter. -/
theorem plain_part {n : Prim} (h1 : n.Safe m := by trivial) (h2 : ∀ k, n.fits k := by intro; trivial)
    (h3 : ¬ n.twoSided := by exact fun h => h) (h4 : n.order = [] := by rfl)
    (h5 : ∀ p v, TimeOk v → n.takesNumber p v := by intros; trivial) : Part m n :=
  ⟨h1, h2, h5, h3, h4⟩

theorem base_ok {l : List (Nat × Prim)} (hl : ∀ c, c ∈ l → 1 ≤ c.1 ∧ Part m c.2) (h1 : l ≠ []) :
    PatchOk m N (Patch.nodes N (Patch.new N) l) ∧
    3 ≤ (Patch.nodes N (Patch.new N) l).slots.length := by
  refine ⟨patchOk_nodes patchOk_new hl, ?_⟩
  rw [nodes_length rfl]
  have := List.length_pos_iff.mpr h1
  show 3 ≤ 2 + _
  omega

theorem add_ok {g : Patch} {ch : Nat} {n : Prim} (hg : PatchOk m N g) (h3 : 3 ≤ g.slots.length)
    (hn : Part m n) (hc : 1 ≤ ch) :
    PatchOk m N (g.addNode (fresh N ch n)).1 ∧
    3 ≤ (g.addNode (fresh N ch n)).1.slots.length := by
  refine ⟨patchOk_add hg hn hc, ?_⟩
  unfold Graph.addNode
  rw [hg.free]
  show 3 ≤ (g.slots ++ [_]).length
  rw [List.length_append]
  omega

theorem forall_cons {α : Type} {p : α → Prop} {a : α} {l : List α} (h : p a)
    (hl : ∀ x, x ∈ l → p x) : ∀ x, x ∈ a :: l → p x := by
  intro x hx
  rcases List.mem_cons.mp hx with rfl | hx
  · exact h
  · exact hl x hx

theorem forall_nil {α : Type} {p : α → Prop} : ∀ x, x ∈ ([] : List α) → p x := fun x hx => by cases hx

theorem newSynth_ok {w : Wave} {a d : Fl} {k : Compound} (ha : TimeOk a) (hd : TimeOk d)
    (h : newSynth m N w a d = .ok k) : CompoundOk m N k := by
  unfold newSynth at h
  simp only [except_bind_ok] at h
  obtain ⟨g1, h1, g2, h2, g3, h3, h⟩ := h
  cases h
  have b := base_ok (N := N) (m := m) (l := [(1, .pass), (1, .osc w (Osc.new (.fin 1) 44100)),
    (2, .mul (arith (.fin 0)))])
    (forall_cons ⟨Nat.le_refl 1, plain_part⟩ (forall_cons ⟨Nat.le_refl 1, plain_part⟩
      (forall_cons ⟨Nat.le_succ 1, plain_part⟩ forall_nil))) (List.cons_ne_nil _ _)
  have c := patchOk_chain (by decide) b.1 h1
  have d' := add_ok (ch := 1) c.1 (c.2 ▸ b.2) (envperc_part (time_le ha) (time_le hd)) (by decide)
  have e := patchOk_chain (by decide) d'.1 h2
  have f := add_ok (ch := 2) (n := .mul (arith (dec (26163 / 100)))) e.1 (e.2 ▸ d'.2) plain_part
    (by decide)
  have i := patchOk_chain (by decide) f.1 h3
  exact ⟨(fun h => by cases h), i.1, rfl, rfl, i.2 ▸ f.2⟩

theorem newBd_ok {p : Fl} {k : Compound} (hp : TimeOk p) (h : newBd m N p = .ok k) :
    CompoundOk m N k := by
  unfold newBd at h
  rw [except_bind_ok] at h
  obtain ⟨g1, h1, h⟩ := h
  cases h
  have b := base_ok (N := N) (m := m) (l := [(1, .pass),
     (1, .envperc (EnvPerc.new (dec (3 / 1000)) p 44100)),
     (1, .envperc (EnvPerc.new (dec (1 / 100)) (dec (1 / 10)) 44100)),
     (2, .mul (arith (.fin 50))), (2, .add (arith (.fin 60))), (1, .sin (Osc.new (.fin 1) 44100)),
     (1, .mul (arith (.fin 0)))])
    (forall_cons ⟨Nat.le_refl 1, plain_part⟩
      (forall_cons ⟨Nat.le_refl 1, envperc_part (dec_le _) (time_le hp)⟩
      (forall_cons ⟨Nat.le_refl 1, envperc_part (dec_le _) (dec_le _)⟩
      (forall_cons ⟨Nat.le_succ 1, plain_part⟩ (forall_cons ⟨Nat.le_succ 1, plain_part⟩
      (forall_cons ⟨Nat.le_refl 1, plain_part⟩ (forall_cons ⟨Nat.le_refl 1, plain_part⟩
      forall_nil))))))) (List.cons_ne_nil _ _)
  have c := patchOk_chains (by decide) b.1 h1
  exact ⟨(fun h => by cases h), c.1, rfl, rfl, c.2 ▸ b.2⟩

theorem newHh_ok {p : Fl} {k : Compound} (hp : TimeOk p) (h : newHh m N p = .ok k) :
    CompoundOk m N k := by
  unfold newHh at h
  simp only [except_bind_ok] at h
  obtain ⟨g1, h1, g2, h2, h⟩ := h
  cases h
  have b := base_ok (N := N) (m := m) (l := [(1, .pass), (1, .noise ⟨42, 0, []⟩),
     (1, .rhpf (Rhpf.new (.fin 15000) (.fin 1))), (2, .mul (arith (.fin 0)))])
    (forall_cons ⟨Nat.le_refl 1, plain_part⟩ (forall_cons ⟨Nat.le_refl 1, plain_part⟩
      (forall_cons ⟨Nat.le_refl 1, plain_part⟩ (forall_cons ⟨Nat.le_succ 1, plain_part⟩
      forall_nil)))) (List.cons_ne_nil _ _)
  have c := patchOk_chain (by decide) b.1 h1
  have d' := add_ok (ch := 1) c.1 (c.2 ▸ b.2) (envperc_part (dec_le (3 / 1000)) (time_le hp)) (by decide)
  have e := patchOk_chain (by decide) d'.1 h2
  exact ⟨(fun h => by cases h), e.1, rfl, rfl, e.2 ▸ d'.2⟩

theorem newSn_ok {p : Fl} {k : Compound} (hp : TimeOk p) (h : newSn m N p = .ok k) :
    CompoundOk m N k := by
  unfold newSn at h
  rw [except_bind_ok] at h
  obtain ⟨g1, h1, h⟩ := h
  cases h
  have b := base_ok (N := N) (m := m) (l := [(1, .pass),
     (1, .envperc (EnvPerc.new (dec (1 / 1000)) p 44100)),
     (1, .envperc (EnvPerc.new (dec (1 / 1000)) (dec (1 / 10)) 44100)),
     (2, .mul (arith (.fin 55))), (2, .add (arith (.fin 60))), (1, .sin (Osc.new (.fin 1) 44100)),
     (2, .add (arith (.fin 0))), (2, .add (arith (.fin 0))), (2, .mul (arith (.fin 0))),
     (1, .noise ⟨42, 0, []⟩), (2, .mul (arith (dec (3 / 10))))])
    (forall_cons ⟨Nat.le_refl 1, plain_part⟩
      (forall_cons ⟨Nat.le_refl 1, envperc_part (dec_le _) (time_le hp)⟩
      (forall_cons ⟨Nat.le_refl 1, envperc_part (dec_le _) (dec_le _)⟩
      (forall_cons ⟨Nat.le_succ 1, plain_part⟩ (forall_cons ⟨Nat.le_succ 1, plain_part⟩
      (forall_cons ⟨Nat.le_refl 1, plain_part⟩ (forall_cons ⟨Nat.le_succ 1, plain_part⟩
      (forall_cons ⟨Nat.le_succ 1, plain_part⟩ (forall_cons ⟨Nat.le_succ 1, plain_part⟩
      (forall_cons ⟨Nat.le_refl 1, plain_part⟩ (forall_cons ⟨Nat.le_succ 1, plain_part⟩
      forall_nil))))))))))) (List.cons_ne_nil _ _)
  have c := patchOk_chains (by decide) b.1 h1
  exact ⟨(fun h => by cases h), c.1, rfl, rfl, c.2 ▸ b.2⟩

theorem numIs_value {ok : Fl → Prop} {p : NumRef} {d : Fl} (h : NumIs ok p) : ok (p.value d) := by
  cases p with
  | num v => exact h
  | ref _ => exact h.elim

theorem makeCompound_ok {c : Comp} {k : Compound} {ck : Bool} {sr : Nat}
    (hs : SafeSettings ck sr c) (hp : ∀ x, c ≠ .plate x) (h : makeCompound m N c = some (.ok k)) :
    CompoundOk m N k := by
  cases c with
  | bd p => exact newBd_ok (numIs_value hs) (Option.some.inj h)
  | hh p => exact newHh_ok (numIs_value hs) (Option.some.inj h)
  | sn p => exact newSn_ok (numIs_value hs) (Option.some.inj h)
  | sawsynth a d => exact newSynth_ok hs.1 hs.2 (Option.some.inj h)
  | squsynth a d => exact newSynth_ok hs.1 hs.2 (Option.some.inj h)
  | trisynth a d => exact newSynth_ok hs.1 hs.2 (Option.some.inj h)
  | plate mix => exact absurd rfl (hp mix)
  | _ => cases h

/-! ### Processing -/

theorem feed_ok {g : Patch} {x : Buf} {i : Nat} (hg : PatchOk m N g) (hx : x.length = N)
    (hi : i < g.slots.length) : ∃ g', Patch.feed g i x = .ok g' ∧ PatchOk m N g' ∧
      g'.slots.length = g.slots.length := by
  obtain ⟨d, hd⟩ := hg.full i hi
  have hid := hg.inner i d hd
  obtain ⟨b, bs, hb⟩ := List.exists_cons_of_ne_nil hid.ne
  have : ∃ g', Patch.feed g i x = .ok g' := by
    unfold Patch.feed Graph.modify
    simp only [hd, hb]
    exact ⟨_, rfl⟩
  obtain ⟨g', hg'⟩ := this
  refine ⟨g', hg', ?_⟩
  obtain ⟨d1, d', k1, k2, k3, k4, k5, k6⟩ := Graph.modify_ok hg'
  rw [hd] at k1
  cases k1
  simp only [hb] at k2
  cases k2
  have hs := sameShape_modify hg'
  refine ⟨⟨k4.trans hg.free, ?_, by rw [k5]; exact hg.size, ?_, by rw [k3]; exact hg.self, ?_⟩, k5⟩
  · intro j hj
    rw [k5] at hj
    exact (hs.live j).mpr (hg.full j hj)
  · intro e he
    rw [k3] at he
    exact ⟨(hs.live _).mpr (hg.live e he).1, (hs.live _).mpr (hg.live e he).2⟩
  · rw [k3]
    intro j y hy
    rw [k6] at hy
    by_cases hj : i = j
    · subst hj
      rw [if_pos rfl] at hy
      cases hy
      have hl : (b :: bs).length = (x :: bs).length := rfl
      have hsz := hid.sz
      have hd2 := hid.dest
      have ht2 := hid.two
      rw [hb] at hsz hd2 ht2
      refine ⟨hid.safe, hid.fits, hid.takes, ?_, by simp, ht2, hd2, hid.ord⟩
      intro z hz
      rcases List.mem_cons.mp hz with rfl | hz
      · exact hx
      · exact hsz z (List.mem_cons_of_mem _ hz)
    · rw [if_neg hj] at hy
      exact hg.inner j y hy

theorem patch_process {g : Patch} {ho : HashOrder} (hN : 1 ≤ N)
    (hm : ∀ a b, Within (-1) 1 (m.noise a b)) (hg : PatchOk m N g) :
    ∃ g', process (procPrim m) ho g 0 = .ok g' ∧ PatchOk m N g' ∧
      g'.slots.length = g.slots.length := by
  obtain ⟨g', h1, h2⟩ := process_total (ho := ho) (proc := procPrim m) (J := InnerOk m N g.edges)
    (dest := 0) hg.live (hg.full 0 (by have := hg.size; omega)) (by
      intro i d ins hd hin
      obtain ⟨⟨i1, i2⟩, i3⟩ := hin
      have hc : Call N ins d.buffers := by
        refine ⟨hN, hd.sz, hd.ne, ?_, ?_, i1⟩
        · intro e he
          obtain ⟨d', hd', hb⟩ := i3 e.1 e.2 he
          rw [← hb]
          exact hd'.sz
        · intro e he
          obtain ⟨d', hd', hb⟩ := i3 e.1 e.2 he
          rw [← hb]
          exact hd'.ne
      obtain ⟨n', o, hp, hs⟩ := procPrim_total hm hd.safe hc hd.two (by
        intro hk
        refine ⟨d.node.order, [], (List.append_nil _).symm, hd.fits _, ?_⟩
        intro x
        rw [hd.ord hk x, i2]
        constructor
        · intro h
          refine ⟨h, ?_⟩
          rintro rfl
          exact hg.self x h
        · exact And.left)
      have hk := (procPrim_keep hc.szIns hc.szOut hp).1
      have hl := procPrim_like hp
      refine ⟨n', o, hp, ⟨hs, ?_, ?_, hk.2, ?_, ?_, ?_, ?_⟩⟩
      · intro k
        show n'.fits k
        rw [hl.2.2.1]
        exact hd.fits k
      · intro p v hv
        show n'.takes (.setToNumber p v)
        rw [hl.2.2.2.2]
        exact hd.takes p v hv
      · intro h
        have h : o = [] := h
        have := hk.1
        rw [h] at this
        exact hd.ne (List.length_eq_zero_iff.mp (by simpa using this.symm))
      · intro h
        show 2 ≤ o.length
        rw [hk.1]
        exact hd.two (by rw [← hl.2.2.2.1]; exact h)
      · intro h
        show 2 ≤ o.length
        rw [hk.1]
        exact hd.dest h
      · intro h x
        show x ∈ n'.order ↔ _
        rw [hl.2.1]
        exact hd.ord (by rw [← hl.1]; exact h) x) hg.inner
  have hs := sameShape_process h1
  refine ⟨g', h1, ⟨hs.free.trans hg.free, ?_, by rw [hs.len]; exact hg.size, ?_,
    by rw [hs.edges]; exact hg.self, by rw [hs.edges]; exact h2⟩, hs.len⟩
  · intro j hj
    rw [hs.len] at hj
    exact (hs.live j).mpr (hg.full j hj)
  · intro e he
    rw [hs.edges] at he
    exact ⟨(hs.live _).mpr (hg.live e he).1, (hs.live _).mpr (hg.live e he).2⟩

/-- A compound node that is given its inputs in a known order does not fail. -/
theorem procCompound_total {ho : HashOrder} {c : Compound} {ins : Ins} {out : List Buf}
    (hm : ∀ a b, Within (-1) 1 (m.noise a b)) (hc : CompoundOk m N c) (hi : Call N ins out)
    (h2 : 2 ≤ out.length) (hf : Fed c.order (ins.map Prod.fst) (fun _ => True)) :
    ∃ c' o, procCompound m ho c ins out = .ok (c', o) ∧ CompoundOk m N c' := by
  obtain ⟨n, _, hn, _, hat⟩ := Fed.at hf hi
  unfold procCompound
  split
  · rename_i h
    exact absurd (by assumption) hc.kind
  · rename_i e _
    have hn : 1 ≤ n := by simpa using hn
    obtain ⟨x, bs, k1, k2⟩ := hat 0 (by omega)
    obtain ⟨g1, j1, j2, j3⟩ := feed_ok (i := 2) hc.graph (k2 x (by simp))
      (by have := hc.size; omega)
    obtain ⟨g2, l1, l2, l3⟩ := patch_process (ho := ho) hi.pos hm j2
    obtain ⟨d, hd⟩ := l2.full 0 (by have := l2.size; omega)
    have hdd := (l2.inner 0 d hd).dest rfl
    obtain ⟨y0, y1, ys, hys⟩ : ∃ y0 y1 ys, d.buffers = y0 :: y1 :: ys := by
      match d.buffers, hdd with
      | y0 :: y1 :: ys, _ => exact ⟨y0, y1, ys, rfl⟩
    obtain ⟨o0, o1, os, hos⟩ : ∃ y0 y1 ys, out = y0 :: y1 :: ys := by
      match out, h2 with
      | y0 :: y1 :: ys, _ => exact ⟨y0, y1, ys, rfl⟩
    subst hos
    refine ⟨{ c with graph := g2 }, y0 :: y1 :: os, ?_, ⟨hc.kind, l2, hc.dest, hc.input, ?_⟩⟩
    · unfold Compound.feed Patch.nextBlock
      rw [hc.input, hc.dest, k1]
      have e1 : chan (x :: bs) 0 = .ok x := rfl
      simp only [bind, Except.bind]
      rw [e1]
      simp only []
      rw [j1]
      simp only []
      rw [l1]
      simp only [hd, hys]
      rfl
    · show 3 ≤ g2.slots.length
      rw [l3, j3]
      exact hc.size
  · exact ⟨c, out, rfl, hc⟩

/-- A time sent to a node inside leaves the graph as it should be. -/
theorem patchOk_send {g g' : Patch} {i p : Nat} {v : Fl} (hg : PatchOk m N g) (hv : TimeOk v)
    (h : Patch.send m g i (.setToNumber p v) = .ok g') : PatchOk m N g' ∧ g'.slots.length = g.slots.length := by
  unfold Patch.send at h
  obtain ⟨d, d', k1, k2, k3, k4, k5, k6⟩ := Graph.modify_ok h
  rw [except_bind_ok] at k2
  obtain ⟨n, hn, hd⟩ := k2
  cases hd
  have hid := hg.inner i d k1
  have hu := msgPrim_user (g := .setToNumber p v) trivial (hid.takes p v hv) hn
  have hs := sameShape_modify h
  refine ⟨⟨k4.trans hg.free, ?_, by rw [k5]; exact hg.size, ?_, by rw [k3]; exact hg.self, ?_⟩, k5⟩
  · intro j hj
    rw [k5] at hj
    exact (hs.live j).mpr (hg.full j hj)
  · intro e he
    rw [k3] at he
    exact ⟨(hs.live _).mpr (hg.live e he).1, (hs.live _).mpr (hg.live e he).2⟩
  · rw [k3]
    intro j y hy
    rw [k6] at hy
    by_cases hj : i = j
    · subst hj
      rw [if_pos rfl] at hy
      cases hy
      obtain ⟨⟨l1, l2, l3, l4, l5⟩, l6⟩ := hu
      refine ⟨l6 hid.safe, ?_, ?_, hid.sz, hid.ne, ?_, hid.dest, ?_⟩
      · intro k
        show n.fits k
        rw [l3]; exact hid.fits k
      · intro p v hv
        show n.takes (.setToNumber p v)
        rw [l5]; exact hid.takes p v hv
      · intro h
        exact hid.two (by rw [← l4]; exact h)
      · intro hk x
        show x ∈ n.order ↔ _
        rw [l2]
        exact hid.ord (by rw [← l1]; exact hk) x
    · rw [if_neg hj] at hy
      exact hg.inner j y hy

theorem sendTag_ok {c c' : Compound} {k p : Nat} {v : Fl} (hc : CompoundOk m N c) (hv : TimeOk v)
    (h : c.sendTag m k (.setToNumber p v) = .ok c') :
    CompoundOk m N c' ∧ c'.kind = c.kind ∧ c'.order = c.order := by
  unfold Compound.sendTag at h
  split at h
  · cases h
  · rw [except_bind_ok] at h
    obtain ⟨g, hg, h⟩ := h
    cases h
    have := patchOk_send hc.graph hv hg
    refine ⟨⟨hc.kind, this.1, hc.dest, hc.input, ?_⟩, rfl, rfl⟩
    show 3 ≤ g.slots.length
    rw [this.2]
    exact hc.size

end Verif
