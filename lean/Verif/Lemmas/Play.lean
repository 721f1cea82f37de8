import Verif.Props.Order
import Verif.Props.Api

/-! When every block of every history renders (helpers for C37). -/

namespace Verif
open Spec Props

variable {L : Lang}

/-- The list of inputs kept by a node fits the inputs it is given: it starts with an admissible
number of entries that name exactly these inputs. -/
def Fed (ord keys : List Nat) (ok : Nat → Prop) : Prop :=
  ∃ l rest, ord = l ++ rest ∧ ok l.length ∧ ∀ x, x ∈ l ↔ x ∈ keys

theorem Fed.mono {ord keys : List Nat} {ok ok' : Nat → Prop} (hm : ∀ n, ok n → ok' n) (h : Fed ord keys ok) :
    Fed ord keys ok' := by
  obtain ⟨l, rest, h1, h2, h3⟩ := h
  exact ⟨l, rest, h1, hm _ h2, h3⟩

/-- What a program must satisfy where the component `c` stands at position `i` of the chain `k` with
`n` components. -/
structure PlacedOk (L : Lang) (CK CR : L.Comp → Prop) (CW : L.Comp → Nat ⊕ Msg L.Num → Prop) (k : Name)
    (n i : Nat) (c : L.Comp) : Prop where
  refs : ∀ samples sr bpm seed nd rs, L.make samples sr bpm seed c = .ok (nd, rs) → rs = L.refs c
  reset : CK c → CR c ∨ L.refs c = []
  noSelf : CK c → i + 1 = n → ∀ r, r ∈ L.refs c →
    r ≠ k ∧ ∀ base, r = base ++ ['.', '.'] → ¬ base <+: k
  count : ∀ m, ((∀ r, r ∈ L.refs c → '.' ∉ r) → m = (L.refs c).length) →
    CW c (.inl ((if i = 0 then 0 else 1) + m))

/-- The laws from which it follows that blocks render: `J` is a property of single nodes, `K` the
nodes that keep a list `ord` of inputs, `R` those that empty it when told to, `W` the numbers of inputs
and the messages such a node can take, `CK`, `CR` and `CW` the same for components. -/
structure PlayLaws (L : Lang) (N : Nat) (A : Engine L → Op L → Prop) (J : L.Data → Prop)
    (K R : L.Node → Prop) (ord : L.Node → List Nat) (W : L.Node → Nat ⊕ Msg L.Num → Prop)
    (CK CR : L.Comp → Prop) (CW : L.Comp → Nat ⊕ Msg L.Num → Prop) : Prop where
  inv : NodeInv L N A J (fun n ks => K n → Fed (ord n) ks (fun k => W n (.inl k))) (fun n m => W n (.inr m))
  order : OrderLaws L K R ord
  sum2 : ¬ K L.sum2
  pass : ¬ K L.pass
  passMsg : ∀ m, W L.pass (.inr m)
  wire : ∀ n m n', IsWiring m → L.msg n m = .ok n' → ∀ x, W n x → W n' x
  user : ∀ n m n', IsUser m → W n (.inr m) → L.msg n m = .ok n' →
    (K n' ↔ K n) ∧ (R n' ↔ R n) ∧ ord n' = ord n ∧ ∀ x, W n x → W n' x
  bpm : ∀ n v n', L.msg n (.setBPM v) = .ok n' →
    (K n' ↔ K n) ∧ (R n' ↔ R n) ∧ ord n' = ord n ∧ ∀ x, W n x → W n' x
  proc : ∀ n ins b n' b', L.proc n ins b = .ok (n', b') →
    (K n' ↔ K n) ∧ (R n' ↔ R n) ∧ ord n' = ord n ∧ ∀ x, W n x → W n' x
  make : ∀ samples sr bpm seed c nd rs, L.make samples sr bpm seed c = .ok (nd, rs) →
    (K nd.node → CK c) ∧ (CR c → R nd.node) ∧ ∀ m, CW c m → W nd.node m
  eq : ∀ o c, L.compEq o c = true → (CK o → CK c) ∧ (CR c → CR o) ∧ ∀ m, CW c m → CW o m
  total : ∀ d ins, J d → (∀ k b, (k, b) ∈ ins → ∃ d, J d ∧ d.buffers = b) →
    (ins.map Prod.fst).Nodup →
    (K d.node → Fed (ord d.node) (ins.map Prod.fst) (fun k => W d.node (.inl k))) →
    ∃ n' b', L.proc d.node ins d.buffers = .ok (n', b')
  allowed : ∀ e τ code p, ReachBy L A e → A e (.update τ code) → L.parse code = .ok (some p) →
    CleanProg L p ∧ (∀ r, progRefs L p r → RefWf r) ∧
    (∀ k old comps, IsOld e k old → (k, comps) ∈ p → OrderKept L.compEq old comps) ∧
    ∀ k comps (i : Nat) c, (k, comps) ∈ p → comps[i]? = some c → PlacedOk L CK CR CW k comps.length i c
  allowedMsg : ∀ e s, ReachBy L A e → A e (.sendMsg s) → ∀ cmd, cmd ∈ commandsOf s → ∀ k p m,
    parseCommand L cmd = some (k, p, m) → ∀ a comps c, e.ast = some a → (k, comps) ∈ a → comps[p]? = some c → CW c (.inr m)

section
variable {N : Nat} {A : Engine L → Op L → Prop} {J : L.Data → Prop}
  {K R : L.Node → Prop} {ord : L.Node → List Nat} {W : L.Node → Nat ⊕ Msg L.Num → Prop}
  {CK CR : L.Comp → Prop} {CW : L.Comp → Nat ⊕ Msg L.Num → Prop}

theorem PlayLaws.rewire (hp : PlayLaws L N A J K R ord W CK CR CW) {n n' : L.Node} (h : Rewire L n n') :
    (K n' ↔ K n) ∧ (R n' ↔ R n) ∧ ∀ x, W n x → W n' x := by
  induction h with
  | refl => exact ⟨Iff.rfl, Iff.rfl, fun _ h => h⟩
  | step hm ho _ ih =>
    obtain ⟨k1, k2⟩ := hp.order.keep _ _ _ hm ho
    exact ⟨ih.1.trans k1, ih.2.1.trans k2, fun x hx => ih.2.2 x (hp.wire _ _ _ hm ho x hx)⟩

theorem PlayLaws.clean (hp : PlayLaws L N A J K R ord W CK CR CW) {e : Engine L} (h : ReachBy L A e) :
    CleanReach L e := by
  induction h with
  | new N => exact .new N
  | step op hr hA ha ih =>
    refine .step op ih ?_ ha
    cases op with
    | update τ code => exact fun p hpp => (hp.allowed _ τ code p hr hA hpp).1
    | _ => trivial

/-- The relation between a node before and after anything but an update. -/
def Same (K R : L.Node → Prop) (ord : L.Node → List Nat) (W : L.Node → Nat ⊕ Msg L.Num → Prop) (d d' : L.Data) :
    Prop := (K d'.node ↔ K d.node) ∧ (R d'.node ↔ R d.node) ∧ ord d'.node = ord d.node ∧ ∀ x, W d.node x → W d'.node x

theorem Same.refl (d : L.Data) : Same K R ord W d d := ⟨Iff.rfl, Iff.rfl, rfl, fun _ h => h⟩

theorem Same.trans {a b c : L.Data} (h1 : Same K R ord W a b) (h2 : Same K R ord W b c) :
    Same K R ord W a c := 
  ⟨h2.1.trans h1.1, h2.2.1.trans h1.2.1, h2.2.2.1.trans h1.2.2.1, fun x hx => h2.2.2.2 x (h1.2.2.2 x hx)⟩

theorem each_modify {α : Type} {R : α → α → Prop} (hr : ∀ d, R d d) {g g' : Graph α} {i : Nat}
    {f : α → Except Panic α} (hf : ∀ d d', f d = .ok d' → R d d')
    (h : g.modify i f = .ok g') : Each R g g' := by
  obtain ⟨a, a', h1, h2, _, _, _, h6⟩ := Graph.modify_ok h
  refine ⟨?_, ?_⟩
  · intro j d hd
    by_cases hij : i = j
    · subst hij
      rw [h1] at hd
      cases hd
      exact ⟨a', by rw [h6]; simp, hf _ _ h2⟩
    · exact ⟨d, by rw [h6]; simp [hij, hd], hr d⟩
  · intro j d hd
    rw [h6] at hd
    by_cases hij : i = j
    · subst hij
      simp only [if_true, Option.some.injEq] at hd
      subst hd
      exact ⟨a, h1, hf _ _ h2⟩
    · simp only [hij, if_false] at hd
      exact ⟨d, hd, hr d⟩

theorem each_copyInput {e e' : Engine L} {ch : Nat} {b : List L.Num}
    (h : e.copyInput ch b = .ok e') : Each (Same K R ord W) e.graph e'.graph := by
  unfold Engine.copyInput at h
  split at h
  · cases h
  · split at h
    · cases h
    · rw [except_bind_ok] at h
      obtain ⟨g, h1, h⟩ := h
      cases h
      refine each_modify Same.refl ?_ h1
      intro d d' hf
      split at hf
      · cases hf
      · split at hf
        · cases hf
          exact ⟨Iff.rfl, Iff.rfl, rfl, fun _ h => h⟩
        · cases hf

theorem each_copyInputs {e e' : Engine L} {buf : List (List L.Num)}
    (h : e.copyInputs buf = .ok e') : Each (Same K R ord W) e.graph e'.graph := by
  unfold Engine.copyInputs at h
  split at h
  · cases h; exact .refl Same.refl _
  · exact each_copyInput h
  · rw [except_bind_ok] at h
    obtain ⟨e4, k1, k2⟩ := h
    exact (each_copyInput k1).trans (fun _ _ _ => Same.trans) (each_copyInput k2)

theorem notWiring_user {Num : Type} {m : Msg Num} (h : IsUser m) : ¬ IsWiring m := by
  cases m <;> simp_all [IsUser, IsWiring]

theorem each_sendMsg (hp : PlayLaws L N A J K R ord W CK CR CW) {m : Name} {e e' : Engine L}
    (hT : Takes (fun n m => W n (.inr m)) e (commandsOf m))
    (h : e.sendMsg m = .ok e') : Each (Same K R ord W) e.graph e'.graph := by
  replace h : (commandsOf m).foldlM Engine.command e = .ok e' := h
  generalize commandsOf m = cmds at h hT
  induction cmds generalizing e with
  | nil =>
    simp only [List.foldlM_nil, pure, Except.pure, Except.ok.injEq] at h
    subst h
    exact .refl Same.refl _
  | cons c cmds ih =>
    rw [List.foldlM_cons, except_bind_ok] at h
    obtain ⟨e1, h1, h⟩ := h
    have hT' : Takes (fun n m => W n (.inr m)) e cmds := fun cmd hcmd => hT cmd (by simp [hcmd])
    unfold Engine.command at h1
    split at h1
    · cases h1; exact ih h hT'
    · rename_i k p msg hc
      rcases deliver_cases h1 with rfl | ⟨nodes, i, g, hl, hi, rfl, h2⟩
      · exact ih h hT'
      · obtain ⟨d, d', k1, k2, _, _, _, k6⟩ := Graph.modify_ok h2
        rw [except_bind_ok] at k2
        obtain ⟨n, hn, k2⟩ := k2
        cases k2
        have hu := hp.user d.node msg n (parseCommand_user hc) (hT c (by simp) k p msg hc nodes i d hl hi k1) hn
        have hone : Each (Same K R ord W) e.graph g := by
          refine ⟨?_, ?_⟩
          · intro j dj hj
            by_cases hij : i = j
            · subst hij
              rw [k1] at hj
              cases hj
              exact ⟨⟨n, d.buffers⟩, by rw [k6, if_pos rfl], hu⟩
            · exact ⟨dj, by rw [k6, if_neg hij]; exact hj, Same.refl _⟩
          · intro j dj hj
            rw [k6] at hj
            split at hj
            · rename_i hij
              subst hij
              cases hj
              exact ⟨d, k1, hu⟩
            · exact ⟨dj, hj, Same.refl _⟩
        refine Each.trans (fun _ _ _ => Same.trans) hone (ih h ?_)
        intro cmd hcmd k' p' m' hp' nodes' j dj a1 a2 a3
        obtain ⟨dj', b1, b2⟩ := hone.2 j dj a3
        exact b2.2.2.2 _ (hT' cmd hcmd k' p' m' hp' nodes' j dj' a1 a2 b1)

theorem each_setBpm (hp : PlayLaws L N A J K R ord W CK CR CW) {v : L.Num} {e e' : Engine L}
    (h : e.setBpm v = .ok e') : Each (Same K R ord W) e.graph e'.graph := by
  obtain ⟨_, _, h3⟩ := setBpm_nodes h
  refine ⟨?_, ?_⟩
  · intro i d hd
    have := h3 i
    rw [hd] at this
    obtain ⟨n, hn, hn'⟩ := this
    exact ⟨_, hn', hp.bpm _ _ _ hn⟩
  · intro i d' hd'
    have := h3 i
    cases hx : e.graph.node? i with
    | none => rw [hx] at this; rw [this] at hd'; cases hd'
    | some d =>
      rw [hx] at this
      obtain ⟨n, hn, hn'⟩ := this
      rw [hn'] at hd'
      cases hd'
      exact ⟨d, rfl, hp.bpm _ _ _ hn⟩

theorem each_process (hp : PlayLaws L N A J K R ord W CK CR CW) {ho : HashOrder}
    {g g' : Graph L.Data} {dest : Nat}
    (h : process L.proc ho g dest = .ok g') : Each (Same K R ord W) g g' :=
  (process_inv (J := fun _ _ => True) Same.refl (fun _ _ _ => Same.trans)
    (fun _ d ins n' b' _ _ h3 => ⟨trivial, hp.proc _ _ _ _ _ h3⟩) (fun _ _ _ => trivial) h).2

/-- The nodes that keep a list of inputs stand in chains of the program, ... -/
def Based (K : L.Node → Prop) (e : Engine L) : Prop :=
  ∀ i d, e.graph.node? i = some d → K d.node →
    ∃ a k comps nodes, e.ast = some a ∧ (k, comps) ∈ a ∧ (k, nodes) ∈ e.index ∧ i ∈ nodes

/-- ... they are of the kind their component says, ... -/
def OfKind (K R : L.Node → Prop) (W : L.Node → Nat ⊕ Msg L.Num → Prop) (CK CR : L.Comp → Prop) (CW : L.Comp → Nat ⊕ Msg L.Num → Prop)
    (e : Engine L) : Prop :=
  ∀ a, e.ast = some a → ∀ k comps nodes (i : Nat) c b d, (k, comps) ∈ a → (k, nodes) ∈ e.index →
    comps[i]? = some c → nodes[i]? = some b → e.graph.node? b = some d →
    (K d.node → CK c) ∧ (CR c → R d.node) ∧ ∀ m, CW c m → W d.node m

/-- ... and their lists fit their inputs. -/
def Wired (K : L.Node → Prop) (ord : L.Node → List Nat) (W : L.Node → Nat ⊕ Msg L.Num → Prop) (e : Engine L) :
    Prop :=
  ∀ i d, e.graph.node? i = some d → K d.node → ∀ keys : List Nat,
    (∀ k, k ∈ keys ↔ (k, i) ∈ e.graph.edges ∧ k ≠ i) → Fed (ord d.node) keys (fun k => W d.node (.inl k))

/-- The chains of the table are those of the program and the external input, which takes any message. -/
def Named (W : L.Node → Nat ⊕ Msg L.Num → Prop) (e : Engine L) : Prop :=
  ∀ k nodes, (k, nodes) ∈ e.index →
    (∃ a comps, e.ast = some a ∧ (k, comps) ∈ a ∧ comps.length = nodes.length) ∨
    (k = inputName ∧ ∀ i d, i ∈ nodes → e.graph.node? i = some d → ∀ m, W d.node (.inr m))

/-- All four. -/
structure Ready (K R : L.Node → Prop) (ord : L.Node → List Nat) (W : L.Node → Nat ⊕ Msg L.Num → Prop)
    (CK CR : L.Comp → Prop) (CW : L.Comp → Nat ⊕ Msg L.Num → Prop) (e : Engine L) : Prop where
  based : Based K e
  kind : OfKind K R W CK CR CW e
  wired : Wired K ord W e
  named : Named W e

theorem Ready.of_each {e e' : Engine L} (h : Ready K R ord W CK CR CW e) (h1 : e'.ast = e.ast)
    (h2 : e'.index = e.index) (h3 : e'.graph.edges = e.graph.edges)
    (h4 : Each (Same K R ord W) e.graph e'.graph) : Ready K R ord W CK CR CW e' := by
  refine ⟨?_, ?_, ?_, ?_⟩
  · intro i d' hd' hk
    obtain ⟨d, hd, hs⟩ := h4.2 i d' hd'
    rw [h1, h2]
    exact h.based i d hd (hs.1.mp hk)
  · intro a ha k comps nodes i c b d' hk hn hi hb hd'
    obtain ⟨d, hd, hs⟩ := h4.2 b d' hd'
    rw [h1] at ha
    rw [h2] at hn
    obtain ⟨k1, k2, k3⟩ := h.kind a ha k comps nodes i c b d hk hn hi hb hd
    exact ⟨fun hk => k1 (hs.1.mp hk), fun hc => hs.2.1.mpr (k2 hc),
      fun m hm => hs.2.2.2 m (k3 m hm)⟩
  · intro i d' hd' hk keys hkeys
    obtain ⟨d, hd, hs⟩ := h4.2 i d' hd'
    rw [hs.2.2.1]
    rw [h3] at hkeys
    exact (h.wired i d hd (hs.1.mp hk) keys hkeys).mono (fun n hn => hs.2.2.2 _ hn)
  · intro k nodes hkn
    rw [h2] at hkn
    rcases h.named k nodes hkn with h5 | ⟨h5, h6⟩
    · left
      rw [h1]
      exact h5
    · refine .inr ⟨h5, fun i d' hi hd' m => ?_⟩
      obtain ⟨d, hd, hs⟩ := h4.2 i d' hd'
      exact hs.2.2.2 _ (h6 i d hi hd m)

/-- Allowed messages go to nodes that take them. -/
theorem Ready.takes (hp : PlayLaws L N A J K R ord W CK CR CW) {e : Engine L} (hr : ReachBy L A e)
    (h : Ready K R ord W CK CR CW e) {s : Name} (hA : A e (.sendMsg s)) :
    Takes (fun n m => W n (.inr m)) e (commandsOf s) := by
  intro cmd hcmd k p m hpc nodes i d hl hi hd
  have hkn := lookup_mem hl
  rcases h.named k nodes hkn with ⟨a, comps, h1, h2, h3⟩ | ⟨_, h6⟩
  · have hlt : p < comps.length := by
      rw [h3]
      exact (List.getElem?_eq_some_iff.mp hi).1
    have hc : comps[p]? = some comps[p] := List.getElem?_eq_getElem hlt
    exact (h.kind a h1 k comps nodes p _ i d h2 hkn hc hi hd).2.2 _
      (hp.allowedMsg e s hr hA cmd hcmd k p m hpc a comps _ h1 h2 hc)
  · exact h6 i d (List.mem_of_getElem? hi) hd m

theorem sourceList_plain {t : Table} {rs : List Name} {srcs : List Nat} (h : SourceList t rs srcs)
    (hp : ∀ r, r ∈ rs → '.' ∉ r) : srcs.length = rs.length := by
  induction h with
  | nil => rfl
  | named _ _ _ _ ih => simp [ih (fun r hr => hp r (List.mem_cons_of_mem _ hr))]
  | pattern _ _ _ _ =>
    exact absurd (hp _ (List.mem_cons_self ..)) (by simp)

theorem sourceList_mem {t : Table} (hn : (keys t).Nodup) {rs : List Name} {srcs : List Nat}
    (h : SourceList t rs srcs) (a : Nat) : a ∈ srcs ↔ ∃ r, r ∈ rs ∧ Denotes t r a := by
  induction h with
  | nil => simp
  | @named r rs c x srcs h1 h2 h3 h4 ih =>
    rw [List.mem_cons, ih]
    constructor
    · rintro (rfl | ⟨r', hr', hd⟩)
      · exact ⟨r, by simp, .named h1 h2 h3⟩
      · exact ⟨r', List.mem_cons_of_mem _ hr', hd⟩
    · rintro ⟨r', hr', hd⟩
      rcases List.mem_cons.mp hr' with rfl | hr'
      · left
        cases hd with
        | named _ k2 k3 =>
          have := lookup_of_mem hn k2
          rw [lookup_of_mem hn h2] at this
          cases this
          rw [h3] at k3
          cases k3
          rfl
        | pattern => exact absurd h1 (by simp)
      · exact .inr ⟨r', hr', hd⟩
  | @pattern base rs l srcs h1 h2 h3 ih =>
    have hl : a ∈ l ↔ Denotes t (base ++ ['.', '.']) a := by
      rw [h2.mem_iff, List.mem_filterMap]
      constructor
      · rintro ⟨⟨k, c⟩, hm, hg⟩
        rw [List.mem_filter] at hm
        exact .pattern h1 hm.1 (List.isPrefixOf_iff_prefix.mp hm.2) hg
      · intro hd
        generalize hr : base ++ ['.', '.'] = r at hd
        cases hd with
        | named k1 => exact absurd (hr ▸ k1) (by simp)
        | @pattern base' k c _ k1 k2 k3 k4 =>
          have : base = base' := List.append_cancel_right hr
          subst this
          exact ⟨(k, c), List.mem_filter.mpr ⟨k2, List.isPrefixOf_iff_prefix.mpr k3⟩, k4⟩
    rw [List.mem_append, ih, hl]
    constructor
    · rintro (h | ⟨r, hr, hd⟩)
      · exact ⟨_, by simp, h⟩
      · exact ⟨r, List.mem_cons_of_mem _ hr, hd⟩
    · rintro ⟨r, hr, hd⟩
      rcases List.mem_cons.mp hr with rfl | hr
      · exact .inl hd
      · exact .inr ⟨r, hr, hd⟩

theorem adjacent_get {c : List Nat} (hn : c.Nodup) {a b i : Nat} (hb : c[i]? = some b) :
    Adjacent c a b ↔ i ≠ 0 ∧ c[i - 1]? = some a := by
  constructor
  · rintro ⟨pre, post, rfl⟩
    have h1 : (pre ++ a :: b :: post)[pre.length + 1]? = some b := by simp
    obtain ⟨l1, g1⟩ := List.getElem?_eq_some_iff.mp hb
    obtain ⟨l2, g2⟩ := List.getElem?_eq_some_iff.mp h1
    have : i = pre.length + 1 := by
      rw [List.nodup_iff_pairwise_ne, List.pairwise_iff_getElem] at hn
      rcases Nat.lt_trichotomy i (pre.length + 1) with hlt | heq | hlt
      · exact absurd (g1.trans g2.symm) (hn _ _ l1 l2 hlt)
      · exact heq
      · exact absurd (g2.trans g1.symm) (hn _ _ l2 l1 hlt)
    subst this
    simp
  · rintro ⟨h0, ha⟩
    obtain ⟨j, rfl⟩ := Nat.exists_eq_succ_of_ne_zero h0
    simp only [Nat.succ_eq_add_one, Nat.add_sub_cancel] at ha
    obtain ⟨l1, g1⟩ := List.getElem?_eq_some_iff.mp hb
    obtain ⟨l2, g2⟩ := List.getElem?_eq_some_iff.mp ha
    refine ⟨c.take j, c.drop (j + 2), ?_⟩
    rw [← g1, ← g2]
    conv_lhs => rw [← List.take_append_drop j c]
    rw [List.drop_eq_getElem_cons l2, List.drop_eq_getElem_cons l1]

theorem exists_isOld (e : Engine L) (k : Name) : ∃ old, IsOld e k old := by
  cases h : e.ast with
  | none => exact ⟨[], .inr ⟨rfl, fun a ha => by rw [h] at ha; cases ha⟩⟩
  | some a =>
    by_cases hk : k ∈ a.map Prod.fst
    · obtain ⟨⟨k', c⟩, hm, rfl⟩ := List.mem_map.mp hk
      exact ⟨c, .inl ⟨a, h, hm⟩⟩
    · exact ⟨[], .inr ⟨rfl, fun a' ha' => by rw [h] at ha'; cases ha'; exact hk⟩⟩

theorem ready_update (hL : ParserWf L) (hq : EqLaws L) (hl : RefLaws L)
    (hp : PlayLaws L N A J K R ord W CK CR CW) {e e' : Engine L} (hr : ReachBy L A e)
    (h : Ready K R ord W CK CR CW e) {τ : TableOrder} {code : Name} {new : Ast L.Comp}
    (hA : A e (.update τ code)) (hparse : L.parse code = .ok (some new))
    (hu : e.updateWithCode τ code = .ok (e', none)) : Ready K R ord W CK CR CW e' := by
  have hcr := hp.clean hr
  have hI := inv_reachable hL hcr.reachable
  obtain ⟨hc, hrw, hok, hplace⟩ := hp.allowed e τ code new hr hA hparse
  have hw := hL code new hparse
  have hu' : e.updateAst τ new = .ok (e', none) := by
    unfold Engine.updateWithCode at hu
    rw [hparse] at hu
    exact hu
  obtain ⟨diff, t1, gone1, t2, gone2, g3, cr, g5, ha⟩ := accepted hI hw hu'
  have f := ha.facts
  have hr' : Reachable L e' := .step (.update τ code) hcr.reachable (by
    simp only [Op.apply, hu]; rfl)
  have hI' := inv_reachable hL hr'
  have hast : e'.ast = some new := by rw [ha.eq]
  have hdest : e'.dest = e.dest := by rw [ha.eq]
  have hinput : e'.input = e.input := by rw [ha.eq]
  have hnd := hI'.flatNodup
  simp only [List.nodup_cons, List.mem_cons, not_or] at hnd
  obtain ⟨⟨_, hd2⟩, hi2, hfn⟩ := hnd
  have hnd0 := hI.flatNodup
  simp only [List.nodup_cons, List.mem_cons, not_or] at hnd0
  obtain ⟨⟨_, hd0⟩, hi0, hfn0⟩ := hnd0
  have h2 := c02_table_mirrors_program_partial hL hq hcr τ code new hparse hc hu
  -- the chain `~input` is the old one
  have hinp : ∀ c, (inputName, c) ∈ e'.index → (inputName, c) ∈ e.index := by
    intro c hm
    have hno : inputName ∉ oldKeys e := by
      intro ho
      obtain ⟨a, ha, hka⟩ := mem_oldKeys.mp ho
      exact clean_noInput hL hcr a ha hka
    have := staged_untouched hI hw ha.staged hc.noInput hno
    have hlm := lookup_of_mem f.keysT3 hm
    exact lookup_mem (this.symm.trans hlm)
  have hbased : Based K e' := by
    intro i d' hd' hk
    have hlive := (hI'.live i).mp ⟨d', hd'⟩
    -- not a node outside the program
    have key : ∀ (hz : i ≠ e.dest ∧ i ≠ e.input ∧ ∀ c, (inputName, c) ∈ e.index → i ∉ c),
        ∃ a k comps nodes, e'.ast = some a ∧ (k, comps) ∈ a ∧ (k, nodes) ∈ e'.index ∧ i ∈ nodes := by
      rintro ⟨z1, z2, z3⟩
      rcases hlive with h1 | h1 | h1
      · exact absurd (h1.trans hdest) z1
      · exact absurd (h1.trans hinput) z2
      · obtain ⟨k, nodes, hkn, hin⟩ := mem_flat.mp h1
        rcases (h2.1 k).mp (List.mem_map.mpr ⟨_, hkn, rfl⟩) with hk1 | ⟨rfl, _⟩
        · obtain ⟨⟨k', comps⟩, hm, rfl⟩ := List.mem_map.mp hk1
          exact ⟨new, k', comps, nodes, hast, hm, hkn, hin⟩
        · exact absurd hin (z3 nodes (hinp nodes hkn))
    rcases accepted_nodes ha hd' with ⟨d, k1, _, k3⟩ | ⟨k1, _⟩
    · obtain ⟨a, k, comps, nodes, b1, b2, b3, b4⟩ := h.based i d k1 ((hp.rewire k3).1.mp hk)
      have hif : i ∈ flat e.index := mem_flat.mpr ⟨k, nodes, b3, b4⟩
      refine key ⟨?_, ?_, ?_⟩
      · rintro rfl; exact hd0 hif
      · rintro rfl; exact hi0 hif
      · intro c hcm hic
        obtain ⟨p1, hp1⟩ := List.mem_iff_getElem?.mp b4
        obtain ⟨p2, hp2⟩ := List.mem_iff_getElem?.mp hic
        have := (flat_unique hfn0 b3 hcm hp1 hp2).1
        cases this
        exact clean_noInput hL hcr a b1 (List.mem_map.mpr ⟨_, b2, rfl⟩)
    · have hnl : ¬ e.graph.Live i := by
        rintro ⟨x, hx⟩
        rw [k1] at hx
        cases hx
      rw [hI.live] at hnl
      refine key ⟨fun h => hnl (.inl h), fun h => hnl (.inr (.inl h)), ?_⟩
      intro c hcm hic
      exact hnl (.inr (.inr (mem_flat.mpr ⟨_, c, hcm, hic⟩)))
  have hkind : OfKind K R W CK CR CW e' := by
    intro a hae k comps nodes i c b d' hk hn hi hb hd'
    rw [hast] at hae
    cases hae
    obtain ⟨old, hold⟩ := exists_isOld e k
    obtain ⟨nodes', n1, n2, n3⟩ := h2.2 k comps old hk hold
    have : nodes' = nodes := by
      have := lookup_of_mem f.keysT3 n1
      rw [lookup_of_mem f.keysT3 hn] at this
      cases this
      rfl
    subst this
    obtain ⟨m1, m2⟩ := n3 i c b hi hb
    by_cases hex : ∃ o, o ∈ old ∧ L.compEq o c = true
    · obtain ⟨j, o, oldNodes, j1, j2, j3, j4⟩ := m2 hex (hok k old comps hold hk)
      have hlive : e.graph.Live b :=
        (hI.live b).mpr (.inr (.inr (mem_flat.mpr ⟨k, oldNodes, j3, List.mem_of_getElem? j4⟩)))
      obtain ⟨d, n', s1, s2, s3⟩ := accepted_survives hI ha
        (mem_flat.mpr ⟨k, nodes', hn, List.mem_of_getElem? hb⟩) hlive
      rw [hd'] at s2
      cases s2
      obtain ⟨a, a1, a2⟩ : ∃ a, e.ast = some a ∧ (k, old) ∈ a := by
        rcases hold with h | ⟨rfl, _⟩
        · exact h
        · cases j1
      obtain ⟨q1, q3, q2⟩ := h.kind a a1 k old oldNodes j o b d a2 j3 j1 j4 s1
      obtain ⟨r1, r3, r2⟩ := hp.rewire s3
      obtain ⟨t1, t3, t2⟩ := hp.eq o c j2
      exact ⟨fun hk => t1 (q1 (r1.mp hk)), fun hc => r3.mpr (q3 (t3 hc)),
        fun m hm => r2 m (q2 m (t2 m hm))⟩
    · obtain ⟨_, nd, refs, n', hmk, hg, hre⟩ := m1 (by
        intro o ho
        cases hx : L.compEq o c with
        | false => rfl
        | true => exact absurd ⟨o, ho, hx⟩ hex)
      rw [hd'] at hg
      cases hg
      obtain ⟨q1, q3, q2⟩ := hp.make _ _ _ _ _ _ _ hmk
      obtain ⟨r1, r3, r2⟩ := hp.rewire hre
      exact ⟨fun hk => q1 (r1.mp hk), fun hc => r3.mpr (q3 hc),
        fun m hm => r2 m (q2 m hm)⟩
  have hnamed : Named W e' := by
    intro k nodes hkn
    rcases (h2.1 k).mp (List.mem_map.mpr ⟨_, hkn, rfl⟩) with hk1 | ⟨rfl, _⟩
    · obtain ⟨⟨k', comps⟩, hm, rfl⟩ := List.mem_map.mp hk1
      obtain ⟨old, hold⟩ := exists_isOld e k'
      obtain ⟨nodes', n1, n2, _⟩ := h2.2 k' comps old hm hold
      have := lookup_of_mem f.keysT3 n1
      rw [lookup_of_mem f.keysT3 hkn] at this
      cases this
      exact .inl ⟨new, comps, hast, hm, n2.symm⟩
    · refine .inr ⟨rfl, fun i d' hi hd' m => ?_⟩
      have hkn0 := hinp nodes hkn
      have hlive : e.graph.Live i := (hI.live i).mpr (.inr (.inr (mem_flat.mpr ⟨_, nodes, hkn0, hi⟩)))
      obtain ⟨d, n', s1, s2, s3⟩ := accepted_survives hI ha (mem_flat.mpr ⟨_, nodes, hkn, hi⟩) hlive
      rw [hd'] at s2
      cases s2
      refine (hp.rewire s3).2.2 _ ?_
      rcases h.named _ nodes hkn0 with ⟨a, comps, h1, h2, _⟩ | ⟨_, h6⟩
      · exact absurd (List.mem_map.mpr ⟨_, h2, rfl⟩) (clean_noInput hL hcr a h1)
      · exact h6 i d hi s1 m
  refine ⟨hbased, hkind, ?_, hnamed⟩
  intro b d hd hK ks hks
  obtain ⟨a, k, comps, nodes, b1, b2, b3, b4⟩ := hbased b d hd hK
  rw [hast] at b1
  cases b1
  obtain ⟨i, hib⟩ := List.mem_iff_getElem?.mp b4
  have hlen : nodes.length = comps.length := by
    obtain ⟨old, hold⟩ := exists_isOld e k
    obtain ⟨nodes', n1, n2, _⟩ := h2.2 k comps old b2 hold
    have := lookup_of_mem f.keysT3 n1
    rw [lookup_of_mem f.keysT3 b3] at this
    cases this
    exact n2
  have hil : i < comps.length := by
    rw [← hlen]; exact (List.getElem?_eq_some_iff.mp hib).1
  obtain ⟨c, hci⟩ : ∃ c, comps[i]? = some c := ⟨_, List.getElem?_eq_getElem hil⟩
  have hpl := hplace k comps i c b2 hci
  obtain ⟨q1, q3, q2⟩ := hkind new hast k comps nodes i c b d b2 b3 hci hib hd
  obtain ⟨srcs, s1, _, s3⟩ := c47_input_order_partial hL hq hl hp.order hcr τ code new hparse hc hrw hu
    k comps nodes i b c d b2 hci b3 hib hd hK ((hpl.reset (q1 hK)).imp_left q3) (fun nd rs => hpl.refs _ _ _ _ nd rs)
  obtain ⟨rest, hrest⟩ := s3
  have hnn : nodes.Nodup := by
    have : nodes.Sublist (flat e'.index) := by
      obtain ⟨p, q, hpq⟩ := List.append_of_mem b3
      rw [hpq]
      simp only [flat, List.flatMap_append, List.flatMap_cons]
      exact (List.sublist_append_left _ _).trans (List.sublist_append_right _ _)
    exact this.nodup hfn
  refine ⟨_, rest, hrest.symm, ?_, ?_⟩
  · apply q2
    have hleft : (if i = 0 then [] else (nodes[i - 1]?).toList).length = (if i = 0 then 0 else 1) := by
      by_cases h0 : i = 0
      · simp [h0]
      · have : i - 1 < nodes.length := by omega
        simp [h0, List.getElem?_eq_getElem this]
    rw [List.length_append, hleft]
    exact hpl.count srcs.length (fun hplain => sourceList_plain s1 hplain)
  · intro x
    rw [hks, c06_connections_exact_partial hL hq hl hcr τ code new hparse hc hrw hu, List.mem_append,
      sourceList_mem f.keysT3 s1]
    constructor
    · rintro (hx | ⟨r, hr1, hr2⟩)
      · by_cases h0 : i = 0
        · simp [h0] at hx
        · simp only [h0, if_false, Option.mem_toList] at hx
          refine ⟨.chain b3 ((adjacent_get hnn hib).mpr ⟨h0, hx⟩), ?_⟩
          rintro rfl
          have := (flat_unique hfn b3 b3 hx hib).2
          omega
      · refine ⟨.ref b2 hci hr1 b3 hib hr2, ?_⟩
        rintro rfl
        have hlast : ∀ {k' : Name} {c' : List Nat}, (k', c') ∈ e'.index → c'.getLast? = some x →
            k' = k ∧ i + 1 = comps.length := by
          intro k' c' hm hg
          rw [List.getLast?_eq_getElem?] at hg
          obtain ⟨u1, u2⟩ := flat_unique hfn hm b3 hg hib
          cases u1
          have hl2 := (List.getElem?_eq_some_iff.mp hib).1
          exact ⟨rfl, by omega⟩
        cases hr2 with
        | named v1 v2 v3 =>
          obtain ⟨w1, w2⟩ := hlast v2 v3
          exact (hpl.noSelf (q1 hK) w2 _ hr1).1 w1
        | pattern v1 v2 v3 v4 =>
          obtain ⟨w1, w2⟩ := hlast v2 v4
          subst w1
          exact (hpl.noSelf (q1 hK) w2 _ hr1).2 _ rfl v3
    · rintro ⟨hw1, hne⟩
      cases hw1 with
      | @chain k' c' _ _ v1 v2 =>
        left
        have hbc : b ∈ c' := by
          obtain ⟨pre, post, rfl⟩ := v2
          simp
        obtain ⟨j, hj⟩ := List.mem_iff_getElem?.mp hbc
        obtain ⟨u1, u2⟩ := flat_unique hfn v1 b3 hj hib
        cases u1
        subst u2
        obtain ⟨w1, w2⟩ := (adjacent_get hnn hib).mp v2
        simp [w1, w2]
      | out v1 v2 v3 =>
        exact absurd (mem_flat.mpr ⟨k, nodes, b3, b4⟩) hd2
      | @ref k' comps' i' comp' r c' _ _ v1 v2 v3 v4 v5 v6 =>
        right
        obtain ⟨u1, u2⟩ := flat_unique hfn v4 b3 v5 hib
        cases u1
        subst u2
        have : comps' = comps := by
          have := lookup_of_mem hw.names v1
          rw [lookup_of_mem hw.names b2] at this
          cases this
          rfl
        subst this
        rw [hci] at v2
        cases v2
        exact ⟨r, v3, v6⟩

/-- The engine is ready after every allowed history. -/
theorem ready_reach (hL : ParserWf L) (hq : EqLaws L) (hl : RefLaws L)
    (hp : PlayLaws L N A J K R ord W CK CR CW) {e : Engine L} (hr : ReachBy L A e) :
    Ready K R ord W CK CR CW e := by
  have hbase : ∀ {e : Engine L}, e.ast = none → (∀ i d, e.graph.node? i = some d → ¬ K d.node) →
      Named W e → Ready K R ord W CK CR CW e := by
    intro e h1 h2 h3
    refine ⟨fun i d hd hk => absurd hk (h2 i d hd), fun a ha => (by rw [h1] at ha; cases ha),
      fun i d hd hk => absurd hk (h2 i d hd), h3⟩
  induction hr with
  | new N =>
    refine hbase rfl ?_ ?_
    rotate_left
    · intro k nodes hkn
      have hkn : (k, nodes) ∈ [(inputName, [2])] := hkn
      simp only [List.mem_singleton, Prod.mk.injEq] at hkn
      obtain ⟨rfl, rfl⟩ := hkn
      refine .inr ⟨rfl, fun i d hi hd m => ?_⟩
      simp only [List.mem_singleton] at hi
      subst hi
      have hd : some (freshData N 2 L.pass) = some d := hd
      cases hd
      exact hp.passMsg m
    intro i d hd
    have hg : (Engine.new L N).graph.slots =
      [some (freshData N 2 L.sum2), some (freshData N 2 L.pass), some (freshData N 2 L.pass)] := rfl
    unfold Graph.node? at hd
    rw [hg] at hd
    match i, hd with
    | 0, hd => cases hd; exact hp.sum2
    | 1, hd => cases hd; exact hp.pass
    | 2, hd => cases hd; exact hp.pass
  | @step e e1 op hr hA happ ih =>
    have hI := inv_reachable hL (reachBy_reachable hr)
    cases op with
    | update τ code =>
      simp only [Op.apply, except_bind_ok] at happ
      obtain ⟨⟨e2, r⟩, h1, happ⟩ := happ
      cases happ
      have h1' := h1
      unfold Engine.updateWithCode at h1
      rw [except_bind_ok] at h1
      obtain ⟨p, hpp, h1⟩ := h1
      split at h1
      · cases h1; exact ih
      · rename_i new
        have hw := hL code new hpp
        cases r with
        | none => exact ready_update hL hq hl hp hr ih hA hpp h1'
        | some x =>
          have hs := (sameEngine_of_rejected hI hw h1).1
          refine ih.of_each hs.ast hs.index hs.edges ⟨?_, ?_⟩
          · intro i d hd
            exact ⟨d, by rw [hs.nodes]; exact hd, Same.refl _⟩
          · intro i d hd
            exact ⟨d, by rw [hs.nodes] at hd; exact hd, Same.refl _⟩
    | sendMsg m =>
      have := onlyNodes_sendMsg happ
      exact ih.of_each (by rw [this.eq]) (by rw [this.eq]) this.shape.edges (each_sendMsg hp (ih.takes hp hr hA) happ)
    | setBpm v =>
      obtain ⟨h1, h2, h3⟩ := setBpm_nodes happ
      exact ih.of_each (by rw [h1]) (by rw [h1]) h2.edges (each_setBpm hp happ)
    | setSr v => cases happ; exact ih.of_each rfl rfl rfl (.refl Same.refl _)
    | setSeed v => cases happ; exact ih.of_each rfl rfl rfl (.refl Same.refl _)
    | setTrackAmp v => cases happ; exact ih.of_each rfl rfl rfl (.refl Same.refl _)
    | addSample n s => cases happ; exact ih.of_each rfl rfl rfl (.refl Same.refl _)
    | nextBlock ho buf =>
      simp only [Op.apply, except_bind_ok] at happ
      obtain ⟨⟨e2, out⟩, h1, happ⟩ := happ
      cases happ
      obtain ⟨e3, g, d, h2, h3, _, _, rfl⟩ := nextBlock_ok h1
      have h4 := onlyNodes_copyInputs h2
      refine ih.of_each ?_ ?_ ?_ ((each_copyInputs h2).trans (fun _ _ _ => Same.trans)
        (each_process hp h3))
      · show e3.ast = e.ast; rw [h4.eq]
      · show e3.index = e.index; rw [h4.eq]
      · exact (h4.shape.trans (sameShape_process h3)).edges
    | reset =>
      cases happ
      refine hbase rfl ?_ (fun k nodes hkn => by cases hkn)
      intro i d hd
      have hg : e.reset.graph.slots =
        [some (freshData e.N 2 L.sum2), some (freshData e.N 2 L.pass)] := rfl
      unfold Graph.node? at hd
      rw [hg] at hd
      match i, hd with
      | 0, hd => cases hd; exact hp.sum2
      | 1, hd => cases hd; exact hp.pass

/-- After every allowed history a block renders. -/
theorem block_total (hL : ParserWf L) (hq : EqLaws L) (hl : RefLaws L)
    (hp : PlayLaws L N A J K R ord W CK CR CW) {e e1 : Engine L} (hr : ReachBy L A e) (hN : e.N = N)
    (ho : HashOrder) (buf : List (List L.Num)) (hb : e.copyInputs buf = .ok e1) :
    ∃ e' out, e.nextBlock ho buf = .ok (e', out) := by
  have hI := inv_reachable hL (reachBy_reachable hr)
  have hfed : ∀ e1 buf e2, ReachBy L A e1 → e1.N = N → e1.copyInputs buf = .ok e2 →
      AllFed (fun n ks => K n → Fed (ord n) ks (fun k => W n (.inl k))) e2.graph := by
    intro e1 buf e2 hr hN hb i d hd ks hks hk
    have h4 := onlyNodes_copyInputs hb
    exact ((ready_reach hL hq hl hp hr).of_each (by rw [h4.eq])
      (by rw [h4.eq]) h4.shape.edges (each_copyInputs hb)).wired i d hd hk ks hks
  have hJ := all_copyInputs hp.inv (nodeInv_reach hL hp.inv hr hN
    (fun e s hr hA => (ready_reach hL hq hl hp hr).takes hp hr hA) hfed) hb
  have h4 := onlyNodes_copyInputs hb
  have hrd : Ready K R ord W CK CR CW e1 := (ready_reach hL hq hl hp hr).of_each (by rw [h4.eq])
    (by rw [h4.eq]) h4.shape.edges (each_copyInputs hb)
  have hI1 := h4.inv hI
  have hlive : EdgesLive e1.graph := hI1.edges
  have hdest : e1.graph.Live e1.dest := (hI1.live _).mpr (.inl rfl)
  obtain ⟨g, hg, _⟩ := process_total (proc := L.proc) (ho := ho) (dest := e1.dest)
    (J := fun i d => J d ∧ (K d.node → ∀ keys : List Nat,
      (∀ k, k ∈ keys ↔ (k, i) ∈ e1.graph.edges ∧ k ≠ i) → Fed (ord d.node) keys (fun k => W d.node (.inl k))))
    hlive hdest (by
      rintro i d ins ⟨j1, j2⟩ ⟨⟨i1, i2⟩, i3⟩
      have hin : ∀ k b, (k, b) ∈ ins → ∃ d, J d ∧ d.buffers = b := by
        intro k b hkb
        obtain ⟨d', hd', hb'⟩ := i3 k b hkb
        exact ⟨d', hd'.1, hb'⟩
      obtain ⟨n', b', hpr⟩ := hp.total d ins j1 hin i1 (fun hk => j2 hk _ i2)
      refine ⟨n', b', hpr, hp.inv.proc _ _ _ _ j1 hin i1 (fun hk => j2 hk _ i2) hpr, ?_⟩
      obtain ⟨s1, _, s2, s3⟩ := hp.proc _ _ _ _ _ hpr
      intro hk keys hkeys
      show Fed (ord n') keys (fun k => W n' (.inl k))
      rw [s2]
      exact (j2 (s1.mp hk) keys hkeys).mono (fun n hn => s3 _ hn)) (by
      intro i d hd
      exact ⟨hJ i d hd, hrd.wired i d hd⟩)
  have hgd : ∃ d, g.node? e1.dest = some d := by
    obtain ⟨x, hx⟩ := hdest
    obtain ⟨d, hd, _⟩ := (each_process hp hg).1 _ _ hx
    exact ⟨d, hd⟩
  obtain ⟨d, hd⟩ := hgd
  unfold Engine.nextBlock
  rw [hb]
  simp only [bind, Except.bind, hg, hd]
  exact ⟨_, _, rfl⟩

end

end Verif
