import Verif.Lemmas.SafeCompound
import Verif.Lemmas.KernelRfl
import Verif.Props.Osc

/-! When the reverb `plate` does not panic (helpers for C37). -/

namespace Verif
open Spec Props

/-- All samples of all channels are in the range. -/
def AllIn (lo hi : ℚ) (bs : List Buf) : Prop := ∀ b, b ∈ bs → ∀ x, x ∈ b → Within lo hi x

/-- The connections inside the reverb, the last one first. -/
def plateEdges : List (Nat × Nat) :=
  ((plateChains.map (fun l => l.zip l.tail)).flatten).reverse

/-- What holds of the node number `i` inside the reverb. -/
structure PlateInner (m : Libm) (N : Nat) (i : Nat) (d : NodeData Prim Buf) : Prop where
  safe : d.node.Safe m
  takes : ∀ p v, d.node.takesNumber p v
  sz : Sz N d.buffers
  ne : d.buffers ≠ []
  two : d.node.twoSided → 2 ≤ d.buffers.length
  dest : i = 0 → 2 ≤ d.buffers.length
  ord : d.node.keepsOrder = true → ∀ x, x ∈ d.node.order ↔ (x, i) ∈ plateEdges
  fits : i ≠ 10 → i ≠ 21 → d.node.fits d.node.order.length
  moved : i = 10 ∨ i = 21 → ∃ f a, d.node = .apf f ∧ f.order = [a, 13] ∧ 4096 ≤ f.bufx.len ∧
    f.bufx.len ≤ 2 ^ 23 ∧ f.sr = 44100
  wave : i = 11 → (∃ o, d.node = .sin o ∧ o.sr = 44100 ∧ o.freq = dec (1 / 10) ∧ Within 0 1 o.phase) ∧
    AllIn (-1) 1 d.buffers
  amp : i = 12 → (∃ a, d.node = .mul a ∧ a.val = .fin (11 / 2)) ∧ AllIn (-6) 6 d.buffers
  off : i = 13 → (∃ a, d.node = .add a ∧ a.val = .fin (59 / 2)) ∧ AllIn (-40) 40 d.buffers

/-- What holds of the graph inside the reverb. -/
structure PlateGraph (m : Libm) (N : Nat) (g : Patch) : Prop where
  free : g.free = []
  edges : g.edges = plateEdges
  size : g.slots.length = 51
  full : ∀ i, i < 51 → ∃ d, g.node? i = some d
  inner : All (PlateInner m N) g

/-- What holds of a reverb that cannot fail. -/
structure PlateOk (m : Libm) (N : Nat) (c : Compound) : Prop where
  kind : c.kind = .plate
  graph : PlateGraph m N c.graph
  dest : c.dest = 0
  input : c.input = 2
  tags : c.tags = [41, 47, 43, 49]

variable {m : Libm} {N : Nat}

/-! ### A new reverb -/

/-- A line at its start. -/
def newLine (r : Ring) : Bool := !r.data.isEmpty && r.first == 0

/-- The node is as expected. -/
def nodeCheck (i : Nat) (d : NodeData Prim Buf) : Bool :=
  (match i, d.node with
    | 11, .sin o => o.sr == 44100 && o.freq == dec (1 / 10) && o.phase == .fin 0
    | 12, .mul a => a.val == .fin (11 / 2)
    | 13, .add a => a.val == .fin (59 / 2)
    | 10, .apf f | 21, .apf f => newLine f.bufx && newLine f.bufy
    | 11, _ | 12, _ | 13, _ | 10, _ | 21, _ => false
    | _, .pass | _, .sum | _, .sum2 | _, .mul _ | _, .add _ | _, .onepole _ => true
    | _, .balance _ => Nat.ble 2 d.buffers.length
    | _, .delayn r => newLine r.buf
    | _, .delayms r => r.buf.all newLine && r.order.length == 1
    | _, .apf f => newLine f.bufx && newLine f.bufy && Nat.ble f.order.length 1
    | _, _ => false) &&
  !d.buffers.isEmpty && (i != 0 || Nat.ble 2 d.buffers.length) &&
  (!d.node.keepsOrder || (d.node.order.all (fun x => plateEdges.contains (x, i)) &&
    plateEdges.all (fun e => e.2 != i || d.node.order.contains e.1)))

/-- All nodes from number `i` on are as expected. -/
def slotsCheck : Nat → List (Option (NodeData Prim Buf)) → Bool
  | _, [] => true
  | i, some d :: l => nodeCheck i d && slotsCheck (i + 1) l
  | _, none :: _ => false

/-- The whole reverb is as expected. -/
def plateCheck (c : Compound) : Bool :=
  c.kind == .plate && c.dest == 0 && c.input == 2 && c.graph.free.isEmpty && c.graph.edges == plateEdges &&
  c.graph.slots.length == 51 && slotsCheck 0 c.graph.slots

theorem newPlate_check (m : Libm) (N : Nat) (x : Fl) : (newPlate m N x).map plateCheck = .ok true := by
  kernel_rfl

/-- The line of 100 ms. -/
def longLine : Ring := ⟨List.replicate 4410 (.fin 0), 0⟩

theorem newPlate_long (m : Libm) (N : Nat) (x : Fl) :
    (newPlate m N x).map (fun c => (c.graph.node? 10, c.graph.node? 21)) =
      .ok (some ⟨.apf ⟨dec (7 / 10), longLine, longLine, 44100, [9, 13]⟩, [List.replicate N (.fin 0)]⟩,
        some ⟨.apf ⟨dec (1 / 2), longLine, longLine, 44100, [20, 13]⟩, [List.replicate N (.fin 0)]⟩) := by
  kernel_rfl


theorem newLine_wf {r : Ring} (h : newLine r = true) : r.Wf := by
  simp only [newLine, Bool.and_eq_true, Bool.not_eq_true', List.isEmpty_eq_false_iff, beq_iff_eq] at h
  unfold Ring.Wf
  rw [h.2]
  exact List.length_pos_iff.mpr h.1

/-- Nothing has been played yet. -/
def Silent (d : NodeData Prim Buf) : Prop := ∀ b, b ∈ d.buffers → ∀ x, x ∈ b → x = .fin 0

theorem fresh_silent {ch : Nat} {n : Prim} : Silent (fresh N ch n) := by
  intro b hb x hx
  cases List.eq_of_mem_replicate hb
  exact List.eq_of_mem_replicate hx

theorem silent_nodes {l : List (Nat × Prim)} : ∀ {g : Patch}, All (fun _ => Silent) g →
    All (fun _ => Silent) (Patch.nodes N g l) := by
  induction l with
  | nil => intro g h; exact h
  | cons a l ih => intro g h; exact ih (all_addNode (J := Silent) h fresh_silent)

theorem silent_connect {g g' : Patch} {a b : Nat} (hg : All (fun _ => Silent) g)
    (h : Patch.connect m g a b = .ok g') : All (fun _ => Silent) g' := by
  unfold Patch.connect at h
  rw [except_bind_ok] at h
  obtain ⟨g1, h1, h2⟩ := h
  obtain ⟨rfl, _, _⟩ := addEdge_ok h1
  refine all_modify (J := Silent) (g := { g with edges := (a, b) :: g.edges }) ?_ hg h2
  intro d d' hd hf
  rw [except_bind_ok] at hf
  obtain ⟨n, _, hf⟩ := hf
  cases hf
  exact hd

theorem silent_chain {l : List Nat} : ∀ {g g' : Patch}, All (fun _ => Silent) g →
    Patch.chain m g l = .ok g' → All (fun _ => Silent) g' := by
  induction l with
  | nil => intro g g' hg h; cases h; exact hg
  | cons a l ih =>
    intro g g' hg h
    cases l with
    | nil => cases h; exact hg
    | cons b l =>
      simp only [Patch.chain, except_bind_ok] at h
      obtain ⟨g1, h1, h2⟩ := h
      exact ih (silent_connect hg h1) h2

theorem silent_chains {l : List (List Nat)} : ∀ {g g' : Patch}, All (fun _ => Silent) g →
    Patch.chains m g l = .ok g' → All (fun _ => Silent) g' := by
  induction l with
  | nil => intro g g' hg h; cases h; exact hg
  | cons a l ih =>
    intro g g' hg h
    simp only [Patch.chains, except_bind_ok] at h
    obtain ⟨g1, h1, h2⟩ := h
    exact ih (silent_chain hg h1) h2

theorem slotsCheck_get {l : List (Option (NodeData Prim Buf))} : ∀ {i : Nat}, slotsCheck i l = true →
    ∀ k, k < l.length → ∃ d, l[k]? = some (some d) ∧ nodeCheck (i + k) d = true := by
  induction l with
  | nil => intro i _ k hk; simp at hk
  | cons a l ih =>
    intro i h k hk
    cases a with
    | none => cases h
    | some d =>
      simp only [slotsCheck, Bool.and_eq_true] at h
      cases k with
      | zero => exact ⟨d, rfl, h.1⟩
      | succ k =>
        obtain ⟨x, h1, h2⟩ := ih h.2 k (by simpa using hk)
        exact ⟨x, h1, by rw [← h2]; congr 1; omega⟩

theorem silent_in {lo hi : ℚ} {d : NodeData Prim Buf} (h : Silent d) (h1 : lo ≤ 0) (h2 : 0 ≤ hi) :
    AllIn lo hi d.buffers := by
  intro b hb x hx
  rw [h b hb x hx]
  exact ⟨rfl, h1, h2⟩

theorem ne_nil_of {l : List Buf} (h : (!l.isEmpty) = true) : l ≠ [] := by
  rintro rfl
  cases h

theorem nodeCheck_inner {i : Nat} {d : NodeData Prim Buf} (h : nodeCheck i d = true) (hs : Silent d)
    (hz : Sz N d.buffers)
    (hm : i = 10 ∨ i = 21 → ∃ f a, d.node = .apf f ∧ f.order = [a, 13] ∧ 4096 ≤ f.bufx.len ∧
      f.bufx.len ≤ 2 ^ 23 ∧ f.sr = 44100) : PlateInner m N i d := by
  obtain ⟨n, bs⟩ := d
  unfold nodeCheck at h
  simp only [Bool.and_eq_true, Bool.or_eq_true] at h
  obtain ⟨⟨⟨h1, h2⟩, h3⟩, h4⟩ := h
  have hord : n.keepsOrder = true → ∀ x, x ∈ n.order ↔ (x, i) ∈ plateEdges := by
    intro hk x
    rcases h4 with h4 | ⟨h4, h5⟩
    · rw [hk] at h4
      cases h4
    · constructor
      · intro hx
        exact List.contains_iff_mem.mp (List.all_eq_true.mp h4 x hx)
      · intro hx
        have := List.all_eq_true.mp h5 _ hx
        simp only [Bool.or_eq_true, bne_iff_ne, ne_eq, not_true_eq_false, false_or] at this
        exact List.contains_iff_mem.mp this
  have hdest : i = 0 → 2 ≤ bs.length := by
    rintro rfl
    rcases h3 with h3 | h3
    · cases h3
    · exact Nat.le_of_ble_eq_true h3
  have base : ∀ (hsafe : n.Safe m) (htwo : n.twoSided → 2 ≤ bs.length)
      (hfits : i ≠ 10 → i ≠ 21 → n.fits n.order.length)
      (hwave : i = 11 → ∃ o, n = .sin o ∧ o.sr = 44100 ∧ o.freq = dec (1 / 10) ∧ Within 0 1 o.phase)
      (hamp : i = 12 → ∃ a, n = .mul a ∧ a.val = .fin (11 / 2))
      (hoff : i = 13 → ∃ a, n = .add a ∧ a.val = .fin (59 / 2))
      (htakes : ∀ p v, n.takesNumber p v := by intros; trivial), PlateInner m N i ⟨n, bs⟩ := by
    intro hsafe htwo hfits hwave hamp hoff htakes
    exact ⟨hsafe, htakes, hz, ne_nil_of h2, htwo, hdest, hord, hfits, hm,
      fun h => ⟨hwave h, silent_in hs (by norm_num) (by norm_num)⟩,
      fun h => ⟨hamp h, silent_in hs (by norm_num) (by norm_num)⟩,
      fun h => ⟨hoff h, silent_in hs (by norm_num) (by norm_num)⟩⟩
  split at h1
  · simp only [Bool.and_eq_true, beq_iff_eq] at h1
    exact base trivial (fun h => h.elim) (fun _ _ => trivial)
      (fun _ => ⟨_, rfl, h1.1.1, h1.1.2, by rw [h1.2]; exact ⟨rfl, le_refl _, by norm_num [Fl.val]⟩⟩)
      (fun h => by cases h) (fun h => by cases h)
  · exact base trivial (fun h => h.elim) (fun _ _ => trivial) (fun h => by cases h)
      (fun _ => ⟨_, rfl, by simpa using h1⟩) (fun h => by cases h)
  · exact base trivial (fun h => h.elim) (fun _ _ => trivial) (fun h => by cases h) (fun h => by cases h)
      (fun _ => ⟨_, rfl, by simpa using h1⟩)
  · rw [Bool.and_eq_true] at h1
    exact base ⟨newLine_wf h1.1, newLine_wf h1.2⟩ (fun h => h.elim) (fun h _ => absurd rfl h)
      (fun h => by cases h) (fun h => by cases h) (fun h => by cases h)
  · rw [Bool.and_eq_true] at h1
    exact base ⟨newLine_wf h1.1, newLine_wf h1.2⟩ (fun h => h.elim) (fun _ h => absurd rfl h)
      (fun h => by cases h) (fun h => by cases h) (fun h => by cases h)
  all_goals try cases h1
  case h_17 =>
    exact base trivial (fun _ => Nat.le_of_ble_eq_true h1) (fun _ _ => trivial)
      (fun h => absurd h (by assumption)) (fun h => absurd h (by assumption)) (fun h => absurd h (by assumption))
  case h_18 =>
    exact base (newLine_wf h1) (fun h => h.elim) (fun _ _ => trivial)
      (fun h => absurd h (by assumption)) (fun h => absurd h (by assumption)) (fun h => absurd h (by assumption))
  case h_19 =>
    simp only [Bool.and_eq_true, beq_iff_eq] at h1
    exact base (fun r hr => newLine_wf (List.all_eq_true.mp h1.1 r hr)) (fun h => h.elim) (fun _ _ => h1.2)
      (fun h => absurd h (by assumption)) (fun h => absurd h (by assumption)) (fun h => absurd h (by assumption))
  case h_20 =>
    simp only [Bool.and_eq_true] at h1
    exact base ⟨newLine_wf h1.1.1, newLine_wf h1.1.2⟩ (fun h => h.elim) (fun _ _ => Nat.le_of_ble_eq_true h1.2)
      (fun h => absurd h (by assumption)) (fun h => absurd h (by assumption)) (fun h => absurd h (by assumption))
  all_goals
    exact base trivial (fun h => h.elim) (fun _ _ => trivial)
      (fun h => absurd h (by assumption)) (fun h => absurd h (by assumption)) (fun h => absurd h (by assumption))

theorem longLine_len : longLine.len = 4410 := List.length_replicate ..

theorem newPlate_ok {x : Fl} {k : Compound} (h : newPlate m N x = .ok k) : PlateOk m N k := by
  have hc := newPlate_check m N x
  have hl := newPlate_long m N x
  rw [h] at hc hl
  have hc : plateCheck k = true := Except.ok.inj hc
  have hl := Except.ok.inj hl
  simp only [plateCheck, Bool.and_eq_true, beq_iff_eq, List.isEmpty_iff] at hc
  obtain ⟨⟨⟨⟨⟨⟨c1, c2⟩, c3⟩, c4⟩, c5⟩, c6⟩, c7⟩ := hc
  have hs : All (fun _ => Silent) k.graph ∧ PatchSz N k.graph ∧ k.tags = [41, 47, 43, 49] := by
    unfold newPlate at h
    simp only [except_bind_ok] at h
    obtain ⟨l, _, g, h1, h⟩ := h
    cases h
    refine ⟨silent_chains (silent_nodes ?_) h1, patchSz_chains (patchSz_nodes patchSz_new) h1, rfl⟩
    exact all_addNode (J := Silent) (all_addNode (J := Silent)
      (fun i d h => by simp [Graph.empty, Graph.node?] at h) fresh_silent) fresh_silent
  have hget := slotsCheck_get c7
  rw [c6] at hget
  refine ⟨c1, ⟨c4, c5, c6, ?_, ?_⟩, c2, c3, hs.2.2⟩
  · intro i hi
    obtain ⟨d, hd, _⟩ := hget i hi
    exact ⟨d, by simp only [Graph.node?, hd]; rfl⟩
  · intro i d hd
    have hi := Graph.node?_lt hd
    rw [c6] at hi
    obtain ⟨d', hd', hn⟩ := hget i hi
    have : d' = d := by
      have : k.graph.node? i = some d' := by simp only [Graph.node?, hd']; rfl
      rw [this] at hd
      exact Option.some.inj hd
    subst this
    rw [Nat.zero_add] at hn
    refine nodeCheck_inner hn (hs.1 i d' hd) (hs.2.1 i d' hd) ?_
    rintro (rfl | rfl)
    · have := congrArg Prod.fst hl
      simp only [hd] at this
      cases this
      exact ⟨_, 9, rfl, rfl, by rw [longLine_len]; decide, by rw [longLine_len]; decide, rfl⟩
    · have := congrArg Prod.snd hl
      simp only [hd] at this
      cases this
      exact ⟨_, 20, rfl, rfl, by rw [longLine_len]; decide, by rw [longLine_len]; decide, rfl⟩

/-! ### The modulated filters -/

theorem pos_within {v : Fl} (h : Within (-40) 40 v) :
    Within (-4096) 4096 (msToSamples 44100 (Fl.neg v)) := by
  have hn := Fl.neg_fin h.1
  have r16 : f32.Rep (1 / 16) := ⟨1, -4, by decide, by decide, by rw [pow2_eq]; norm_num⟩
  have r4096 : f32.Rep 4096 := by exact_mod_cast f32_rep_int (n := 4096) (by decide)
  have h1 : Within (-(1 / 16)) (1 / 16) (Fl.neg v /. .fin 1000) := by
    apply within_div hn.1 rfl (Fmt.rep_neg r16) r16 (by norm_num) (by norm_num)
    · norm_num [Fl.val]
    · rw [hn.2, Fl.val_fin]
      have := h.2.2
      linarith
    · rw [hn.2, Fl.val_fin]
      have := h.2.1
      linarith
  obtain ⟨f1, f2⟩ := f32_ofNat (n := 44100) (by decide)
  have hv : ((44100 : Nat) : ℚ) = 44100 := by norm_num
  rw [hv] at f2
  unfold msToSamples
  apply within_mul h1.1 f1 (Fmt.rep_neg r4096) r4096 (by norm_num) (by norm_num)
  · rw [f2]
    have := h1.2.1
    linarith
  · rw [f2]
    have := h1.2.2
    linarith

theorem toUsize_small {x : Fl} (h : x.isFinite = true) (h2 : x.val < 2 ^ 30) : (Fl.floor x).toUsize < 2 ^ 30 := by
  have hf : (Fl.floor x).isFinite = true ∧ (Fl.floor x).val < 2 ^ 30 := by
    cases x with
    | nan => cases h
    | inf s => cases h
    | nz => exact ⟨rfl, h2⟩
    | fin q =>
      refine ⟨rfl, ?_⟩
      have h2 : q < 2 ^ 30 := h2
      exact lt_of_le_of_lt (floor_le' q) h2
  rw [Fl.toUsize_of hf.1 (lt_trans hf.2 (by norm_num))]
  have : ⌊(Fl.floor x).val⌋ < 2 ^ 30 := by
    rw [Int.floor_lt]
    have := hf.2
    push_cast
    exact this
  omega

/-- A modulation of a few milliseconds reads inside a line of 4096 samples. -/
theorem readPos_ok {r : Ring} {v : Fl} (h1 : 4096 ≤ r.len) (h2 : r.len ≤ 2 ^ 23) (hv : Within (-40) 40 v) :
    ∃ p, readPos [r] 44100 v = .ok p ∧ p.1 < 2 ^ 30 := by
  have hp := pos_within hv
  unfold readPos
  dsimp only
  split
  · obtain ⟨f1, f2⟩ := f32_ofNat (n := r.len) (le_trans h2 (by decide))
    have hl : (4096 : ℚ) ≤ r.len := by exact_mod_cast h1
    have hl2 : (r.len : ℚ) ≤ 2 ^ 23 := by exact_mod_cast h2
    have r24 : f32.Rep (2 ^ 24) := by
      have := f32_rep_int (n := 16777216) (by decide)
      norm_num at this ⊢
      exact this
    have hs : Within 0 (2 ^ 24) (msToSamples 44100 (Fl.neg v) +. Fl.ofNat f32 r.len) := by
      apply within_add hp.1 f1 rep0 r24 (by norm_num) (by norm_num)
      · rw [f2]
        have := hp.2.1
        linarith
      · rw [f2]
        have := hp.2.2
        have : (4096 : ℚ) ≤ 2 ^ 23 := by norm_num
        linarith
    rename_i hneg
    have h0 : Fl.lt (msToSamples 44100 (Fl.neg v) +. Fl.ofNat f32 r.len) (.fin 0) = false := by
      by_contra hc
      have := (Fl.lt_fin hs.1 (b := .fin 0) rfl).mp (by simpa using hc)
      rw [Fl.val_fin] at this
      linarith [hs.2.1]
    have hw : ∃ p, wrapUp (Fl.ofNat f32 r.len) (msToSamples 44100 (Fl.neg v)) = .ok p ∧ Within 0 (2 ^ 24) p := by
      unfold wrapUp
      rw [dif_pos hneg]
      have hlt : Fl.lt (msToSamples 44100 (Fl.neg v)) (msToSamples 44100 (Fl.neg v) +. Fl.ofNat f32 r.len) = true := by
        rw [Fl.lt_fin hp.1 hs.1]
        have := (Fl.lt_fin hp.1 (b := .fin 0) rfl).mp hneg
        rw [Fl.val_fin] at this
        linarith [hs.2.1]
      rw [dif_pos hlt]
      unfold wrapUp
      rw [dif_neg (by rw [h0]; decide)]
      exact ⟨_, rfl, hs⟩
    obtain ⟨p, hw, hpp⟩ := hw
    simp only [lineLen, bind, Except.bind, hw]
    exact ⟨_, rfl, toUsize_small hpp.1 (lt_of_le_of_lt hpp.2.2 (by norm_num))⟩
  · exact ⟨_, rfl, toUsize_small hp.1 (lt_of_le_of_lt hp.2.2 (by norm_num))⟩

theorem readLerp_ok {r : Ring} (h : r.Wf) {p : Nat × Fl} (hp : p.1 < 2 ^ 30) : ∃ x, readLerp r p = .ok x := by
  obtain ⟨u, hu⟩ := Ring.get_ok h p.1
  obtain ⟨v, hv⟩ := Ring.get_ok h (p.1 + 1)
  have : p.1 ≠ 2 ^ 64 - 1 := by omega
  simp only [readLerp, hu, hv, bind, Except.bind, if_neg this]
  exact ⟨_, rfl⟩

theorem ring_push_len {r : Ring} {x : Fl} {q : Ring × Fl} (h : r.push x = .ok q) : q.1.len = r.len := by
  unfold Ring.push at h
  split at h
  · cases h
  · cases h
    simp [Ring.len]

theorem inputAt_mem {ins : Ins} {ord : List Nat} {k : Nat} {x : List Buf} (h : inputAt ins ord k = .ok x) :
    ∃ i, ord[k]? = some i ∧ (i, x) ∈ ins := by
  unfold inputAt at h
  split at h
  · cases h
  · rename_i i hi
    split at h
    · rename_i e he
      cases h
      have h1 := List.mem_of_find?_eq_some he
      have h2 := List.find?_some he
      simp only [beq_iff_eq] at h2
      exact ⟨i, hi, h2 ▸ h1⟩
    · cases h

/-- The all-pass filter whose delay is moved slightly. -/
theorem apf_moved {s : Apf} {ins : Ins} {out : List Buf} {a b : Nat} (hc : Call N ins out)
    (h : s.bufx.Wf ∧ s.bufy.Wf) (h1 : 4096 ≤ s.bufx.len) (h2 : s.bufx.len ≤ 2 ^ 23) (hsr : s.sr = 44100)
    (ho : s.order = [a, b]) (hk : ∀ x, x ∈ [a, b] ↔ x ∈ ins.map Prod.fst)
    (hb : ∀ bs, (b, bs) ∈ ins → AllIn (-40) 40 bs) :
    ∃ s' o, procApf s ins out = .ok (s', o) ∧ (s'.bufx.Wf ∧ s'.bufy.Wf) ∧ s'.bufx.len = s.bufx.len ∧
      s'.sr = s.sr ∧ s'.order = s.order := by
  obtain ⟨b0, rest, rfl, _⟩ := hc.outs
  have hf : Fed s.order (ins.map Prod.fst) (· = 2) := ⟨[a, b], [], by rw [ho]; rfl, rfl, hk⟩
  obtain ⟨n, rfl, hn, _, hat⟩ := hf.at hc
  obtain ⟨x, bs, e1, _⟩ := hat 0 (by decide)
  obtain ⟨y, cs, e2, _⟩ := hat 1 (by decide)
  unfold procApf
  split
  · have hstep : ∀ (st : Ring × Ring) y, ((st.1.Wf ∧ st.2.Wf) ∧ st.1.len = s.bufx.len) →
        ∃ r, apfStep s.gain st y = .ok r ∧ (r.1.1.Wf ∧ r.1.2.Wf) ∧ r.1.1.len = s.bufx.len := by
      rintro ⟨r1, r2⟩ y ⟨⟨w1, w2⟩, w3⟩
      obtain ⟨u, hu⟩ := Ring.get_ok w1 0
      obtain ⟨v, hv⟩ := Ring.get_ok w2 0
      obtain ⟨p, hp, hpw⟩ := Ring.push_wf w1 y
      obtain ⟨q, hq, hqw⟩ := Ring.push_wf w2 (apfOut s.gain y u v)
      simp only [apfStep, hu, hv, hp, hq, bind, Except.bind]
      exact ⟨_, rfl, ⟨hpw, hqw⟩, (ring_push_len hp).trans w3⟩
    obtain ⟨r, hr, hw⟩ := runM_total
      (I := fun st : Ring × Ring => (st.1.Wf ∧ st.2.Wf) ∧ st.1.len = s.bufx.len) (J := fun _ => True) _
      (fun st y w _ => hstep st y w) (s.bufx, s.bufy) ⟨h, rfl⟩ x (fun _ _ => trivial)
    simp only [e1, bind, Except.bind, chan_zero, hr]
    exact ⟨_, _, rfl, hw.1, hw.2, rfl, rfl⟩
  · have hy : ∀ v, v ∈ y → Within (-40) 40 v := by
      obtain ⟨i, i1, i2⟩ := inputAt_mem e2
      rw [ho] at i1
      cases i1
      exact hb _ i2 y (by simp)
    have hstep : ∀ (st : Ring × Ring) (p : Fl × Fl), ((st.1.Wf ∧ st.2.Wf) ∧ st.1.len = s.bufx.len) →
        Within (-40) 40 p.2 →
        ∃ r, apfModStep s.gain s.sr st p = .ok r ∧ (r.1.1.Wf ∧ r.1.2.Wf) ∧ r.1.1.len = s.bufx.len := by
      rintro ⟨r1, r2⟩ p ⟨⟨w1, w2⟩, w3⟩ hp
      have w3 : r1.len = s.bufx.len := w3
      obtain ⟨k, hk, hk2⟩ := readPos_ok (r := r1) (v := p.2) (by omega) (by omega) hp
      obtain ⟨u, hu⟩ := readLerp_ok w1 hk2
      obtain ⟨v, hv⟩ := readLerp_ok w2 hk2
      obtain ⟨q1, hq1, hqw1⟩ := Ring.push_wf w1 p.1
      obtain ⟨q2, hq2, hqw2⟩ := Ring.push_wf w2 (apfOut s.gain p.1 u v)
      simp only [apfModStep, hsr, hk, hu, hv, hq1, hq2, bind, Except.bind]
      exact ⟨_, rfl, ⟨hqw1, hqw2⟩, (ring_push_len hq1).trans w3⟩
    obtain ⟨r, hr, hw⟩ := runM_total
      (I := fun st : Ring × Ring => (st.1.Wf ∧ st.2.Wf) ∧ st.1.len = s.bufx.len)
      (J := fun p : Fl × Fl => Within (-40) 40 p.2) _
      (fun st y w => hstep st y w) (s.bufx, s.bufy) ⟨h, rfl⟩ (x.zip y) (fun p hp => hy _ (List.of_mem_zip hp).2)
    simp only [e1, e2, bind, Except.bind, chan_zero, hr]
    exact ⟨_, _, rfl, hw.1, hw.2, rfl, rfl⟩
  · exact ⟨_, _, rfl, h, rfl, rfl, rfl⟩

/-! ### The modulation -/

theorem op_in {op : Fl → Fl → Fl} {ord : List Nat} {v : Fl} {k : Nat} {main out o : List Buf} {lo hi lo' hi' : ℚ}
    (h : applyOp op ord v [(k, main)] out = .ok o) (hm : AllIn lo hi main) (ho : AllIn lo' hi' out)
    (hop : ∀ x, Within lo hi x → Within lo' hi' (op x v)) : AllIn lo' hi' o := by
  unfold applyOp at h
  split at h
  · cases h
  · rename_i b rest
    simp only [except_bind_ok] at h
    obtain ⟨m0, h0, h⟩ := h
    cases h
    have hm0 : m0 ∈ main := by
      unfold chan at h0
      split at h0
      · rename_i x hx
        cases h0
        exact List.mem_of_getElem? hx
      · cases h0
    have hmap : ∀ b, b ∈ main → ∀ x, x ∈ b.map (fun x => op x v) → Within lo' hi' x := by
      intro b hb x hx
      obtain ⟨y, hy, rfl⟩ := List.mem_map.mp hx
      exact hop y (hm b hb y hy)
    have hr : rightOf main m0 ∈ main := by
      unfold rightOf
      split
      · rename_i r hr
        exact List.mem_of_getElem? hr
      · exact hm0
    intro c hc
    rcases List.mem_cons.mp hc with rfl | hc
    · exact hmap _ hm0
    · unfold setRight at hc
      split at hc
      · cases hc
      · rename_i r more
        rcases List.mem_cons.mp hc with rfl | hc
        · exact hmap _ hr
        · exact ho c (by simp [hc])

theorem mul_range {x : Fl} (h : Within (-1) 1 x) : Within (-6) 6 (x *. .fin (11 / 2)) := by
  have r6 : f32.Rep 6 := by exact_mod_cast f32_rep_int (n := 6) (by decide)
  apply within_mul h.1 rfl (Fmt.rep_neg r6) r6 (by norm_num) (by norm_num)
  · rw [Fl.val_fin]; have := h.2.1; linarith
  · rw [Fl.val_fin]; have := h.2.2; linarith

theorem add_range {x : Fl} (h : Within (-6) 6 x) : Within (-40) 40 (x +. .fin (59 / 2)) := by
  have r40 : f32.Rep 40 := by exact_mod_cast f32_rep_int (n := 40) (by decide)
  apply within_add h.1 rfl (Fmt.rep_neg r40) r40 (by norm_num) (by norm_num)
  · rw [Fl.val_fin]; have := h.2.1; linarith
  · rw [Fl.val_fin]; have := h.2.2; linarith

theorem rate_dec : Within 0 44100 (dec (1 / 10)) := by
  have : (dec (1 / 10)).isFinite = true ∧ 0 ≤ (dec (1 / 10)).val ∧ (dec (1 / 10)).val ≤ 44100 := by decide +kernel
  exact this

theorem sin_range {s s' : Osc} {out o : List Buf} (hm : SinBounded m) (h : procSin m s [] out = .ok (s', o))
    (hsr : s.sr = 44100) (hf : s.freq = dec (1 / 10)) (hp : Within 0 1 s.phase) :
    (s'.sr = 44100 ∧ s'.freq = dec (1 / 10) ∧ Within 0 1 s'.phase) ∧ AllIn (-1) 1 o := by
  unfold procSin at h
  dsimp only at h
  split at h
  · cases h
    exact ⟨⟨hsr, hf, hp⟩, fun b hb => by cases hb⟩
  · rename_i b rest
    cases h
    have := run_all (I := Within 0 1) (J := fun x => x = dec (1 / 10)) (O := Within (-1) 1) (sinStep m s.sr)
      (fun ph f hph hf => by
        subst hf
        rw [hsr]
        exact ⟨advance_within (by decide) (by decide) (by simpa using rate_dec) hph, sin_within hm hph⟩)
      s.phase hp (b.map (fun _ => s.freq)) (fun x hx => by
        obtain ⟨_, _, rfl⟩ := List.mem_map.mp hx
        exact hf)
    refine ⟨⟨hsr, hf, this.1⟩, ?_⟩
    intro c hc
    obtain ⟨_, _, rfl⟩ := List.mem_map.mp hc
    exact this.2

/-! ### Processing -/

theorem plate_self : ∀ a, (a, a) ∉ plateEdges := by
  have : plateEdges.all (fun e => e.1 != e.2) = true := by decide +kernel
  intro a ha
  have := List.all_eq_true.mp this _ ha
  simp at this

theorem plate_bound {e : Nat × Nat} (h : e ∈ plateEdges) : e.1 < 51 ∧ e.2 < 51 := by
  have : plateEdges.all (fun e => decide (e.1 < 51) && decide (e.2 < 51)) = true := by decide +kernel
  have := List.all_eq_true.mp this _ h
  simpa using this

theorem plate_into {i : Nat} {l : List Nat} {x : Nat}
    (h : (plateEdges.all (fun e => e.2 != i || l.contains e.1)) = true) (hx : (x, i) ∈ plateEdges) : x ∈ l := by
  have := List.all_eq_true.mp h _ hx
  simpa using this

theorem plate_live {g : Patch} (hg : PlateGraph m N g) : EdgesLive g := by
  intro e he
  rw [hg.edges] at he
  exact ⟨hg.full _ (plate_bound he).1, hg.full _ (plate_bound he).2⟩

/-- A node with exactly one source. -/
theorem single_input {i k : Nat} {ins : Ins} (h1 : (ins.map Prod.fst).Nodup)
    (h2 : ∀ x, x ∈ ins.map Prod.fst ↔ (x, i) ∈ plateEdges ∧ x ≠ i)
    (h : (plateEdges.all (fun e => e.2 != i || [k].contains e.1)) = true) (hki : (k, i) ∈ plateEdges) :
    ∃ b, ins = [(k, b)] := by
  have hk : ∀ x, x ∈ ins.map Prod.fst → x = k := by
    intro x hx
    have := plate_into h ((h2 x).mp hx).1
    simpa using this
  have hmem : k ∈ ins.map Prod.fst := (h2 k).mpr ⟨hki, fun e => plate_self i (e ▸ hki)⟩
  match ins, h1, hk, hmem with
  | [(a, b)], _, hk, _ =>
    have : a = k := hk a (by simp)
    subst this
    exact ⟨b, rfl⟩
  | (a, _) :: (c, _) :: _, h1, hk, _ =>
    have e1 : a = k := hk a (by simp)
    have e2 : c = k := hk c (by simp)
    subst e1
    subst e2
    simp at h1

theorem plate_process {g : Patch} {ho : HashOrder} (hN : 1 ≤ N)
    (hm : ∀ a b, Within (-1) 1 (m.noise a b)) (hsin : SinBounded m) (hg : PlateGraph m N g) :
    ∃ g', process (procPrim m) ho g 0 = .ok g' ∧ PlateGraph m N g' := by
  obtain ⟨g', h1, h2⟩ := process_total (ho := ho) (proc := procPrim m) (J := PlateInner m N)
    (dest := 0) (plate_live hg) (hg.full 0 (by decide)) (by
      intro i d ins hd hin
      rw [hg.edges] at hin
      obtain ⟨⟨i1, i2⟩, i3⟩ := hin
      have hc : Call N ins d.buffers := by
        refine ⟨hN, hd.sz, hd.ne, ?_, ?_, i1⟩
        · intro e he
          obtain ⟨d', hd', hb⟩ := i3 e.1 e.2 he
          rw [← hb]
          exact hd'.sz
        · intro e he
          obtain ⟨d', hd', hb⟩ := i3 e.1 e.2 he
          rw [← hb]
          exact hd'.ne
      have hkeys : d.node.keepsOrder = true → ∀ x, x ∈ d.node.order ↔ x ∈ ins.map Prod.fst := by
        intro hk x
        rw [hd.ord hk x, i2]
        constructor
        · intro h
          refine ⟨h, ?_⟩
          rintro rfl
          exact plate_self x h
        · exact And.left
      -- what holds after the block, given that it did not fail
      have after : ∀ n' o, procPrim m d.node ins d.buffers = .ok (n', o) → n'.Safe m →
          (i = 10 ∨ i = 21 → ∃ f a, n' = .apf f ∧ f.order = [a, 13] ∧ 4096 ≤ f.bufx.len ∧
            f.bufx.len ≤ 2 ^ 23 ∧ f.sr = 44100) → PlateInner m N i ⟨n', o⟩ := by
        intro n' o hp hs hmv
        have hk := (procPrim_keep hc.szIns hc.szOut hp).1
        have hl := procPrim_like hp
        refine ⟨hs, fun p v => ?_, hk.2, ?_, ?_, ?_, ?_, ?_, hmv, ?_, ?_, ?_⟩
        · show n'.takes (.setToNumber p v)
          rw [hl.2.2.2.2]
          exact hd.takes p v
        · intro h
          have h : o = [] := h
          have := hk.1
          rw [h] at this
          exact hd.ne (List.length_eq_zero_iff.mp (by simpa using this.symm))
        · intro h
          show 2 ≤ o.length
          rw [hk.1]
          exact hd.two (by rw [← hl.2.2.2.1]; exact h)
        · intro h
          show 2 ≤ o.length
          rw [hk.1]
          exact hd.dest h
        · intro h x
          show x ∈ n'.order ↔ _
          rw [hl.2.1]
          exact hd.ord (by rw [← hl.1]; exact h) x
        · intro h h'
          show n'.fits n'.order.length
          rw [hl.2.1, hl.2.2.1]
          exact hd.fits h h'
        · rintro rfl
          obtain ⟨⟨s, e1, e2, e3, e4⟩, _⟩ := hd.wave rfl
          have hi : ins = [] := by
            rw [← List.map_eq_nil_iff (f := Prod.fst)]
            apply List.eq_nil_iff_forall_not_mem.mpr
            intro x hx
            have := plate_into (l := []) (by decide +kernel) ((i2 x).mp hx).1
            cases this
          rw [e1, hi] at hp
          obtain ⟨s', hp', rfl⟩ := reState_ok hp
          have := sin_range hsin hp' e2 e3 e4
          exact ⟨⟨s', rfl, this.1⟩, this.2⟩
        · rintro rfl
          obtain ⟨⟨s, e1, e2⟩, hr⟩ := hd.amp rfl
          obtain ⟨b, rfl⟩ := single_input (k := 11) i1 i2 (by decide +kernel) (by decide +kernel)
          rw [e1] at hp
          obtain ⟨hp', hn⟩ := sameNode_ok hp
          obtain ⟨d', hd', hb⟩ := i3 11 b (by simp)
          refine ⟨⟨s, hn, e2⟩, ?_⟩
          unfold procMul at hp'
          rw [e2] at hp'
          exact op_in hp' (hb ▸ (hd'.wave rfl).2) hr (fun x => mul_range)
        · rintro rfl
          obtain ⟨⟨s, e1, e2⟩, hr⟩ := hd.off rfl
          obtain ⟨b, rfl⟩ := single_input (k := 12) i1 i2 (by decide +kernel) (by decide +kernel)
          rw [e1] at hp
          obtain ⟨hp', hn⟩ := sameNode_ok hp
          obtain ⟨d', hd', hb⟩ := i3 12 b (by simp)
          refine ⟨⟨s, hn, e2⟩, ?_⟩
          unfold procAdd at hp'
          rw [e2] at hp'
          exact op_in hp' (hb ▸ (hd'.amp rfl).2) hr (fun x => add_range)
      by_cases hi : i = 10 ∨ i = 21
      · obtain ⟨f, a, e1, e2, e3, e4, e5⟩ := hd.moved hi
        have hs := hd.safe
        have hke := hkeys (by rw [e1]; rfl)
        have ho : d.node.order = [a, 13] := by rw [e1]; exact e2
        rw [ho] at hke
        rw [e1] at hs
        obtain ⟨s', o, k1, k2, k3, k4, k5⟩ := apf_moved hc hs e3 e4 e5 e2 hke (by
          intro bs hbs
          obtain ⟨d', hd', hb⟩ := i3 13 bs hbs
          rw [← hb]
          exact (hd'.off rfl).2)
        have hp : procPrim m d.node ins d.buffers = .ok (.apf s', o) := by
          rw [e1]
          show reState Prim.apf (procApf f ins d.buffers) = _
          rw [k1]
          rfl
        exact ⟨_, _, hp, after _ _ hp k2 (fun _ => ⟨s', a, rfl, k5.trans e2, by omega, by omega, k4.trans e5⟩)⟩
      · have h10 : i ≠ 10 := fun h => hi (.inl h)
        have h21 : i ≠ 21 := fun h => hi (.inr h)
        obtain ⟨n', o, hp, hs⟩ := procPrim_total hm hd.safe hc hd.two (by
          intro hk
          exact ⟨d.node.order, [], (List.append_nil _).symm, hd.fits h10 h21, hkeys hk⟩)
        exact ⟨n', o, hp, after _ _ hp hs (fun h => absurd h hi)⟩) hg.inner
  have hs := sameShape_process h1
  refine ⟨g', h1, hs.free.trans hg.free, hs.edges.trans hg.edges, hs.len.trans hg.size, ?_, h2⟩
  intro j hj
  exact (hs.live j).mpr (hg.full j hj)

theorem plate_feed {g : Patch} {x : Buf} (hg : PlateGraph m N g) (hx : x.length = N) :
    ∃ g', Patch.feed g 2 x = .ok g' ∧ PlateGraph m N g' := by
  obtain ⟨d, hd⟩ := hg.full 2 (by decide)
  have hid := hg.inner 2 d hd
  obtain ⟨b, bs, hb⟩ := List.exists_cons_of_ne_nil hid.ne
  have : ∃ g', Patch.feed g 2 x = .ok g' := by
    unfold Patch.feed Graph.modify
    simp only [hd, hb]
    exact ⟨_, rfl⟩
  obtain ⟨g', hg'⟩ := this
  refine ⟨g', hg', ?_⟩
  obtain ⟨d1, d', k1, k2, k3, k4, k5, k6⟩ := Graph.modify_ok hg'
  rw [hd] at k1
  cases k1
  simp only [hb] at k2
  cases k2
  have hs := sameShape_modify hg'
  refine ⟨k4.trans hg.free, k3.trans hg.edges, k5.trans hg.size, ?_, ?_⟩
  · intro j hj
    exact (hs.live j).mpr (hg.full j hj)
  · intro j y hy
    rw [k6] at hy
    by_cases hj : 2 = j
    · subst hj
      rw [if_pos rfl] at hy
      cases hy
      have hsz := hid.sz
      have ht2 := hid.two
      rw [hb] at hsz ht2
      refine ⟨hid.safe, hid.takes, ?_, by simp, ht2, (fun h => by cases h), hid.ord, hid.fits, (fun h => ?_),
        (fun h => by cases h), (fun h => by cases h), (fun h => by cases h)⟩
      · intro z hz
        rcases List.mem_cons.mp hz with rfl | hz
        · exact hx
        · exact hsz z (List.mem_cons_of_mem _ hz)
      · omega
    · rw [if_neg hj] at hy
      exact hg.inner j y hy

/-- A reverb that is given at least one input, in a known order, does not fail. -/
theorem procPlate_total {ho : HashOrder} {c : Compound} {ins : Ins} {out : List Buf}
    (hm : ∀ a b, Within (-1) 1 (m.noise a b)) (hsin : SinBounded m) (hc : PlateOk m N c) (hi : Call N ins out)
    (h2 : 2 ≤ out.length) (hf : Fed c.order (ins.map Prod.fst) (1 ≤ ·)) :
    ∃ c' o, procCompound m ho c ins out = .ok (c', o) ∧ PlateOk m N c' := by
  obtain ⟨n, hn, _, _, hat⟩ := Fed.at hf hi
  have e : procCompound m ho c ins out = c.feed m ho ins out := by
    unfold procCompound
    rw [hc.kind]
  rw [e]
  obtain ⟨x, bs, k1, k2⟩ := hat 0 (by omega)
  obtain ⟨g1, j1, j2⟩ := plate_feed hc.graph (k2 x (by simp))
  obtain ⟨g2, l1, l2⟩ := plate_process (ho := ho) hi.pos hm hsin j2
  obtain ⟨d, hd⟩ := l2.full 0 (by decide)
  have hdd := (l2.inner 0 d hd).dest rfl
  obtain ⟨y0, y1, ys, hys⟩ : ∃ y0 y1 ys, d.buffers = y0 :: y1 :: ys := by
    match d.buffers, hdd with
    | y0 :: y1 :: ys, _ => exact ⟨y0, y1, ys, rfl⟩
  obtain ⟨o0, o1, os, hos⟩ : ∃ y0 y1 ys, out = y0 :: y1 :: ys := by
    match out, h2 with
    | y0 :: y1 :: ys, _ => exact ⟨y0, y1, ys, rfl⟩
  subst hos
  refine ⟨{ c with graph := g2 }, y0 :: y1 :: os, ?_, ⟨hc.kind, l2, hc.dest, hc.input, hc.tags⟩⟩
  unfold Compound.feed Patch.nextBlock
  rw [hc.input, hc.dest, k1]
  have e1 : chan (x :: bs) 0 = .ok x := rfl
  simp only [bind, Except.bind]
  rw [e1]
  simp only []
  rw [j1]
  simp only []
  rw [l1]
  simp only [hd, hys]
  rfl

/-- A number sent to a node inside that is neither one of the modulated filters nor one of the nodes that
modulate them. -/
theorem plate_send {g g' : Patch} {i p : Nat} {v : Fl} (hg : PlateGraph m N g) (hi : i ∈ [41, 47, 43, 49])
    (h : Patch.send m g i (.setToNumber p v) = .ok g') : PlateGraph m N g' := by
  unfold Patch.send at h
  obtain ⟨d, d', k1, k2, k3, k4, k5, k6⟩ := Graph.modify_ok h
  rw [except_bind_ok] at k2
  obtain ⟨n, hn, hd⟩ := k2
  cases hd
  have hid := hg.inner i d k1
  obtain ⟨⟨l1, l2, l3, l4, l5⟩, l6⟩ := msgPrim_user (g := .setToNumber p v) trivial (hid.takes p v) hn
  have hs := sameShape_modify h
  refine ⟨k4.trans hg.free, k3.trans hg.edges, k5.trans hg.size, ?_, ?_⟩
  · intro j hj
    exact (hs.live j).mpr (hg.full j hj)
  · intro j y hy
    rw [k6] at hy
    by_cases hj : i = j
    · subst hj
      rw [if_pos rfl] at hy
      cases hy
      have hi : i ≠ 0 ∧ i ≠ 10 ∧ i ≠ 21 ∧ i ≠ 11 ∧ i ≠ 12 ∧ i ≠ 13 := by
        simp only [List.mem_cons, List.not_mem_nil, or_false] at hi
        omega
      refine ⟨l6 hid.safe, fun p v => ?_, hid.sz, hid.ne, fun h => ?_, fun h => absurd h hi.1, fun h x => ?_,
        fun h1 h2 => ?_, fun h => ?_, fun h => absurd h hi.2.2.2.1, fun h => absurd h hi.2.2.2.2.1,
        fun h => absurd h hi.2.2.2.2.2⟩
      · show n.takes (.setToNumber p v)
        rw [l5]; exact hid.takes p v
      · exact hid.two (by rw [← l4]; exact h)
      · show x ∈ n.order ↔ _
        rw [l2]
        exact hid.ord (by rw [← l1]; exact h) x
      · show n.fits n.order.length
        rw [l2, l3]
        exact hid.fits h1 h2
      · rcases h with h | h
        · exact absurd h hi.2.1
        · exact absurd h hi.2.2.1
    · rw [if_neg hj] at hy
      exact hg.inner j y hy

theorem plate_sendTag {c c' : Compound} {k p : Nat} {v : Fl} (hc : PlateOk m N c)
    (h : c.sendTag m k (.setToNumber p v) = .ok c') : PlateOk m N c' ∧ c'.order = c.order := by
  unfold Compound.sendTag at h
  split at h
  · cases h
  · rename_i i hi
    rw [except_bind_ok] at h
    obtain ⟨g, hg, h⟩ := h
    cases h
    rw [hc.tags] at hi
    exact ⟨⟨hc.kind, plate_send hc.graph (List.mem_of_getElem? hi) hg, hc.dest, hc.input, hc.tags⟩, rfl⟩

end Verif
