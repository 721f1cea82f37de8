import Verif.Lemmas.SafeCompound
import Verif.Props.Schedule
import Verif.Spec.Nodes

/-! The nodes inside a compound node, over many blocks (helpers for C57). -/

namespace Verif
open Spec Props

/-- The node number `n` of a patch plays alone: its inputs are the signals of its sources. -/
def PartPlays (P : Plat) (E : List (Nat × Nat)) (g : Patch) (sig : Nat → List (List Buf)) (n : Nat) : Prop :=
  ∃ d inputs, g.node? n = some d ∧ inputs.length = (sig n).length ∧
    runBlocks (procG P) (.prim d.node) d.buffers inputs = .ok (sig n) ∧
    ∀ (t : Nat) i, inputs[t]? = some i → InputsOf E n i ∧ ∀ k b, (k, b) ∈ i → (sig k)[t]? = some b

theorem acyclic_rank {E : List (Nat × Nat)} {dest : Nat} (rank : Nat → Nat)
    (h : ∀ e, e ∈ E → rank e.1 < rank e.2) : AcyclicTo E dest := by
  have hf : ∀ a b, Feeds E a b → rank a ≤ rank b := by
    intro a b hab
    induction hab with
    | refl => exact Nat.le_refl _
    | step he _ ih => exact Nat.le_trans (Nat.le_of_lt (h _ he)) ih
  intro a b hab _ _ hba
  have := h _ hab
  have := hf _ _ hba
  simp only at *
  omega

theorem inputsOf_nil {β : Type} {E : List (Nat × Nat)} {n : Nat} {i : List (Nat × List β)} (h : InputsOf E n i)
    (hE : ∀ k, (k, n) ∉ E) : i = [] := by
  cases i with
  | nil => rfl
  | cons e i => exact absurd ((h.2 e.1).mp (by simp)).1 (hE _)

theorem inputsOf_one {β : Type} {E : List (Nat × Nat)} {n a : Nat} {i : List (Nat × List β)} (h : InputsOf E n i)
    (hE : ∀ k, (k, n) ∈ E ∧ k ≠ n ↔ k = a) : ∃ b, i = [(a, b)] := by
  obtain ⟨h1, h2⟩ := h
  have hm : ∀ k, k ∈ i.map Prod.fst ↔ k ∈ [a] := fun k => by rw [h2, hE]; simp
  have hp := (List.perm_ext_iff_of_nodup h1 (by simp)).mpr hm
  have := List.perm_singleton.mp hp
  match i, this with
  | [(x, b)], this =>
    simp only [List.map_cons, List.map_nil, List.cons.injEq, and_true] at this
    exact ⟨b, by rw [this]⟩

theorem inputsOf_two {β : Type} {E : List (Nat × Nat)} {n a b : Nat} {i : List (Nat × List β)} (h : InputsOf E n i)
    (hab : a ≠ b) (hE : ∀ k, (k, n) ∈ E ∧ k ≠ n ↔ k = a ∨ k = b) :
    ∃ x y, i = [(a, x), (b, y)] ∨ i = [(b, y), (a, x)] := by
  obtain ⟨h1, h2⟩ := h
  have hm : ∀ k, k ∈ i.map Prod.fst ↔ k ∈ [a, b] := fun k => by rw [h2, hE]; simp
  have hp := (List.perm_ext_iff_of_nodup h1 (by simp [hab])).mpr hm
  have hl := hp.length_eq
  match i, hl with
  | [(x, u), (y, v)], _ =>
    have k1 : x = a ∨ x = b := by have := (hm x).mp (by simp); simpa using this
    have k2 : y = a ∨ y = b := by have := (hm y).mp (by simp); simpa using this
    have k3 : x ≠ y := by simpa using h1
    rcases k1 with rfl | rfl <;> rcases k2 with rfl | rfl
    · exact absurd rfl k3
    · exact ⟨u, v, .inl rfl⟩
    · exact ⟨v, u, .inr rfl⟩
    · exact absurd rfl k3

/-- The input `i` of a node, from its source `k`, has the left channel `x`. -/
def LeftIs (k : Nat) (i : Ins) (x : Buf) : Prop := ∃ main, i = [(k, main)] ∧ main[0]? = some x

/-- The buffers of a fed patch. -/
theorem feed_nodes {g g' : Patch} {i : Nat} {x : Buf} {n : Prim} {b : Buf} (hi : g.node? i = some ⟨n, [b]⟩)
    (h : Patch.feed g i x = .ok g') :
    g'.edges = g.edges ∧ (∀ j, j ≠ i → g'.node? j = g.node? j) ∧ g'.node? i = some ⟨n, [x]⟩ := by
  obtain ⟨d1, d', k1, k2, k3, k4, k5, k6⟩ := Graph.modify_ok h
  rw [hi] at k1
  cases k1
  cases k2
  refine ⟨k3, ?_, ?_⟩
  · intro j hj
    rw [k6, if_neg (fun h => hj h.symm)]
  · rw [k6, if_pos rfl]

/-- A compound node without feedback plays its parts: each of the nodes inside plays on the signals of its sources, and
the result is the signal of the destination. -/
theorem compound_parts {P : Plat} {E : List (Nat × Nat)} {c : Compound} {k : Nat} (hA : AcyclicTo E c.dest)
    (hno : ∀ j, (j, c.input) ∉ E) (hfi : Feeds E c.input c.dest) (hkind : c.kind ≠ .plate) (hord : c.order[0]? = some k)
    (ins : List Ins) (xs : List Buf) (hF : List.Forall₂ (LeftIs k) ins xs) :
    ∀ (g : Patch) (out : List Buf) (outs : List (List Buf)), g.edges = E → EdgesLive g → (∃ d, g.node? c.dest = some d) →
      (∃ b, g.node? c.input = some ⟨.pass, [b]⟩) → out.length = 2 →
      runBlocks (procG P) (.compound { c with graph := g }) out ins = .ok outs →
      ∃ sig : Nat → List (List Buf), sig c.input = xs.map (fun x => [x]) ∧
        (∀ n, Feeds E n c.dest → (sig n).length = xs.length) ∧
        (∀ n, n ≠ c.input → Feeds E n c.dest → PartPlays P E g sig n) ∧
        List.Forall₂ (fun s o => ∃ l r, s[0]? = some l ∧ s[1]? = some r ∧ o = [l, r]) (sig c.dest) outs := by
  induction hF with
  | nil =>
    intro g out outs hE hL hd hi ho h
    cases h
    refine ⟨fun _ => [], rfl, fun _ _ => rfl, ?_, .nil⟩
    intro n _ hn
    have : ∃ d, g.node? n = some d := by
      cases hn with
      | refl => exact hd
      | step he _ => rw [← hE] at he; exact (hL _ he).1
    obtain ⟨d, hd⟩ := this
    exact ⟨d, [], hd, rfl, rfl, fun t i h => by cases h⟩
  | @cons i x ins xs hi0 hF ih =>
    intro g out outs hE hL hd hi ho h
    obtain ⟨main, rfl, hmain⟩ := hi0
    obtain ⟨b0, hi⟩ := hi
    simp only [runBlocks] at h
    split at h
    · cases h
    · rename_i n' out' h1
      split at h
      · cases h
      · rename_i rest h2
        cases h
        have hproc : procCompound P.libm P.ho { c with graph := g } [(k, main)] out =
            Compound.feed P.libm P.ho { c with graph := g } [(k, main)] out := by
          unfold procCompound
          cases hk : c.kind with
          | plate => exact absurd hk hkind
          | drum => simp only
          | synth => simp only
        simp only [procG, hproc, Compound.feed, inputAt, hord, List.find?_cons_of_pos, beq_self_eq_true, bind, Except.bind,
          chan, hmain] at h1
        cases hfeed : Patch.feed g c.input x with
        | error e => rw [hfeed] at h1; cases h1
        | ok g1 =>
          rw [hfeed] at h1
          simp only [Patch.nextBlock, bind, Except.bind] at h1
          cases hpr : process (procPrim P.libm) P.ho g1 c.dest with
          | error e => rw [hpr] at h1; cases h1
          | ok g2 =>
            rw [hpr] at h1
            simp only at h1
            obtain ⟨e1, e2, e3⟩ := feed_nodes hi hfeed
            have hE1 : g1.edges = E := e1.trans hE
            have hs1 := sameShape_modify hfeed
            have hL1 : EdgesLive g1 := by
              intro e he
              rw [e1] at he
              exact ⟨(hs1.live _).mpr (hL e he).1, (hs1.live _).mpr (hL e he).2⟩
            have hd1 : ∃ d, g1.node? c.dest = some d := (hs1.live _).mpr hd
            obtain ⟨b1, b2, b3⟩ := c09_block (procPrim P.libm) P.ho g1 g2 c.dest hL1 hd1 (by rw [hE1]; exact hA) hpr
            rw [hE1] at b1 b2 b3
            have hs2 := sameShape_process hpr
            have hL2 : EdgesLive g2 := (edgesLive_process _ _ _ _ _ hL1 hd1 hpr).1
            have hd2 : ∃ d, g2.node? c.dest = some d := (hs2.live _).mpr hd1
            have hi2 : g2.node? c.input = some ⟨.pass, [x]⟩ := by
              obtain ⟨inp, d, d', j1, j2, j3, j4, _⟩ := b1 c.input hfi
              have := inputsOf_nil j1 hno
              subst this
              rw [e3] at j2
              cases j2
              obtain ⟨n1, b1⟩ := d'
              cases j4
              exact j3
            obtain ⟨dd, hdd⟩ := hd2
            rw [hdd] at h1
            simp only at h1
            cases hy0 : dd.buffers[0]? with
            | none => rw [hy0] at h1; cases h1
            | some l =>
              cases hy1 : dd.buffers[1]? with
              | none => rw [hy0, hy1] at h1; cases h1
              | some r =>
                rw [hy0, hy1] at h1
                match out, ho with
                | [o1, o2], _ =>
                cases h1
                obtain ⟨sig, s1, s2, s3, s4⟩ := ih g2 [l, r] rest b3 hL2 ⟨dd, hdd⟩ ⟨x, hi2⟩ rfl h2
                refine ⟨fun n => ((g2.node? n).map (·.buffers)).getD [] :: sig n, ?_, ?_, ?_, ?_⟩
                · simp only [hi2, Option.map_some, Option.getD_some, s1, List.map_cons]
                · intro n hn
                  simp only [List.length_cons, s2 n hn]
                · intro n hne hn
                  obtain ⟨inp, d, d', j1, j2, j3, j4, j5⟩ := b1 n hn
                  obtain ⟨d2, inputs, q1, q2, q3, q4⟩ := s3 n hne hn
                  rw [j3] at q1
                  cases q1
                  rw [e2 n hne] at j2
                  refine ⟨d, inp :: inputs, j2, by simp [q2], ?_, ?_⟩
                  · simp only [runBlocks, procG, j4, reState, q3, j3, Option.map_some, Option.getD_some]
                  · intro t i ht
                    cases t with
                    | zero =>
                      cases ht
                      refine ⟨j1, ?_⟩
                      intro k b hkb
                      obtain ⟨dk, u1, u2⟩ := j5 k b hkb
                      simp [u1, u2]
                    | succ t => exact q4 t i ht
                · exact .cons ⟨l, r, by simp [hdd, hy0], by simp [hdd, hy1], rfl⟩ s4

/-- Blocks of a node that is a loop over blocks. -/
theorem part_run {P : Plat} {σ ι ο : Type} (node : σ → Prim) (F : σ → ι → σ × ο) (R : Ins → ι → Prop)
    (I : List Buf → Prop) (Q : ο → List Buf → Prop)
    (h : ∀ s i x out, R i x → I out → ∃ o', procPrim P.libm (node s) i out = .ok (node (F s x).1, o') ∧
      I o' ∧ Q (F s x).2 o') {is : List Ins} {xs : List ι} (hF : List.Forall₂ R is xs) :
    ∀ (s : σ) (out : List Buf), I out → ∃ outs, runBlocks (procG P) (.prim (node s)) out is = .ok outs ∧
      List.Forall₂ Q (run F s xs).2 outs := by
  induction hF with
  | nil => intro s out _; exact ⟨[], rfl, .nil⟩
  | @cons i x is xs hR _ ih =>
    intro s out hI
    obtain ⟨o, h1, h2, h3⟩ := h s i x out hR hI
    obtain ⟨outs, k1, k2⟩ := ih (F s x).1 o h2
    exact ⟨o :: outs, by simp only [runBlocks, procG, h1, reState, k1], .cons h3 k2⟩

end Verif
