import Verif.Lemmas.Loop
import Verif.Nodes.Seq
import Verif.Spec.Inputs

/-! Nodes that read several inputs sample by sample. -/

namespace Verif
open Spec

/-- The samples of a block, each with the inputs of the block and its number. -/
def blockItems (N : Nat) (i : Ins) : List (Ins × Nat) := (List.range N).map (fun s => (i, s))

theorem blockItems_length (N : Nat) (i : Ins) : (blockItems N i).length = N := by simp [blockItems]

theorem items_length (N : Nat) (ins : List Ins) : (ins.map (blockItems N)).flatten.length = ins.length * N := by
  induction ins with
  | nil => simp
  | cons i is ih => simp only [List.map_cons, List.flatten_cons, List.length_append, ih, blockItems_length, List.length_cons]; ring

theorem items_get (N : Nat) (ins : List Ins) (t : Nat) (ht : t < ins.length * N) :
    ∃ i, ins[t / N]? = some i ∧ (ins.map (blockItems N)).flatten[t]? = some (i, t % N) := by
  induction ins generalizing t with
  | nil => simp at ht
  | cons j ins ih =>
    have hN : 0 < N := by
      rcases Nat.eq_zero_or_pos N with rfl | h
      · simp at ht
      · exact h
    rw [List.map_cons, List.flatten_cons]
    by_cases h : t < N
    · refine ⟨j, by rw [Nat.div_eq_of_lt h]; rfl, ?_⟩
      rw [List.getElem?_append_left (by rw [blockItems_length]; exact h), Nat.mod_eq_of_lt h]
      simp [blockItems, h]
    · rw [Nat.not_lt] at h
      obtain ⟨i, h1, h2⟩ := ih (t - N) (by simp only [List.length_cons, Nat.add_mul, Nat.one_mul] at ht; omega)
      refine ⟨i, ?_, ?_⟩
      · rw [Nat.div_eq_sub_div hN h, List.getElem?_cons_succ]; exact h1
      · rw [List.getElem?_append_right (by rw [blockItems_length]; exact h), blockItems_length, Nat.mod_eq_sub_mod h]
        exact h2

/-- A loop whose results are known in advance. -/
theorem runM_along {σ ι ο : Type} (f : σ → ι → Except Panic (σ × ο)) (xs : List ι) (st : Nat → σ) (v : Nat → ο) (k : Nat)
    (h : ∀ j x, xs[j]? = some x → f (st (k + j)) x = .ok (st (k + j + 1), v (k + j))) :
    runM f (st k) xs = .ok (st (k + xs.length), (List.range xs.length).map (fun j => v (k + j))) := by
  induction xs generalizing k with
  | nil => rfl
  | cons x xs ih =>
    have h0 := h 0 x rfl
    have := ih (k + 1) (fun j y hy => by
      have := h (j + 1) y hy
      rwa [show k + (j + 1) = k + 1 + j by omega] at this)
    simp only [Nat.add_zero] at h0
    simp only [runM, h0, this, List.length_cons, Except.ok.injEq, Prod.mk.injEq]
    refine ⟨by congr 1; omega, ?_⟩
    rw [List.range_succ_eq_map]
    simp [List.map_map, Function.comp_def, Nat.add_assoc, Nat.add_comm 1]

/-- A node with two output channels that writes the left one sample by sample, from the inputs at the same time. -/
theorem blocks_items {ν σ : Type} (proc : ProcFn ν Buf) (wrap : σ → ν)
    (f : σ → Ins × Nat → Except Panic (σ × Fl)) (N : Nat) (ins : List Ins)
    (H : ∀ s i a b, i ∈ ins → a.length = N → proc (wrap s) i [a, b] = blockOf wrap (fun y => [y, b]) (runM f s (blockItems N i)))
    (st : Nat → σ) (v : Nat → Fl)
    (h : ∀ t i, ins[t / N]? = some i → t < ins.length * N → f (st t) (i, t % N) = .ok (st (t + 1), v t))
    (out : List Buf) (hg : LeftOnly N out) :
    ∃ outs, runBlocks proc (wrap (st 0)) out ins = .ok outs ∧
      channel 0 outs = some ((List.range (ins.length * N)).map v) ∧
      channel 1 outs = some (List.replicate (ins.length * N) (.fin 0)) := by
  have hr := runM_along f (ins.map (blockItems N)).flatten st v 0 (fun j x hx => by
    have hj : j < ins.length * N := by
      rw [← items_length N ins]
      exact (List.getElem?_eq_some_iff.mp hx).1
    obtain ⟨i, h1, h2⟩ := items_get N ins j hj
    rw [h2] at hx
    cases hx
    have := h j i h1 hj
    simpa using this)
  have hput : ∀ (y : List Fl) (out : List Buf), LeftOnly N out → y :: out.tail = [y, List.replicate N (.fin 0)] := by
    rintro y _ ⟨a, _, rfl⟩; rfl
  have key : ∀ (pr : Fl → Fl) (c : Nat), (∀ y : List Fl, y.length = N → [y, List.replicate N (.fin 0)][c]? = some (y.map pr)) →
      chanResult c (runBlocks proc (wrap (st 0)) out ins) =
        loopResult pr (runM f (st 0) (ins.map (blockItems N)).flatten) := by
    intro pr c hc
    have := blocks_general proc wrap f pr (fun _ => True) (LeftOnly N) c (fun y o => y :: o.tail)
      (ins.map (fun i => (i, blockItems N i)))
      (fun s b o hb _ hg => by
        obtain ⟨i, hi, rfl⟩ := List.mem_map.mp hb
        obtain ⟨a, ha, rfl⟩ := hg
        exact H s i _ _ hi ha)
      (fun b s r o hb _ hg hr => by
        obtain ⟨i, hi, rfl⟩ := List.mem_map.mp hb
        have hl : r.2.length = N := by rw [runM_length hr, blockItems_length]
        exact ⟨trivial, ⟨_, hl, hput _ _ hg⟩, by rw [hput _ _ hg]; exact hc _ hl⟩)
      (st 0) out trivial hg
    simpa [List.map_map, Function.comp_def] using this
  have h0 := key id 0 (fun y _ => by simp)
  have h1 := key (fun _ => .fin 0) 1 (fun y hy => by simp [hy])
  rw [hr] at h0 h1
  obtain ⟨o, ho, ho'⟩ := chanResult_ok h0
  obtain ⟨o2, ho2, ho2'⟩ := chanResult_ok h1
  rw [ho] at ho2; cases ho2
  rw [items_length] at ho' ho2'
  exact ⟨o, ho, by simpa using ho', by simpa [Function.comp_def] using ho2'⟩

/-- What a node reads of a source. -/
theorem sends_inputAt {N : Nat} {ins : List Ins} {n : Nat} {xs : List Fl} (h : Sends N ins n xs) {order : List Nat}
    {j : Nat} (hj : order[j]? = some n) {k : Nat} {i : Ins} (hi : ins[k]? = some i) :
    ∃ bufs b, inputAt i order j = .ok bufs ∧ chan bufs 0 = .ok b ∧ b.length = N ∧
      ∀ s, s < N → b[s]? = xs[k * N + s]? := by
  obtain ⟨bufs, b, h1, h2, h3, h4, h5⟩ := h.2 k i hi
  refine ⟨bufs, b, ?_, by simp [chan, h3], h4, h5⟩
  simp only [inputAt, hj]
  cases hf : i.find? (fun e => e.1 == n) with
  | none => simpa using List.find?_eq_none.mp hf _ h1
  | some e =>
    have he := List.find?_some hf
    have hm := List.mem_of_find?_eq_some hf
    obtain ⟨m, x⟩ := e
    obtain rfl : m = n := by simpa using he
    simp only [h2 _ hm]

theorem sends_get {N : Nat} {ins : List Ins} {n : Nat} {xs : List Fl} (h : Sends N ins n xs) {t : Nat}
    (ht : t < ins.length * N) : ∃ x, xs[t]? = some x :=
  ⟨_, List.getElem?_eq_getElem (by rw [h.1]; exact ht)⟩

theorem block_time {N t : Nat} {ins : List Ins} {i : Ins} (hi : ins[t / N]? = some i) (ht : t < ins.length * N) :
    t % N < N ∧ t / N * N + t % N = t := by
  have hN : 0 < N := by
    rcases Nat.eq_zero_or_pos N with rfl | h
    · simp at ht
    · exact h
  exact ⟨Nat.mod_lt _ hN, by rw [Nat.mul_comm]; exact Nat.div_add_mod t N⟩

/-- The sample of a source at a time. -/
theorem sends_sample {N : Nat} {ins : List Ins} {n : Nat} {xs : List Fl} (h : Sends N ins n xs) {order : List Nat}
    {j : Nat} (hj : order[j]? = some n) {t : Nat} {i : Ins} (hi : ins[t / N]? = some i) (ht : t < ins.length * N) {x : Fl}
    (hx : xs[t]? = some x) : inputSample i order j (t % N) = .ok x := by
  obtain ⟨bufs, b, h1, h2, h3, h4⟩ := sends_inputAt h hj hi
  obtain ⟨g1, g2⟩ := block_time hi ht
  have := h4 _ g1
  rw [g2, hx] at this
  simp [inputSample, h1, h2, this, bind, Except.bind]

/-- The messages by which a node learns its sources. -/
theorem sendMsgs_order {P : Plat} (wrap : List Nat → GNode P)
    (h : ∀ o n, msgG P (wrap o) (.index n) = .ok (wrap (o ++ [n]))) (o ns : List Nat) :
    sendMsgs (wrap o) (ns.map .index) = .ok (wrap (o ++ ns)) := by
  induction ns generalizing o with
  | nil => simp [sendMsgs]
  | cons n ns ih => simp [sendMsgs, h, ih]

end Verif
