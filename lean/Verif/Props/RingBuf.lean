import Verif.Lemmas.RingBuf

/-! # C35, C39: the ring buffer between page and audio thread -/

namespace Verif.Props
open Verif RingBuf Spec.Ring

variable {α : Type}

/-- **C35.** For every capacity, every sequence of calls and every interleaving: no thread ever touches
an element outside of an array, what has been popped is a prefix of what has been pushed (nothing is
lost, duplicated, reordered or invented), and the difference never exceeds the usable capacity. -/
theorem c35_fifo (mem : List α) (hm : mem ≠ []) (sched : List (Act α)) :
    ∃ s t, run (init mem) sched = .ok (s, t) ∧ popped t <+: pushed t ∧
      (pushed t).length ≤ (popped t).length + (mem.length - 1) := by
  obtain ⟨s, t, h, hI⟩ := run_ok (inv_init mem hm) sched
  rw [List.nil_append] at hI
  refine ⟨s, t, h, ?_, ?_⟩
  · rw [hI.pre]; exact List.take_prefix _ _
  · have := hI.fit; have := hI.pos; omega

/-- **C35**, unread data is never overwritten: at every moment of every interleaving, also in the
middle of a `push`, the storage holds the unread elements, starting at the read pointer. -/
theorem c35_unread_intact (mem : List α) (hm : mem ≠ []) (sched : List (Act α)) {s : State α}
    {t : List (Label α)} (h : run (init mem) sched = .ok (s, t)) (j : Nat) (hj : j < size t) :
    s.mem[(s.rd.toNat + j) % mem.length]? = (pushed t)[(popped t).length + j]? := by
  obtain ⟨s', t', h', hI⟩ := run_ok (inv_init mem hm) sched
  rw [h] at h'
  cases h'
  rw [List.nil_append] at hI
  unfold size at hj
  have := hI.data ((popped t).length + j) (by omega) (by omega)
  rw [hI.rd, ← this, Int.toNat_natCast, Nat.mod_add_mod]

/-- **C35**, results of the calls: `push(els)` accepts at least as many elements as there was room for
when it was called and never more than given; `pop(dst)` delivers at least as many as were in the
queue when it was called (if the array has room) and never more than the array holds. -/
theorem c35_calls (mem : List α) (hm : mem ≠ []) (sched : List (Act α)) {s : State α}
    {t : List (Label α)} (h : run (init mem) sched = .ok (s, t)) :
    (∀ t1 els els' n, PushIn t t1 els els' n →
      els' = els ∧ n ≤ els.length ∧ min els.length (mem.length - 1 - size t1) ≤ n) ∧
    (∀ t1 dst out n, PopIn t t1 dst out n →
      out.length = dst.length ∧ n ≤ dst.length ∧ min dst.length (size t1) ≤ n) := by
  obtain ⟨s', t', h', hI⟩ := run_ok (inv_init mem hm) sched
  rw [h] at h'
  cases h'
  rw [List.nil_append] at hI
  exact ⟨hI.pushes, hI.pops⟩

/-- A schedule with storage of three elements in which the producer wraps around while the consumer is
in the middle of a `pop`: everything arrives in order. -/
example : ∃ s t, run (init [0, 0, 0])
    ([.callPush [1, 2]] ++ List.replicate 8 .stepProd ++ [.callPop [9], .stepCons, .stepCons, .stepCons] ++
     [.stepCons, .stepCons] ++ [.callPush [3], .stepProd, .callPop [9, 9], .stepCons, .stepProd, .stepProd,
      .stepProd, .stepProd] ++ List.replicate 8 .stepCons ++ List.replicate 8 .stepProd) = .ok (s, t) ∧
    pushed t = [1, 2, 3] ∧ popped t = [1, 2, 3] ∧ s.wr = 0 := ⟨_, _, rfl, rfl, rfl, rfl⟩

/-! ### C39: status queries -/

/-- **C39** (partial). Between calls, `empty()` and `available_write()` tell the truth, and so does
`available_read()` unless the buffer is empty. Missing: `available_read()` of an empty buffer
(`c39_available_read_when_empty`) and `full()` (`c39_full_is_inverted`), which are wrong. -/
theorem c39_status_queries_partial (mem : List α) (hm : mem ≠ []) (sched : List (Act α))
    {s : State α} {t : List (Label α)} (h : run (init mem) sched = .ok (s, t)) :
    (emptyFn s.rd s.wr = true ↔ size t = 0) ∧
    availableWrite mem.length s.rd s.wr = ((mem.length - 1 - size t : Nat) : Int) ∧
    (size t ≠ 0 → availableRead mem.length s.rd s.wr = (size t : Int)) := by
  obtain ⟨s', t', h', hI⟩ := run_ok (inv_init mem hm) sched
  rw [h] at h'
  cases h'
  rw [List.nil_append] at hI
  have h1 := hI.le
  have h2 := hI.fit
  refine ⟨?_, ?_, ?_⟩
  · rw [hI.wr, hI.rd]
    unfold emptyFn size
    rw [beq_iff_eq]
    constructor
    · intro he
      have := idx_inj h1 h2 (by exact_mod_cast he.symm)
      omega
    · intro he
      have : (pushed t).length = (popped t).length := by omega
      rw [this]
  · rw [hI.wr, hI.rd, availableWrite_eq h1 h2]
    unfold size
    omega
  · intro hs
    unfold size at hs ⊢
    rw [hI.wr, hI.rd, availableRead_eq (by omega) h2]

/-- **C39 does not hold in full**: on an empty buffer `available_read()` reports the whole storage,
one more than can ever be in the buffer. -/
theorem c39_available_read_when_empty (mem : List α) (hm : mem ≠ []) (sched : List (Act α))
    {s : State α} {t : List (Label α)} (h : run (init mem) sched = .ok (s, t)) (he : size t = 0) :
    availableRead mem.length s.rd s.wr = (mem.length : Int) := by
  have h1 := (c39_status_queries_partial mem hm sched h).1.mpr he
  unfold emptyFn at h1
  rw [beq_iff_eq] at h1
  unfold availableRead
  rw [h1, if_neg (by omega)]
  omega

/-- **C39 does not hold in full**: `full()` answers `true` exactly when the buffer is not full. -/
theorem c39_full_is_inverted (mem : List α) (hm : mem ≠ []) (sched : List (Act α))
    {s : State α} {t : List (Label α)} (h : run (init mem) sched = .ok (s, t)) :
    fullFn mem.length s.rd s.wr = true ↔ size t ≠ mem.length - 1 := by
  obtain ⟨s', t', h', hI⟩ := run_ok (inv_init mem hm) sched
  rw [h] at h'
  cases h'
  rw [List.nil_append] at hI
  have h1 := hI.le
  have h2 := hI.fit
  have h3 := hI.pos
  unfold fullFn size
  rw [hI.wr, hI.rd, bne_iff_ne, ne_eq, full_iff h1 h2]
  omega

example : ∃ s t, run (init [0, 0, 0]) ([.callPush [1, 2]] ++ List.replicate 8 .stepProd) = .ok (s, t) ∧
    size t = 2 ∧ fullFn 3 s.rd s.wr = false := ⟨_, _, rfl, rfl, rfl⟩

end Verif.Props
