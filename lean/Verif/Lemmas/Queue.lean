import Verif.Spec.Queue
import Verif.Lemmas.RingBuf
import Mathlib.Data.List.Induction

/-! # Texts sent through the ring buffer -/

namespace Verif.RingBuf
open Verif Spec.Ring

variable {α : Type}

theorem sent_append (a b : List (Label α)) : sent (a ++ b) = sent a ++ sent b := by
  induction a with
  | nil => rfl
  | cons l a ih => cases l <;> simp [sent, ih]

theorem returned_append (a b : List (Label α)) : returned (a ++ b) = returned a ++ returned b := by
  induction a with
  | nil => rfl
  | cons l a ih => cases l <;> simp [returned, ih]

theorem accepted_append (a b : List (Label α)) : accepted (a ++ b) = accepted a ++ accepted b := by
  induction a with
  | nil => rfl
  | cons l a ih => cases l <;> simp [accepted, ih]

theorem received_append (a b : List (Label α)) : received (a ++ b) = received a ++ received b := by
  induction a with
  | nil => rfl
  | cons l a ih =>
    cases l with
    | popRet out n => simp only [List.cons_append, received, ih]; split <;> rfl
    | _ => simp [received, ih]

theorem accepted_flatten (t : List (Label α)) : (accepted t).flatten = pushed t := by
  induction t with
  | nil => rfl
  | cons l a ih => cases l <;> simp [accepted, pushed, ih]

theorem received_flatten (t : List (Label α)) : (received t).flatten = popped t := by
  induction t with
  | nil => rfl
  | cons l a ih =>
    cases l with
    | popRet out n =>
      simp only [received, popped]
      split
      · rename_i h; simp [h, ih]
      · simp [ih]
    | _ => simp [received, popped, ih]

/-- Every finished `pop` took everything that was in the queue at some moment, or filled its array. -/
def PopsAt (C : Nat) (t : List (Label α)) : Prop :=
  ∀ a out n b, t = a ++ .popRet out n :: b → ∃ t', t' <+: a ∧ popped t' = popped a ∧
    n = min out.length (size t') ∧ size t' < C ∧ (∃ dst, .popCall dst ∈ a ∧ dst.length = out.length) ∧
    popped a ++ out.take n <+: pushed a ∧ popped a <+: pushed t'

/-- Every return of `push` belongs to the last call. -/
def RetsAt (C : Nat) (t : List (Label α)) : Prop :=
  ∀ a els n b, t = a ++ .pushRet els n :: b → sent a = returned a ++ [els] ∧
    ∃ t1 t2, a = t1 ++ .pushCall els :: t2 ∧ min els.length (C - 1 - size t1) ≤ n ∧ n ≤ els.length

/-- Calls of `push` do not overlap. -/
def CallsAt (t : List (Label α)) : Prop := ∀ a els b, t = a ++ .pushCall els :: b → sent a = returned a

/-- What is known while the consumer is inside `pop`. -/
def SnapInv (C : Nat) (t : List (Label α)) : Cons α → Prop
  | .idle => True
  | .start dst => .popCall dst ∈ t
  | .gotRd dst _ => .popCall dst ∈ t
  | .copy1 dst _ r _ | .copy2 dst _ r _ => (∃ d, .popCall d ∈ t ∧ d.length = dst.length) ∧
      ∃ t', t' <+: t ∧ popped t' = popped t ∧ r = (min dst.length (size t') : Nat) ∧ size t' < C ∧
        popped t <+: pushed t'

/-- What is known about the texts while the producer is inside `push`. -/
def SentInv (t : List (Label α)) : Prod α → Prop
  | .idle => sent t = returned t
  | .start els | .gotRd els _ | .copy1 els _ _ _ | .copy2 els _ _ _ => sent t = returned t ++ [els]

structure Inv2 (C : Nat) (t : List (Label α)) (s : State α) : Prop where
  inv : Inv C t s
  snap : SnapInv C t s.cons
  snt : SentInv t s.prod
  popsAt : PopsAt C t
  retsAt : RetsAt C t
  callsAt : CallsAt t

theorem inv2_init (mem : List α) (h : mem ≠ []) : Inv2 mem.length [] (init mem) := by
  refine ⟨inv_init mem h, trivial, rfl, ?_, ?_, ?_⟩
  · intro a out n b h; simp at h
  · intro a out n b h; simp at h
  · intro a els b h; simp at h

theorem popsAt_snoc {C : Nat} {t : List (Label α)} {l : Label α} (h : PopsAt C t) (hl : ∀ out n, l ≠ .popRet out n) :
    PopsAt C (t ++ [l]) := by
  intro a out n b e
  rcases snoc_cases e with ⟨_, h2, _⟩ | ⟨b', _, h2⟩
  · exact absurd h2 (hl _ _)
  · exact h a out n b' h2

theorem retsAt_snoc {C : Nat} {t : List (Label α)} {l : Label α} (h : RetsAt C t) (hl : ∀ els n, l ≠ .pushRet els n) :
    RetsAt C (t ++ [l]) := by
  intro a out n b e
  rcases snoc_cases e with ⟨_, h2, _⟩ | ⟨b', _, h2⟩
  · exact absurd h2 (hl _ _)
  · exact h a out n b' h2

theorem callsAt_snoc {t : List (Label α)} {l : Label α} (h : CallsAt t) (hl : ∀ els, l ≠ .pushCall els) :
    CallsAt (t ++ [l]) := by
  intro a out b e
  rcases snoc_cases e with ⟨_, h2, _⟩ | ⟨b', _, h2⟩
  · exact absurd h2 (hl _)
  · exact h a out b' h2

theorem snapInv_snoc {C : Nat} {t : List (Label α)} {l : Label α} {c : Cons α} (h : SnapInv C t c)
    (hl : isPop l = false) : SnapInv C (t ++ [l]) c := by
  have hp : popped (t ++ [l]) = popped t := by
    rw [popped_append]
    cases l <;> simp_all [popped, isPop]
  cases c with
  | idle => trivial
  | start dst => exact List.mem_append_left _ h
  | gotRd dst rd => exact List.mem_append_left _ h
  | copy1 dst rd r i =>
    obtain ⟨⟨d, h1, h2⟩, t', h3, h4, h5, h6, h7⟩ := h
    exact ⟨⟨d, List.mem_append_left _ h1, h2⟩, t', h3.trans (List.prefix_append _ _), h4.trans hp.symm, h5, h6, hp ▸ h7⟩
  | copy2 dst rd r i =>
    obtain ⟨⟨d, h1, h2⟩, t', h3, h4, h5, h6, h7⟩ := h
    exact ⟨⟨d, List.mem_append_left _ h1, h2⟩, t', h3.trans (List.prefix_append _ _), h4.trans hp.symm, h5, h6, hp ▸ h7⟩

theorem sentInv_snoc {t : List (Label α)} {l : Label α} {p : Prod α} (h : SentInv t p) (hl : isPush l = false) :
    SentInv (t ++ [l]) p := by
  have h1 : sent (t ++ [l]) = sent t := by
    rw [sent_append]
    cases l <;> simp_all [sent, isPush]
  have h2 : returned (t ++ [l]) = returned t := by
    rw [returned_append]
    cases l <;> simp_all [returned, isPush]
  cases p <;> simp only [SentInv, h1, h2] at h ⊢ <;> exact h

theorem retsAt_ret {C : Nat} {t t1 : List (Label α)} {els : List α} {n : Nat} (h : RetsAt C t)
    (hs : sent t = returned t ++ [els]) (hi : InPush t t1 els) (h1 : n ≤ els.length)
    (h2 : min els.length (C - 1 - size t1) ≤ n) : RetsAt C (t ++ [.pushRet els n]) := by
  intro a out m b e
  rcases snoc_cases e with ⟨_, h3, h4⟩ | ⟨b', _, h3⟩
  · cases h3
    subst h4
    obtain ⟨t2, h5, _⟩ := hi
    exact ⟨hs, t1, t2, h5, h2, h1⟩
  · exact h a out m b' h3

theorem step2_prod {C : Nat} {t : List (Label α)} {s s' : State α} {ls : List (Label α)} (h : Inv2 C t s)
    (hstep : stepProd s = .ok (s', ls)) (hinv : Inv C (t ++ ls) s') : Inv2 C (t ++ ls) s' := by
  obtain ⟨hI, hsnap, hsnt, hp, hr, hc⟩ := h
  have hret : ∀ {els : List α} {n : Nat}, sent t = returned t ++ [els] → ls = [.pushRet els n] → s'.prod = .idle →
      s'.cons = s.cons → (∃ t1, InPush t t1 els) → Inv2 C (t ++ ls) s' := by
    intro els n h1 h2 h3 h4 h5
    subst h2
    obtain ⟨t1, hin⟩ := h5
    have hin' := hin
    obtain ⟨t2, e, hn⟩ := hin
    obtain ⟨_, k1, k2⟩ := hinv.pushes t1 els els n ⟨t2, [], by rw [e], hn⟩
    refine ⟨hinv, ?_, ?_, popsAt_snoc hp (by simp), retsAt_ret hr h1 hin' k1 k2, callsAt_snoc hc (by simp)⟩
    · rw [h4]; exact snapInv_snoc hsnap rfl
    · rw [h3]
      simp [SentInv, sent_append, returned_append, sent, returned, h1]
  have hstay : ls = [] → (SentInv t s'.prod) → s'.cons = s.cons → Inv2 C (t ++ ls) s' := by
    intro h1 h2 h3
    subst h1
    rw [List.append_nil] at hinv ⊢
    exact ⟨hinv, h3 ▸ hsnap, h2, hp, hr, hc⟩
  have hip := hI.prod
  unfold stepProd at hstep
  split at hstep
  · rename_i e
    cases hstep
    exact hstay rfl (by rw [e] at hsnt ⊢; exact hsnt) rfl
  · rename_i els e
    cases hstep
    exact hstay rfl (by rw [e] at hsnt; exact hsnt) rfl
  · rename_i els rd e
    rw [e] at hsnt hip
    simp only at hstep
    split at hstep
    · cases hstep
      obtain ⟨t1, _, k, _⟩ := hip
      exact hret hsnt rfl rfl rfl ⟨t1, k⟩
    · cases hstep
      exact hstay rfl hsnt rfl
  · rename_i els wr w i e
    rw [e] at hsnt hip
    simp only at hstep
    split at hstep
    · rename_i hlt
      cases hcp : copy1 els 0 s.mem wr i with
      | error x => rw [hcp] at hstep; cases hstep
      | ok m =>
        rw [hcp] at hstep
        cases hstep
        exact hstay rfl hsnt rfl
    · cases hstep
      exact hstay rfl hsnt rfl
  · rename_i els wr w i e
    rw [e] at hsnt hip
    simp only at hstep
    split at hstep
    · rename_i hlt
      cases hcp : copy1 els (min (s.cap - wr) w) s.mem 0 i with
      | error x => rw [hcp] at hstep; cases hstep
      | ok m =>
        rw [hcp] at hstep
        cases hstep
        exact hstay rfl hsnt rfl
    · cases hstep
      obtain ⟨t1, k, _⟩ := hip
      exact hret hsnt rfl rfl rfl ⟨t1, k⟩

theorem step2_cons {C : Nat} {t : List (Label α)} {s s' : State α} {ls : List (Label α)} (h : Inv2 C t s)
    (hstep : stepCons s = .ok (s', ls)) (hinv : Inv C (t ++ ls) s') : Inv2 C (t ++ ls) s' := by
  obtain ⟨hI, hsnap, hsnt, hp, hr, hc⟩ := h
  have hpre : popped t <+: pushed t := by rw [hI.pre]; exact List.take_prefix _ _
  have hret : ∀ {out : List α} {n : Nat}, ls = [.popRet out n] → s'.prod = s.prod →
      s'.cons = .idle → (∃ t', t' <+: t ∧ popped t' = popped t ∧ n = min out.length (size t') ∧ size t' < C ∧
        (∃ dst, .popCall dst ∈ t ∧ dst.length = out.length) ∧ popped t <+: pushed t') → Inv2 C (t ++ ls) s' := by
    intro out n h2 h3 h4 h5
    subst h2
    obtain ⟨t', k1, k2, k3, k4, k5, k6⟩ := h5
    refine ⟨hinv, ?_, ?_, ?_, retsAt_snoc hr (by simp), callsAt_snoc hc (by simp)⟩
    · rw [h4]; trivial
    · rw [h3]; exact sentInv_snoc hsnt rfl
    · intro a out' m b e
      rcases snoc_cases e with ⟨_, e1, e2⟩ | ⟨b', _, e1⟩
      · cases e1
        subst e2
        refine ⟨t', k1, k2, k3, k4, k5, ?_, k6⟩
        have := hinv.pre
        have h6 : popped (t ++ [.popRet out n]) = popped t ++ out.take n := by rw [popped_append]; simp [popped]
        have h7 : pushed (t ++ [.popRet out n]) = pushed t := by rw [pushed_append]; simp [pushed]
        rw [h6, h7] at this
        rw [this]
        exact List.take_prefix _ _
      · exact hp a out' m b' e1
  have hstay : ls = [] → s'.prod = s.prod → SnapInv C t s'.cons → Inv2 C (t ++ ls) s' := by
    intro h1 h2 h3
    subst h1
    rw [List.append_nil] at hinv ⊢
    exact ⟨hinv, h3, h2 ▸ hsnt, hp, hr, hc⟩
  have hfit := hI.fit
  unfold stepCons at hstep
  split at hstep
  · rename_i e
    cases hstep
    exact hstay rfl rfl (by rw [e]; trivial)
  · rename_i els e
    cases hstep
    exact hstay rfl rfl (by rw [e] at hsnap; exact hsnap)
  · rename_i dst rd e
    rw [e] at hsnap
    have hic := hI.cons
    rw [e] at hic
    obtain ⟨_, _, hrd⟩ := hic
    have hsz : size t < C := by have := hI.pos; unfold size; omega
    simp only at hstep
    split at hstep
    · rename_i hw
      cases hstep
      have hpq : (popped t).length = (pushed t).length := by
        rw [hI.wr, hrd] at hw
        exact idx_inj hI.le hfit (by exact_mod_cast hw.symm)
      refine hret rfl rfl rfl ⟨t, List.prefix_rfl, rfl, ?_, hsz, ⟨dst, hsnap, rfl⟩, hpre⟩
      unfold size
      omega
    · rename_i hw
      cases hstep
      refine hstay rfl rfl ⟨⟨dst, hsnap, rfl⟩, t, List.prefix_rfl, rfl, ?_, hsz, hpre⟩
      have hlt : (popped t).length < (pushed t).length := by
        rcases Nat.lt_or_eq_of_le hI.le with h | h
        · exact h
        · exact absurd (by rw [hI.wr, hrd, h]) hw
      show min (availableRead s.mem.length rd s.wr) (dst.length : Int) = _
      rw [hI.wr, hrd, hI.cap, availableRead_eq hlt hfit]
      unfold size
      omega
  · rename_i dst rd r i e
    rw [e] at hsnap
    simp only at hstep
    split at hstep
    · rename_i hlt
      cases hcp : copy1 s.mem rd dst 0 i with
      | error x => rw [hcp] at hstep; cases hstep
      | ok m =>
        rw [hcp] at hstep
        cases hstep
        refine hstay rfl rfl ?_
        have : m.length = dst.length := by
          unfold copy1 at hcp
          repeat' split at hcp
          all_goals first | cases hcp | skip
          simp
        simpa only [SnapInv, this] using hsnap
    · cases hstep
      exact hstay rfl rfl hsnap
  · rename_i dst rd r i e
    rw [e] at hsnap
    simp only at hstep
    split at hstep
    · rename_i hlt
      cases hcp : copy1 s.mem 0 dst (min (s.cap - rd) dst.length) i with
      | error x => rw [hcp] at hstep; cases hstep
      | ok m =>
        rw [hcp] at hstep
        cases hstep
        refine hstay rfl rfl ?_
        have : m.length = dst.length := by
          unfold copy1 at hcp
          repeat' split at hcp
          all_goals first | cases hcp | skip
          simp
        simpa only [SnapInv, this] using hsnap
    · cases hstep
      obtain ⟨k1, t', k2, k3, k4, k5, k6⟩ := hsnap
      exact hret rfl rfl rfl ⟨t', k2, k3, by rw [k4, Int.toNat_natCast], k5, k1, k6⟩

theorem step2 {C : Nat} {t : List (Label α)} {s s' : State α} {ls : List (Label α)} {a : Act α} (h : Inv2 C t s)
    (hstep : step s a = .ok (s', ls)) : Inv2 C (t ++ ls) s' := by
  have hinv : Inv C (t ++ ls) s' := by
    obtain ⟨s1, l1, h1, h2⟩ := step_ok h.inv a
    rw [hstep] at h1
    cases h1
    exact h2
  cases a with
  | stepProd => exact step2_prod h hstep hinv
  | stepCons => exact step2_cons h hstep hinv
  | callPush els =>
    unfold step at hstep
    simp only at hstep
    split at hstep
    · rename_i e
      cases hstep
      have hs := h.snt
      rw [e] at hs
      refine ⟨hinv, snapInv_snoc h.snap rfl, ?_, popsAt_snoc h.popsAt (by simp), retsAt_snoc h.retsAt (by simp), ?_⟩
      · simp [SentInv, sent_append, returned_append, sent, returned]
        exact hs
      · intro a els' b e'
        rcases snoc_cases e' with ⟨_, e1, e2⟩ | ⟨b', _, e1⟩
        · subst e2; exact hs
        · exact h.callsAt a els' b' e1
    · cases hstep
      rw [List.append_nil]
      exact h
  | callPop dst =>
    unfold step at hstep
    simp only at hstep
    split at hstep
    · cases hstep
      exact ⟨hinv, List.mem_append_right _ (List.mem_singleton.mpr rfl), sentInv_snoc h.snt rfl, popsAt_snoc h.popsAt (by simp),
        retsAt_snoc h.retsAt (by simp), callsAt_snoc h.callsAt (by simp)⟩
    · cases hstep
      rw [List.append_nil]
      exact h

theorem run2 {C : Nat} {t : List (Label α)} {s : State α} (h : Inv2 C t s) {as : List (Act α)} {s' : State α}
    {ls : List (Label α)} (hr : run s as = .ok (s', ls)) : Inv2 C (t ++ ls) s' := by
  induction as generalizing t s ls with
  | nil => cases hr; rw [List.append_nil]; exact h
  | cons a as ih =>
    simp only [run] at hr
    cases h1 : step s a with
    | error x => rw [h1] at hr; cases hr
    | ok x =>
      obtain ⟨s1, l1⟩ := x
      rw [h1] at hr
      simp only [bind, Except.bind] at hr
      cases h2 : run s1 as with
      | error x => rw [h2] at hr; cases hr
      | ok y =>
        obtain ⟨s2, l2⟩ := y
        rw [h2] at hr
        cases hr
        rw [← List.append_assoc]
        exact ih (step2 h h1) h2

/-! ### Consequences for traces -/

/-- A `pop` into a large enough array takes whole texts. -/
theorem pop_whole {C : Nat} {a : List (Label α)} {out : List α} {n : Nat} (h : PopsAt C (a ++ [.popRet out n]))
    (hroom : Roomy (C - 1) (a ++ [.popRet out n])) (hn : n ≠ 0) {pre rest : List (List α)}
    (h1 : accepted a = pre ++ rest) (h2 : popped a = pre.flatten) :
    ∃ g rest', rest = g ++ rest' ∧ g ≠ [] ∧ out.take n = g.flatten := by
  obtain ⟨t', k1, k2, k3, k4, ⟨dst, k5, k6⟩, k7, k8⟩ := h a out n [] rfl
  have hd := hroom dst (List.mem_append_left _ k5)
  have hnsz : n = size t' := by omega
  have hpre : accepted t' <+: accepted a := by
    obtain ⟨u, rfl⟩ := k1
    rw [accepted_append]
    exact List.prefix_append _ _
  have hpa : pushed t' <+: pushed a := by
    obtain ⟨u, rfl⟩ := k1
    rw [pushed_append]
    exact List.prefix_append _ _
  have hout : n ≤ out.length := by omega
  have hlen : (popped a ++ out.take n).length = (pushed t').length := by
    have := k8.length_le
    rw [List.length_append, List.length_take, Nat.min_eq_left hout, hnsz, size, k2]
    omega
  have heq : popped a ++ out.take n = pushed t' := by
    rcases List.prefix_or_prefix_of_prefix k7 hpa with h | h
    · exact h.eq_of_length hlen
    · exact (h.eq_of_length hlen.symm).symm
  have hgt : pre <+: accepted t' := by
    rcases List.prefix_or_prefix_of_prefix hpre (h1 ▸ List.prefix_append pre rest) with h | h
    · obtain ⟨u, hu⟩ := h
      exfalso
      have h3 : (accepted t').flatten.length ≤ pre.flatten.length := by
        rw [← hu, List.flatten_append, List.length_append]; omega
      rw [accepted_flatten, ← hlen, ← h2, List.length_append, List.length_take] at h3
      omega
    · exact h
  obtain ⟨g, hg⟩ := hgt
  obtain ⟨rest', hr⟩ := hpre
  rw [← hg, List.append_assoc, h1, List.append_cancel_left_eq] at hr
  have h5 : out.take n = g.flatten := by
    rw [← accepted_flatten, ← hg, List.flatten_append, ← h2, List.append_cancel_left_eq] at heq
    exact heq
  refine ⟨g, rest', hr.symm, ?_, h5⟩
  rintro rfl
  have := congrArg List.length h5
  rw [List.length_take, Nat.min_eq_left hout] at this
  exact hn this

theorem roomy_left {m : Nat} {a b : List (Label α)} (h : Roomy m (a ++ b)) : Roomy m a :=
  fun d hd => h d (List.mem_append_left _ hd)

theorem popsAt_left {C : Nat} {a b : List (Label α)} (h : PopsAt C (a ++ b)) : PopsAt C a := by
  intro a' out n b' e
  exact h a' out n (b' ++ b) (by rw [e]; simp)

theorem retsAt_left {C : Nat} {a b : List (Label α)} (h : RetsAt C (a ++ b)) : RetsAt C a := by
  intro a' out n b' e
  exact h a' out n (b' ++ b) (by rw [e]; simp)

theorem callsAt_left {a b : List (Label α)} (h : CallsAt (a ++ b)) : CallsAt a := by
  intro a' out b' e
  exact h a' out (b' ++ b) (by rw [e]; simp)

theorem patient_left {m : Nat} {a b : List (Label α)} (h : Patient m (a ++ b)) : Patient m a := by
  intro a' out b' e
  exact h a' out (b' ++ b) (by rw [e]; simp)

/-- What arrives are groups of whole texts. -/
theorem groups {C : Nat} {t : List (Label α)} (h : PopsAt C t) (hroom : Roomy (C - 1) t) :
    ∃ (gs : List (List (List α))) (rest : List (List α)), received t = gs.map List.flatten ∧ accepted t = gs.flatten ++ rest ∧ ∀ g ∈ gs, g ≠ [] := by
  induction t using List.reverseRec with
  | nil => exact ⟨[], [], rfl, rfl, by simp⟩
  | append_singleton a l ih =>
    obtain ⟨gs, rest, h1, h2, h3⟩ := ih (popsAt_left h) (roomy_left hroom)
    rw [received_append, accepted_append]
    cases l with
    | pushCall els => exact ⟨gs, rest, by simp [received, h1], by simp [accepted, h2], h3⟩
    | popCall els => exact ⟨gs, rest, by simp [received, h1], by simp [accepted, h2], h3⟩
    | pushRet els n => exact ⟨gs, rest ++ [els.take n], by simp [received, h1], by simp [accepted, h2], h3⟩
    | popRet out n =>
      by_cases hn : n = 0
      · exact ⟨gs, rest, by simp [received, h1, hn], by simp [accepted, h2], h3⟩
      · have hp : popped a = gs.flatten.flatten := by
          rw [← received_flatten, h1, List.flatten_flatten]
        obtain ⟨g, rest', k1, k2, k3⟩ := pop_whole h hroom hn h2 hp
        refine ⟨gs ++ [g], rest', by simp [received, h1, hn, k3], by simp [accepted, h2, k1], ?_⟩
        intro x hx
        rcases List.mem_append.mp hx with hx | hx
        · exact h3 x hx
        · rw [List.mem_singleton.mp hx]; exact k2

theorem accepted_whole {t : List (Label α)} (h : Whole t) : accepted t = returned t := by
  induction t with
  | nil => rfl
  | cons l t ih =>
    have ih := ih (fun els n hm => h els n (List.mem_cons_of_mem _ hm))
    cases l with
    | pushRet els n =>
      have := h els n (List.mem_cons_self ..)
      simp [accepted, returned, ih, this]
    | _ => simp [accepted, returned, ih]

/-- With patience every text arrives by itself. -/
theorem patient_received {C : Nat} {t : List (Label α)} (h : PopsAt C t) (hr : RetsAt C t) (hc : CallsAt t)
    (hroom : Roomy (C - 1) t) (hpat : Patient (C - 1) t) :
    ∃ rest, returned t = received t ++ rest ∧ rest.length ≤ 1 ∧ accepted t = returned t ∧
      (sent t = returned t ∨ rest = []) ∧ (∀ x ∈ sent t, x ≠ []) ∧ ∀ x ∈ returned t, x ≠ [] := by
  induction t using List.reverseRec with
  | nil => exact ⟨[], rfl, by simp, rfl, Or.inl rfl, by simp [sent], by simp [returned]⟩
  | append_singleton a l ih =>
    obtain ⟨rest, h1, h2, h3, h4, h5, h6⟩ := ih (popsAt_left h) (retsAt_left hr) (callsAt_left hc) (roomy_left hroom) (patient_left hpat)
    rw [received_append, accepted_append, returned_append, sent_append]
    cases l with
    | pushCall els =>
      have hs := hc a els [] rfl
      obtain ⟨p1, p2, p3⟩ := hpat a els [] rfl
      have : rest = [] := by
        have e1 : pushed a = popped a ++ rest.flatten := by
          rw [← accepted_flatten, h3, h1, List.flatten_append, received_flatten]
        have e2 : rest.flatten.length = 0 := by
          unfold size at p3
          rw [e1, List.length_append] at p3
          omega
        cases rest with
        | nil => rfl
        | cons x rest =>
          exfalso
          have := h6 x (by rw [h1]; simp)
          rw [List.flatten_cons, List.length_append] at e2
          exact this (List.length_eq_zero_iff.mp (by omega))
      refine ⟨rest, by simp [received, returned, h1], h2, by simp [accepted, returned, h3], Or.inr this, ?_, by simpa [returned] using h6⟩
      intro x hx
      rcases List.mem_append.mp hx with hx | hx
      · exact h5 x hx
      · simp only [sent, List.mem_singleton] at hx
        rw [hx]; exact p1
    | popCall els =>
      exact ⟨rest, by simp [received, returned, h1], h2, by simp [accepted, returned, h3], by simpa [sent, returned] using h4, by simpa [sent] using h5, by simpa [returned] using h6⟩
    | pushRet els n =>
      obtain ⟨e1, t1, t2, e2, e3, e4⟩ := hr a els n [] rfl
      obtain ⟨p1, p2, p3⟩ := hpat t1 els (t2 ++ [.pushRet els n]) (by rw [e2]; simp)
      have hn : n = els.length := by rw [p3] at e3; omega
      have hrest : rest = [] := by
        rcases h4 with h4 | h4
        · rw [e1] at h4
          have := congrArg List.length h4
          simp at this
        · exact h4
      subst hrest
      refine ⟨[els], by simp [received, returned, h1], by simp, by simp [accepted, returned, h3, hn], Or.inl (by simp [sent, returned, e1]), by simpa [sent] using h5, ?_⟩
      intro x hx
      rcases List.mem_append.mp hx with hx | hx
      · exact h6 x hx
      · simp only [returned, List.mem_singleton] at hx
        rw [hx]; exact p1
    | popRet out n =>
      by_cases hn : n = 0
      · exact ⟨rest, by simp [received, returned, h1, hn], h2, by simp [accepted, returned, h3], by simpa [sent, returned] using h4, by simpa [sent] using h5, by simpa [returned] using h6⟩
      · obtain ⟨g, rest', k1, k2, k3⟩ := pop_whole h hroom hn (h3.trans h1) (received_flatten a).symm
        have hg : rest = [out.take n] := by
          rw [k1, List.length_append] at h2
          have : g.length ≠ 0 := fun e => k2 (List.length_eq_zero_iff.mp e)
          have e1 : rest' = [] := List.length_eq_zero_iff.mp (by omega)
          obtain ⟨x, hx⟩ := List.length_eq_one_iff.mp (show g.length = 1 by omega)
          rw [k1, e1, k3, hx]
          simp
        refine ⟨[], by simp [received, returned, h1, hn, hg], by simp, by simp [accepted, returned, h3], Or.inr rfl, by simpa [sent] using h5, by simpa [returned] using h6⟩

end Verif.RingBuf
