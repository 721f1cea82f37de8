import Verif.Lemmas.Queue
import Verif.Lemmas.Table
import Verif.Spec.Worklet

/-! Invariants of page and worklet. -/

namespace Verif.Worklet
open Verif RingBuf
open Verif.Spec.Ring hiding Patient
open Verif.Spec.Page

theorem asked_append (a b : List Ev) : asked (a ++ b) = asked a ++ asked b := by
  induction a with
  | nil => rfl
  | cons l a ih => cases l <;> simp [asked, ih]

theorem given_append (a b : List Ev) : given (a ++ b) = given a ++ given b := by
  induction a with
  | nil => rfl
  | cons l a ih => cases l <;> simp [given, ih]

theorem stepProd_labels {s s' : State Char} {ls : List (Label Char)} (h : stepProd s = .ok (s', ls)) :
    s'.cons = s.cons ∧ (ls = [] ∨ ∃ els n, ls = [.pushRet els n] ∧ s'.prod = .idle) := by
  unfold stepProd at h
  split at h
  · cases h; exact ⟨rfl, .inl rfl⟩
  · cases h; exact ⟨rfl, .inl rfl⟩
  · simp only at h
    split at h <;> cases h
    · exact ⟨rfl, .inr ⟨_, _, rfl, rfl⟩⟩
    · exact ⟨rfl, .inl rfl⟩
  · simp only at h
    split at h
    · rw [except_bind_ok] at h
      obtain ⟨x, _, h⟩ := h
      cases h; exact ⟨rfl, .inl rfl⟩
    · cases h; exact ⟨rfl, .inl rfl⟩
  · simp only at h
    split at h
    · rw [except_bind_ok] at h
      obtain ⟨x, _, h⟩ := h
      cases h; exact ⟨rfl, .inl rfl⟩
    · cases h; exact ⟨rfl, .inr ⟨_, _, rfl, rfl⟩⟩

theorem stepCons_labels {s s' : State Char} {ls : List (Label Char)} (h : stepCons s = .ok (s', ls)) :
    s'.prod = s.prod ∧ ((ls = [] ∧ (s'.cons = .idle → s.cons = .idle)) ∨ ∃ out n, ls = [.popRet out n] ∧ s'.cons = .idle) := by
  unfold stepCons at h
  split at h
  · cases h; exact ⟨rfl, .inl ⟨rfl, id⟩⟩
  · cases h; exact ⟨rfl, .inl ⟨rfl, by simp⟩⟩
  · simp only at h
    split at h <;> cases h
    · exact ⟨rfl, .inr ⟨_, _, rfl, rfl⟩⟩
    · exact ⟨rfl, .inl ⟨rfl, by simp⟩⟩
  · simp only at h
    split at h
    · rw [except_bind_ok] at h
      obtain ⟨x, _, h⟩ := h
      cases h; exact ⟨rfl, .inl ⟨rfl, by simp⟩⟩
    · cases h; exact ⟨rfl, .inl ⟨rfl, by simp⟩⟩
  · simp only at h
    split at h
    · rw [except_bind_ok] at h
      obtain ⟨x, _, h⟩ := h
      cases h; exact ⟨rfl, .inl ⟨rfl, by simp⟩⟩
    · cases h; exact ⟨rfl, .inr ⟨_, _, rfl, rfl⟩⟩

structure SInv (m : Nat) (es : List Ev) (t : List (Label Char)) (s : Sys) : Prop where
  inv : Inv2 (m + 1) t s.q
  room : ∀ dst, .popCall dst ∈ t → dst.length = m
  arr : s.arr.length = m
  giv : given es = received t

theorem SInv.roomy {m : Nat} {es : List Ev} {t : List (Label Char)} {s : Sys} (h : SInv m es t s) :
    Roomy (m + 1 - 1) t := by
  intro d hd
  rw [h.room d hd]
  omega

theorem sinv_init (mem arr : List Char) {m : Nat} (hm : mem.length = m + 1) (ha : arr.length = m) :
    SInv m [] [] (init mem arr) := by
  refine ⟨?_, by simp, ha, rfl⟩
  have := inv2_init mem (by intro h; rw [h] at hm; simp at hm)
  rw [hm] at this
  exact this

theorem avail {m : Nat} {t : List (Label Char)} {q : State Char} (h : Inv (m + 1) t q) :
    availableWrite q.cap q.rd q.wr = ((m - size t : Nat) : Int) ∧ size t ≤ m := by
  have h1 := h.le
  have h2 := h.fit
  have h3 := availableWrite_eq h1 h2
  unfold State.cap size
  rw [h.cap, h.wr, h.rd, h3]
  omega

/-- What a step does. -/
inductive Kind (m : Nat) (s : Sys) (t : List (Label Char)) : Do → List Ev → List (Label Char) → Prop
  | push (x : Name) (h : s.q.prod = .idle) (hs : size t < m) : Kind m s t (.send x) [.asked x] [.pushCall x]
  | drop (x : Name) (h : s.q.prod = .idle) (hs : size t = m) : Kind m s t (.send x) [.asked x] []
  | other (a : Do) (ls : List Ev) (lt : List (Label Char)) (h1 : asked ls = []) (h2 : sent lt = []) : Kind m s t a ls lt

theorem sstep {m : Nat} {es : List Ev} {t : List (Label Char)} {s : Sys} (h : SInv m es t s) (a : Do) :
    ∃ s' ls lt, step s a = .ok (s', ls) ∧ SInv m (es ++ ls) (t ++ lt) s' ∧ Kind m s t a ls lt := by
  obtain ⟨hinv, hroom, harr, hgiv⟩ := h
  obtain ⟨hav, hsz⟩ := avail hinv.inv
  cases a with
  | send x =>
    simp only [step, send]
    cases hp : s.q.prod with
    | idle =>
      simp only
      rw [hav]
      by_cases hz : size t = m
      · rw [if_neg (by simp; omega)]
        exact ⟨s, _, [], rfl, ⟨by rw [List.append_nil]; exact hinv, by simpa using hroom, harr,
          by rw [given_append, hgiv]; simp [given]⟩, .drop x hp hz⟩
      · rw [if_pos (by simp; omega)]
        obtain ⟨q', lt, h1, h2⟩ := step_ok hinv.inv (.callPush x)
        have h3 := step2 hinv h1
        have hlt : lt = [.pushCall x] := by
          simp only [RingBuf.step, hp] at h1
          cases h1; rfl
        rw [h1]
        refine ⟨⟨q', s.arr⟩, [.asked x], lt, rfl, ⟨h3, ?_, harr, ?_⟩, hlt ▸ .push x hp (by omega)⟩
        · subst hlt; simpa using hroom
        · subst hlt
          rw [given_append, received_append, hgiv]; simp [given, received]
    | _ => exact ⟨s, [], [], rfl, ⟨by rw [List.append_nil]; exact hinv, by simpa using hroom, harr, by simpa using hgiv⟩,
          .other _ _ _ rfl rfl⟩
  | page =>
    obtain ⟨q', lt, h1, h2⟩ := step_ok hinv.inv .stepProd
    have h3 := step2 hinv h1
    simp only [step, h1]
    have hk := (stepProd_labels h1).2
    refine ⟨⟨q', s.arr⟩, [], lt, rfl, ⟨h3, ?_, harr, ?_⟩, .other _ _ _ rfl ?_⟩
    · rcases hk with rfl | ⟨els, n, rfl, _⟩ <;> simpa using hroom
    · rcases hk with rfl | ⟨els, n, rfl, _⟩ <;> simp [received_append, received, hgiv]
    · rcases hk with rfl | ⟨els, n, rfl, _⟩ <;> rfl
  | process =>
    obtain ⟨q', lt, h1, h2⟩ := step_ok hinv.inv (.callPop s.arr)
    have h3 := step2 hinv h1
    have hk : lt = [] ∨ lt = [.popCall s.arr] := by
      simp only [RingBuf.step] at h1
      split at h1 <;> cases h1
      · exact .inr rfl
      · exact .inl rfl
    simp only [step, h1]
    refine ⟨⟨q', s.arr⟩, [], lt, rfl, ⟨h3, ?_, harr, ?_⟩, .other _ _ _ rfl ?_⟩
    · rcases hk with rfl | rfl
      · simpa using hroom
      · intro d hd
        rw [List.mem_append, List.mem_singleton] at hd
        rcases hd with hd | hd
        · exact hroom d hd
        · cases hd; exact harr
    · rcases hk with rfl | rfl <;> simp [received_append, received, hgiv]
    · rcases hk with rfl | rfl <;> rfl
  | audio =>
    obtain ⟨q', lt, h1, h2⟩ := step_ok hinv.inv .stepCons
    have h3 := step2 hinv h1
    simp only [step, h1]
    rcases (stepCons_labels h1).2 with ⟨rfl, _⟩ | ⟨out, n, rfl, _⟩
    · exact ⟨⟨q', s.arr⟩, [], [], rfl, ⟨h3, by simpa using hroom, harr, by simpa using hgiv⟩, .other _ _ _ rfl rfl⟩
    · refine ⟨⟨q', out⟩, if n ≠ 0 then [.given (out.take n)] else [], [.popRet out n], rfl, ⟨h3, ?_, ?_, ?_⟩, .other _ _ _ ?_ rfl⟩
      · simpa using hroom
      · obtain ⟨_, _, _, _, _, ⟨dst, k5, k6⟩, _⟩ := h3.popsAt t out n [] rfl
        show out.length = m
        rw [← k6, hroom dst k5]
      · rw [given_append, received_append, hgiv]
        simp only [received]
        by_cases hn : n = 0 <;> simp [hn, given]
      · by_cases hn : n = 0 <;> simp [hn, asked]

theorem srun {m : Nat} (as : List Do) : ∀ {es : List Ev} {t : List (Label Char)} {s : Sys}, SInv m es t s →
    ∃ s' ls lt, run s as = .ok (s', ls) ∧ SInv m (es ++ ls) (t ++ lt) s' := by
  induction as with
  | nil => intro es t s h; exact ⟨s, [], [], rfl, by simpa using h⟩
  | cons a as ih =>
    intro es t s h
    obtain ⟨s1, l1, t1, h1, h2, _⟩ := sstep h a
    obtain ⟨s2, l2, t2, h3, h4⟩ := ih h2
    refine ⟨s2, l1 ++ l2, t1 ++ t2, ?_, by simpa using h4⟩
    simp only [run, h1, Except.bind, bind, h3]

/-- Everything sent is on record. -/
def AllSent (m : Nat) (es : List Ev) (t : List (Label Char)) : Prop :=
  sent t = asked es ∧ ∀ t1 els t2, t = t1 ++ .pushCall els :: t2 → els.length + size t1 ≤ m

theorem fits_left {m : Nat} {a b : List Ev} (h : Fits m (a ++ b)) : Fits m a :=
  fun es1 x es2 e => h es1 x (es2 ++ b) (by rw [e]; simp)

theorem patient_left {m : Nat} {a b : List Ev} (h : Patient m (a ++ b)) : Patient m a :=
  fun es1 x es2 e => h es1 x (es2 ++ b) (by rw [e]; simp)

theorem patient_fits {m : Nat} {es : List Ev} (h : Patient m es) : Fits m es := by
  intro es1 x es2 e
  obtain ⟨h1, h2, h3⟩ := h es1 x es2 e
  refine ⟨h1, ?_⟩
  rw [h3]
  omega

theorem allSent_whole {m : Nat} {es : List Ev} {t : List (Label Char)} {s : Sys} (h : SInv m es t s)
    (hA : AllSent m es t) : Whole t := by
  intro els n hn
  obtain ⟨a, b, rfl⟩ := List.append_of_mem hn
  obtain ⟨_, t1, t2, h1, h2, h3⟩ := h.inv.retsAt a els n b rfl
  have := hA.2 t1 els (t2 ++ .pushRet els n :: b) (by rw [h1]; simp)
  omega

theorem size_fits {m : Nat} {es : List Ev} {t : List (Label Char)} {s : Sys} (h : SInv m es t s)
    (hA : AllSent m es t) (hp : s.q.prod = .idle) :
    size t + (given es).flatten.length = (asked es).flatten.length := by
  have h1 := accepted_whole (allSent_whole h hA)
  have h2 := h.inv.snt
  rw [hp] at h2
  have h2 : sent t = returned t := h2
  have h3 := h.inv.inv.le
  unfold size
  rw [← accepted_flatten, ← received_flatten, h1, ← h2, hA.1] at h3 ⊢
  rw [h.giv]
  omega

theorem allSent_run {m : Nat} (as : List Do) : ∀ {es : List Ev} {t : List (Label Char)} {s s' : Sys} {ls : List Ev},
    SInv m es t s → AllSent m es t → run s as = .ok (s', ls) → Fits m (es ++ ls) →
    ∃ lt, SInv m (es ++ ls) (t ++ lt) s' ∧ AllSent m (es ++ ls) (t ++ lt) := by
  induction as with
  | nil => intro es t s s' ls h hA hr _; cases hr; exact ⟨[], by simpa using h, by simpa using hA⟩
  | cons a as ih =>
    intro es t s s' ls h hA hr hF
    obtain ⟨s1, l1, t1, h1, h2, hk⟩ := sstep h a
    simp only [run, h1, Except.bind, bind] at hr
    cases hx : run s1 as with
    | error x => rw [hx] at hr; cases hr
    | ok x =>
      obtain ⟨s2, l2⟩ := x
      rw [hx] at hr
      cases hr
      rw [← List.append_assoc] at hF ⊢
      have hA1 : AllSent m (es ++ l1) (t ++ t1) := by
        obtain ⟨b1, b2⟩ := hA
        have hold : ∀ (l : Label Char) (a : List (Label Char)) els b, t ++ [l] = a ++ .pushCall els :: b →
            (l = .pushCall els ∧ t = a) ∨ els.length + size a ≤ m := by
          intro l a els b e
          rcases snoc_cases e with ⟨_, e2, e3⟩ | ⟨b', _, e2⟩
          · exact .inl ⟨e2, e3⟩
          · exact .inr (b2 a els b' e2)
        cases hk with
        | push x hp hs =>
          have hsz := size_fits h ⟨b1, b2⟩ hp
          obtain ⟨f1, f2⟩ := hF es x l2 (by simp)
          refine ⟨by rw [sent_append, asked_append, b1]; rfl, ?_⟩
          intro a els b e
          rcases hold _ a els b e with ⟨e1, rfl⟩ | e1
          · cases e1
            omega
          · exact e1
        | drop x hp hs =>
          have hsz := size_fits h ⟨b1, b2⟩ hp
          obtain ⟨f1, f2⟩ := hF es x l2 (by simp)
          have := List.length_pos_iff.mpr f1
          omega
        | other _ _ _ k1 k2 =>
          refine ⟨by rw [sent_append, asked_append, b1, k1, k2], ?_⟩
          intro a els b e
          rcases List.append_eq_append_iff.mp e with ⟨c, e1, e2⟩ | ⟨c, e1, e2⟩
          · rw [e2, sent_append] at k2
            simp [sent] at k2
          · cases c with
            | nil =>
              rw [List.nil_append] at e2
              rw [← e2] at k2
              simp [sent] at k2
            | cons y c =>
              simp only [List.cons_append, List.cons.injEq] at e2
              obtain ⟨rfl, e2⟩ := e2
              exact b2 a els c e1
      obtain ⟨lt, h5, h6⟩ := ih h2 hA1 hx hF
      exact ⟨t1 ++ lt, by simpa using h5, by simpa using h6⟩

theorem patient_run {m : Nat} (as : List Do) : ∀ {es : List Ev} {t : List (Label Char)} {s s' : Sys} {ls : List Ev},
    SInv m es t s → AllSent m es t → Spec.Ring.Patient m t → run s as = .ok (s', ls) → Patient m (es ++ ls) →
    ∃ lt, SInv m (es ++ ls) (t ++ lt) s' ∧ AllSent m (es ++ ls) (t ++ lt) ∧ Spec.Ring.Patient m (t ++ lt) := by
  induction as with
  | nil => intro es t s s' ls h hA hp hr _; cases hr; exact ⟨[], by simpa using h, by simpa using hA, by simpa using hp⟩
  | cons a as ih =>
    intro es t s s' ls h hA hpat hr hF
    obtain ⟨s1, l1, t1, h1, h2, hk⟩ := sstep h a
    have h1r : run s [a] = .ok (s1, l1) := by simp [run, h1, Except.bind, bind]
    simp only [run, h1, Except.bind, bind] at hr
    cases hx : run s1 as with
    | error x => rw [hx] at hr; cases hr
    | ok x =>
      obtain ⟨s2, l2⟩ := x
      rw [hx] at hr
      cases hr
      rw [← List.append_assoc] at hF ⊢
      have hP1 : Spec.Ring.Patient m (t ++ t1) := by
        intro a els b e
        cases hk with
        | push x hp hs =>
          rcases snoc_cases e with ⟨_, e2, e3⟩ | ⟨b', _, e2⟩
          · cases e2
            subst e3
            obtain ⟨f1, f2, f3⟩ := hF es _ l2 (by simp; rfl)
            refine ⟨f1, f2, ?_⟩
            have := size_fits h hA hp
            rw [f3] at this
            omega
          · exact hpat a els b' e2
        | drop x hp hs => rw [List.append_nil] at e; exact hpat a els b e
        | other _ _ _ k1 k2 =>
          rcases List.append_eq_append_iff.mp e with ⟨c, e1, e2⟩ | ⟨c, e1, e2⟩
          · rw [e2, sent_append] at k2
            simp [sent] at k2
          · cases c with
            | nil =>
              rw [List.nil_append] at e2
              rw [← e2] at k2
              simp [sent] at k2
            | cons y c =>
              simp only [List.cons_append, List.cons.injEq] at e2
              obtain ⟨rfl, e2⟩ := e2
              exact hpat a els c e1
      have hA1 : AllSent m (es ++ l1) (t ++ t1) := by
        have hF1 := patient_fits (patient_left hF)
        obtain ⟨b1, b2⟩ := hA
        cases hk with
        | push x hp hs =>
          refine ⟨by rw [sent_append, asked_append, b1]; rfl, ?_⟩
          intro a els b e
          obtain ⟨f1, f2, f3⟩ := hP1 a els b e
          omega
        | drop x hp hs =>
          have hsz := size_fits h ⟨b1, b2⟩ hp
          obtain ⟨f1, f2⟩ := hF1 es x [] (by simp)
          have := List.length_pos_iff.mpr f1
          omega
        | other _ _ _ k1 k2 =>
          refine ⟨by rw [sent_append, asked_append, b1, k1, k2], ?_⟩
          intro a els b e
          obtain ⟨f1, f2, f3⟩ := hP1 a els b e
          omega
      obtain ⟨lt, h5, h6, h7⟩ := ih h2 hA1 hP1 hx hF
      exact ⟨t1 ++ lt, by simpa using h5, by simpa using h6, by simpa using h7⟩

/-! ### Calls come to an end -/

def pushRank (s : State Char) : Nat :=
  match s.prod with
  | .idle => 0
  | .start els =>
    let w := min (availableWrite s.cap s.rd s.wr) els.length
    (min (s.cap - s.wr) w).toNat + (w - min (s.cap - s.wr) w).toNat + 4
  | .gotRd els rd =>
    let w := min (availableWrite s.cap rd s.wr) els.length
    (min (s.cap - s.wr) w).toNat + (w - min (s.cap - s.wr) w).toNat + 3
  | .copy1 _ wr w i => (min (s.cap - wr) w - i).toNat + (w - min (s.cap - wr) w).toNat + 2
  | .copy2 _ wr w i => (w - min (s.cap - wr) w - i).toNat + 1

theorem pushRank_step {s s' : State Char} {ls : List (Label Char)} (h : stepProd s = .ok (s', ls))
    (hn : s.prod ≠ .idle) : pushRank s' < pushRank s := by
  obtain ⟨mem, wr, rd, prod, cons⟩ := s
  unfold stepProd at h
  cases prod with
  | idle => exact absurd rfl hn
  | start els => cases h; simp only [pushRank, State.cap]; omega
  | gotRd els rd' =>
    simp only at h
    split at h <;> cases h
    · simp only [pushRank]; omega
    · simp only [pushRank, State.cap]; omega
  | copy1 els wr w i =>
    simp only at h
    split at h
    · rename_i hi
      rw [except_bind_ok] at h
      obtain ⟨x, hx, h⟩ := h
      have hlen : x.length = mem.length := by
        unfold copy1 at hx
        split at hx
        · cases hx
        · split at hx
          · cases hx
          · split at hx <;> cases hx
            simp
      cases h
      simp only [pushRank, State.cap] at hi ⊢
      rw [hlen]
      omega
    · rename_i hi
      cases h
      simp only [pushRank, State.cap] at hi ⊢
      omega
  | copy2 els wr w i =>
    simp only at h
    split at h
    · rename_i hi
      rw [except_bind_ok] at h
      obtain ⟨x, hx, h⟩ := h
      have hlen : x.length = mem.length := by
        unfold copy1 at hx
        split at hx
        · cases hx
        · split at hx
          · cases hx
          · split at hx <;> cases hx
            simp
      cases h
      simp only [pushRank, State.cap] at hi ⊢
      rw [hlen]
      omega
    · cases h
      simp only [pushRank]
      omega

def popRank (s : State Char) : Nat :=
  match s.cons with
  | .idle => 0
  | .start dst =>
    let r := min (availableRead s.cap s.rd s.wr) dst.length
    (min (s.cap - s.rd) dst.length).toNat + (r - min (s.cap - s.rd) dst.length).toNat + 4
  | .gotRd dst rd =>
    let r := min (availableRead s.cap rd s.wr) dst.length
    (min (s.cap - rd) dst.length).toNat + (r - min (s.cap - rd) dst.length).toNat + 3
  | .copy1 dst rd r i => (min (s.cap - rd) dst.length - i).toNat + (r - min (s.cap - rd) dst.length).toNat + 2
  | .copy2 dst rd r i => (r - min (s.cap - rd) dst.length - i).toNat + 1

theorem popRank_step {s s' : State Char} {ls : List (Label Char)} (h : stepCons s = .ok (s', ls))
    (hn : s.cons ≠ .idle) : popRank s' < popRank s := by
  obtain ⟨mem, wr, rd, prod, cons⟩ := s
  unfold stepCons at h
  cases cons with
  | idle => exact absurd rfl hn
  | start els => cases h; simp only [popRank, State.cap]; omega
  | gotRd els rd' =>
    simp only at h
    split at h <;> cases h
    · simp only [popRank]; omega
    · simp only [popRank, State.cap]; omega
  | copy1 dst rd r i =>
    simp only at h
    split at h
    · rename_i hi
      rw [except_bind_ok] at h
      obtain ⟨x, hx, h⟩ := h
      have hlen : x.length = dst.length := by
        unfold copy1 at hx
        split at hx
        · cases hx
        · split at hx
          · cases hx
          · split at hx <;> cases hx
            simp
      cases h
      simp only [popRank, State.cap] at hi ⊢
      rw [hlen]
      omega
    · rename_i hi
      cases h
      simp only [popRank, State.cap] at hi ⊢
      omega
  | copy2 dst rd r i =>
    simp only at h
    split at h
    · rename_i hi
      rw [except_bind_ok] at h
      obtain ⟨x, hx, h⟩ := h
      have hlen : x.length = dst.length := by
        unfold copy1 at hx
        split at hx
        · cases hx
        · split at hx
          · cases hx
          · split at hx <;> cases hx
            simp
      cases h
      simp only [popRank, State.cap] at hi ⊢
      rw [hlen]
      omega
    · cases h
      simp only [popRank]
      omega

theorem run_append {s s1 s2 : Sys} {a b : List Do} {l1 l2 : List Ev} (h1 : run s a = .ok (s1, l1))
    (h2 : run s1 b = .ok (s2, l2)) : run s (a ++ b) = .ok (s2, l1 ++ l2) := by
  induction a generalizing s l1 with
  | nil => cases h1; simpa using h2
  | cons x a ih =>
    simp only [run, List.cons_append] at h1 ⊢
    rw [except_bind_ok] at h1
    obtain ⟨⟨s3, l3⟩, h3, h1⟩ := h1
    rw [except_bind_ok] at h1
    obtain ⟨⟨s4, l4⟩, h4, h1⟩ := h1
    cases h1
    rw [h3]
    simp only [bind, Except.bind, ih h4, List.append_assoc]

/-- A push that has begun comes to its end. -/
theorem push_ends {m : Nat} {es : List Ev} : ∀ (r : Nat) {t : List (Label Char)} {s : Sys}, pushRank s.q = r → SInv m es t s →
    s.q.prod ≠ .idle → ∃ k s' els n, run s (List.replicate k .page) = .ok (s', []) ∧
      SInv m es (t ++ [.pushRet els n]) s' ∧ s'.q.prod = .idle ∧ s'.q.cons = s.q.cons := by
  intro r
  induction r using Nat.strongRecOn with
  | _ r ih =>
    intro t s hr h hp
    obtain ⟨q', lt, h1, h2⟩ := step_ok h.inv.inv .stepProd
    have hi := step2 h.inv h1
    obtain ⟨hc, hk⟩ := stepProd_labels h1
    have hst : step s .page = .ok (⟨q', s.arr⟩, []) := by simp only [step, h1]; rfl
    rcases hk with rfl | ⟨els, n, rfl, hidle⟩
    · rw [List.append_nil] at hi
      have hI : SInv m es t ⟨q', s.arr⟩ := ⟨hi, h.room, h.arr, h.giv⟩
      by_cases hid : q'.prod = .idle
      · exfalso
        have hsn := hi.snt
        have hsn0 := h.inv.snt
        rw [hid] at hsn
        have hsn : sent t = returned t := hsn
        cases hq : s.q.prod with
        | idle => exact hp hq
        | _ =>
          rw [hq] at hsn0
          simp only [SentInv, hsn] at hsn0
          have := congrArg List.length hsn0
          simp at this
      · obtain ⟨k, s', els, n, k1, k2, k3, k4⟩ := ih (pushRank q') (hr ▸ pushRank_step h1 hp) rfl hI hid
        refine ⟨k + 1, s', els, n, ?_, k2, k3, k4.trans hc⟩
        simp only [List.replicate_succ, run, hst, bind, Except.bind, k1, List.append_nil]
    · refine ⟨1, ⟨q', s.arr⟩, els, n, ?_, ⟨hi, ?_, h.arr, ?_⟩, hidle, hc⟩
      · simp only [List.replicate_succ, List.replicate_zero, run, hst, bind, Except.bind, List.append_nil]
      · simpa using h.room
      · simp [received_append, received, h.giv]

/-- A call of `process` that has begun comes to its end. -/
theorem pop_ends {m : Nat} {es : List Ev} : ∀ (r : Nat) {t : List (Label Char)} {s : Sys}, popRank s.q = r → SInv m es t s →
    s.q.cons ≠ .idle → ∃ k s' out n, run s (List.replicate k .audio) = .ok (s', if n ≠ 0 then [.given (out.take n)] else []) ∧
      SInv m (es ++ if n ≠ 0 then [.given (out.take n)] else []) (t ++ [.popRet out n]) s' ∧ s'.q.cons = .idle ∧
      s'.q.prod = s.q.prod := by
  intro r
  induction r using Nat.strongRecOn with
  | _ r ih =>
    intro t s hr h hp
    obtain ⟨q', lt, h1, h2⟩ := step_ok h.inv.inv .stepCons
    have hi := step2 h.inv h1
    obtain ⟨hc, hk⟩ := stepCons_labels h1
    rcases hk with ⟨rfl, hid⟩ | ⟨out, n, rfl, hidle⟩
    · have hst : step s .audio = .ok (⟨q', s.arr⟩, []) := by simp only [step, h1]; rfl
      rw [List.append_nil] at hi
      have hI : SInv m es t ⟨q', s.arr⟩ := ⟨hi, h.room, h.arr, h.giv⟩
      obtain ⟨k, s', out, n, k1, k2, k3, k4⟩ := ih (popRank q') (hr ▸ popRank_step h1 hp) rfl hI (fun hx => hp (hid hx))
      refine ⟨k + 1, s', out, n, ?_, k2, k3, k4.trans hc⟩
      simp only [List.replicate_succ, run, hst, bind, Except.bind, k1, List.nil_append]
    · have hst : step s .audio = .ok (⟨q', out⟩, if n ≠ 0 then [.given (out.take n)] else []) := by
        simp only [step, h1]; rfl
      obtain ⟨s1, l1, t1, e1, e2, _⟩ := sstep h .audio
      rw [hst] at e1
      cases e1
      refine ⟨1, ⟨q', out⟩, out, n, ?_, ⟨hi, ?_, e2.arr, ?_⟩, hidle, hc⟩
      · simp only [List.replicate_succ, List.replicate_zero, run, hst, bind, Except.bind, List.append_nil]
      · simpa using h.room
      · rw [given_append, received_append, h.giv]
        simp only [received]
        by_cases hn : n = 0 <;> simp [hn, given]

/-- One text sent while nothing is going on: it is cut where the queue is full. -/
theorem send_quiet {m : Nat} {es : List Ev} {t : List (Label Char)} {s : Sys} (h : SInv m es t s) (hq : Quiet s)
    (x : Name) : ∃ k s' lt, run s (.send x :: List.replicate k .page) = .ok (s', [.asked x]) ∧
      SInv m (es ++ [.asked x]) (t ++ lt) s' ∧ Quiet s' ∧ popped lt = [] ∧ pushed lt = x.take (m - size t) := by
  obtain ⟨hp, hc⟩ := hq
  obtain ⟨s1, l1, t1, h1, h2, hk⟩ := sstep h (.send x)
  cases hk with
  | push _ _ hs =>
    have hav := (avail h.inv.inv).1
    have hs1 : s1.q.prod = .start x ∧ s1.q.cons = .idle := by
      simp only [step, send, hp] at h1
      rw [if_pos (by rw [hav]; simp; omega)] at h1
      simp only [RingBuf.step, hp] at h1
      cases h1
      exact ⟨rfl, hc⟩
    obtain ⟨k, s', els, n, k1, k2, k3, k4⟩ := push_ends _ rfl h2 (by rw [hs1.1]; simp)
    have hst : run s (.send x :: List.replicate k .page) = .ok (s', [.asked x]) := by
      simp only [run, h1, bind, Except.bind, k1, List.append_nil]
    refine ⟨k, s', [.pushCall x, .pushRet els n], hst, by simpa using k2, ⟨k3, k4.trans hs1.2⟩, rfl, ?_⟩
    obtain ⟨p1, p2, p3⟩ := k2.inv.inv.pushes t x els n ⟨[], [], by simp, by intro l hl; simp at hl⟩
    subst p1
    have hfit := k2.inv.inv.fit
    have hle := h.inv.inv.le
    have e1 : popped (t ++ [Label.pushCall els] ++ [Label.pushRet els n]) = popped t := by simp [popped_append, popped]
    have e2 : pushed (t ++ [Label.pushCall els] ++ [Label.pushRet els n]) = pushed t ++ els.take n := by
      simp [pushed_append, pushed]
    rw [e1, e2, List.length_append, List.length_take] at hfit
    simp only [pushed, List.append_nil]
    unfold size at p3 ⊢
    rw [List.take_eq_take_iff]
    omega
  | drop _ _ hs =>
    have hav := (avail h.inv.inv).1
    have : s1 = s := by
      simp only [step, send, hp] at h1
      rw [if_neg (by rw [hav]; simp; omega)] at h1
      cases h1; rfl
    subst this
    refine ⟨0, s1, [], ?_, h2, ⟨hp, hc⟩, rfl, by simp [pushed, hs]⟩
    simp only [run, h1, bind, Except.bind, List.replicate_zero, List.append_nil]
  | other _ _ _ h1' h2' =>
    exfalso
    simp only [step, send, hp] at h1
    split at h1
    · rw [except_bind_ok] at h1
      obtain ⟨_, _, h1⟩ := h1
      cases h1; simp [asked] at h1'
    · cases h1; simp [asked] at h1'

/-- One call of `process` while nothing is going on: all that is in the queue is handed on as one text. -/
theorem process_quiet {m : Nat} {es : List Ev} {t : List (Label Char)} {s : Sys} (h : SInv m es t s) (hq : Quiet s) :
    ∃ k s' lt ls, run s (.process :: List.replicate k .audio) = .ok (s', ls) ∧
      SInv m (es ++ ls) (t ++ lt) s' ∧ Quiet s' ∧ pushed lt = [] ∧ size (t ++ lt) = 0 ∧
      (size t = 0 → ls = []) ∧ (size t ≠ 0 → ls = [.given ((pushed t).drop (popped t).length)]) := by
  obtain ⟨hp, hc⟩ := hq
  obtain ⟨hav, hsz⟩ := avail h.inv.inv
  obtain ⟨q1, lt, h1, _⟩ := step_ok h.inv.inv (.callPop s.arr)
  have hi := step2 h.inv h1
  simp only [RingBuf.step, hc] at h1
  have hst : step s .process = .ok (⟨q1, s.arr⟩, []) := by simp only [step, RingBuf.step, hc, h1]; rfl
  cases h1
  obtain ⟨k, s', out, n, k1, k2, k3, k4⟩ := pop_ends (es := es) _ rfl (s := ⟨_, s.arr⟩) ⟨hi, by
    intro d hd
    rw [List.mem_append, List.mem_singleton] at hd
    rcases hd with hd | hd
    · exact h.room d hd
    · cases hd; exact h.arr, h.arr, by rw [received_append, h.giv]; simp [received]⟩ (by simp)
  obtain ⟨p1, p2, p3⟩ := k2.inv.inv.pops t s.arr out n ⟨[], [], by simp, by intro l hl; simp at hl⟩
  rw [h.arr] at p1 p2 p3
  have hpre := k2.inv.inv.pre
  have hle := k2.inv.inv.le
  have hfit := h.inv.inv.fit
  have hpre0 := h.inv.inv.pre
  have e1 : pushed (t ++ [Label.popCall s.arr] ++ [Label.popRet out n]) = pushed t := by simp [pushed_append, pushed]
  have e2 : popped (t ++ [Label.popCall s.arr] ++ [Label.popRet out n]) = popped t ++ out.take n := by
    simp [popped_append, popped]
  rw [e1, e2] at hle hpre
  rw [List.length_append, List.length_take] at hle
  have hn : n = size t := by unfold size at p3 hsz ⊢; omega
  refine ⟨k, s', [.popCall s.arr, .popRet out n], if n ≠ 0 then [.given (out.take n)] else [], ?_, by simpa using k2, ⟨k4.trans hp, k3⟩, rfl, ?_, ?_, ?_⟩
  · simp only [run, hst, bind, Except.bind, k1, List.nil_append]
  · have e3 : t ++ [Label.popCall s.arr, .popRet out n] = t ++ [Label.popCall s.arr] ++ [Label.popRet out n] := by simp
    have hl0 := h.inv.inv.le
    unfold size at hn
    rw [e3]
    unfold size
    rw [e1, e2, List.length_append, List.length_take]
    omega
  · intro hz
    rw [if_neg (by omega)]
  · intro hz
    rw [if_pos (by omega)]
    have hl0 := h.inv.inv.le
    have hl : (popped t ++ out.take n).length = (pushed t).length := by
      unfold size at hn
      rw [List.length_append, List.length_take]
      omega
    rw [hl, List.take_length] at hpre
    rw [← hpre, List.drop_left]

end Verif.Worklet
