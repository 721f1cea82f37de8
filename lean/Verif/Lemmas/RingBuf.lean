import Verif.Spec.RingBuf

/-! Invariant of the ring buffer. -/

namespace Verif.RingBuf
open Verif Spec.Ring

variable {α : Type}

/-! ### Index arithmetic -/

theorem idx_add (C p k : Nat) (hk : k < C) :
    (p + k) % C = if p % C + k < C then p % C + k else p % C + k - C := by
  have hm : p % C < C := Nat.mod_lt _ (by omega)
  rw [Nat.add_mod, Nat.mod_eq_of_lt hk]
  split
  · rename_i h; rw [Nat.mod_eq_of_lt h]
  · rename_i h
    rw [Nat.mod_eq_sub_mod (by omega), Nat.mod_eq_of_lt (by omega)]

theorem idx_inj {C a b : Nat} (hab : a ≤ b) (hb : b < a + C) (h : a % C = b % C) : a = b := by
  obtain ⟨k, rfl⟩ := Nat.exists_eq_add_of_le hab
  have hm : a % C < C := Nat.mod_lt _ (by omega)
  rw [idx_add C a k (by omega)] at h
  split at h <;> omega

theorem availableWrite_eq {C p q : Nat} (h : q ≤ p) (hC : p < q + C) :
    availableWrite C ((q % C : Nat) : Int) ((p % C : Nat) : Int) = C - 1 - (p - q : Nat) := by
  obtain ⟨k, rfl⟩ := Nat.exists_eq_add_of_le h
  have hm : q % C < C := Nat.mod_lt _ (by omega)
  rw [idx_add C q k (by omega)]
  unfold availableWrite
  simp only
  split <;> split <;> omega

theorem availableRead_eq {C p q : Nat} (h : q < p) (hC : p < q + C) :
    availableRead C ((q % C : Nat) : Int) ((p % C : Nat) : Int) = (p - q : Nat) := by
  obtain ⟨k, rfl⟩ := Nat.exists_eq_add_of_le (Nat.le_of_lt h)
  have hm : q % C < C := Nat.mod_lt _ (by omega)
  rw [idx_add C q k (by omega)]
  unfold availableRead
  split <;> split <;> omega

theorem full_iff {C p q : Nat} (h : q ≤ p) (hC : p < q + C) :
    (((p % C : Nat) : Int) + 1) % (C : Int) = ((q % C : Nat) : Int) ↔ p + 1 = q + C := by
  have : (((p % C : Nat) : Int) + 1) % (C : Int) = (((p + 1) % C : Nat) : Int) := by
    have : ((p + 1) % C : Nat) = (p % C + 1) % C := by simp
    rw [this]; simp
  rw [this]
  constructor
  · intro he
    have he : (p + 1) % C = q % C := by exact_mod_cast he
    have he2 : (q + C) % C = (p + 1) % C := by simp [he]
    by_cases hlt : p + 1 < q + C
    · have := idx_inj (a := q) (b := p + 1) (by omega) hlt he.symm
      omega
    · omega
  · intro he
    rw [he]; simp

/-! ### Traces -/

theorem pushed_append (a b : List (Label α)) : pushed (a ++ b) = pushed a ++ pushed b := by
  induction a with
  | nil => rfl
  | cons l a ih => cases l <;> simp [pushed, ih]

theorem popped_append (a b : List (Label α)) : popped (a ++ b) = popped a ++ popped b := by
  induction a with
  | nil => rfl
  | cons l a ih => cases l <;> simp [popped, ih]

theorem pushed_noPush {t : List (Label α)} (h : NoPush t) : pushed t = [] := by
  induction t with
  | nil => rfl
  | cons l t ih =>
    have h2 := ih (fun x hx => h x (List.mem_cons_of_mem _ hx))
    have h1 := (h l (List.mem_cons_self ..)).2
    cases l <;> simp_all [pushed]

theorem popped_noPop {t : List (Label α)} (h : NoPop t) : popped t = [] := by
  induction t with
  | nil => rfl
  | cons l t ih =>
    have h2 := ih (fun x hx => h x (List.mem_cons_of_mem _ hx))
    have h1 := (h l (List.mem_cons_self ..)).2
    cases l <;> simp_all [popped]

/-- The trace ends inside the call `push(els)`, made after `t1`. -/
def InPush (t t1 : List (Label α)) (els : List α) : Prop :=
  ∃ t2, t = t1 ++ .pushCall els :: t2 ∧ NoPush t2

def InPop (t t1 : List (Label α)) (dst : List α) : Prop :=
  ∃ t2, t = t1 ++ .popCall dst :: t2 ∧ NoPop t2

def isPush : Label α → Bool
  | .pushCall _ => true
  | .pushRet _ _ => true
  | _ => false

def isPop : Label α → Bool
  | .popCall _ => true
  | .popRet _ _ => true
  | _ => false

theorem noPush_iff {t : List (Label α)} : NoPush t ↔ ∀ l, l ∈ t → isPush l = false := by
  unfold NoPush
  refine forall_congr' fun l => imp_congr_right fun _ => ?_
  cases l <;> simp [isPush]

theorem noPop_iff {t : List (Label α)} : NoPop t ↔ ∀ l, l ∈ t → isPop l = false := by
  unfold NoPop
  refine forall_congr' fun l => imp_congr_right fun _ => ?_
  cases l <;> simp [isPop]

/-- Two ways of splitting a list at an element after which nothing satisfies `f` agree. -/
theorem split_unique {β : Type} {f : β → Bool} {a a' b b' : List β} {x x' : β}
    (h : a ++ x :: b = a' ++ x' :: b') (hx : f x = true) (hx' : f x' = true)
    (hb : ∀ y, y ∈ b → f y = false) (hb' : ∀ y, y ∈ b' → f y = false) :
    a = a' ∧ x = x' ∧ b = b' := by
  induction a generalizing a' with
  | nil =>
    cases a' with
    | nil => simp_all
    | cons y a' =>
      simp only [List.nil_append, List.cons_append, List.cons.injEq] at h
      have := hb x' (by rw [h.2]; simp)
      simp_all
  | cons y a ih =>
    cases a' with
    | nil =>
      simp only [List.nil_append, List.cons_append, List.cons.injEq] at h
      have := hb' x (by rw [← h.2]; simp)
      simp_all
    | cons y' a' =>
      simp only [List.cons_append, List.cons.injEq] at h
      obtain ⟨rfl, h⟩ := h
      obtain ⟨h1, h2, h3⟩ := ih h
      exact ⟨by rw [h1], h2, h3⟩

/-- Every finished `push` in the trace did what it should. -/
def PushesOk (C : Nat) (t : List (Label α)) : Prop := ∀ t1 els els' n, PushIn t t1 els els' n →
  els' = els ∧ n ≤ els.length ∧ min els.length (C - 1 - size t1) ≤ n

def PopsOk (t : List (Label α)) : Prop := ∀ t1 dst out n, PopIn t t1 dst out n →
  out.length = dst.length ∧ n ≤ dst.length ∧ min dst.length (size t1) ≤ n

theorem snoc_cases {β : Type} {t a b : List β} {x y : β} (h : t ++ [x] = a ++ y :: b) :
    (b = [] ∧ x = y ∧ t = a) ∨ ∃ b', b = b' ++ [x] ∧ t = a ++ y :: b' := by
  rcases List.eq_nil_or_concat b with rfl | ⟨b', z, rfl⟩
  · have := List.append_inj' h (by simp)
    simp_all
  · right
    rw [List.concat_eq_append] at h ⊢
    rw [← List.cons_append, ← List.append_assoc] at h
    have := List.append_inj' h (by simp)
    simp only [List.cons.injEq, and_true] at this
    exact ⟨b', by rw [this.2], this.1⟩

theorem pushesOk_snoc {C : Nat} {t : List (Label α)} {l : Label α} (h : PushesOk C t)
    (hl : ∀ els n, l ≠ .pushRet els n) : PushesOk C (t ++ [l]) := by
  rintro t1 els els' n ⟨t2, t3, e, hn⟩
  rcases snoc_cases e with ⟨_, h2, _⟩ | ⟨b', _, h2⟩
  · exact absurd h2 (hl _ _)
  · exact h t1 els els' n ⟨t2, b', h2, hn⟩

theorem popsOk_snoc {t : List (Label α)} {l : Label α} (h : PopsOk t)
    (hl : ∀ els n, l ≠ .popRet els n) : PopsOk (t ++ [l]) := by
  rintro t1 els els' n ⟨t2, t3, e, hn⟩
  rcases snoc_cases e with ⟨_, h2, _⟩ | ⟨b', _, h2⟩
  · exact absurd h2 (hl _ _)
  · exact h t1 els els' n ⟨t2, b', h2, hn⟩

theorem pushesOk_ret {C : Nat} {t t1 : List (Label α)} {els : List α} {n : Nat} (h : PushesOk C t)
    (hi : InPush t t1 els) (h1 : n ≤ els.length) (h2 : min els.length (C - 1 - size t1) ≤ n) :
    PushesOk C (t ++ [.pushRet els n]) := by
  rintro t1' els1 els' n' ⟨t2, t3, e, hn⟩
  rcases snoc_cases e with ⟨_, hr, ht⟩ | ⟨b', _, ht⟩
  · cases hr
    obtain ⟨t2', ht', hn'⟩ := hi
    rw [ht'] at ht
    obtain ⟨a1, a2, _⟩ := split_unique (f := isPush) ht rfl rfl (noPush_iff.mp hn') (noPush_iff.mp hn)
    cases a2
    subst a1
    exact ⟨rfl, h1, h2⟩
  · exact h t1' els1 els' n' ⟨t2, b', ht, hn⟩

theorem popsOk_ret {t t1 : List (Label α)} {dst out : List α} {n : Nat} (h : PopsOk t)
    (hi : InPop t t1 dst) (h0 : out.length = dst.length) (h1 : n ≤ dst.length)
    (h2 : min dst.length (size t1) ≤ n) :
    PopsOk (t ++ [.popRet out n]) := by
  rintro t1' els1 els' n' ⟨t2, t3, e, hn⟩
  rcases snoc_cases e with ⟨_, hr, ht⟩ | ⟨b', _, ht⟩
  · cases hr
    obtain ⟨t2', ht', hn'⟩ := hi
    rw [ht'] at ht
    obtain ⟨a1, a2, _⟩ := split_unique (f := isPop) ht rfl rfl (noPop_iff.mp hn') (noPop_iff.mp hn)
    cases a2
    subst a1
    exact ⟨h0, h1, h2⟩
  · exact h t1' els1 els' n' ⟨t2, b', ht, hn⟩

/-! ### The invariant -/

/-- What is known while the producer is inside `push`. `P`, `Q`: elements pushed and popped so far. -/
def ProdInv (C : Nat) (t : List (Label α)) (mem : List α) (p q : Nat) : Prod α → Prop
  | .idle => True
  | .start els => ∃ t1, InPush t t1 els
  | .gotRd els rd => ∃ t1 q0, InPush t t1 els ∧ (popped t1).length ≤ q0 ∧ q0 ≤ q ∧ p < q0 + C ∧
      rd = ((q0 % C : Nat) : Int)
  | .copy1 els wr w i => ∃ t1, InPush t t1 els ∧ wr = ((p % C : Nat) : Int) ∧
      ∃ n : Nat, w = n ∧ n ≤ els.length ∧ min els.length (C - 1 - size t1) ≤ n ∧ p + n < q + C ∧
      i ≤ n ∧ p % C + i ≤ C ∧ ∀ k, k < i → mem[(p + k) % C]? = els[k]?
  | .copy2 els wr w i => ∃ t1, InPush t t1 els ∧ wr = ((p % C : Nat) : Int) ∧
      ∃ n : Nat, w = n ∧ n ≤ els.length ∧ min els.length (C - 1 - size t1) ≤ n ∧ p + n < q + C ∧
      (n ≤ C - p % C → i = 0) ∧ min n (C - p % C) + i ≤ n ∧
      ∀ k, k < min n (C - p % C) + i → mem[(p + k) % C]? = els[k]?

/-- What is known while the consumer is inside `pop`. -/
def ConsInv (C : Nat) (t : List (Label α)) (P : List α) (p q : Nat) : Cons α → Prop
  | .idle => True
  | .start dst => ∃ t1, InPop t t1 dst
  | .gotRd dst rd => ∃ t1, InPop t t1 dst ∧ rd = ((q % C : Nat) : Int)
  | .copy1 dst rd r i => ∃ t1 dst0, InPop t t1 dst0 ∧ dst.length = dst0.length ∧
      rd = ((q % C : Nat) : Int) ∧
      ∃ n : Nat, r = n ∧ n ≤ dst.length ∧ min dst.length (size t1) ≤ n ∧ q + n ≤ p ∧
      i ≤ dst.length ∧ q % C + i ≤ C ∧ ∀ k, k < i → k < n → dst[k]? = P[q + k]?
  | .copy2 dst rd r i => ∃ t1 dst0, InPop t t1 dst0 ∧ dst.length = dst0.length ∧
      rd = ((q % C : Nat) : Int) ∧
      ∃ n : Nat, r = n ∧ n ≤ dst.length ∧ min dst.length (size t1) ≤ n ∧ q + n ≤ p ∧
      (n ≤ C - q % C → i = 0) ∧ (i = 0 ∨ min (C - q % C) dst.length + i ≤ n) ∧
      ∀ k, k < min (C - q % C) dst.length + i → k < n → dst[k]? = P[q + k]?

structure Inv (C : Nat) (t : List (Label α)) (s : State α) : Prop where
  cap : s.mem.length = C
  pos : 0 < C
  pre : popped t = (pushed t).take (popped t).length
  le : (popped t).length ≤ (pushed t).length
  fit : (pushed t).length < (popped t).length + C
  wr : s.wr = (((pushed t).length % C : Nat) : Int)
  rd : s.rd = (((popped t).length % C : Nat) : Int)
  data : ∀ j, (popped t).length ≤ j → j < (pushed t).length → s.mem[j % C]? = (pushed t)[j]?
  prod : ProdInv C t s.mem (pushed t).length (popped t).length s.prod
  cons : ConsInv C t (pushed t) (pushed t).length (popped t).length s.cons
  pushes : PushesOk C t
  pops : PopsOk t

theorem inv_init (mem : List α) (h : mem ≠ []) : Inv mem.length [] (init mem) := by
  have hp : 0 < mem.length := List.length_pos_iff.mpr h
  refine ⟨rfl, hp, rfl, Nat.le_refl _, by simpa [pushed, popped, init] using hp, ?_, ?_, ?_, trivial, trivial, ?_, ?_⟩
  · simp [init, pushed]
  · simp [init, popped]
  · intro j _ hj; simp [pushed] at hj
  · rintro _ _ _ _ ⟨_, _, h, _⟩; simp at h
  · rintro _ _ _ _ ⟨_, _, h, _⟩; simp at h

/-- Labels of the other thread do not matter to the producer. -/
theorem inPush_snoc {t t1 : List (Label α)} {els : List α} {l : Label α} (h : InPush t t1 els)
    (hl : isPush l = false) : InPush (t ++ [l]) t1 els := by
  obtain ⟨t2, rfl, hn⟩ := h
  refine ⟨t2 ++ [l], by simp, ?_⟩
  rw [noPush_iff] at hn ⊢
  intro x hx
  rw [List.mem_append, List.mem_singleton] at hx
  rcases hx with hx | rfl
  · exact hn x hx
  · exact hl

theorem inPop_snoc {t t1 : List (Label α)} {els : List α} {l : Label α} (h : InPop t t1 els)
    (hl : isPop l = false) : InPop (t ++ [l]) t1 els := by
  obtain ⟨t2, rfl, hn⟩ := h
  refine ⟨t2 ++ [l], by simp, ?_⟩
  rw [noPop_iff] at hn ⊢
  intro x hx
  rw [List.mem_append, List.mem_singleton] at hx
  rcases hx with hx | rfl
  · exact hn x hx
  · exact hl

theorem prodInv_cons {C : Nat} {t : List (Label α)} {mem : List α} {p q q' : Nat} {l : Label α}
    {pr : Prod α} (h : ProdInv C t mem p q pr) (hl : isPush l = false) (hq : q ≤ q') :
    ProdInv C (t ++ [l]) mem p q' pr := by
  cases pr with
  | idle => trivial
  | start els =>
    obtain ⟨t1, h⟩ := h
    exact ⟨t1, inPush_snoc h hl⟩
  | gotRd els rd =>
    obtain ⟨t1, q0, h, h1, h2, h3, h4⟩ := h
    exact ⟨t1, q0, inPush_snoc h hl, h1, by omega, h3, h4⟩
  | copy1 els wr w i =>
    obtain ⟨t1, h, h1, n, h2, h3, h4, h5, h6⟩ := h
    exact ⟨t1, inPush_snoc h hl, h1, n, h2, h3, h4, by omega, h6⟩
  | copy2 els wr w i =>
    obtain ⟨t1, h, h1, n, h2, h3, h4, h5, h6⟩ := h
    exact ⟨t1, inPush_snoc h hl, h1, n, h2, h3, h4, by omega, h6⟩

theorem consInv_push {C : Nat} {t : List (Label α)} {P P' : List α} {q : Nat} {l : Label α}
    {co : Cons α} (h : ConsInv C t P P.length q co) (hl : isPop l = false) (hP : P <+: P') :
    ConsInv C (t ++ [l]) P' P'.length q co := by
  have hlen := hP.length_le
  have hget : ∀ j, j < P.length → P'[j]? = P[j]? := by
    intro j hj
    obtain ⟨s, rfl⟩ := hP
    rw [List.getElem?_append_left hj]
  cases co with
  | idle => trivial
  | start els =>
    obtain ⟨t1, h⟩ := h
    exact ⟨t1, inPop_snoc h hl⟩
  | gotRd els rd =>
    obtain ⟨t1, h, h1⟩ := h
    exact ⟨t1, inPop_snoc h hl, h1⟩
  | copy1 els wr w i =>
    obtain ⟨t1, d0, h, h0, h1, n, h2, h3, h4, h5, h6, h7, h8⟩ := h
    refine ⟨t1, d0, inPop_snoc h hl, h0, h1, n, h2, h3, h4, by omega, h6, h7, ?_⟩
    intro k hk hn
    rw [h8 k hk hn, hget _ (by omega)]
  | copy2 els wr w i =>
    obtain ⟨t1, d0, h, h0, h1, n, h2, h3, h4, h5, h6, h7, h8⟩ := h
    refine ⟨t1, d0, inPop_snoc h hl, h0, h1, n, h2, h3, h4, by omega, h6, h7, ?_⟩
    intro k hk hn
    rw [h8 k hk hn, hget _ (by omega)]

theorem copy1_ok {input output : List α} {oi oo i : Nat} {v : α} (h : input[oi + i]? = some v)
    (ho : oo + i < output.length) :
    copy1 input oi output oo i = .ok (output.set (oo + i) v) := by
  unfold copy1
  have h1 : ¬ ((oi : Int) + i < 0 ∨ (oo : Int) + i < 0) := by omega
  have h2 : ((oi : Int) + i).toNat = oi + i := by omega
  have h3 : ((oo : Int) + i).toNat = oo + i := by omega
  rw [if_neg h1, h2, h3, h]
  simp [ho]

/-- Facts about the queue size at the time of a pending `push`. -/
theorem inPush_pushed {t t1 : List (Label α)} {els : List α} (h : InPush t t1 els) :
    pushed t = pushed t1 := by
  obtain ⟨t2, rfl, hn⟩ := h
  rw [pushed_append]
  show pushed t1 ++ pushed t2 = _
  rw [pushed_noPush hn, List.append_nil]

theorem inPush_popped {t t1 : List (Label α)} {els : List α} (h : InPush t t1 els) :
    (popped t1).length ≤ (popped t).length := by
  obtain ⟨t2, rfl, hn⟩ := h
  rw [popped_append, List.length_append]
  omega

theorem inPop_popped {t t1 : List (Label α)} {els : List α} (h : InPop t t1 els) :
    popped t = popped t1 := by
  obtain ⟨t2, rfl, hn⟩ := h
  rw [popped_append]
  show popped t1 ++ popped t2 = _
  rw [popped_noPop hn, List.append_nil]

theorem inPop_pushed {t t1 : List (Label α)} {els : List α} (h : InPop t t1 els) :
    (pushed t1).length ≤ (pushed t).length := by
  obtain ⟨t2, rfl, hn⟩ := h
  rw [pushed_append, List.length_append]
  omega

theorem set_data {mem P : List α} {C p q k : Nat} {v : α}
    (hk : p + k < q + C)
    (hd : ∀ j, q ≤ j → j < p → mem[j % C]? = P[j]?) :
    ∀ j, q ≤ j → j < p → (mem.set ((p + k) % C) v)[j % C]? = P[j]? := by
  intro j h1 h2
  have hne : (p + k) % C ≠ j % C := by
    intro he
    have := idx_inj (a := j) (b := p + k) (by omega) (by omega) he.symm
    omega
  rw [List.getElem?_set_ne hne]
  exact hd j h1 h2

theorem set_copied {mem els : List α} {C p i n m : Nat} {v : α} (hC : mem.length = C)
    (hpos : 0 < C) (hi : i = m) (hn : i < n) (hnC : n < C + 1) (hv : els[i]? = some v)
    (hd : ∀ k, k < m → mem[(p + k) % C]? = els[k]?) :
    ∀ k, k < m + 1 → (mem.set ((p + i) % C) v)[(p + k) % C]? = els[k]? := by
  subst hi
  intro k hk
  by_cases hki : k = i
  · subst hki
    rw [List.getElem?_set_self (by rw [hC]; exact Nat.mod_lt _ hpos), hv]
  · have hne : (p + i) % C ≠ (p + k) % C := by
      intro he
      have := idx_inj (a := p + k) (b := p + i) (by omega) (by omega) he.symm
      omega
    rw [List.getElem?_set_ne hne]
    exact hd k (by omega)

theorem step_prod {C : Nat} {t : List (Label α)} {s : State α} (h : Inv C t s) :
    ∃ s' ls, stepProd s = .ok (s', ls) ∧ Inv C (t ++ ls) s' := by
  obtain ⟨mem, wr, rd, prod, cons⟩ := s
  obtain ⟨hC, hpos, hpre, hle, hfit, hwr, hrd, hdata, hprod, hcons, hpushes, hpops⟩ := h
  simp only at hC hwr hrd hdata hprod hcons
  cases prod with
  | idle =>
    refine ⟨_, _, rfl, ?_⟩
    rw [List.append_nil]
    exact ⟨hC, hpos, hpre, hle, hfit, hwr, hrd, hdata, hprod, hcons, hpushes, hpops⟩
  | start els =>
    refine ⟨_, _, rfl, ?_⟩
    rw [List.append_nil]
    obtain ⟨t1, hin⟩ := hprod
    exact ⟨hC, hpos, hpre, hle, hfit, hwr, hrd, hdata,
      ⟨t1, (popped t).length, hin, inPush_popped hin, Nat.le_refl _, hfit, hrd⟩, hcons, hpushes, hpops⟩
  | gotRd els rd0 =>
    obtain ⟨t1, q0, hin, hq1, hq0, hpq, hrd0⟩ := hprod
    have hsz : size t1 = (pushed t).length - (popped t1).length := by
      unfold size; rw [inPush_pushed hin]
    unfold stepProd
    simp only [State.cap, hC]
    by_cases hf : (wr + 1) % (C : Int) = rd0
    · rw [if_pos hf]
      refine ⟨_, _, rfl, ?_⟩
      have hP : pushed (t ++ [.pushRet els 0]) = pushed t := by
        rw [pushed_append]; simp [pushed]
      have hQ : popped (t ++ [.pushRet els 0]) = popped t := by
        rw [popped_append]; simp [popped]
      rw [hwr, hrd0, full_iff (by omega) hpq] at hf
      refine ⟨hC, hpos, by rw [hP, hQ]; exact hpre, by rw [hP, hQ]; exact hle,
        by rw [hP, hQ]; exact hfit, by rw [hP]; exact hwr, by rw [hQ]; exact hrd,
        by rw [hP, hQ]; exact hdata, trivial, ?_, ?_, ?_⟩
      · rw [hQ]
        exact consInv_push (l := .pushRet els 0) hcons rfl (by rw [hP]; exact List.prefix_rfl)
      · exact pushesOk_ret hpushes hin (by omega) (by omega)
      · exact popsOk_snoc hpops (by simp)
    · rw [if_neg hf]
      refine ⟨_, _, rfl, ?_⟩
      rw [List.append_nil]
      rw [hwr, hrd0, full_iff (by omega) hpq] at hf
      refine ⟨hC, hpos, hpre, hle, hfit, hwr, hrd, hdata, ?_, hcons, hpushes, hpops⟩
      refine ⟨t1, hin, hwr, min (C - 1 - ((pushed t).length - q0)) els.length, ?_, by omega, by omega,
        by omega, by omega, ?_, by omega⟩
      · rw [hwr, hrd0, availableWrite_eq (by omega) hpq]
        omega
      · have := Nat.mod_lt (pushed t).length hpos
        omega
  | copy1 els wr0 w i =>
    obtain ⟨t1, hin, hwr0, n, rfl, hn1, hn2, hn3, hi, hiC, hcop⟩ := hprod
    have hm := Nat.mod_lt (pushed t).length hpos
    unfold stepProd
    simp only [State.cap, hC]
    by_cases hlt : (i : Int) < min ((C : Int) - wr0) n
    · rw [if_pos hlt]
      obtain ⟨v, hv⟩ : ∃ v, els[i]? = some v := ⟨els[i]'(by omega), List.getElem?_eq_getElem _⟩
      have hidx : ((pushed t).length + i) % C = (pushed t).length % C + i := by
        rw [idx_add C _ i (by omega), if_pos (by omega)]
      have hc := copy1_ok (input := els) (output := mem) (oi := 0) (oo := (pushed t).length % C)
        (i := i) (by simpa using hv) (by omega)
      rw [hwr0]
      rw [show ((0 : Nat) : Int) = 0 from rfl] at hc
      rw [hc, ← hidx]
      refine ⟨_, _, rfl, ?_⟩
      rw [List.append_nil]
      refine ⟨by simpa using hC, hpos, hpre, hle, hfit, hwr, hrd,
        set_data (by omega) hdata, ?_, hcons, hpushes, hpops⟩
      exact ⟨t1, hin, rfl, n, rfl, hn1, hn2, hn3, by omega, by omega,
        set_copied (n := n) hC hpos rfl (by omega) (by omega) hv hcop⟩
    · rw [if_neg hlt]
      refine ⟨_, _, rfl, ?_⟩
      rw [List.append_nil]
      refine ⟨hC, hpos, hpre, hle, hfit, hwr, hrd, hdata, ?_, hcons, hpushes, hpops⟩
      exact ⟨t1, hin, hwr0, n, rfl, hn1, hn2, hn3, by omega, by omega,
        fun k hk => hcop k (by omega)⟩
  | copy2 els wr0 w i =>
    obtain ⟨t1, hin, hwr0, n, rfl, hn1, hn2, hn3, hi, hiC, hcop⟩ := hprod
    have hm := Nat.mod_lt (pushed t).length hpos
    unfold stepProd
    simp only [State.cap, hC]
    by_cases hlt : (i : Int) < n - min ((C : Int) - wr0) n
    · rw [if_pos hlt]
      have hfirst : min ((C : Int) - wr0) n = ((C - (pushed t).length % C : Nat) : Int) := by omega
      have hmin : min n (C - (pushed t).length % C) = C - (pushed t).length % C := by omega
      rw [hmin] at hcop hiC
      obtain ⟨v, hv⟩ : ∃ v, els[C - (pushed t).length % C + i]? = some v :=
        ⟨els[C - (pushed t).length % C + i]'(by omega), List.getElem?_eq_getElem _⟩
      have hidx : ((pushed t).length + (C - (pushed t).length % C + i)) % C = 0 + i := by
        rw [idx_add C _ _ (by omega), if_neg (by omega)]
        omega
      have hc := copy1_ok (input := els) (output := mem) (oi := C - (pushed t).length % C) (oo := 0)
        (i := i) hv (by omega)
      rw [hfirst]
      rw [show ((0 : Nat) : Int) = 0 from rfl] at hc
      rw [hc, ← hidx]
      refine ⟨_, _, rfl, ?_⟩
      rw [List.append_nil]
      refine ⟨by simpa using hC, hpos, hpre, hle, hfit, hwr, hrd,
        set_data (by omega) hdata, ?_, hcons, hpushes, hpops⟩
      refine ⟨t1, hin, hwr0, n, rfl, hn1, hn2, hn3, by omega, by omega, ?_⟩
      rw [hmin]
      exact set_copied (n := n) hC hpos rfl (by omega) (by omega) hv hcop
    · rw [if_neg hlt]
      refine ⟨_, _, rfl, ?_⟩
      have hall : min n (C - (pushed t).length % C) + i = n := by omega
      rw [hall] at hcop
      have hP : pushed (t ++ [.pushRet els (Int.toNat n)]) = pushed t ++ els.take n := by
        rw [pushed_append]; simp [pushed]
      have hQ : popped (t ++ [.pushRet els (Int.toNat n)]) = popped t := by
        rw [popped_append]; simp [popped]
      have hlen : (pushed t ++ els.take n).length = (pushed t).length + n := by simp; omega
      refine ⟨hC, hpos, ?_, ?_, ?_, ?_, ?_, ?_, trivial, ?_, ?_, ?_⟩
      · rw [hP, hQ, List.take_append_of_le_length hle]; exact hpre
      · rw [hP, hQ, hlen]; omega
      · rw [hP, hQ, hlen]; omega
      · rw [hP, hlen]
        show (wr0 + (n : Int)) % (C : Int) = _
        rw [hwr0]
        simp
      · rw [hQ]; exact hrd
      · rw [hP, hQ, hlen]
        intro j h1 h2
        by_cases hj : j < (pushed t).length
        · rw [List.getElem?_append_left hj]
          exact hdata j h1 hj
        · rw [List.getElem?_append_right (by omega), List.getElem?_take_of_lt (by omega)]
          rw [← hcop (j - (pushed t).length) (by omega)]
          have : (pushed t).length + (j - (pushed t).length) = j := by omega
          rw [this]
      · rw [hQ]
        exact consInv_push (l := .pushRet els (Int.toNat n)) hcons rfl (by rw [hP]; exact List.prefix_append _ _)
      · simp only [Int.toNat_natCast]
        exact pushesOk_ret hpushes hin hn1 hn2
      · exact popsOk_snoc hpops (by simp)

theorem step_cons {C : Nat} {t : List (Label α)} {s : State α} (h : Inv C t s) :
    ∃ s' ls, stepCons s = .ok (s', ls) ∧ Inv C (t ++ ls) s' := by
  obtain ⟨mem, wr, rd, prod, cons⟩ := s
  obtain ⟨hC, hpos, hpre, hle, hfit, hwr, hrd, hdata, hprod, hcons, hpushes, hpops⟩ := h
  simp only at hC hwr hrd hdata hprod hcons
  cases cons with
  | idle =>
    refine ⟨_, _, rfl, ?_⟩
    rw [List.append_nil]
    exact ⟨hC, hpos, hpre, hle, hfit, hwr, hrd, hdata, hprod, hcons, hpushes, hpops⟩
  | start dst =>
    refine ⟨_, _, rfl, ?_⟩
    rw [List.append_nil]
    obtain ⟨t1, hin⟩ := hcons
    exact ⟨hC, hpos, hpre, hle, hfit, hwr, hrd, hdata, hprod, ⟨t1, hin, hrd⟩, hpushes, hpops⟩
  | gotRd dst rd0 =>
    obtain ⟨t1, hin, hrd0⟩ := hcons
    have hsz : size t1 ≤ (pushed t).length - (popped t).length := by
      unfold size; rw [← inPop_popped hin]
      have := inPop_pushed hin
      omega
    unfold stepCons
    simp only [State.cap, hC]
    by_cases hf : wr = rd0
    · rw [if_pos hf]
      refine ⟨_, _, rfl, ?_⟩
      have hP : pushed (t ++ [.popRet dst 0]) = pushed t := by
        rw [pushed_append]; simp [pushed]
      have hQ : popped (t ++ [.popRet dst 0]) = popped t := by
        rw [popped_append]; simp [popped]
      have hpq : (popped t).length = (pushed t).length := by
        rw [hwr, hrd0] at hf
        exact idx_inj hle hfit (by exact_mod_cast hf.symm)
      refine ⟨hC, hpos, by rw [hP, hQ]; exact hpre, by rw [hP, hQ]; exact hle,
        by rw [hP, hQ]; exact hfit, by rw [hP]; exact hwr, by rw [hQ]; exact hrd,
        by rw [hP, hQ]; exact hdata, ?_, trivial, ?_, ?_⟩
      · rw [hP]
        exact prodInv_cons (l := .popRet dst 0) hprod rfl (by rw [hQ]; exact Nat.le_refl _)
      · exact pushesOk_snoc hpushes (by simp)
      · exact popsOk_ret hpops hin rfl (by omega) (by omega)
    · rw [if_neg hf]
      refine ⟨_, _, rfl, ?_⟩
      rw [List.append_nil]
      have hlt : (popped t).length < (pushed t).length := by
        rcases Nat.lt_or_eq_of_le hle with h | h
        · exact h
        · exact absurd (by rw [hwr, hrd0, h]) hf
      have hm := Nat.mod_lt (popped t).length hpos
      refine ⟨hC, hpos, hpre, hle, hfit, hwr, hrd, hdata, hprod, ?_, hpushes, hpops⟩
      refine ⟨t1, dst, hin, rfl, hrd0, min ((pushed t).length - (popped t).length) dst.length, ?_,
        by omega, by omega, by omega, by omega, by omega, by omega⟩
      rw [hwr, hrd0, availableRead_eq hlt hfit]
      omega
  | copy1 dst rd0 r i =>
    obtain ⟨t1, dst0, hin, hd0, hrd0, n, rfl, hn1, hn2, hn3, hi, hiC, hcop⟩ := hcons
    have hm := Nat.mod_lt (popped t).length hpos
    unfold stepCons
    simp only [State.cap, hC]
    by_cases hlt : (i : Int) < min ((C : Int) - rd0) dst.length
    · rw [if_pos hlt]
      obtain ⟨v, hv⟩ : ∃ v, mem[(popped t).length % C + i]? = some v :=
        ⟨mem[(popped t).length % C + i]'(by omega), List.getElem?_eq_getElem _⟩
      have hc := copy1_ok (input := mem) (output := dst) (oo := 0) (oi := (popped t).length % C)
        (i := i) hv (by omega)
      rw [hrd0]
      rw [show ((0 : Nat) : Int) = 0 from rfl] at hc
      rw [hc]
      refine ⟨_, _, rfl, ?_⟩
      rw [List.append_nil]
      refine ⟨hC, hpos, hpre, hle, hfit, hwr, hrd, hdata, hprod, ?_, hpushes, hpops⟩
      refine ⟨t1, dst0, hin, by simpa using hd0, rfl, n, rfl, by simpa using hn1, by simpa using hn2, hn3,
        by simp; omega, by omega, ?_⟩
      intro k hk hkn
      by_cases hki : k = i
      · subst hki
        rw [Nat.zero_add, List.getElem?_set_self (by omega), ← hv]
        have hidx : ((popped t).length + k) % C = (popped t).length % C + k := by
          rw [idx_add C _ k (by omega), if_pos (by omega)]
        rw [← hidx]
        exact hdata _ (by omega) (by omega)
      · rw [Nat.zero_add, List.getElem?_set_ne (by omega)]
        exact hcop k (by omega) hkn
    · rw [if_neg hlt]
      refine ⟨_, _, rfl, ?_⟩
      rw [List.append_nil]
      refine ⟨hC, hpos, hpre, hle, hfit, hwr, hrd, hdata, hprod, ?_, hpushes, hpops⟩
      exact ⟨t1, dst0, hin, hd0, hrd0, n, rfl, hn1, hn2, hn3, fun _ => rfl, .inl rfl,
        fun k hk hkn => hcop k (by omega) hkn⟩
  | copy2 dst rd0 r i =>
    obtain ⟨t1, dst0, hin, hd0, hrd0, n, rfl, hn1, hn2, hn3, hi, hiC, hcop⟩ := hcons
    have hm := Nat.mod_lt (popped t).length hpos
    unfold stepCons
    simp only [State.cap, hC]
    by_cases hlt : (i : Int) < n - min ((C : Int) - rd0) dst.length
    · rw [if_pos hlt]
      have hfirst : min ((C : Int) - rd0) dst.length = ((C - (popped t).length % C : Nat) : Int) := by omega
      have hmin : min (C - (popped t).length % C) dst.length = C - (popped t).length % C := by omega
      rw [hmin] at hcop hiC
      obtain ⟨v, hv⟩ : ∃ v, mem[0 + i]? = some v := ⟨mem[0 + i]'(by omega), List.getElem?_eq_getElem _⟩
      have hc := copy1_ok (input := mem) (output := dst) (oo := C - (popped t).length % C) (oi := 0)
        (i := i) hv (by omega)
      rw [hfirst]
      rw [show ((0 : Nat) : Int) = 0 from rfl] at hc
      rw [hc]
      refine ⟨_, _, rfl, ?_⟩
      rw [List.append_nil]
      refine ⟨hC, hpos, hpre, hle, hfit, hwr, hrd, hdata, hprod, ?_, hpushes, hpops⟩
      refine ⟨t1, dst0, hin, by simpa using hd0, hrd0, n, rfl, by simpa using hn1, by simpa using hn2, hn3,
        by omega, .inr (by simp; omega), ?_⟩
      rw [List.length_set, hmin]
      intro k hk hkn
      by_cases hki : k = C - (popped t).length % C + i
      · rw [hki, List.getElem?_set_self (by omega), ← hv]
        have hidx : ((popped t).length + (C - (popped t).length % C + i)) % C = 0 + i := by
          rw [idx_add C _ _ (by omega), if_neg (by omega)]
          omega
        rw [← hidx]
        exact hdata _ (by omega) (by omega)
      · rw [List.getElem?_set_ne (by omega)]
        exact hcop k (by omega) hkn
    · rw [if_neg hlt]
      refine ⟨_, _, rfl, ?_⟩
      have hcop' : ∀ k, k < n → dst[k]? = (pushed t)[(popped t).length + k]? :=
        fun k hk => hcop k (by omega) hk
      have hQ : popped (t ++ [.popRet dst (Int.toNat n)]) = popped t ++ dst.take n := by
        rw [popped_append]; simp [popped]
      have hP : pushed (t ++ [.popRet dst (Int.toNat n)]) = pushed t := by
        rw [pushed_append]; simp [pushed]
      have hlen : (popped t ++ dst.take n).length = (popped t).length + n := by simp; omega
      refine ⟨hC, hpos, ?_, ?_, ?_, ?_, ?_, ?_, ?_, trivial, ?_, ?_⟩
      · rw [hP, hQ, hlen]
        apply List.ext_getElem?
        intro k
        by_cases hk : k < (popped t).length
        · rw [List.getElem?_append_left hk, hpre, List.length_take, List.getElem?_take_of_lt (by omega),
            List.getElem?_take_of_lt (by omega)]
        · rw [List.getElem?_append_right (by omega)]
          by_cases hk2 : k < (popped t).length + n
          · rw [List.getElem?_take_of_lt (by omega), List.getElem?_take_of_lt (by omega),
              hcop' _ (by omega)]
            congr 1
            omega
          · rw [List.getElem?_eq_none (by simp; omega), List.getElem?_eq_none (by simp; omega)]
      · rw [hP, hQ, hlen]; omega
      · rw [hP, hQ, hlen]; omega
      · rw [hP]; exact hwr
      · rw [hQ, hlen]
        show (rd0 + (n : Int)) % (C : Int) = _
        rw [hrd0]
        simp
      · rw [hP, hQ, hlen]
        exact fun j h1 h2 => hdata j (by omega) h2
      · rw [hP]
        exact prodInv_cons (l := .popRet dst (Int.toNat n)) hprod rfl (by rw [hQ, hlen]; omega)
      · exact pushesOk_snoc hpushes (by simp)
      · simp only [Int.toNat_natCast]
        exact popsOk_ret hpops hin hd0 (by omega) (by omega)

theorem step_ok {C : Nat} {t : List (Label α)} {s : State α} (h : Inv C t s) (a : Act α) :
    ∃ s' ls, step s a = .ok (s', ls) ∧ Inv C (t ++ ls) s' := by
  cases a with
  | stepProd => exact step_prod h
  | stepCons => exact step_cons h
  | callPush els =>
    unfold step
    cases hp : s.prod with
    | idle =>
      refine ⟨_, _, rfl, ?_⟩
      have hP : pushed (t ++ [.pushCall els]) = pushed t := by
        rw [pushed_append]; simp [pushed]
      have hQ : popped (t ++ [.pushCall els]) = popped t := by
        rw [popped_append]; simp [popped]
      refine ⟨h.cap, h.pos, by rw [hP, hQ]; exact h.pre, by rw [hP, hQ]; exact h.le,
        by rw [hP, hQ]; exact h.fit, by rw [hP]; exact h.wr, by rw [hQ]; exact h.rd,
        by rw [hP, hQ]; exact h.data, ⟨t, [], rfl, by simp [NoPush]⟩, ?_, ?_, ?_⟩
      · rw [hQ]
        exact consInv_push (l := .pushCall els) h.cons rfl (by rw [hP]; exact List.prefix_rfl)
      · exact pushesOk_snoc h.pushes (by simp)
      · exact popsOk_snoc h.pops (by simp)
    | _ => exact ⟨_, _, rfl, by rw [List.append_nil]; exact h⟩
  | callPop dst =>
    unfold step
    cases hp : s.cons with
    | idle =>
      refine ⟨_, _, rfl, ?_⟩
      have hP : pushed (t ++ [.popCall dst]) = pushed t := by
        rw [pushed_append]; simp [pushed]
      have hQ : popped (t ++ [.popCall dst]) = popped t := by
        rw [popped_append]; simp [popped]
      refine ⟨h.cap, h.pos, by rw [hP, hQ]; exact h.pre, by rw [hP, hQ]; exact h.le,
        by rw [hP, hQ]; exact h.fit, by rw [hP]; exact h.wr, by rw [hQ]; exact h.rd,
        by rw [hP, hQ]; exact h.data, ?_, ⟨t, [], rfl, by simp [NoPop]⟩, ?_, ?_⟩
      · rw [hP]
        exact prodInv_cons (l := .popCall dst) h.prod rfl (by rw [hQ]; exact Nat.le_refl _)
      · exact pushesOk_snoc h.pushes (by simp)
      · exact popsOk_snoc h.pops (by simp)
    | _ => exact ⟨_, _, rfl, by rw [List.append_nil]; exact h⟩

theorem run_ok {C : Nat} {t : List (Label α)} {s : State α} (h : Inv C t s) (as : List (Act α)) :
    ∃ s' ls, run s as = .ok (s', ls) ∧ Inv C (t ++ ls) s' := by
  induction as generalizing t s with
  | nil => exact ⟨s, [], rfl, by rw [List.append_nil]; exact h⟩
  | cons a as ih =>
    obtain ⟨s1, l1, h1, i1⟩ := step_ok h a
    obtain ⟨s2, l2, h2, i2⟩ := ih i1
    refine ⟨s2, l1 ++ l2, ?_, by rw [← List.append_assoc]; exact i2⟩
    simp only [run, h1]
    simp only [bind, Except.bind, h2]

end Verif.RingBuf
