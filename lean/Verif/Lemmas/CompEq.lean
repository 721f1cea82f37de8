import Verif.Ast
import Verif.Spec.Engine

/-! Component equality is symmetric and transitive (helpers). -/

namespace Verif

theorem Fl.beq_symm {a b : Fl} (h : Fl.beq a b = true) : Fl.beq b a = true := by
  cases a <;> cases b <;> simp_all [Fl.beq]

theorem Fl.beq_trans {a b c : Fl} (h : Fl.beq a b = true) (h' : Fl.beq b c = true) :
    Fl.beq a c = true := by
  cases a <;> cases b <;> cases c <;> simp_all [Fl.beq]

theorem listEq_symm {α : Type} {eq : α → α → Bool}
    (hs : ∀ a b, eq a b = true → eq b a = true) : ∀ {l m : List α}, listEq eq l m = true →
    listEq eq m l = true := by
  intro l
  induction l with
  | nil => intro m h; cases m <;> simp_all [listEq]
  | cons a l ih =>
    intro m h
    cases m with
    | nil => simp [listEq] at h
    | cons b m =>
      simp only [listEq, Bool.and_eq_true] at h ⊢
      exact ⟨hs _ _ h.1, ih h.2⟩

theorem listEq_trans {α : Type} {eq : α → α → Bool}
    (ht : ∀ a b c, eq a b = true → eq b c = true → eq a c = true) : ∀ {l m k : List α},
    listEq eq l m = true → listEq eq m k = true → listEq eq l k = true := by
  intro l
  induction l with
  | nil => intro m k h h'; cases m <;> simp_all [listEq]
  | cons a l ih =>
    intro m k h h'
    cases m with
    | nil => simp [listEq] at h
    | cons b m =>
      cases k with
      | nil => simp [listEq] at h'
      | cons c k =>
        simp only [listEq, Bool.and_eq_true] at h h' ⊢
        exact ⟨ht _ _ _ h.1 h'.1, ih h.2 h'.2⟩

theorem NumRef.eq_symm {a b : NumRef} (h : a.eq b = true) : b.eq a = true := by
  cases a <;> cases b <;> simp_all [NumRef.eq, Fl.beq_symm]

theorem NumRef.eq_trans {a b c : NumRef} (h : a.eq b = true) (h' : b.eq c = true) :
    a.eq c = true := by
  cases a <;> cases b <;> cases c <;> simp_all [NumRef.eq]
  exact Fl.beq_trans h h'

theorem Dur.eq_symm {a b : Dur} (h : a.eq b = true) : b.eq a = true := by
  cases a <;> cases b <;> simp_all [Dur.eq, Fl.beq_symm]

theorem Dur.eq_trans {a b c : Dur} (h : a.eq b = true) (h' : b.eq c = true) : a.eq c = true := by
  cases a <;> cases b <;> cases c <;> simp_all [Dur.eq] <;> exact Fl.beq_trans h h'

theorem TimeList.eq_symm {a b : TimeList} (h : a.eq b = true) : b.eq a = true := by
  obtain ⟨x, s⟩ := a
  obtain ⟨y, t⟩ := b
  cases s <;> cases t <;> simp_all [TimeList.eq, Fl.beq_symm, Dur.eq_symm]

theorem TimeList.eq_trans {a b c : TimeList} (h : a.eq b = true) (h' : b.eq c = true) :
    a.eq c = true := by
  obtain ⟨x, s⟩ := a
  obtain ⟨y, t⟩ := b
  obtain ⟨z, u⟩ := c
  cases s <;> cases t <;> cases u <;> simp_all [TimeList.eq]
  · exact Fl.beq_trans h h'
  · exact ⟨Fl.beq_trans h.1 h'.1, Dur.eq_trans h.2 h'.2⟩

theorem EventValue.eq_symm {a b : EventValue} (h : a.eq b = true) : b.eq a = true := by
  cases a <;> cases b <;> simp_all [EventValue.eq, Fl.beq_symm]

theorem EventValue.eq_trans {a b c : EventValue} (h : a.eq b = true) (h' : b.eq c = true) :
    a.eq c = true := by
  cases a <;> cases b <;> cases c <;> simp_all [EventValue.eq]
  exact Fl.beq_trans h h'

theorem Events.eq_symm {a b : Events} (h : Events.eq a b = true) : Events.eq b a = true := by
  refine listEq_symm ?_ h
  intro x y h
  simp only [Bool.and_eq_true] at h ⊢
  exact ⟨EventValue.eq_symm h.1, Fl.beq_symm h.2⟩

theorem Events.eq_trans {a b c : Events} (h : Events.eq a b = true) (h' : Events.eq b c = true) :
    Events.eq a c = true := by
  refine listEq_trans ?_ h h'
  intro x y z h h'
  simp only [Bool.and_eq_true] at h h' ⊢
  exact ⟨EventValue.eq_trans h.1 h'.1, Fl.beq_trans h.2 h'.2⟩

theorem Signal.eq_symm {a b : Signal} (h : a.eq b = true) : b.eq a = true := by
  cases a <;> cases b <;> simp_all [Signal.eq, Fl.beq_symm, Events.eq_symm]

theorem Signal.eq_trans {a b c : Signal} (h : a.eq b = true) (h' : b.eq c = true) :
    a.eq c = true := by
  cases a <;> cases b <;> cases c <;> simp_all [Signal.eq]
  · exact Fl.beq_trans h h'
  · exact Events.eq_trans h h'
  · exact ⟨Events.eq_trans h.1 h'.1, Fl.beq_trans h.2 h'.2⟩

theorem Comp.eq_symm (a b : Comp) (h : Comp.eq a b = true) : Comp.eq b a = true := by
  have hp : ∀ {l m : List (TimeList × Fl)}, listEq (fun x y => x.1.eq y.1 && Fl.beq x.2 y.2) l m = true →
      listEq (fun x y => x.1.eq y.1 && Fl.beq x.2 y.2) m l = true := by
    intro l m h
    refine listEq_symm ?_ h
    intro x y h
    simp only [Bool.and_eq_true] at h ⊢
    exact ⟨TimeList.eq_symm h.1, Fl.beq_symm h.2⟩
  have hs : ∀ {l m : List (Fl × NatRef)}, listEq (fun x y => Fl.beq x.1 y.1 && decide (x.2 = y.2)) l m = true →
      listEq (fun x y => Fl.beq x.1 y.1 && decide (x.2 = y.2)) m l = true := by
    intro l m h
    refine listEq_symm ?_ h
    intro x y h
    simp only [Bool.and_eq_true, decide_eq_true_eq] at h ⊢
    exact ⟨Fl.beq_symm h.1, h.2.symm⟩
  have hc : ∀ {l m : List Fl}, listEq Fl.beq l m = true → listEq Fl.beq m l = true :=
    fun h => listEq_symm (fun _ _ => Fl.beq_symm) h
  have ha : ∀ {l m : List NumRef}, listEq NumRef.eq l m = true → listEq NumRef.eq m l = true :=
    fun h => listEq_symm (fun _ _ => NumRef.eq_symm) h
  revert h
  fun_cases Comp.eq a b <;> intro h <;>
    (try simp only [Bool.and_eq_true, decide_eq_true_eq, beq_iff_eq] at h) <;>
    (try simp only [Comp.eq, Bool.and_eq_true, decide_eq_true_eq, beq_iff_eq]) <;>
    simp_all [Fl.beq_symm, NumRef.eq_symm, Events.eq_symm, Signal.eq_symm]

theorem Comp.eq_trans (a b c : Comp) (h : Comp.eq a b = true) (h' : Comp.eq b c = true) :
    Comp.eq a c = true := by
  have hp : ∀ {l m k : List (TimeList × Fl)},
      listEq (fun x y => x.1.eq y.1 && Fl.beq x.2 y.2) l m = true →
      listEq (fun x y => x.1.eq y.1 && Fl.beq x.2 y.2) m k = true →
      listEq (fun x y => x.1.eq y.1 && Fl.beq x.2 y.2) l k = true := by
    intro l m k h h'
    refine listEq_trans ?_ h h'
    intro x y z h h'
    simp only [Bool.and_eq_true] at h h' ⊢
    exact ⟨TimeList.eq_trans h.1 h'.1, Fl.beq_trans h.2 h'.2⟩
  have hs : ∀ {l m k : List (Fl × NatRef)},
      listEq (fun x y => Fl.beq x.1 y.1 && decide (x.2 = y.2)) l m = true →
      listEq (fun x y => Fl.beq x.1 y.1 && decide (x.2 = y.2)) m k = true →
      listEq (fun x y => Fl.beq x.1 y.1 && decide (x.2 = y.2)) l k = true := by
    intro l m k h h'
    refine listEq_trans ?_ h h'
    intro x y z h h'
    simp only [Bool.and_eq_true, decide_eq_true_eq] at h h' ⊢
    exact ⟨Fl.beq_trans h.1 h'.1, h.2.trans h'.2⟩
  have hc : ∀ {l m k : List Fl}, listEq Fl.beq l m = true → listEq Fl.beq m k = true →
      listEq Fl.beq l k = true := fun h h' => listEq_trans (eq := Fl.beq) (fun _ _ _ x y => Fl.beq_trans x y) h h'
  have ha : ∀ {l m k : List NumRef}, listEq NumRef.eq l m = true → listEq NumRef.eq m k = true →
      listEq NumRef.eq l k = true := fun h h' => listEq_trans (eq := NumRef.eq) (fun _ _ _ x y => NumRef.eq_trans x y) h h'
  have hf := @Fl.beq_trans
  have hn := @NumRef.eq_trans
  have he := @Events.eq_trans
  have hg := @Signal.eq_trans
  revert h h'
  fun_cases Comp.eq a b <;> intro h h' <;>
    (try simp only [Bool.and_eq_true, decide_eq_true_eq, beq_iff_eq, Bool.false_eq_true] at h) <;>
    cases c <;> (try simp [Comp.eq] at h') <;>
    (try (rename_i o; cases o)) <;>
    (try simp only [Comp.eq, Bool.and_eq_true, decide_eq_true_eq, beq_iff_eq,
      Bool.false_eq_true] at h') <;>
    simp only [Comp.eq, Bool.and_eq_true, decide_eq_true_eq, beq_iff_eq] <;>
    first
      | exact hs h h'
      | exact ⟨⟨hp h.1.1 h'.1.1, hf h.1.2 h'.1.2⟩, h.2.trans h'.2⟩
      | exact ⟨he h.1 h'.1, hf h.2 h'.2⟩
      | (clear hp hs; grind)

end Verif
