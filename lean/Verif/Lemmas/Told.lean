import Verif.Spec.Sound

/-! The references that a component is told about (helpers). -/

namespace Verif.Props
open Spec

theorem seqRefs_fold (es : List (Fl × NatRef)) (acc : List Name) :
    es.foldl (fun acc e =>
      match e.2 with
      | .nat _ => acc
      | .ref r => if acc.contains r then acc else acc ++ [r]) acc =
      acc ++ (firsts (es.flatMap (fun e => e.2.refs))).filter (fun r => decide (r ∉ acc)) := by
  induction es generalizing acc with
  | nil => simp [firsts]
  | cons e es ih =>
    obtain ⟨t, v⟩ := e
    rw [List.foldl_cons, ih, List.flatMap_cons]
    cases v with
    | nat k => rfl
    | ref r =>
      simp only [NatRef.refs, List.singleton_append, firsts, List.filter_cons, List.filter_filter]
      by_cases hr : r ∈ acc
      · simp only [hr, List.contains_iff_mem, not_true_eq_false, decide_false, if_true]
        congr 1
        apply List.filter_congr
        intro x _
        by_cases hx : x = r
        · subst hx; simp [hr]
        · simp [hx]
      · simp only [hr, List.contains_iff_mem, not_false_eq_true, decide_true, if_true, if_false, List.append_assoc,
          List.singleton_append]
        congr 2
        apply List.filter_congr
        intro x _
        simp [not_or, and_comm, Bool.and_comm]

theorem makeRefs_told (c : Comp) : makeRefs c = toldRefs c := by
  cases c with
  | seq es =>
    have := seqRefs_fold es []
    simp only [List.nil_append, List.not_mem_nil, not_false_eq_true, decide_true, List.filter_true] at this
    exact this
  | _ => rfl

end Verif.Props
