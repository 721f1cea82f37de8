import Verif.Spec.PatText
import Verif.Nodes.Synth

/-! Reading note patterns. -/

namespace Verif.Props
open Spec

theorem splitChar_plain {c : Char} {a : Name} (h : c ∉ a) : splitChar c a = [a] := by
  induction a with
  | nil => rfl
  | cons x a ih =>
    simp only [List.mem_cons, not_or] at h
    rw [splitChar, if_neg (fun e => h.1 e.symm), ih h.2]

theorem splitChar_word {c : Char} {a s : Name} (h : c ∉ a) : splitChar c (a ++ c :: s) = a :: splitChar c s := by
  induction a with
  | nil => rw [List.nil_append, splitChar, if_pos rfl]
  | cons x a ih =>
    simp only [List.mem_cons, not_or] at h
    rw [List.cons_append, splitChar, if_neg (fun e => h.1 e.symm), ih h.2]

theorem words_blanks (i : Nat) (s : Name) :
    (splitChar ' ' (List.replicate i ' ' ++ s)).filter (fun w => !w.isEmpty) = (splitChar ' ' s).filter (fun w => !w.isEmpty) := by
  induction i with
  | zero => rfl
  | succ i ih => rw [List.replicate_succ, List.cons_append, splitChar, if_pos rfl]; exact ih

theorem patEvent_text {t : Name} {e : Fl × Fl} (h : EventText t e) : patEvent t = .ok e := by
  obtain ⟨i, j, k, a, b, rfl, ha, hb, ha1, hb1, -, -, pa, pb⟩ := h
  have hw : (splitChar ' ' (List.replicate i ' ' ++ a ++ List.replicate (j + 1) ' ' ++ b ++ List.replicate k ' ')).filter
      (fun w => !w.isEmpty) = [a, b] := by
    rw [List.append_assoc, List.append_assoc, List.append_assoc, words_blanks, List.replicate_succ, List.cons_append,
      splitChar_word ha1, List.filter_cons, if_pos (by simpa using ha), words_blanks]
    congr 1
    cases k with
    | zero => rw [List.replicate_zero, List.append_nil, splitChar_plain hb1]; simp [hb]
    | succ k =>
      rw [List.replicate_succ, splitChar_word hb1, List.filter_cons, if_pos (by simpa using hb)]
      have := words_blanks k []
      rw [List.append_nil] at this
      rw [this]; rfl
  rw [patEvent, hw]
  simp only [parseOrPanic, pa, pb, bind, Except.bind]

theorem eventText_comma {t : Name} {e : Fl × Fl} (h : EventText t e) : ',' ∉ t := by
  obtain ⟨i, j, k, a, b, rfl, ha, hb, ha1, hb1, ha2, hb2, pa, pb⟩ := h
  simp [ha2, hb2, List.mem_replicate]

theorem patEvents_text {t : Name} {es : List (Fl × Fl)} (h : PatternText t es) : patEvents t = .ok es := by
  unfold PatternText at h
  unfold patEvents
  generalize t.filter (fun c => c != '`') = s at h
  induction h with
  | one h => rw [splitChar_plain (eventText_comma h)]; simp [patEvent_text h]
  | more h _ ih => rw [splitChar_word (eventText_comma h), List.mapM_cons, patEvent_text h, ih]; rfl

end Verif.Props
