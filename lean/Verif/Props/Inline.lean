import Verif.Spec.Inline
import Verif.Lemmas.KernelRfl
import Verif.Parser.Nodes

/-! # JavaScript inside a program (C67) -/

namespace Verif.Props
open Verif Spec.Inline Inline

theorem includes_iff {pat s : Name} : includes pat s = true ↔ pat <:+: s := by
  induction s with
  | nil => simp [includes]
  | cons c s ih => rw [includes, Bool.or_eq_true, ih, List.isPrefixOf_iff_prefix, List.infix_cons_iff]

theorem includes_char {c : Char} {s : Name} : includes [c] s = true ↔ c ∈ s := by
  rw [includes_iff]
  constructor
  · intro h; exact h.subset (by simp)
  · intro h
    obtain ⟨a, b, rfl⟩ := List.append_of_mem h
    exact ⟨a, b, by simp⟩

theorem closing_eq {s rest : Name} (h : '#' ∉ s) : closing (s ++ '#' :: rest) = some (s, rest) := by
  induction s with
  | nil => rfl
  | cons c s ih =>
    rw [List.mem_cons, not_or] at h
    rw [List.cons_append, closing, if_neg (Ne.symm h.1), ih h.2]
    rfl

theorem split_plain {t rest : Name} (h : '#' ∉ t) : ∀ n acc, split (t.length + n) acc (t ++ rest) = split n (acc ++ t) rest := by
  induction t with
  | nil => intro n acc; simp
  | cons c t ih =>
    intro n acc
    rw [List.mem_cons, not_or] at h
    rw [List.length_cons, Nat.add_right_comm, List.cons_append, split, if_neg (fun hc => h.1 hc.1.symm), ih h.2]
    simp

theorem split_end (n : Nat) (acc : Name) : split n acc [] = [acc] := by
  cases n <;> simp [split]

theorem split_mark {s rest : Name} (h : '#' ∉ s) (n : Nat) (acc : Name) :
    split (n + 1) acc (c!"##" ++ s ++ c!"#" ++ rest) = acc :: (c!"##" ++ s ++ c!"#") :: split n [] rest := by
  have : c!"##" ++ s ++ c!"#" ++ rest = '#' :: '#' :: (s ++ '#' :: rest) := by simp
  rw [this, split, if_pos ⟨rfl, rfl⟩, List.drop_succ_cons, List.drop_zero, closing_eq h]
  rfl

theorem piece_plain {js : Bool → Name → Option Name} {s : Name} (h : '#' ∉ s) : piece js s = s :=
  if_neg (by rwa [includes_char])

theorem statements_mark (s : Name) : statements (c!"##" ++ s ++ c!"#") = true ↔ (';' ∈ s ∨ c!"\\n" <:+: s) := by
  rw [statements, Bool.or_eq_true, includes_iff, includes_char, or_comm]
  have h1 : ';' ∈ c!"##" ++ s ++ c!"#" ↔ ';' ∈ s := by simp
  have h2 : c!"\\n" <:+: c!"##" ++ s ++ c!"#" ↔ c!"\\n" <:+: s := by
    constructor
    · intro h
      rw [List.infix_concat_iff] at h
      rcases h with ⟨t, ht⟩ | h
      · have := congrArg List.getLast? ht
        rw [List.getLast?_append, List.getLast?_append] at this
        exact absurd (show some (Char.ofNat 110) = some (Char.ofNat 35) from this) (by decide)
      · rw [List.cons_append, List.infix_cons_iff] at h
        rcases h with ⟨t, ht⟩ | h
        · simp at ht
        · rw [List.cons_append, List.infix_cons_iff] at h
          rcases h with ⟨t, ht⟩ | h
          · simp at ht
          · exact h
    · rintro ⟨a, b, rfl⟩
      exact ⟨c!"##" ++ a, b ++ c!"#", by simp⟩
  rw [h1, h2]

theorem piece_mark {js : Bool → Name → Option Name} {s : Name} (h : '#' ∉ s) : piece js (c!"##" ++ s ++ c!"#") = value js s := by
  have hf : (c!"##" ++ s ++ c!"#").filter (· ≠ '#') = s := by
    have : s.filter (· ≠ '#') = s := List.filter_eq_self.mpr fun c hc => by
      have : c ≠ '#' := fun h' => h (h' ▸ hc)
      simpa using this
    simp only [List.filter_append, this]
    simp
  rw [piece, if_pos (by rw [includes_char]; simp), hf, value]
  congr 2
  rw [Bool.eq_iff_iff]
  exact (statements_mark s).trans ⟨@decide_eq_true _ _, @of_decide_eq_true _ _⟩

/-- **C67 (part).** In a text in which every `#` belongs to a `##...#`, each of these is replaced by its value, and all
else is sent as written. -/
theorem c67_inline_partial (js : Bool → Name → Option Name) (start : Name) (l : List (Name × Name)) (h0 : '#' ∉ start)
    (h : ∀ x ∈ l, '#' ∉ x.1 ∧ '#' ∉ x.2) : sent js (marked start l) = filled js start l := by
  have key : ∀ (l : List (Name × Name)), (∀ x ∈ l, '#' ∉ x.1 ∧ '#' ∉ x.2) → ∀ start acc n, '#' ∉ start → '#' ∉ acc →
      (marked start l).length ≤ n →
      ((split n acc (marked start l)).filter (· ≠ [])).flatMap (piece js) = acc ++ filled js start l := by
    intro l
    induction l with
    | nil =>
      intro h start acc n h0 ha hn
      rw [marked, List.flatMap_nil, List.append_nil] at hn ⊢
      obtain ⟨m, rfl⟩ := Nat.exists_eq_add_of_le hn
      have := split_plain (rest := []) h0 m acc
      rw [List.append_nil] at this
      rw [this, split_end, filled, List.flatMap_nil, List.append_nil]
      have hp : '#' ∉ acc ++ start := by simp [ha, h0]
      by_cases he : acc ++ start = []
      · simp [he]
      · rw [List.filter_cons_of_pos (by simpa only [decide_eq_true_eq] using he)]
        simp [piece_plain hp]
    | cons x l ih =>
      intro h start acc n h0 ha hn
      obtain ⟨s, t⟩ := x
      obtain ⟨hs, ht⟩ := h (s, t) (by simp)
      have hm : marked start ((s, t) :: l) = start ++ (c!"##" ++ s ++ c!"#" ++ marked t l) := by simp [marked]
      rw [hm] at hn ⊢
      have hlen : start.length + ((marked t l).length + 1) ≤ n := by
        simp only [List.length_append, List.length_cons] at hn
        omega
      obtain ⟨m, rfl⟩ := Nat.exists_eq_add_of_le hlen
      rw [show start.length + ((marked t l).length + 1) + m = start.length + ((marked t l).length + m + 1) by omega,
        split_plain h0, split_mark hs]
      have hrest := ih (fun y hy => h y (by simp [hy])) t [] ((marked t l).length + m) ht (by simp) (by omega)
      have hp : '#' ∉ acc ++ start := by simp [ha, h0]
      have hfill : acc ++ filled js start ((s, t) :: l) = (acc ++ start) ++ (value js s ++ filled js t l) := by simp [filled]
      rw [hfill, ← List.nil_append (filled js t l), ← hrest]
      have hpm : piece js (c!"##" ++ s ++ c!"#") = value js s := piece_mark hs
      have hne : (c!"##" ++ s ++ c!"#") ≠ [] := by simp
      rw [← hpm]
      by_cases he : acc ++ start = []
      · rw [he, List.filter_cons_of_neg (by simp), List.filter_cons_of_pos (by simp), List.flatMap_cons, List.nil_append]
      · rw [List.filter_cons_of_pos (by simpa only [decide_eq_true_eq] using he), List.filter_cons_of_pos (by simp), List.flatMap_cons, List.flatMap_cons,
          piece_plain hp]
  exact key l h start [] _ h0 (by simp) (Nat.le_refl _)

/-- Two pieces of JavaScript, the first an expression and the second a failure. -/
example (js : Bool → Name → Option Name) (h1 : js false c!" 100+1 " = some c!"101") (h2 : js true c!"x;" = none) :
    sent js c!"o: sin ## 100+1 # >> mul 0.1##x;#" = c!"o: sin 101 >> mul 0.1" := by
  have := c67_inline_partial js c!"o: sin " [(c!" 100+1 ", c!" >> mul 0.1"), (c!"x;", [])] (by decide) (by decide)
  rw [show c!"o: sin ## 100+1 # >> mul 0.1##x;#" = marked c!"o: sin " [(c!" 100+1 ", c!" >> mul 0.1"), (c!"x;", [])] from rfl, this]
  have n1 : ¬ (';' ∈ c!" 100+1 " ∨ c!"\\n" <:+: c!" 100+1 ") := by decide
  have n2 : (';' ∈ c!"x;" ∨ c!"\\n" <:+: c!"x;") := by decide
  simp only [filled, value, List.flatMap_cons, List.flatMap_nil, @decide_eq_false _ _ n1, @decide_eq_true _ _ n2, h1, h2, Option.getD_some, Option.getD_none]
  rfl

/-- **C67 is false for other uses of `#`.** The program below is correct. But the `#` in its comment makes the page take
all of it for JavaScript, and, as that fails, an empty program is sent. -/
theorem c67_comment_counterexample (js : Bool → Name → Option Name) (hjs : ∀ b, js b c!"o: sin 440 // C4" = none) :
    (∃ p, Parse.parse (fun _ => none) c!"o: sin 440 // C#4" = .ok (some p) ∧ p.map Prod.fst = [c!"o"]) ∧
    sent js c!"o: sin 440 // C#4" = [] := by
  constructor
  · exact ⟨[(c!"o", [.sin (.num (.fin 440))])], by kernel_rfl, rfl⟩
  · have : sent js c!"o: sin 440 // C#4" = (js false c!"o: sin 440 // C4").getD [] ++ [] := rfl
    rw [this, hjs]
    rfl

end Verif.Props
