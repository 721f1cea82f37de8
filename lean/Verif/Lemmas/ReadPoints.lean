import Verif.Lemmas.ReadPattern
import Verif.Lemmas.Fl

/-!
# Reading back lists of points
-/

namespace Verif.Read
open Peg Grammar Parse Spec

/-! ## Blanks and line ends -/

/-- A blank or a line end. -/
def Space (c : Char) : Prop := Blank c ∨ c = '\n'

theorem isSpace_iff {c : Char} : (c == ' ' || c == ',' || c == '|' || c == '\t' || c == '\n') = true ↔ Space c := by
  rw [Bool.or_eq_true, isBlank_iff, beq_iff_eq]
  rfl

theorem isSpace_false {c : Char} (h : ¬ Space c) : (c == ' ' || c == ',' || c == '|' || c == '\t' || c == '\n') = false := by
  cases hb : (c == ' ' || c == ',' || c == '|' || c == '\t' || c == '\n') with
  | false => rfl
  | true => exact absurd (isSpace_iff.mp hb) h

theorem reads_spaces {w u : Name} (hw : Spaces w) (hu : ∀ c ∈ u.head?, ¬ Space c) : Reads (star ws) w [] u :=
  reads_star_chr (fun c hc => isSpace_iff.mpr (hw c hc)) (fun c hc => isSpace_false (hu c hc))

theorem space_nat {c : Char} (h : Space c) : c.toNat = 32 ∨ c.toNat = 44 ∨ c.toNat = 124 ∨ c.toNat = 9 ∨ c.toNat = 10 := by
  rcases h with h | rfl
  · have := blank_toNat h; omega
  · decide

theorem not_space {c : Char} (h : c.toNat ≠ 32 ∧ c.toNat ≠ 44 ∧ c.toNat ≠ 124 ∧ c.toNat ≠ 9 ∧ c.toNat ≠ 10) : ¬ Space c := by
  intro hs
  have := space_nat hs
  omega

theorem numHead_notSpace {c : Char} (h : NumHead c) : ¬ Space c := by
  intro hs
  have := space_nat hs
  have := numHead_nat h
  omega

theorem space_num {c : Char} (h : Space c) : ¬ Digit c ∧ c ≠ '.' ∧ c ≠ 'e' ∧ c ≠ 'E' := by
  have hs := space_nat h
  refine ⟨?_, ?_, ?_, ?_⟩
  · intro hd
    have := digit_nat hd
    omega
  · apply ne_of_nat; simp only [show '.'.toNat = 46 from rfl]; omega
  · apply ne_of_nat; simp only [show 'e'.toNat = 101 from rfl]; omega
  · apply ne_of_nat; simp only [show 'E'.toNat = 69 from rfl]; omega

/-- A numeral may be followed by blanks and something that is no part of it. -/
theorem numStop_spaces {w u : Name} (hw : Spaces w) (hu : NumStop u) : NumStop (w ++ u) := by
  cases w with
  | nil => exact hu
  | cons c w =>
    intro d hd
    cases hd
    exact space_num (hw c (by simp))

theorem spaces_nil : Spaces [] := by simp [Spaces]

theorem head_notSpace {d : Char} {u : Name} (h : ¬ Space d) : ∀ c ∈ (d :: u).head?, ¬ Space c := by
  intro c hc
  cases hc
  exact h

theorem wint_notSpace {v : Fl} {t : Name} (h : WInt v t) (u : Name) : ∀ c ∈ (t ++ u).head?, ¬ Space c := by
  obtain ⟨c, w, e, hc⟩ := wint_head h
  intro d hd
  rw [head_of e] at hd
  cases hd
  exact numHead_notSpace hc

theorem wnum_notSpace {v : Fl} {t : Name} (h : WNum v t) (u : Name) : ∀ c ∈ (t ++ u).head?, ¬ Space c := by
  obtain ⟨c, w, e, hc⟩ := wnum_head h
  intro d hd
  rw [head_of e] at hd
  cases hd
  exact numHead_notSpace hc

/-! ## Times -/

theorem reads_frac {v : Fl} {t u : Name} (h : WFrac v t) (hu : NumStop u) :
    ∃ xs, Reads bar t [.mk .bar t xs] u ∧ barOf (.mk .bar t xs) = .ok v := by
  cases h with
  | @mk a b s w w' t ha hw hw' hb =>
    have hslash : ∀ c ∈ (('/' :: (w' ++ t)) ++ u).head?, ¬ Space c := head_notSpace (not_space (by decide))
    have h1 := reads_int (u := (w ++ '/' :: (w' ++ t)) ++ u) ha (by
      rw [List.append_assoc]
      exact numStop_spaces hw (numStop_of ⟨not_digit (by decide), by decide, by decide, by decide⟩))
    have h2 : Reads (star ws) w [] (('/' :: (w' ++ t)) ++ u) := reads_spaces hw hslash
    have h3 : Reads (lit ['/']) ['/'] [] ((w' ++ t) ++ u) := reads_lit _ _
    have h4 : Reads (star ws) w' [] (t ++ u) := reads_spaces hw' (wint_notSpace hb u)
    have h5 := reads_int hb hu
    have h6 := reads_cons h1 (reads_cons (ps := []) h2 (reads_cons (t := ['/']) (ps := []) h3
      (reads_cons (ps := []) h4 (reads_one h5))))
    refine ⟨_, reads_tok h6, ?_⟩
    simp only [barOf, Pair.rule, Pair.inner, List.cons_append, List.nil_append, nextF32, next, bind, Except.bind, f32Of_num (.int ha),
      f32Of_num (.int hb)]

theorem integer_dot {n : Bool} {s i r : Name} (hs : WSign n s) (hi : Digits i) : integer (s ++ (i ++ '.' :: r)) = none := by
  refine tok_none ?_
  have h1 := reads_sign hs hi ('.' :: r)
  have h2 : Reads (plus digit) i [] ('.' :: r) := reads_digits hi (by intro c hc; cases hc; exact not_digit (by decide))
  have h3 : Peg.not (lit ['.']) ('.' :: r) = none := rfl
  exact seq_none_right h1 (seq_none_right h2 (seq_none_left h3))

/-- A number is not taken for a fraction. -/
theorem bar_none {v : Fl} {t w r : Name} (h : WNum v t) (hw : Spaces w) (hr : NumStop r)
    (hr' : ∀ c ∈ r.head?, ¬ Space c ∧ c ≠ '/') : bar (t ++ (w ++ r)) = none := by
  refine tok_none ?_
  cases h with
  | int h =>
    have h1 := reads_int h (numStop_spaces hw hr)
    have h2 : Reads (star ws) w [] r := reads_spaces hw (fun c hc => (hr' c hc).1)
    exact seq_none_right h1 (seq_none_right h2 (seq_none_left (lit_head_none (fun c hc => (hr' c hc).2))))
  | dec hs hi hf =>
    refine seq_none_left ?_
    rw [List.append_assoc, List.append_assoc, List.cons_append]
    exact integer_dot hs hi
  | exp hs hi hf he hs' hx =>
    refine seq_none_left ?_
    rw [List.append_assoc, List.append_assoc, List.cons_append]
    exact integer_dot hs hi

theorem reads_bar {v : Fl} {t w r : Name} (h : WBar v t) (hw : Spaces w) (hr : NumStop r)
    (hr' : ∀ c ∈ r.head?, ¬ Space c ∧ c ≠ '/') : ∃ x, Reads (alt bar number) t [x] (w ++ r) ∧ barOf x = .ok v := by
  cases h with
  | num h =>
    obtain ⟨l, hl⟩ := reads_num h (numStop_spaces hw hr)
    refine ⟨_, reads_alt_right (bar_none h hw hr hr') hl, ?_⟩
    simp only [barOf, Pair.rule, f32Of_num h]
  | frac h =>
    obtain ⟨xs, h1, h2⟩ := reads_frac h (numStop_spaces hw hr)
    exact ⟨_, reads_alt_left h1, h2⟩

theorem wbar_notSpace {v : Fl} {t : Name} (h : WBar v t) (u : Name) : ∀ c ∈ (t ++ u).head?, ¬ Space c := by
  cases h with
  | num h => exact wnum_notSpace h u
  | frac h =>
    cases h with
    | mk h _ _ _ => rw [List.append_assoc]; exact wint_notSpace h _

theorem wnum_ok {v : Fl} {t : Name} (h : WNum v t) : Fl.Ok f32 v := by
  cases h with
  | int h => cases h with | mk _ _ => exact Fl.round_ok
  | dec _ _ _ => exact Fl.round_ok
  | exp _ _ _ _ _ _ => exact Fl.round_ok

theorem round_fin {q : ℚ} (h : f32.Fin q) (s : Bool) (hq : q ≠ 0) : Fl.round f32 s q = .fin q := by
  have h1 : f32.rnd q = q := Fmt.rnd_rep f32_p h.1
  have h2 := abs_le.mp h.2
  rw [Fl.round, h1, if_neg hq, if_neg (by linarith), if_neg (by linarith)]

theorem one_mul_num {v : Fl} {t : Name} (h : WNum v t) : Fl.fin 1 *. v = v := by
  have hok := wnum_ok h
  cases v with
  | nan => rfl
  | inf s => cases s <;> rfl
  | nz => decide +kernel
  | fin q =>
    by_cases hq : q = 0
    · subst hq
      decide +kernel
    · simp only [Fl.mul, Fl.val, one_mul]
      exact round_fin hok _ hq

theorem neg_mul_num {v : Fl} {t : Name} (h : WNum v t) : Fl.fin (-1) *. v = v.neg := by
  have hok := wnum_ok h
  cases v with
  | nan => rfl
  | inf s => cases s <;> decide +kernel
  | nz => decide +kernel
  | fin q =>
    by_cases hq : q = 0
    · subst hq
      decide +kernel
    · simp only [Fl.mul, Fl.val, neg_one_mul, Fl.neg, if_neg hq]
      exact round_fin ⟨Fmt.rep_neg hok.1, by rw [abs_neg]; exact hok.2⟩ _ (neg_ne_zero.mpr hq)

theorem ms_second_none {v : Fl} {t u : Name} (h : WNum v t) : ms (t ++ (c!"_s" ++ u)) = none := by
  obtain ⟨l, h1⟩ := reads_num (u := c!"_s" ++ u) h (numStop_of ⟨not_digit (by decide), by decide, by decide, by decide⟩)
  refine tok_none ?_
  have h2 : Reads (lit ['_']) ['_'] [] (c!"s" ++ u) := reads_lit _ _
  have h3 : seqs [lit ['_'], lit ['m', 's']] (['_'] ++ (c!"s" ++ u)) = none :=
    seq_none_right h2 (seq_none_left (lit_head_none (by intro c hc; cases hc; decide)))
  exact seq_none_right h1 h3

theorem wnum_stop_low {u : Name} : NumStop ('_' :: u) :=
  numStop_of ⟨not_digit (by decide), by decide, by decide, by decide⟩

theorem reads_unit {v : Fl} {t x : Name} (h : WNum v t) (u : Name) (hx : x = c!"_ms" ∨ x = c!"_s") :
    ∃ y, Reads (alt ms second) (t ++ x) [y] u ∧ y.rule = (if x = c!"_ms" then .ms else .second) ∧
      ∃ z, nextF32 y.inner = .ok (v, z) := by
  have hn : ∀ l : List Pair, nextF32 [.mk .number t l] = .ok (v, []) := by
    intro l
    simp only [nextF32, next, bind, Except.bind, f32Of_num h]
  rcases hx with rfl | rfl
  · obtain ⟨l, h1⟩ := reads_num (u := c!"_ms" ++ u) h wnum_stop_low
    have h2 := reads_cons (t := ['_']) (ps := []) (reads_lit ['_'] (c!"ms" ++ u)) (reads_one (reads_lit ['m', 's'] u))
    have h3 := reads_tok (r := .ms) (reads_cons (t' := c!"_ms") h1 h2)
    exact ⟨_, reads_alt_left h3, rfl, _, hn l⟩
  · obtain ⟨l, h1⟩ := reads_num (u := c!"_s" ++ u) h wnum_stop_low
    have h2 := reads_cons (t := ['_']) (ps := []) (reads_lit ['_'] (c!"s" ++ u)) (reads_one (reads_lit ['s'] u))
    have h3 := reads_tok (r := .second) (reads_cons (t' := c!"_s") h1 h2)
    have h4 : ms ((t ++ c!"_s") ++ u) = none := by
      rw [List.append_assoc]
      exact ms_second_none h
    exact ⟨_, reads_alt_right h4 h3, rfl, _, hn l⟩

theorem reads_offset {d : Dur} {t u : Name} (h : WOffset d t) :
    ∃ s y, Reads (seqs [sign, star ws, alt ms second]) t [s, y] u ∧ offsetOf [s, y] = .ok (some d) := by
  have key : ∀ {v : Fl} {w t x : Name} (c : Char), (c = '+' ∨ c = '-') → Spaces w → WNum v t → (x = c!"_ms" ∨ x = c!"_s") →
      ∃ s y, Reads (seqs [sign, star ws, alt ms second]) (c :: (w ++ (t ++ x))) [s, y] u ∧ s.text = [c] ∧
        y.rule = (if x = c!"_ms" then .ms else .second) ∧ ∃ z, nextF32 y.inner = .ok (v, z) := by
    intro v w t x c hc hw hv hx
    obtain ⟨y, h1, h2, h3⟩ := reads_unit hv u hx
    have h4 : Reads (star ws) w [] ((t ++ x) ++ u) := reads_spaces hw (by rw [List.append_assoc]; exact wnum_notSpace hv _)
    have h5 : Reads sign [c] [.mk .sign [c] []] ((w ++ (t ++ x)) ++ u) := by
      refine reads_tok ?_
      rcases hc with rfl | rfl <;> rfl
    exact ⟨_, y, reads_cons (t := [c]) h5 (reads_cons (ps := []) h4 (reads_one h1)), rfl, h2, h3⟩
  have no : (['+'] : Name) ≠ ['-'] := by decide
  cases h with
  | laterMs hw hv =>
    obtain ⟨s, y, h1, h2, h3, z, h4⟩ := key '+' (Or.inl rfl) hw hv (Or.inl rfl)
    refine ⟨s, y, h1, ?_⟩
    simp only [if_true] at h3
    simp only [offsetOf, next, bind, Except.bind, h2, h3, h4, no, if_false, one_mul_num hv]
  | earlierMs hw hv =>
    obtain ⟨s, y, h1, h2, h3, z, h4⟩ := key '-' (Or.inr rfl) hw hv (Or.inl rfl)
    refine ⟨s, y, h1, ?_⟩
    simp only [if_true] at h3
    simp only [offsetOf, next, bind, Except.bind, h2, h3, h4, if_true, neg_mul_num hv]
  | later hw hv =>
    obtain ⟨s, y, h1, h2, h3, z, h4⟩ := key '+' (Or.inl rfl) hw hv (Or.inr rfl)
    refine ⟨s, y, h1, ?_⟩
    rw [if_neg (by decide)] at h3
    simp only [offsetOf, next, bind, Except.bind, h2, h3, h4, no, if_false, one_mul_num hv]
  | earlier hw hv =>
    obtain ⟨s, y, h1, h2, h3, z, h4⟩ := key '-' (Or.inr rfl) hw hv (Or.inr rfl)
    refine ⟨s, y, h1, ?_⟩
    rw [if_neg (by decide)] at h3
    simp only [offsetOf, next, bind, Except.bind, h2, h3, h4, if_true, neg_mul_num hv]

theorem woffset_head {d : Dur} {t : Name} (h : WOffset d t) : ∃ c w, t = c :: w ∧ (c = '+' ∨ c = '-') := by
  cases h with
  | laterMs | later => exact ⟨_, _, rfl, Or.inl rfl⟩
  | earlierMs | earlier => exact ⟨_, _, rfl, Or.inr rfl⟩

theorem eq_numStop {r : Name} : NumStop ('=' :: r) := numStop_of ⟨not_digit (by decide), by decide, by decide, by decide⟩

theorem reads_time {x : TimeList} {t w r : Name} (h : WTime x t) (hw : Spaces w) :
    ∃ b ts, Reads time t [.mk .time t (b :: ts)] (w ++ '=' :: r) ∧ barOf b = .ok x.bar ∧ offsetOf ts = .ok x.time := by
  have heq : ∀ c ∈ (('=' :: r) : Name).head?, ¬ Space c ∧ c ≠ '/' := by
    intro c hc
    cases hc
    exact ⟨not_space (by decide), by decide⟩
  cases h with
  | bar h =>
    obtain ⟨b, h1, h2⟩ := reads_bar (r := '=' :: r) h hw eq_numStop heq
    have h3 : Reads (opt (seqs [star ws, sign, star ws, alt ms second])) [] [] (w ++ '=' :: r) := by
      refine reads_opt_none ?_
      refine seq_none_right (reads_spaces hw (fun c hc => (heq c hc).1)) (seq_none_left (tok_none (chr_head_none ?_)))
      intro c hc
      cases hc
      rfl
    have h4 := reads_seq (t' := []) h1 h3
    rw [List.append_nil, List.append_nil] at h4
    exact ⟨b, [], reads_tok h4, h2, rfl⟩
  | @offset v d t w' u h hw' hd =>
    obtain ⟨c, u', e, hc⟩ := woffset_head hd
    have hst : ∀ a ∈ (u ++ (w ++ '=' :: r)).head?, (¬ Digit a ∧ a ≠ '.' ∧ a ≠ 'e' ∧ a ≠ 'E') ∧ ¬ Space a ∧ a ≠ '/' := by
      intro a ha
      rw [head_of e] at ha
      cases ha
      rcases hc with rfl | rfl
      · exact ⟨⟨not_digit (by decide), by decide, by decide, by decide⟩, not_space (by decide), by decide⟩
      · exact ⟨⟨not_digit (by decide), by decide, by decide, by decide⟩, not_space (by decide), by decide⟩
    obtain ⟨b, h1, h2⟩ := reads_bar (r := u ++ (w ++ '=' :: r)) h hw' (fun a ha => (hst a ha).1) (fun a ha => (hst a ha).2)
    obtain ⟨s, y, h3, h4⟩ := reads_offset (u := w ++ '=' :: r) hd
    have h5 : Reads (star ws) w' [] (u ++ (w ++ '=' :: r)) := reads_spaces hw' (fun a ha => (hst a ha).2.1)
    have h6 := reads_opt (reads_cons (ps := []) h5 h3)
    have h7 := reads_seq (by rw [List.append_assoc]; exact h1) h6
    exact ⟨b, [s, y], reads_tok h7, h2, h4⟩

/-! ## Points -/

theorem wtime_notSpace {x : TimeList} {t : Name} (h : WTime x t) (u : Name) : ∀ c ∈ (t ++ u).head?, ¬ Space c := by
  cases h with
  | bar h => exact wbar_notSpace h u
  | offset h _ _ => rw [List.append_assoc]; exact wbar_notSpace h _

theorem wpoint_notSpace {p : TimeList × Fl} {t : Name} (h : WPoint p t) (u : Name) : ∀ c ∈ (t ++ u).head?, ¬ Space c := by
  cases h with
  | mk h _ _ _ => rw [List.append_assoc]; exact wtime_notSpace h _

theorem reads_point {p : TimeList × Fl} {t w u : Name} (h : WPoint p t) (hw : Spaces w) (hn : NumStop (w ++ u))
    (hu : ∀ c ∈ u.head?, ¬ Space c) : ∃ x, Reads point (t ++ w) [x] u ∧ pointOf x = .ok p := by
  cases h with
  | @mk x v t w₁ w₂ t' hx h1 h2 hv =>
    obtain ⟨b, ts, k1, k2, k3⟩ := reads_time (r := '>' :: (w₂ ++ t') ++ w ++ u) hx h1
    obtain ⟨l, k4⟩ := reads_num hv hn
    have k5 : Reads (star ws) w [] u := reads_spaces hw hu
    have k6 : Reads (star ws) w₂ [] ((t' ++ w) ++ u) := reads_spaces h2 (by rw [List.append_assoc]; exact wnum_notSpace hv _)
    have k7 : Reads (lit ['=', '>']) c!"=>" [] ((w₂ ++ (t' ++ w)) ++ u) := reads_lit _ _
    have k8 : Reads (star ws) w₁ [] ((c!"=>" ++ (w₂ ++ (t' ++ w))) ++ u) := reads_spaces h1 (head_notSpace (not_space (by decide)))
    have k9 := reads_cons (ps := []) k8 (reads_cons (ps := []) k7 (reads_cons (ps := []) k6 (reads_cons k4 (reads_one k5))))
    have k10 := reads_cons (t := t) (ps := [.mk .time t (b :: ts)]) (by simpa using k1) k9
    refine ⟨_, by simpa [point] using reads_tok (r := .point) k10, ?_⟩
    simp only [pointOf, Pair.inner, next, bind, Except.bind, k2, k3, nextF32, f32Of_num hv]

theorem point_none {u : Name} (h : ∀ c ∈ u.head?, ¬ NumHead c) : point u = none := by
  refine tok_none (seq_none_left (tok_none (seq_none_left ((alt_right (tok_none (seq_none_left (integer_none h)))).trans ?_))))
  exact number_none h

theorem points_notSpace {l : List (TimeList × Fl)} {t : Name} (h : WPoints l t) (u : Name) (hu : ∀ c ∈ u.head?, ¬ Space c) :
    ∀ c ∈ (t ++ u).head?, ¬ Space c := by
  cases h with
  | nil => exact hu
  | last h _ => rw [List.append_assoc]; exact wpoint_notSpace h _
  | cons h _ _ _ => rw [List.append_assoc]; exact wpoint_notSpace h _

theorem bracket_notNum : ¬ NumHead ']' := by
  intro h
  have := numHead_nat h
  revert this
  decide

theorem reads_points {l : List (TimeList × Fl)} {t : Name} (u : Name) (h : WPoints l t) :
    ∃ xs, Reads (star point) t xs (']' :: u) ∧ collect pointOf xs = .ok l := by
  have hbr : ∀ c ∈ ((']' :: u) : Name).head?, ¬ Space c := head_notSpace (not_space (by decide))
  have hbn : NumStop (']' :: u) := numStop_of ⟨not_digit (by decide), by decide, by decide, by decide⟩
  have stop : Reads (star point) [] [] (']' :: u) := reads_star_nil (point_none (by
    intro c hc
    cases hc
    exact bracket_notNum))
  induction h with
  | nil => exact ⟨[], stop, rfl⟩
  | last h hw =>
    obtain ⟨x, h1, h2⟩ := reads_point (u := ']' :: u) h hw (numStop_spaces hw hbn) hbr
    have h3 := reads_star_cons (t' := []) eats_point h1 stop
    refine ⟨[x], by simpa using h3, ?_⟩
    simp only [collect, h2]
    rfl
  | @cons p l t w v h hne hw hl ih =>
    obtain ⟨xs, h1, h2⟩ := ih
    obtain ⟨x, h3, h4⟩ := reads_point (u := v ++ ']' :: u) h hw (by
      cases w with
      | nil => exact absurd rfl hne
      | cons c w =>
        intro d hd
        cases hd
        exact space_num (hw c (by simp))) (points_notSpace hl _ hbr)
    have h5 := reads_star_cons eats_point h3 h1
    refine ⟨_, by simpa using h5, ?_⟩
    simp only [collect, h4, h2]
    rfl

theorem reads_pointList {l : List (TimeList × Fl)} {t : Name} (u : Name) (h : WPointList l t) :
    ∃ xs, Reads pointsInner t [.mk .pointsInner t xs] u ∧ collect pointOf xs = .ok l := by
  cases h with
  | @mk w t hw ht =>
    have hbr : ∀ c ∈ ((']' :: u) : Name).head?, ¬ Space c := head_notSpace (not_space (by decide))
    obtain ⟨xs, h1, h2⟩ := reads_points u ht
    have h3 : Reads (star ws) w [] ((t ++ [']']) ++ u) := reads_spaces hw (by
      rw [List.append_assoc]
      exact points_notSpace ht _ hbr)
    have h4 : Reads (star ws) [] [] ([']'] ++ u) := reads_spaces spaces_nil hbr
    have h5 := reads_cons (p := lit ['[']) (t := ['[']) (ps := []) (reads_lit _ _) (reads_cons (ps := []) h3
      (reads_cons (t' := [']']) h1 (reads_cons (t := []) (ps := []) h4 (reads_one (reads_lit [']'] u)))))
    rw [List.nil_append, List.nil_append, List.nil_append, List.append_nil] at h5
    exact ⟨xs, reads_tok h5, h2⟩

theorem reads_factor {fe : Name → Option Fl} {v : Fl} {t u : Name} (h : WFactor fe v t) (hu : NumStop u) :
    (∃ xs, Reads mathExpression t [.mk .mathExpression t xs] u) ∧ (∃ y, fe ('1' :: t) = some y ∧ v = Fl.conv f32 y) ∧
      ∃ c w, t = c :: w ∧ ¬ Space c := by
  have op : ∀ {o : Char} (r : Name), (o = '*' ∨ o = '/') → Reads (chr (fun c => c == '/' || c == '*')) [o] [] r := by
    intro o r ho
    rcases ho with rfl | rfl <;> rfl
  have opSpace : ∀ {o : Char}, (o = '*' ∨ o = '/') → ¬ Space o := by
    intro o ho
    rcases ho with rfl | rfl <;> exact not_space (by decide)
  cases h with
  | num ho hw hv hy =>
    obtain ⟨l, h1⟩ := reads_num hv hu
    refine ⟨⟨_, reads_tok (reads_cons (t := [_]) (ps := []) (op _ ho) (reads_cons (ps := []) (reads_spaces hw (wnum_notSpace hv u))
      (reads_one (reads_alt_left h1))))⟩, ⟨_, hy, rfl⟩, _, _, rfl, opSpace ho⟩
  | @frac o w t v y ho hw hv hy =>
    obtain ⟨xs, h1, _⟩ := reads_frac (u := [')'] ++ u) hv (numStop_of ⟨not_digit (by decide), by decide, by decide, by decide⟩)
    have h2 := reads_cons (p := lit ['(']) (t := ['(']) (ps := []) (reads_lit _ _) (reads_cons h1 (reads_one (reads_lit [')'] u)))
    have h3 : number ((['('] ++ (t ++ [')'])) ++ u) = none := by
      refine number_none ?_
      intro c hc
      cases hc
      intro h
      have := numHead_nat h
      revert this
      decide
    refine ⟨⟨_, reads_tok (reads_cons (t := [_]) (ps := []) (op _ ho) (reads_cons (ps := []) (reads_spaces hw (head_notSpace (not_space (by decide))))
      (reads_one (reads_alt_right h3 h2))))⟩, ⟨_, hy, rfl⟩, _, _, rfl, opSpace ho⟩

end Verif.Read
