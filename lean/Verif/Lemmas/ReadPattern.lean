import Verif.Lemmas.ReadItems

/-!
# Reading back written patterns and code
-/

namespace Verif.Read
open Peg Grammar Parse Spec

theorem numStop_of {d : Char} {u : Name} (h : ¬ Digit d ∧ d ≠ '.' ∧ d ≠ 'e' ∧ d ≠ 'E') : NumStop (d :: u) := by
  intro c hc
  cases hc
  exact h

theorem wevent_head {e : EventValue × Fl} {t : Name} (h : WEvent e t) :
    ∃ c w, t = c :: w ∧ (NumHead c ∨ c = '\\' ∨ c = '\'') := by
  cases h with
  | num h _ =>
    obtain ⟨c, w, e, hc⟩ := wnum_head h
    subst e
    exact ⟨c, _, rfl, Or.inl hc⟩
  | sym h _ =>
    obtain ⟨c, w, e, hc⟩ := wsym_head h
    subst e
    exact ⟨c, _, rfl, Or.inr hc⟩

theorem reads_event {e : EventValue × Fl} {t u : Name} (h : WEvent e t) (hu : NumStop u) :
    ∃ x, Reads valueTime t [x] u ∧ eventOf x = .ok e := by
  cases h with
  | @num v w t t' hv hw =>
    obtain ⟨l1, h1⟩ := reads_num (u := '@' :: (t' ++ u)) hv (numStop_of ⟨not_digit (by decide), by decide, by decide, by decide⟩)
    obtain ⟨l2, h2⟩ := reads_num hw hu
    have h3 : Reads (lit ['@']) ['@'] [] (t' ++ u) := reads_lit _ _
    have h4 := reads_cons (t' := '@' :: t') (u := u) (reads_alt_left (q := symbol) h1) (reads_cons (t := ['@']) h3 (reads_one h2))
    refine ⟨_, reads_tok h4, ?_⟩
    simp only [eventOf, Pair.inner, List.cons_append, List.nil_append, next, nextF32, bind, Except.bind, Pair.rule,
      f32Of_num hv, f32Of_num hw, Except.map]
  | @sym w s t' hs hw =>
    obtain ⟨c, s', e, hc⟩ := wsym_head hs
    obtain ⟨l1, h1⟩ := reads_sym (u := '@' :: (t' ++ u)) hs (by
      intro c hc
      cases hc
      intro h
      have := h
      simp only [SymChar, Digit] at this
      revert this
      decide)
    obtain ⟨l2, h2⟩ := reads_num hw hu
    have h3 : Reads (lit ['@']) ['@'] [] (t' ++ u) := reads_lit _ _
    have h0 : number (s ++ '@' :: (t' ++ u)) = none := by
      refine number_none ?_
      intro d hd
      rw [head_of e] at hd
      cases hd
      exact symHead_notNum hc
    have h4 := reads_cons (t' := '@' :: t') (u := u) (reads_alt_right (p := number) h0 h1)
      (reads_cons (t := ['@']) h3 (reads_one h2))
    refine ⟨_, reads_tok h4, ?_⟩
    simp only [eventOf, Pair.inner, List.cons_append, List.nil_append, next, nextF32, bind, Except.bind, Pair.rule,
      Pair.text, f32Of_num hw]

theorem symbol_none {u : Name} (h : ∀ c ∈ u.head?, c ≠ '\\' ∧ c ≠ '\'') : symbol u = none := by
  refine tok_none ((alt_right ?_).trans ?_)
  · exact seq_none_left (lit_head_none (fun c hc => (h c hc).2))
  · exact seq_none_left (lit_head_none (fun c hc => (h c hc).1))

theorem valueTime_end {r : Name} (h : ∀ c ∈ r.head?, EndChar c) : valueTime r = none := by
  refine tok_none (seq_none_left ((alt_right (number_none (fun c hc => stop_notNumHead (Or.inr (h c hc))))).trans ?_))
  exact symbol_none (fun c hc => ⟨stop_ne (Or.inr (h c hc)) (by decide), stop_ne (Or.inr (h c hc)) (by decide)⟩)

theorem event_notBlank {e : EventValue × Fl} {t : Name} (h : WEvent e t) (u : Name) :
    ∀ c ∈ (t ++ u).head?, ¬ Blank c := by
  intro c hc
  obtain ⟨d, w, e, hd⟩ := wevent_head h
  rw [head_of e] at hc
  cases hc
  rcases hd with hd | hd
  · exact numHead_notBlank hd
  · exact symHead_notBlank hd

theorem events_notBlank {l : Events} {t : Name} (h : WList WEvent l t) (u : Name) :
    ∀ c ∈ (t ++ u).head?, ¬ Blank c := by
  cases h with
  | one h => exact event_notBlank h u
  | cons h _ _ => rw [List.append_assoc]; exact event_notBlank h _

theorem reads_events {l : Events} {t u : Name} (h : WList WEvent l t) (hu : Ends u) :
    ∃ xs, Reads (seqs [valueTime, star (seq (plus blank) valueTime)]) t xs u ∧ collect eventOf xs = .ok l := by
  refine reads_list ?_ ?_ (fun r hr => valueTime_end hr) h hu
  · intro a t u ha hu
    exact reads_event ha (stops_num hu)
  · intro a t ha u
    exact event_notBlank ha u

theorem reads_body_events {l : Events} {b t u : Name} (hb : Blanks b) (h : WList WEvent l t) :
    ∃ xs, Reads patternEventBody (b ++ t) [.mk .patternEventBody (b ++ t) xs] ('"' :: u) ∧
      collect eventOf xs = .ok l := by
  obtain ⟨xs, h1, h2⟩ := reads_events (u := '"' :: u) h ⟨[], '"' :: u, rfl, by simp [Blanks], by simp [EndChar]⟩
  refine ⟨xs, ?_, h2⟩
  have h3 := reads_blanks (u := t ++ '"' :: u) hb (events_notBlank h _)
  exact reads_tok (reads_cons h3 h1)

theorem pattern_first {e : Events} {v : Fl} {t : Name} (h : WPattern e v t) : ∃ w, t = '"' :: w := by
  cases h <;> exact ⟨_, rfl⟩

theorem reads_pattern {e : Events} {v : Fl} {t : Name} (u : Name) (h : WPattern e v t) :
    ∃ xs, Reads pattern t [.mk .pattern t xs] u ∧ patternOf xs = .ok (e, v) := by
  cases h with
  | @plain b t hb ht =>
    obtain ⟨xs, h1, h2⟩ := reads_body_events (u := '(' :: ')' :: u) hb ht
    have h0 : Reads (lit ['"']) ['"'] [] ((b ++ t) ++ c!"\"()" ++ u) := reads_lit _ _
    have h3 : Reads (seqs [lit ['"'], lit ['('], opt number, lit [')']]) c!"\"()" [] u := by
      have a1 : Reads (opt number) [] [] (')' :: u) := by
        refine reads_opt_none (number_none ?_)
        intro c hc
        cases hc
        rintro (h | h | h)
        · exact absurd h (by decide)
        · exact absurd h (by decide)
        · exact not_digit (by decide) h
      have a2 : Reads (seqs [opt number, lit [')']]) [')'] [] u :=
        reads_cons (t := []) (t' := [')']) (ps := []) (qs := []) a1 (reads_one (reads_lit [')'] u))
      exact reads_cons (t := ['"']) (ps := []) (reads_lit _ _) (reads_cons (t := ['(']) (ps := []) (reads_lit _ _) a2)
    have h4 := reads_cons (t := ['"']) (ps := []) (by exact h0)
      (reads_cons (t := b ++ t) (t' := c!"\"()") (by simpa using h1) h3)
    have h5 := reads_tok (r := .pattern) h4
    refine ⟨_, by simpa [pattern] using h5, ?_⟩
    simp only [patternOf, eventsOf, next, bind, Except.bind, Pair.inner, h2]
  | @span v b t w hb ht hw =>
    obtain ⟨xs, h1, h2⟩ := reads_body_events (u := '(' :: (w ++ ')' :: u)) hb ht
    have h0 : Reads (lit ['"']) ['"'] [] ((b ++ t) ++ (c!"\"(" ++ (w ++ [')'])) ++ u) := reads_lit _ _
    obtain ⟨l, hl⟩ := reads_num (u := ')' :: u) hw (numStop_of ⟨not_digit (by decide), by decide, by decide, by decide⟩)
    have h3 : Reads (seqs [lit ['"'], lit ['('], opt number, lit [')']]) (c!"\"(" ++ (w ++ [')'])) [.mk .number w l] u := by
      have a2 : Reads (seqs [opt number, lit [')']]) (w ++ [')']) [.mk .number w l] u :=
        reads_cons (t := w) (t' := [')']) (ps := [.mk .number w l]) (qs := []) (reads_opt hl) (reads_one (reads_lit [')'] u))
      exact reads_cons (t := ['"']) (ps := []) (reads_lit _ _) (reads_cons (t := ['(']) (ps := []) (reads_lit _ _) a2)
    have h4 := reads_cons (t := ['"']) (ps := []) (by exact h0)
      (reads_cons (t := b ++ t) (t' := c!"\"(" ++ (w ++ [')'])) (by simpa using h1) h3)
    have h5 := reads_tok (r := .pattern) h4
    refine ⟨_, by simpa [pattern] using h5, ?_⟩
    simp only [patternOf, eventsOf, next, bind, Except.bind, Pair.inner, h2, f32Of_num hw]

theorem events_first {e : Events} {t : Name} (h : WEvents e t) : ∃ w, t = '"' :: w := by
  cases h
  exact ⟨_, rfl⟩

/-- A pattern without parentheses is not taken for one with them. -/
theorem reads_plainEvents {e : Events} {t u : Name} (h : WEvents e t) (hu : ∀ c ∈ u.head?, c ≠ '(') :
    pattern (t ++ u) = none ∧ ∃ xs, Reads event t [.mk .event t xs] u ∧ ∀ ps, eventsOf (xs ++ ps) = .ok (e, ps) := by
  cases h with
  | @mk b t hb ht =>
    obtain ⟨xs, h1, h2⟩ := reads_body_events (u := u) hb ht
    have h0 : Reads (lit ['"']) ['"'] [] ((b ++ t) ++ ['"'] ++ u) := reads_lit _ _
    have h1' : Reads patternEventBody (b ++ t) [.mk .patternEventBody (b ++ t) xs] (['"'] ++ u) := h1
    refine ⟨?_, [.mk .patternEventBody (b ++ t) xs], ?_, ?_⟩
    · refine tok_none ?_
      have k1 : seqs [lit ['"'], lit ['('], opt number, lit [')']] (['"'] ++ u) = none :=
        seq_none_right (reads_lit ['"'] u) (seq_none_left (lit_head_none hu))
      have k2 := seq_none_right h1' k1
      have k3 := seq_none_right (by simpa using h0) k2
      simpa [seqs] using k3
    · have k2 := reads_cons (t := ['"']) (ps := []) (by exact h0)
        (reads_cons (t := b ++ t) (t' := ['"']) h1' (reads_one (reads_lit ['"'] u)))
      have k3 := reads_tok (r := .event) k2
      simpa [event] using k3
    · intro ps
      simp only [eventsOf, List.cons_append, List.nil_append, next, bind, Except.bind, Pair.inner, h2]

theorem codeChar_plain {c : Char} (u : Name) (h : c ≠ '`' ∧ c ≠ '\\') : Reads codeChar [c] [] u := by
  unfold Reads codeChar quiet
  have h1 : Peg.not (alt (lit ['`']) (lit ['\\'])) (c :: u) = some ([], [], c :: u) := by
    refine not_ok ?_
    refine (alt_right (lit_head_none ?_)).trans (lit_head_none ?_)
    · intro d hd; cases hd; exact h.1
    · intro d hd; cases hd; exact h.2
  have h2 : any (c :: u) = some ([c], [], u) := rfl
  have h3 := seq_ok h1 h2
  simp only [List.cons_append, List.nil_append, alts, alt, h3, List.append_nil, Option.map_some]

theorem codeChar_tick (u : Name) : codeChar ('`' :: u) = none := rfl

theorem codeChar_esc {c : Char} (u : Name) (h : c ∈ ['"', '\\', '/', 'b', 'f', 'n', 'r', 't']) :
    Reads codeChar ['\\', c] [] u := by
  simp only [List.mem_cons, List.not_mem_nil, or_false] at h
  rcases h with rfl | rfl | rfl | rfl | rfl | rfl | rfl | rfl <;> rfl

theorem isHex_iff {c : Char} : isHex c = true ↔ Hex c := by
  simp only [isHex, Bool.or_eq_true, isDigit_iff, decide_eq_true_eq, Hex]
  tauto

theorem codeChar_hex {a b c d : Char} (u : Name) (ha : Hex a) (hb : Hex b) (hc : Hex c) (hd : Hex d) :
    Reads codeChar ['\\', 'u', a, b, c, d] [] u := by
  have hx : ∀ {c : Char} (v : Name), Hex c → Reads (chr isHex) [c] [] v := by
    intro c v h
    unfold Reads
    simp only [List.cons_append, List.nil_append, chr, isHex_iff.mpr h, if_true]
  have h1 := reads_cons (p := lit ['u']) (t := ['u']) (ps := []) (reads_lit _ _) (reads_cons (ps := []) (hx _ ha)
    (reads_cons (ps := []) (hx _ hb) (reads_cons (ps := []) (hx _ hc) (reads_one (hx u hd)))))
  have h2 := reads_seq (t := ['\\']) (ps := []) (reads_lit _ _) h1
  have h3 : Reads (alts [seq (lit ['\\']) (seqs [lit ['u'], chr isHex, chr isHex, chr isHex, chr isHex])])
      ['\\', 'u', a, b, c, d] [] u := reads_alt_left h2
  have h4 := reads_alt_right (p := seq (lit ['\\']) (chr (fun c => c == '"' || c == '\\' || c == '/' || c == 'b' || c == 'f' ||
    c == 'n' || c == 'r' || c == 't'))) rfl h3
  have h5 := reads_alt_right (p := seq (Peg.not (alt (lit ['`']) (lit ['\\']))) any) rfl h4
  exact congrArg (Option.map (fun x : Name × List Pair × Name => (x.1, ([] : List Pair), x.2.2))) h5

theorem reads_codeChars {t : Name} (u : Name) (h : WCode t) : Reads (star codeChar) t [] ('`' :: u) := by
  induction h with
  | nil => exact reads_star_nil (codeChar_tick u)
  | char h1 h2 _ ih => exact reads_star_cons (t := [_]) (ps := []) eats_codeChar (codeChar_plain _ ⟨h1, h2⟩) ih
  | esc h _ ih => exact reads_star_cons (t := ['\\', _]) (ps := []) eats_codeChar (codeChar_esc _ h) ih
  | hex h1 h2 h3 h4 _ ih =>
    exact reads_star_cons (t := ['\\', 'u', _, _, _, _]) (ps := []) eats_codeChar (codeChar_hex _ h1 h2 h3 h4) ih

theorem reads_code {t : Name} (u : Name) (h : WCode t) :
    ∃ l, Reads code ('`' :: (t ++ ['`'])) [.mk .code ('`' :: (t ++ ['`'])) l] u := by
  have h1 := reads_tok (r := .inner) (reads_codeChars u h)
  exact ⟨_, reads_tok (reads_cons (t := ['`']) (ps := []) (reads_lit _ _) (reads_cons h1 (reads_one (reads_lit _ _))))⟩

end Verif.Read
