import Verif.Lemmas.ReadNode

/-!
# Reading back written programs
-/

namespace Verif.Read
open Peg Grammar Parse Spec

/-! ## Chains -/

theorem blanks_append {a b : Name} (ha : Blanks a) (hb : Blanks b) : Blanks (a ++ b) := by
  intro c hc
  rcases List.mem_append.mp hc with hc | hc
  · exact ha c hc
  · exact hb c hc

theorem comment_none {u : Name} (h : ∀ c ∈ u.head?, c ≠ '/') : comment u = none :=
  seq_none_left (lit_head_none h)

theorem more_none {u : Name} (h : ∀ c ∈ u.head?, c ≠ '/' ∧ c ≠ '>') :
    alt (seqs [lit ['>', '>'], star blank, node]) comment u = none :=
  (alt_right (seq_none_left (lit_head_none (fun c hc => (h c hc).2)))).trans (comment_none (fun c hc => (h c hc).1))

theorem head_nil_append {w : Name} : ∀ c ∈ ([] ++ w).head?, c ∈ w.head? := fun _ h => h

/-- Blanks, perhaps a line end, blanks, and something that does not go on with the chain. -/
theorem chainTurn_none {a n b r : Name} (ha : Blanks a) (hn : n = [] ∨ n = ['\n']) (hb : Blanks b)
    (hr : ∀ c ∈ r.head?, ¬ Blank c ∧ c ≠ '/' ∧ c ≠ '>' ∧ (n = [] → c ≠ '\n')) : chainTurn (a ++ (n ++ (b ++ r))) = none := by
  rcases hn with rfl | rfl
  · have h1 : Reads (star blank) (a ++ b) [] r := reads_blanks (blanks_append ha hb) (fun c hc => (hr c hc).1)
    have h2 : Reads (opt (lit ['\n'])) [] [] r := reads_opt_none (lit_head_none (fun c hc => (hr c hc).2.2.2 rfl))
    have h3 : Reads (star blank) [] [] r := reads_blanks (by simp [Blanks]) (fun c hc => (hr c hc).1)
    have h4 := seq_none_right h3 (seq_none_left (q := seqs []) (more_none (fun c hc => ⟨(hr c hc).2.1, (hr c hc).2.2.1⟩)))
    have h5 := seq_none_right h1 (seq_none_right h2 h4)
    rw [List.append_assoc] at h5
    exact h5
  · have h1 : Reads (star blank) a [] ('\n' :: (b ++ r)) := reads_blanks ha (by
      intro c hc
      cases hc
      exact endChar_notBlank (Or.inl rfl))
    have h2 : Reads (opt (lit ['\n'])) ['\n'] [] (b ++ r) := reads_opt (reads_lit _ _)
    have h3 : Reads (star blank) b [] r := reads_blanks hb (fun c hc => (hr c hc).1)
    have h4 := seq_none_right h3 (seq_none_left (q := seqs []) (more_none (fun c hc => ⟨(hr c hc).2.1, (hr c hc).2.2.1⟩)))
    exact seq_none_right h1 (seq_none_right h2 h4)

theorem writes_notBlank {fe : Name → Option Fl} {c : Comp} {t : Name} (h : Writes fe c t) (u : Name) : ∀ d ∈ (t ++ u).head?, ¬ Blank d := by
  have key : ∀ {c : Char} {w : Name}, ('a' ≤ c ∧ c ≤ 'z') → ∀ d ∈ ((c :: w) ++ u).head?, ¬ Blank d := by
    intro c w hc d hd
    cases hd
    exact nameHead_notBlank (Or.inr (Or.inr hc))
  have kinds : ∀ {kw w : Name}, (∃ c v, kw = c :: v ∧ 'a' ≤ c ∧ c ≤ 'z') → ∀ d ∈ ((kw ++ w) ++ u).head?, ¬ Blank d := by
    rintro kw w ⟨c, v, rfl, h1, h2⟩
    exact key ⟨h1, h2⟩
  have low : ∀ (c : Char) (v : Name), isLower c = true → ∃ c' v', c :: v = c' :: v' ∧ 'a' ≤ c' ∧ c' ≤ 'z' :=
    fun c v h => ⟨c, v, rfl, isLower_iff.mp h⟩
  have bracket' : ∀ {l : List (TimeList × Fl)} {t : Name}, WPointList l t → ∀ v : Name, ∀ d ∈ (t ++ v).head?, ¬ Blank d := by
    intro l t ht v d hd
    cases ht
    cases hd
    intro hb
    have := blank_toNat hb
    revert this
    decide
  cases h with
  | arg hk _ _ =>
    refine kinds ?_
    simp only [argKinds, List.mem_cons, Prod.mk.injEq, List.not_mem_nil, or_false] at hk
    rcases hk with ⟨rfl, rfl⟩ | ⟨rfl, rfl⟩ | ⟨rfl, rfl⟩ | ⟨rfl, rfl⟩ | ⟨rfl, rfl⟩ | ⟨rfl, rfl⟩ | ⟨rfl, rfl⟩ | ⟨rfl, rfl⟩ |
      ⟨rfl, rfl⟩ <;> exact low _ _ (by decide)
  | num hk _ _ =>
    refine kinds ?_
    simp only [numKinds, List.mem_cons, Prod.mk.injEq, List.not_mem_nil, or_false] at hk
    rcases hk with ⟨rfl, rfl⟩ | ⟨rfl, rfl⟩ | ⟨rfl, rfl⟩ | ⟨rfl, rfl⟩ | ⟨rfl, rfl⟩ | ⟨rfl, rfl⟩ | ⟨rfl, rfl⟩ | ⟨rfl, rfl⟩ <;>
      exact low _ _ (by decide)
  | two hk _ _ _ _ =>
    refine kinds ?_
    simp only [twoKinds, List.mem_cons, Prod.mk.injEq, List.not_mem_nil, or_false] at hk
    rcases hk with ⟨rfl, rfl⟩ | ⟨rfl, rfl⟩ | ⟨rfl, rfl⟩ | ⟨rfl, rfl⟩ <;> exact low _ _ (by decide)
  | argNum hk _ _ _ _ =>
    refine kinds ?_
    simp only [argNumKinds, List.mem_cons, Prod.mk.injEq, List.not_mem_nil, or_false] at hk
    rcases hk with ⟨rfl, rfl⟩ | ⟨rfl, rfl⟩ | ⟨rfl, rfl⟩ | ⟨rfl, rfl⟩ | ⟨rfl, rfl⟩ <;> exact low _ _ (by decide)
  | adsr | reverb | delayn | delaynRef | adc | seq | choose | mix | arrange | balance | getWord | psampler | lpfPattern
  | psamplerEvents | lpfEvents | msgsynth => exact kinds (low _ _ (by decide))
  | noise hk _ _ _ =>
    refine kinds ?_
    simp only [List.mem_cons, List.not_mem_nil, or_false] at hk
    rcases hk with rfl | rfl <;> exact low _ _ (by decide)
  | sp hk _ _ =>
    refine kinds ?_
    simp only [List.mem_cons, List.not_mem_nil, or_false] at hk
    rcases hk with rfl | rfl <;> exact low _ _ (by decide)
  | get hr _ => exact var_notBlank hr u
  | points ht => exact bracket' ht u
  | pointsLoop ht _ => rw [List.append_assoc]; exact bracket' ht _
  | pointsFactor ht _ _ => rw [List.append_assoc]; exact bracket' ht _
  | pointsFactorLoop ht _ _ _ => rw [List.append_assoc]; exact bracket' ht _
  | psynth hk _ _ _ _ =>
    refine kinds ?_
    simp only [List.mem_cons, List.not_mem_nil, or_false] at hk
    rcases hk with rfl | rfl | rfl <;> exact low _ _ (by decide)
  | code hk _ _ =>
    refine kinds ?_
    simp only [codeKinds, List.mem_cons, Prod.mk.injEq, List.not_mem_nil, or_false] at hk
    rcases hk with ⟨rfl, rfl⟩ | ⟨rfl, rfl⟩ | ⟨rfl, rfl⟩ <;> exact low _ _ (by decide)

theorem chain_notBlank {fe : Name → Option Fl} {cs : List Comp} {t : Name} (h : WChain fe cs t) (u : Name) :
    ∀ d ∈ (t ++ u).head?, ¬ Blank d := by
  cases h with
  | one h => exact writes_notBlank h u
  | cons h _ _ _ => rw [List.append_assoc]; exact writes_notBlank h _

/-! ## Comments -/

/-- What may follow a line and its separator: nothing, or the next line. -/
def Clear (u : Name) : Prop :=
  ∀ c ∈ u.head?, ¬ Blank c ∧ c ≠ '\n' ∧ c ≠ '/' ∧ c ≠ '>' ∧ c ≠ ';' ∧ c ≠ '\r' ∧ c ≠ '*' ∧ c ≠ '!'

theorem clear_space {u : Name} (h : Clear u) : ∀ c ∈ u.head?, ¬ Space c := by
  intro c hc hs
  rcases hs with hs | hs
  · exact (h c hc).1 hs
  · exact (h c hc).2.1 hs

theorem quiet_of {u : Name} (h : ∀ c ∈ u.head?, ¬ Space c ∧ c ≠ '/' ∧ c ≠ '*' ∧ c ≠ '!') : Quiet u := by
  refine ⟨fun c hc => (h c hc).1, tok_none (seq_none_left (chr_head_none ?_)), tok_none (lit_head_none ?_)⟩
  · intro c hc
    have := h c hc
    rw [Bool.or_eq_false_iff, beq_eq_false_iff_ne, beq_eq_false_iff_ne]
    exact ⟨this.2.1, this.2.2.1⟩
  · intro c hc
    exact (h c hc).2.2.2

theorem quiet_clear {u : Name} (h : Clear u) : Quiet u :=
  quiet_of (fun c hc => ⟨clear_space h c hc, (h c hc).2.2.1, (h c hc).2.2.2.2.2.2.1, (h c hc).2.2.2.2.2.2.2⟩)

/-- A comment is not taken for a factor. -/
theorem quiet_slash (u : Name) : Quiet ('/' :: '/' :: u) := by
  refine ⟨head_notSpace (not_space (by decide)), tok_none ?_, rfl⟩
  have hn : ∀ c ∈ (('/' :: u) : Name).head?, ¬ NumHead c := by
    intro c hc
    cases hc
    intro h
    have := numHead_nat h
    revert this
    decide
  have h1 : Reads (chr (fun c => c == '/' || c == '*')) ['/'] [] ('/' :: u) := rfl
  have h2 : Reads (star ws) [] [] ('/' :: u) := reads_spaces spaces_nil (head_notSpace (not_space (by decide)))
  have h3 : alt number (seqs [lit ['('], bar, lit [')']]) ('/' :: u) = none :=
    (alt_right (number_none hn)).trans (seq_none_left (lit_head_none (by intro c hc; cases hc; decide)))
  exact seq_none_right h1 (seq_none_right h2 (seq_none_left h3))

/-- Blanks, line ends and comments in front of `u`. The last comment may end with the text. -/
inductive Triv (u : Name) : Name → Prop where
  | nil : Triv u []
  | space {c : Char} {t : Name} : Space c → Triv u t → Triv u (c :: t)
  | remark {m t : Name} : Remark m → Triv u t → Triv u (c!"//" ++ (m ++ '\n' :: t))
  | last {m : Name} : u = [] → Remark m → Triv u (c!"//" ++ m)

theorem triv_spaces {u w t : Name} (hw : Spaces w) (h : Triv u t) : Triv u (w ++ t) := by
  induction w with
  | nil => exact h
  | cons c w ih => exact .space (hw c (by simp)) (ih (fun d hd => hw d (by simp [hd])))

/-- Spaces first, then nothing or a comment. -/
theorem triv_split {u t : Name} (h : Triv u t) :
    ∃ w t', t = w ++ t' ∧ Spaces w ∧ Triv u t' ∧ (t' = [] ∨ ∃ r, t' = '/' :: '/' :: r) := by
  induction h with
  | nil => exact ⟨[], [], rfl, spaces_nil, .nil, Or.inl rfl⟩
  | @space c t hc ht ih =>
    obtain ⟨w, t', rfl, h1, h2, h3⟩ := ih
    refine ⟨c :: w, t', rfl, ?_, h2, h3⟩
    intro d hd
    rcases List.mem_cons.mp hd with rfl | hd
    · exact hc
    · exact h1 d hd
  | remark hm ht ih => exact ⟨[], _, rfl, spaces_nil, .remark hm ht, Or.inr ⟨_, rfl⟩⟩
  | last hu hm => exact ⟨[], _, rfl, spaces_nil, .last hu hm, Or.inr ⟨_, rfl⟩⟩

theorem newline_none {u : Name} (h : ∀ c ∈ u.head?, c ≠ '\n' ∧ c ≠ '\r') : newline u = none :=
  (alt_right (lit_head_none (fun c hc => (h c hc).1))).trans ((alt_right (lit_head_none (fun c hc => (h c hc).2))).trans
    ((alt_right (lit_head_none (fun c hc => (h c hc).2))).trans rfl))

theorem space_notReturn {c : Char} (h : Space c) : c ≠ '\r' := by
  have := space_nat h
  apply ne_of_nat
  simp only [show '\r'.toNat = 13 from rfl]
  omega

/-- The line ends a comment takes with it. -/
theorem triv_newlines {u t : Name} (h : Triv u t) (hu : Clear u) :
    ∃ n t', t = n ++ t' ∧ Triv u t' ∧ Reads (star newline) n [] (t' ++ u) ∧ newline (t' ++ u) = none := by
  induction h with
  | nil =>
    have := newline_none (u := u) (fun c hc => ⟨(hu c hc).2.1, (hu c hc).2.2.2.2.2.1⟩)
    exact ⟨[], [], rfl, .nil, reads_star_nil this, this⟩
  | @space c t hc ht ih =>
    by_cases hn : c = '\n'
    · subst hn
      obtain ⟨n, t', rfl, h1, h2, h3⟩ := ih
      have h4 : Reads newline ['\n'] [] (n ++ (t' ++ u)) := rfl
      exact ⟨'\n' :: n, t', rfl, h1, reads_star_cons (t := ['\n']) (ps := []) eats_newline h4 h2, h3⟩
    · have := newline_none (u := (c :: t) ++ u) (by
        intro d hd
        cases hd
        exact ⟨hn, space_notReturn hc⟩)
      exact ⟨[], _, rfl, .space hc ht, reads_star_nil this, this⟩
  | @remark m t hm ht ih =>
    have := newline_none (u := (c!"//" ++ (m ++ '\n' :: t)) ++ u) (by intro d hd; cases hd; exact ⟨by decide, by decide⟩)
    exact ⟨[], _, rfl, .remark hm ht, reads_star_nil this, this⟩
  | @last m hu' hm =>
    have := newline_none (u := (c!"//" ++ m) ++ u) (by intro d hd; cases hd; exact ⟨by decide, by decide⟩)
    exact ⟨[], _, rfl, .last hu' hm, reads_star_nil this, this⟩

theorem reads_remark {m u : Name} (hm : Remark m) (hu : u = [] ∨ ∃ r, u = '\n' :: r) :
    Reads (star (seq (Peg.not newline) any)) m [] u := by
  induction m with
  | nil =>
    refine reads_star_nil ?_
    rcases hu with rfl | ⟨r, rfl⟩
    · rfl
    · rfl
  | cons c m ih =>
    have hc := hm c (by simp)
    have h1 : Reads (Peg.not newline) [] [] ([c] ++ (m ++ u)) := reads_not (newline_none (by
      intro d hd
      cases hd
      exact hc))
    have h2 : Reads any [c] [] (m ++ u) := rfl
    exact reads_star_cons (t := [c]) (ps := []) (eats_seq_right (eats_chr _)) (reads_seq (t := []) (ps := []) h1 h2)
      (ih (fun d hd => hm d (by simp [hd])))

theorem reads_commentOf {m n u : Name} (hm : Remark m) (hs : n ++ u = [] ∨ ∃ r, n ++ u = '\n' :: r)
    (hn : Reads (star newline) n [] u) (hu : newline u = none) : Reads comment (c!"//" ++ (m ++ n)) [] u := by
  have h1 : Reads (lit ['/', '/']) c!"//" [] ((m ++ n) ++ u) := reads_lit _ _
  have h2 := reads_remark hm hs
  have h3 := reads_cons (t' := []) (ps := []) hn (reads_one (reads_not hu))
  rw [List.append_nil] at h3
  exact reads_cons (ps := []) h1 (reads_cons (ps := []) h2 h3)

/-- A comment is read together with the line ends after it. -/
theorem reads_comment {u t : Name} (h : Triv u t) (hu : Clear u) (hs : ∃ r, t = '/' :: '/' :: r) :
    ∃ t₁ t₂, t = t₁ ++ t₂ ∧ t₂.length < t.length ∧ Triv u t₂ ∧ Reads comment t₁ [] (t₂ ++ u) ∧ ∃ r, t₁ = '/' :: r := by
  cases h with
  | nil => obtain ⟨r, hr⟩ := hs; cases hr
  | @space c t hc ht =>
    obtain ⟨r, hr⟩ := hs
    cases hr
    exact absurd hc (not_space (by decide))
  | @remark m t hm ht =>
    obtain ⟨n, t', e, h1, h2, h3⟩ := triv_newlines (.space (Or.inr rfl) ht) hu
    have e' : n ++ (t' ++ u) = '\n' :: (t ++ u) := by rw [← List.append_assoc, ← e]; rfl
    refine ⟨_, t', ?_, ?_, h1, reads_commentOf hm (Or.inr ⟨_, e'⟩) h2 h3, _, rfl⟩
    · rw [e]
      simp
    · rw [e]
      simp
      omega
  | @last m hu' hm =>
    subst hu'
    refine ⟨_, [], (List.append_nil _).symm, by simp, .nil, ?_, _, rfl⟩
    have := reads_commentOf (n := []) (u := []) hm (Or.inl rfl) (reads_star_nil rfl) rfl
    simpa using this

/-- The first line of blanks and line ends. -/
theorem spaces_first {w : Name} (h : Spaces w) :
    ∃ a r, w = a ++ r ∧ Blanks a ∧ (r = [] ∨ ∃ r', r = '\n' :: r' ∧ Spaces r' ∧ r'.length < w.length) := by
  induction w with
  | nil => exact ⟨[], [], rfl, by simp [Blanks], Or.inl rfl⟩
  | cons c w ih =>
    rcases h c (by simp) with hc | rfl
    · obtain ⟨a, r, rfl, ha, hr⟩ := ih (fun d hd => h d (by simp [hd]))
      refine ⟨c :: a, r, rfl, ?_, ?_⟩
      · intro d hd
        rcases List.mem_cons.mp hd with rfl | hd
        · exact hc
        · exact ha d hd
      · rcases hr with rfl | ⟨r', rfl, h1, h2⟩
        · exact Or.inl rfl
        · exact Or.inr ⟨r', rfl, h1, by simp at h2 ⊢; omega⟩
    · exact ⟨[], _, rfl, by simp [Blanks], Or.inr ⟨w, rfl, fun d hd => h d (by simp [hd]), by simp⟩⟩

theorem blanks_nil : Blanks [] := by simp [Blanks]

theorem newline_notBlank {r : Name} : ∀ c ∈ (('\n' :: r) : Name).head?, ¬ Blank c := by
  intro c hc
  cases hc
  exact endChar_notBlank (Or.inl rfl)

/-- One turn of the loop of a chain. -/
theorem reads_turn {a n b r u : Name} {ps : List Pair} (ha : Blanks a) (hn : n = [] ∨ n = ['\n']) (hb : Blanks b)
    (hr : ∀ c ∈ (r ++ u).head?, ¬ Space c) (h : Reads (alt (seqs [lit ['>', '>'], star blank, node]) comment) r ps u) :
    Reads chainTurn (a ++ (n ++ (b ++ r))) ps u := by
  have h8 := reads_one h
  have hb' : ∀ c ∈ (r ++ u).head?, ¬ Blank c := fun c hc hx => hr c hc (Or.inl hx)
  rcases hn with rfl | rfl
  · have k1 : Reads (star blank) (a ++ b) [] (r ++ u) := reads_blanks (blanks_append ha hb) hb'
    have k2 : Reads (opt (lit ['\n'])) [] [] (r ++ u) :=
      reads_opt_none (lit_head_none (fun c hc hx => hr c hc (Or.inr hx)))
    have k3 : Reads (star blank) [] [] (r ++ u) := reads_blanks blanks_nil hb'
    have k4 := reads_cons (ps := []) k1 (reads_cons (t := []) (ps := []) k2 (reads_cons (t := []) (ps := []) k3 h8))
    rw [List.append_assoc] at k4
    exact k4
  · have k3 : Reads (star blank) b [] (r ++ u) := reads_blanks hb hb'
    have k2 : Reads (opt (lit ['\n'])) ['\n'] [] ((b ++ r) ++ u) := reads_opt (reads_lit _ _)
    have k1 : Reads (star blank) a [] ((['\n'] ++ (b ++ r)) ++ u) := reads_blanks ha newline_notBlank
    exact reads_cons (ps := []) k1 (reads_cons (ps := []) k2 (reads_cons (ps := []) k3 h8))

theorem slash_notSpace {r : Name} : ∀ c ∈ (('/' :: r) : Name).head?, ¬ Space c := head_notSpace (not_space (by decide))

theorem turn_comment {t u : Name} {ps : List Pair} (hs : ∃ r, t = '/' :: r) (h : Reads comment t ps u) :
    Reads (alt (seqs [lit ['>', '>'], star blank, node]) comment) t ps u := by
  refine reads_alt_right (seq_none_left (lit_head_none ?_)) h
  obtain ⟨r, rfl⟩ := hs
  intro c hc
  cases hc
  decide

/-- A chain takes the comments after it, as long as there are no empty lines in between. -/
theorem chain_triv {u t : Name} (h : Triv u t) (hu : Clear u) :
    ∃ t₁ t₂, t = t₁ ++ t₂ ∧ Triv u t₂ ∧ Reads (star chainTurn) t₁ [] (t₂ ++ u) := by
  obtain ⟨k, hk⟩ : ∃ k, t.length = k := ⟨_, rfl⟩
  induction k using Nat.strong_induction_on generalizing t with
  | _ k ih =>
    have stop : chainTurn (t ++ u) = none →
        ∃ t₁ t₂, t = t₁ ++ t₂ ∧ Triv u t₂ ∧ Reads (star chainTurn) t₁ [] (t₂ ++ u) :=
      fun hs => ⟨[], t, rfl, h, reads_star_nil hs⟩
    obtain ⟨w, t', rfl, hw, ht', hc⟩ := triv_split h
    have main : ∀ {a n b : Name}, w = a ++ (n ++ b) → Blanks a → (n = [] ∨ n = ['\n']) → Blanks b →
        ∃ t₁ t₂, w ++ t' = t₁ ++ t₂ ∧ Triv u t₂ ∧ Reads (star chainTurn) t₁ [] (t₂ ++ u) := by
      rintro a n b rfl ha hn hb
      rcases hc with rfl | hc
      · refine stop ?_
        have := chainTurn_none (r := u) ha hn hb (fun c hc =>
          ⟨(hu c hc).1, (hu c hc).2.2.1, (hu c hc).2.2.2.1, fun _ => (hu c hc).2.1⟩)
        simpa using this
      · obtain ⟨t₁, t₂, rfl, hl, h2, h3, h4⟩ := reads_comment ht' hu hc
        obtain ⟨t₃, t₄, rfl, h5, h6⟩ := ih t₂.length (by simp at hk hl ⊢; omega) h2 rfl
        have h7 := reads_turn ha hn hb (by obtain ⟨r, rfl⟩ := h4; exact slash_notSpace) (turn_comment h4 h3)
        rw [List.append_assoc] at h7
        have h8 := reads_star_cons (ps := []) eats_chainTurn h7 h6
        exact ⟨_, t₄, by simp, h5, h8⟩
    obtain ⟨a, r, e, ha, hr⟩ := spaces_first hw
    rcases hr with rfl | ⟨r', rfl, hr', _⟩
    · exact main (n := []) (b := []) (by simpa using e) ha (Or.inl rfl) blanks_nil
    · obtain ⟨b, r, rfl, hb, hr⟩ := spaces_first hr'
      rcases hr with rfl | ⟨r', rfl, hr', _⟩
      · exact main (n := ['\n']) (b := b) (by simpa using e) ha (Or.inr rfl) hb
      · refine stop ?_
        subst e
        have := chainTurn_none (n := ['\n']) (r := '\n' :: (r' ++ (t' ++ u))) ha (Or.inr rfl) hb (by
          intro c hc
          have h1 := newline_notBlank c hc
          cases hc
          exact ⟨h1, by decide, by decide, by simp⟩)
        simpa using this

/-! ## Between components -/

theorem join_split {j : Name} (h : WJoin j) : ∃ a n b j', j = a ++ (n ++ (b ++ j')) ∧ Blanks a ∧ (n = [] ∨ n = ['\n']) ∧
    Blanks b ∧ (j' = [] ∨ ∃ m k, j' = c!"//" ++ (m ++ '\n' :: k) ∧ Remark m ∧ WJoin k) := by
  cases h with
  | @blank a n b ha hn hb => exact ⟨a, n, b, [], by simp, ha, hn, hb, Or.inl rfl⟩
  | @remark a n b m u ha hn hb hm hu => exact ⟨a, n, b, _, rfl, ha, hn, hb, Or.inr ⟨m, u, rfl, hm, hu⟩⟩

/-- Without the blanks and line ends it begins with, it is still one. -/
theorem join_trim {j : Name} (h : WJoin j) : ∃ w j', j = w ++ j' ∧ Spaces w ∧ WJoin j' ∧ (j' = [] ∨ ∃ r, j' = '/' :: '/' :: r) := by
  obtain ⟨a, n, b, j', rfl, ha, hn, hb, hj⟩ := join_split h
  refine ⟨a ++ (n ++ b), j', by simp, ?_, ?_, ?_⟩
  · intro c hc
    rcases List.mem_append.mp hc with hc | hc
    · exact Or.inl (ha c hc)
    · rcases List.mem_append.mp hc with hc | hc
      · rcases hn with rfl | rfl
        · simp at hc
        · exact Or.inr (List.mem_singleton.mp hc)
      · exact Or.inl (hb c hc)
  · rcases hj with rfl | ⟨m, k, rfl, hm, hk⟩
    · exact .blank (a := []) (n := []) (b := []) blanks_nil (Or.inl rfl) blanks_nil
    · exact .remark (a := []) (n := []) (b := []) blanks_nil (Or.inl rfl) blanks_nil hm hk
  · rcases hj with rfl | ⟨m, k, rfl, hm, hk⟩
    · exact Or.inl rfl
    · exact Or.inr ⟨_, rfl⟩

theorem blank_notNewline {c : Char} (h : Blank c) : c ≠ '\n' ∧ c ≠ '\r' := by
  have := blank_toNat h
  refine ⟨?_, ?_⟩
  · apply ne_of_nat; simp only [show '\n'.toNat = 10 from rfl]; omega
  · apply ne_of_nat; simp only [show '\r'.toNat = 13 from rfl]; omega

theorem join_newlines {k r : Name} (h : WJoin k) :
    ∃ n k', '\n' :: k = n ++ k' ∧ k'.length ≤ k.length ∧ WJoin k' ∧ Reads (star newline) n [] (k' ++ '>' :: r) ∧
      newline (k' ++ '>' :: r) = none := by
  obtain ⟨a, n, b, j', rfl, ha, hn, hb, hj⟩ := join_split h
  have hj' : ∀ {a b : Name}, Blanks a → Blanks b → WJoin (a ++ (b ++ j')) := by
    intro a b ha hb
    rcases hj with rfl | ⟨m, k, rfl, hm, hk⟩
    · simpa using WJoin.blank (n := []) ha (Or.inl rfl) hb
    · exact WJoin.remark (n := []) ha (Or.inl rfl) hb hm hk
  have hjh : newline (j' ++ '>' :: r) = none := by
    rcases hj with rfl | ⟨m, k, rfl, hm, hk⟩ <;> rfl
  have hbl : ∀ {b : Name}, Blanks b → newline ((b ++ j') ++ '>' :: r) = none := by
    intro b hb
    cases b with
    | nil => exact hjh
    | cons c b =>
      refine newline_none ?_
      intro d hd
      cases hd
      exact blank_notNewline (hb c (by simp))
  have hone : ∀ {v : Name}, newline v = none → Reads (star newline) ['\n'] [] v := by
    intro v hv
    have h1 : Reads newline ['\n'] [] ([] ++ v) := rfl
    exact reads_star_cons (t := ['\n']) (t' := []) (ps := []) eats_newline h1 (reads_star_nil hv)
  rcases hn with rfl | rfl
  · have hw := hbl (blanks_append ha hb)
    refine ⟨['\n'], a ++ (b ++ j'), by simp, by simp, hj' ha hb, ?_, ?_⟩
    · refine hone ?_
      simpa using hw
    · simpa using hw
  · cases a with
    | nil =>
      have hw := hbl hb
      refine ⟨['\n', '\n'], b ++ j', by simp, by simp, ?_, ?_, hw⟩
      · exact hj' (a := []) blanks_nil hb
      · have h1 : Reads newline ['\n'] [] (['\n'] ++ ((b ++ j') ++ '>' :: r)) := rfl
        exact reads_star_cons (t := ['\n']) (ps := []) eats_newline h1 (hone hw)
    | cons c a =>
      have hw : newline ((c :: a ++ (['\n'] ++ (b ++ j'))) ++ '>' :: r) = none := by
        refine newline_none ?_
        intro d hd
        cases hd
        exact blank_notNewline (ha c (by simp))
      exact ⟨['\n'], _, rfl, le_refl _, h, hone hw, hw⟩

/-- The way from one component to the next. -/
theorem reads_joined {j r t₂ u : Name} {x : Pair} {xs : List Pair} (h : WJoin j)
    (h1 : Reads (seqs [lit ['>', '>'], star blank, node]) ('>' :: r) [x] (t₂ ++ u)) (h2 : Reads (star chainTurn) t₂ xs u) :
    Reads (star chainTurn) (j ++ ('>' :: r ++ t₂)) (x :: xs) u := by
  obtain ⟨k, hk⟩ : ∃ k, j.length = k := ⟨_, rfl⟩
  induction k using Nat.strong_induction_on generalizing j with
  | _ k ih =>
    obtain ⟨a, n, b, j', rfl, ha, hn, hb, hj⟩ := join_split h
    rcases hj with rfl | ⟨m, v, rfl, hm, hv⟩
    · have h3 := reads_turn ha hn hb (head_notSpace (not_space (by decide))) (reads_alt_left (q := comment) h1)
      have h4 := reads_star_cons eats_chainTurn h3 h2
      simpa using h4
    · obtain ⟨n', v', e, hl, h3, h4, h5⟩ := join_newlines (r := r ++ t₂ ++ u) hv
      have h6 := ih v'.length (by simp at hk hl ⊢; omega) h3 rfl
      have e' : n' ++ (v' ++ ('>' :: (r ++ t₂ ++ u))) = '\n' :: (v ++ ('>' :: (r ++ t₂ ++ u))) := by
        rw [← List.append_assoc, ← e]; rfl
      have h7 := reads_commentOf hm (Or.inr ⟨_, e'⟩) h4 h5
      have h8 := reads_turn ha hn hb slash_notSpace (turn_comment ⟨_, rfl⟩ h7)
      have e2 : v' ++ '>' :: (r ++ t₂ ++ u) = (v' ++ ('>' :: r ++ t₂)) ++ u := by simp
      rw [e2] at h8
      have h9 := reads_star_cons (ps := []) eats_chainTurn h8 h6
      have e3 : c!"//" ++ (m ++ '\n' :: v) = (c!"//" ++ (m ++ n')) ++ v' := by rw [e]; simp
      rw [e3]
      simpa using h9

/-! ## Separators -/

/-- Trivia, perhaps after a semicolon. -/
inductive SepL (u : Name) : Name → Prop where
  | triv {t : Name} : Triv u t → SepL u t
  | semi {a t : Name} : Blanks a → Triv u t → SepL u (a ++ ';' :: t)

theorem semi_notSpace {r : Name} : ∀ c ∈ ((';' :: r) : Name).head?, ¬ Space c := head_notSpace (not_space (by decide))

theorem semi_notBlank {r : Name} : ∀ c ∈ ((';' :: r) : Name).head?, ¬ Blank c := fun c hc h => semi_notSpace c hc (Or.inl h)

theorem sep_trim {u s : Name} (h : SepL u s) (hu : Clear u) :
    ∃ w s', s = w ++ s' ∧ Spaces w ∧ SepL u s' ∧ Quiet (s' ++ u) := by
  cases h with
  | triv h =>
    obtain ⟨w, t', rfl, h1, h2, h3⟩ := triv_split h
    refine ⟨w, t', rfl, h1, .triv h2, ?_⟩
    rcases h3 with rfl | ⟨r, rfl⟩
    · exact quiet_clear hu
    · exact quiet_slash _
  | @semi a t ha ht =>
    refine ⟨a, ';' :: t, rfl, fun c hc => Or.inl (ha c hc), .semi (a := []) blanks_nil ht, ?_⟩
    refine quiet_of ?_
    intro c hc
    have := semi_notSpace c hc
    cases hc
    exact ⟨this, by decide, by decide, by decide⟩

theorem sep_chain {u s : Name} (h : SepL u s) (hu : Clear u) :
    ∃ s₁ s₂, s = s₁ ++ s₂ ∧ SepL u s₂ ∧ Reads (star chainTurn) s₁ [] (s₂ ++ u) := by
  cases h with
  | triv h =>
    obtain ⟨t₁, t₂, h1, h2, h3⟩ := chain_triv h hu
    exact ⟨t₁, t₂, h1, .triv h2, h3⟩
  | @semi a t ha ht =>
    refine ⟨[], _, rfl, .semi ha ht, reads_star_nil ?_⟩
    have := chainTurn_none (n := []) (b := []) (r := ';' :: (t ++ u)) ha (Or.inl rfl) blanks_nil (by
      intro c hc
      have := semi_notBlank c hc
      cases hc
      exact ⟨this, by decide, by decide, fun _ => by decide⟩)
    simpa using this

theorem reads_chain {fe : Name → Option Fl} {cs : List Comp} {t s u : Name} (h : WChain fe cs t) (hs : SepL u s)
    (he : Ends (s ++ u)) (hu : Clear u) :
    ∃ x xs t₁ t₂ s₂, t ++ s = t₁ ++ (t₂ ++ s₂) ∧ Reads node t₁ [x] (t₂ ++ (s₂ ++ u)) ∧
      Reads (star chainTurn) t₂ xs (s₂ ++ u) ∧ collect (nodeOf fe) (x :: xs) = .ok cs ∧ SepL u s₂ := by
  induction h with
  | @one c t h =>
    obtain ⟨w, s', rfl, h1, h2, h3⟩ := sep_trim hs hu
    rw [List.append_assoc] at he
    obtain ⟨x, h4, h5⟩ := reads_node fe h he h1 h3
    have hc : collect (nodeOf fe) [x] = .ok [c] := by
      simp only [collect, h5]
      rfl
    rcases h4 with h4 | h4
    · obtain ⟨s₁, s₂, e, h6, h7⟩ := sep_chain hs hu
      refine ⟨x, [], t, s₁, s₂, by rw [e], ?_, h7, hc, h6⟩
      rw [← List.append_assoc, e] at h4
      rwa [List.append_assoc] at h4
    · obtain ⟨s₁, s₂, rfl, h6, h7⟩ := sep_chain h2 hu
      refine ⟨x, [], t ++ w, s₁, s₂, by simp, ?_, h7, hc, h6⟩
      rwa [List.append_assoc] at h4
  | @cons c cs t j d v h hj hd hv ih =>
    obtain ⟨x, xs, t₁, t₂, s₂, e, h1, h2, h3, h4⟩ := ih
    have hfirst : ∀ c ∈ (t₁ ++ (t₂ ++ (s₂ ++ u))).head?, ¬ Blank c := by
      have : t₁ ++ (t₂ ++ (s₂ ++ u)) = v ++ (s ++ u) := by
        rw [← List.append_assoc v, e]
        simp
      rw [this]
      exact chain_notBlank hv _
    have h6 : Reads (seqs [lit ['>', '>'], star blank, node]) ('>' :: ('>' :: (d ++ t₁))) [x] (t₂ ++ (s₂ ++ u)) := by
      have h7 : Reads (star blank) d [] (t₁ ++ (t₂ ++ (s₂ ++ u))) := reads_blanks hd hfirst
      exact reads_cons (t := c!">>") (ps := []) (reads_lit _ _) (reads_cons (ps := []) h7 (reads_one h1))
    have hcol : ∀ y, nodeOf fe y = .ok c → collect (nodeOf fe) (y :: x :: xs) = .ok (c :: cs) := by
      intro y hy
      rw [collect]
      simp only [hy, h3]
      rfl
    -- the text after the component
    have etot : ∀ j' : Name, j' ++ ('>' :: '>' :: (d ++ (v ++ s))) = (j' ++ ('>' :: ('>' :: (d ++ t₁)) ++ t₂)) ++ s₂ := by
      intro j'
      rw [e]
      simp
    obtain ⟨w, j', rfl, k1, k2, k3⟩ := join_trim hj
    have hq : Quiet (j' ++ ('>' :: '>' :: (d ++ (v ++ (s ++ u))))) := by
      rcases k3 with rfl | ⟨r, rfl⟩
      · refine quiet_of ?_
        intro c hc
        have : ¬ Space '>' := not_space (by decide)
        cases hc
        exact ⟨this, by decide, by decide, by decide⟩
      · exact quiet_slash _
    have hends : Ends (w ++ (j' ++ ('>' :: '>' :: (d ++ (v ++ (s ++ u)))))) := by
      obtain ⟨a, r, rfl, ha, hr⟩ := spaces_first k1
      refine ⟨a, r ++ (j' ++ ('>' :: '>' :: (d ++ (v ++ (s ++ u))))), by simp, ha, ?_⟩
      rcases hr with rfl | ⟨r', rfl, _, _⟩
      · rcases k3 with rfl | ⟨r, rfl⟩
        · intro c hc
          cases hc
          simp [EndChar]
        · intro c hc
          cases hc
          simp [EndChar]
      · intro c hc
        cases hc
        simp [EndChar]
    obtain ⟨y, h8, h9⟩ := reads_node fe h hends k1 hq
    rcases h8 with h8 | h8
    · have h10 := reads_joined hj h6 h2
      refine ⟨y, x :: xs, t, _, s₂, ?_, ?_, h10, hcol y h9, h4⟩
      · have := etot (w ++ j')
        rw [← this]
        simp
      · have := etot (w ++ j')
        rw [← List.append_assoc _ s₂ u, ← this]
        simpa using h8
    · have h10 := reads_joined k2 h6 h2
      refine ⟨y, x :: xs, t ++ w, _, s₂, ?_, ?_, h10, hcol y h9, h4⟩
      · have := etot j'
        rw [← this]
        simp
      · have := etot j'
        rw [← List.append_assoc _ s₂ u, ← this]
        simpa using h8

/-! ## Lines -/

theorem reads_line {fe : Name → Option Fl} {l : Name × List Comp} {t s u : Name} (h : WLine fe l t) (hs : SepL u s)
    (he : Ends (s ++ u)) (hu : Clear u) :
    ∃ x t₁ s₂, t ++ s = t₁ ++ s₂ ∧ Reads line t₁ [x] (s₂ ++ u) ∧ lineOf fe x = .ok l ∧ x.rule = .line ∧ SepL u s₂ := by
  cases h with
  | @mk k a b t cs hk ha hb ht =>
    obtain ⟨x, xs, t₁, t₂, s₂, e, h1, h2, h3, h4⟩ := reads_chain ht hs he hu
    have hch : Reads chain (t₁ ++ t₂) [.mk .chain (t₁ ++ t₂) (x :: xs)] (s₂ ++ u) := reads_tok (reads_seq h1 h2)
    have hfirst : ∀ c ∈ ((t₁ ++ t₂) ++ (s₂ ++ u)).head?, ¬ Blank c := by
      have : (t₁ ++ t₂) ++ (s₂ ++ u) = t ++ (s ++ u) := by
        rw [← List.append_assoc t, e]
        simp
      rw [this]
      exact chain_notBlank ht _
    have hcol : ∀ r : Name, ∀ c ∈ ((':' :: r) : Name).head?, ¬ Blank c := by
      intro r c hc
      cases hc
      intro hb
      have := blank_toNat hb
      revert this
      decide
    have h5 : Reads (star blank) b [] ((t₁ ++ t₂) ++ (s₂ ++ u)) := reads_blanks hb hfirst
    have h6 : Reads (star blank) a [] ((':' :: (b ++ (t₁ ++ t₂))) ++ (s₂ ++ u)) := reads_blanks ha (hcol _)
    have hstop : NameStop ((a ++ (':' :: (b ++ (t₁ ++ t₂)))) ++ (s₂ ++ u)) := by
      intro c hc
      cases a with
      | nil =>
        cases hc
        refine ⟨?_, by decide⟩
        rintro (h | h | h)
        · exact absurd h (by decide)
        · exact absurd h (by decide)
        · exact not_digit (by decide) h
      | cons d a =>
        cases hc
        exact ⟨stop_notTail (Or.inl (ha c (by simp))), stop_ne (Or.inl (ha c (by simp))) (by decide)⟩
    obtain ⟨l, hl⟩ := reads_name hk hstop
    have h7 := reads_cons (p := lit [':']) (t := [':']) (ps := []) (reads_lit _ _) (reads_cons (ps := []) h5 (reads_one hch))
    have h8 := reads_cons hl (reads_cons (ps := []) h6 h7)
    refine ⟨_, _, s₂, ?_, reads_tok h8, ?_, rfl, h4⟩
    · have : k ++ (a ++ (':' :: (b ++ t))) ++ s = k ++ (a ++ (':' :: (b ++ (t ++ s)))) := by simp
      rw [this, e]
      simp
    · simp only [lineOf, Pair.inner, List.cons_append, List.nil_append, next, bind, Except.bind, Pair.rule, Pair.text, if_true,
        h3]

/-- The part of an item after the line. -/
abbrev afterLine : List Peg :=
  [star blank, opt (lit [';']), star blank, star (seq (lit ['\n']) (star blank))]

theorem reads_newlines {w u : Name} (hw : Spaces w) (hs : w = [] ∨ ∃ r, w = '\n' :: r) (hu : ∀ c ∈ u.head?, ¬ Space c) :
    Reads (star (seq (lit ['\n']) (star blank))) w [] u := by
  obtain ⟨k, hk⟩ : ∃ k, w.length = k := ⟨_, rfl⟩
  induction k using Nat.strong_induction_on generalizing w with
  | _ k ih =>
    rcases hs with rfl | ⟨r, rfl⟩
    · exact reads_star_nil (seq_none_left (lit_head_none (fun c hc hx => hu c hc (Or.inr hx))))
    · obtain ⟨a, r', rfl, ha, hr⟩ := spaces_first (w := r) (fun c hc => hw c (by simp [hc]))
      have hr' : Spaces r' := fun c hc => hw c (by simp [hc])
      have hs' : r' = [] ∨ ∃ r, r' = '\n' :: r := by
        rcases hr with rfl | ⟨r, rfl, _, _⟩
        · exact Or.inl rfl
        · exact Or.inr ⟨r, rfl⟩
      have h1 : Reads (star blank) a [] (r' ++ u) := reads_blanks ha (by
        rcases hs' with rfl | ⟨r, rfl⟩
        · exact fun c hc hx => hu c hc (Or.inl hx)
        · exact newline_notBlank)
      have h2 : Reads (seq (lit ['\n']) (star blank)) ('\n' :: a) [] (r' ++ u) :=
        reads_seq (t := ['\n']) (ps := []) (qs := []) (reads_lit _ _) h1
      exact reads_star_cons (ps := []) (qs := []) (eats_seq_left (eats_lit (by simp))) h2
        (ih r'.length (by simp at hk; omega) hr' hs' rfl)

/-- Blanks, then line ends. -/
theorem reads_rest {w u : Name} (hw : Spaces w) (hu : ∀ c ∈ u.head?, ¬ Space c) :
    Reads (seqs [star blank, star (seq (lit ['\n']) (star blank))]) w [] u := by
  obtain ⟨a, r, rfl, ha, hr⟩ := spaces_first hw
  have hs : r = [] ∨ ∃ r', r = '\n' :: r' := by
    rcases hr with rfl | ⟨r, rfl, _, _⟩
    · exact Or.inl rfl
    · exact Or.inr ⟨r, rfl⟩
  have h1 : Reads (star blank) a [] (r ++ u) := reads_blanks ha (by
    rcases hs with rfl | ⟨r, rfl⟩
    · exact fun c hc hx => hu c hc (Or.inl hx)
    · exact newline_notBlank)
  exact reads_cons (ps := []) h1 (reads_one (reads_newlines (fun c hc => hw c (by simp [hc])) hs hu))

theorem reads_after {w u : Name} (hw : Spaces w) (hu : ∀ c ∈ u.head?, ¬ Space c ∧ c ≠ ';') :
    Reads (seqs afterLine) w [] u := by
  obtain ⟨a, r, rfl, ha, hr⟩ := spaces_first hw
  have hr' : Spaces r := fun c hc => hw c (by simp [hc])
  have hns : ∀ c ∈ (r ++ u).head?, ¬ Blank c ∧ c ≠ ';' := by
    rcases hr with rfl | ⟨r, rfl, _, _⟩
    · exact fun c hc => ⟨fun hx => (hu c hc).1 (Or.inl hx), (hu c hc).2⟩
    · intro c hc
      have := newline_notBlank c hc
      cases hc
      exact ⟨this, by decide⟩
  have h1 : Reads (star blank) a [] (r ++ u) := reads_blanks ha (fun c hc => (hns c hc).1)
  have h2 : Reads (opt (lit [';'])) [] [] (r ++ u) := reads_opt_none (lit_head_none (fun c hc => (hns c hc).2))
  exact reads_cons (ps := []) h1 (reads_cons (t := []) (ps := []) h2 (reads_rest hr' (fun c hc => (hu c hc).1)))

/-- What is left after an item: nothing or comments. -/
theorem sep_after {u s : Name} (h : SepL u s) (hu : Clear u) :
    ∃ s₁ s₂, s = s₁ ++ s₂ ∧ Triv u s₂ ∧ (s₂ = [] ∨ ∃ r, s₂ = '/' :: '/' :: r) ∧ Reads (seqs afterLine) s₁ [] (s₂ ++ u) := by
  have hh : ∀ {t' : Name}, (t' = [] ∨ ∃ r, t' = '/' :: '/' :: r) → ∀ c ∈ (t' ++ u).head?, ¬ Space c ∧ c ≠ ';' := by
    intro t' ht c hc
    rcases ht with rfl | ⟨r, rfl⟩
    · exact ⟨clear_space hu c hc, (hu c hc).2.2.2.2.1⟩
    · have := slash_notSpace c hc
      cases hc
      exact ⟨this, by decide⟩
  cases h with
  | triv h =>
    obtain ⟨w, t', rfl, h1, h2, h3⟩ := triv_split h
    exact ⟨w, t', rfl, h2, h3, reads_after h1 (hh h3)⟩
  | @semi a t ha ht =>
    obtain ⟨w, t', rfl, h1, h2, h3⟩ := triv_split ht
    have h4 : Reads (star blank) a [] ((';' :: w) ++ (t' ++ u)) := reads_blanks ha semi_notBlank
    have h5 : Reads (opt (lit [';'])) [';'] [] (w ++ (t' ++ u)) := reads_opt (reads_lit _ _)
    exact ⟨a ++ (';' :: w), t', by simp, h2, h3, reads_cons (ps := []) h4 (reads_cons (t := [';']) (ps := []) h5
      (reads_rest h1 (fun c hc => (hh h3 c hc).1)))⟩

theorem reads_item {fe : Name → Option Fl} {l : Name × List Comp} {t s u : Name} (h : WLine fe l t) (hs : SepL u s)
    (he : Ends (s ++ u)) (hu : Clear u) :
    ∃ x t₁ s₂, t ++ s = t₁ ++ s₂ ∧ Reads item t₁ [x] (s₂ ++ u) ∧ lineOf fe x = .ok l ∧ x.rule = .line ∧ Triv u s₂ ∧
      (s₂ = [] ∨ ∃ r, s₂ = '/' :: '/' :: r) := by
  obtain ⟨x, t₁, s₂, e, h1, h2, h3, h4⟩ := reads_line h hs he hu
  obtain ⟨s₃, s₄, rfl, h5, h6, h7⟩ := sep_after h4 hu
  rw [List.append_assoc] at h1
  have := reads_cons (reads_alt_left (q := comment) h1) h7
  rw [List.append_nil] at this
  exact ⟨x, t₁ ++ s₃, s₄, by rw [e]; simp, this, h2, h3, h5, h6⟩

/-- Comments on lines of their own. -/
theorem items_triv {u t : Name} {xs : List Pair} (h : Triv u t) (hs : t = [] ∨ ∃ r, t = '/' :: '/' :: r) (hu : Clear u)
    (hi : Reads (star item) u xs []) : Reads (star item) (t ++ u) xs [] := by
  obtain ⟨k, hk⟩ : ∃ k, t.length = k := ⟨_, rfl⟩
  induction k using Nat.strong_induction_on generalizing t with
  | _ k ih =>
    rcases hs with rfl | hs
    · exact hi
    · obtain ⟨t₁, t₂, rfl, hl, h1, h2, h3⟩ := reads_comment h hu hs
      obtain ⟨t₃, t₄, rfl, h4, h5, h6⟩ := sep_after (.triv h1) hu
      have h7 := ih t₄.length (by simp at hk hl ⊢; omega) h4 h5 rfl
      have hline : line (t₁ ++ ((t₃ ++ t₄) ++ u)) = none := by
        obtain ⟨r, rfl⟩ := h3
        refine tok_none (seq_none_left (reference_none ?_))
        intro c hc
        cases hc
        decide
      have h8 := reads_alt_right hline h2
      rw [List.append_assoc] at h8
      have h9 := reads_cons (ps := []) h8 h6
      have h10 : Reads item (t₁ ++ t₃) [] ((t₄ ++ u) ++ []) := by
        rw [List.append_nil]
        exact h9
      have := reads_star_cons (ps := []) eats_item h10 h7
      simpa using this

theorem line_clear {fe : Name → Option Fl} {l : Name × List Comp} {t : Name} (h : WLine fe l t) (u : Name) : Clear (t ++ u) := by
  cases h with
  | mk hk _ _ _ =>
    obtain ⟨c, w, e, hc⟩ := wname_head hk
    subst e
    intro d hd
    cases hd
    refine ⟨nameHead_notBlank hc, ?_⟩
    rcases hc with rfl | rfl | hc
    · decide
    · decide
    · exact ⟨lower_ne hc (by decide), lower_ne hc (by decide), lower_ne hc (by decide), lower_ne hc (by decide),
        lower_ne hc (by decide), lower_ne hc (by decide), lower_ne hc (by decide)⟩

theorem body_clear {fe : Name → Option Fl} {ls : List (Name × List Comp)} {t : Name} (h : WBody fe ls t) (u : Name) :
    Clear (t ++ u) := by
  cases h with
  | last h _ => rw [List.append_assoc]; exact line_clear h _
  | lastSep h _ => rw [List.append_assoc]; exact line_clear h _
  | lastRemark h _ _ => rw [List.append_assoc]; exact line_clear h _
  | cons h _ _ => rw [List.append_assoc]; exact line_clear h _

theorem blanks_spaces {a : Name} (h : Blanks a) : Spaces a := fun c hc => Or.inl (h c hc)

theorem triv_lines {u s t : Name} (hs : WLines s) (ht : Triv u t) : Triv u (s ++ t) := by
  induction hs with
  | nil => exact ht
  | @cons a s ha _ ih =>
    rw [List.cons_append, List.append_assoc]
    exact .space (Or.inr rfl) (triv_spaces (blanks_spaces ha) ih)
  | @remark m a s hm ha _ ih =>
    have := Triv.remark hm (triv_spaces (blanks_spaces ha) ih)
    simpa using this

theorem sep_sepL {u s t : Name} (hs : WSep s) (ht : Triv u t) : SepL u (s ++ t) := by
  cases hs with
  | @semi a b s ha hb hs =>
    have := SepL.semi ha (triv_spaces (blanks_spaces hb) (triv_lines hs ht))
    simpa using this
  | @lines a s ha _ hs =>
    rw [List.append_assoc]
    exact .triv (triv_spaces (blanks_spaces ha) (triv_lines hs ht))

theorem sep_ends {s u : Name} (hs : WSep s) : Ends (s ++ u) := by
  cases hs with
  | @semi a b s ha hb hs => exact ⟨a, (';' :: (b ++ s)) ++ u, by simp, ha, by simp [EndChar]⟩
  | @lines a s ha hne hs =>
    refine ⟨a, s ++ u, by simp, ha, ?_⟩
    cases hs with
    | nil => exact absurd rfl hne
    | cons _ _ => intro c hc; cases hc; simp [EndChar]
    | remark _ _ _ => intro c hc; cases hc; simp [EndChar]

theorem item_nil : item [] = none := by kernel_rfl

theorem clear_nil : Clear [] := by simp [Clear]

theorem reads_items {fe : Name → Option Fl} {ls : List (Name × List Comp)} {t : Name} (h : WBody fe ls t) :
    ∃ xs, Reads (star item) t xs [] ∧ collect (lineOf fe) xs = .ok ls ∧ ∀ x ∈ xs, x.rule = .line := by
  have step : ∀ {l : Name × List Comp} {ls : List (Name × List Comp)} {t s u : Name} {xs : List Pair}, WLine fe l t → SepL u s →
      Ends (s ++ u) → Clear u → Reads (star item) u xs [] → collect (lineOf fe) xs = .ok ls → (∀ x ∈ xs, x.rule = .line) →
      ∃ xs, Reads (star item) (t ++ (s ++ u)) xs [] ∧ collect (lineOf fe) xs = .ok (l :: ls) ∧ ∀ x ∈ xs, x.rule = .line := by
    intro l ls t s u xs hl hs he hu hi hc hr
    obtain ⟨x, t₁, s₂, e, h1, h2, h3, h4, h5⟩ := reads_item hl hs he hu
    have h6 := items_triv h4 h5 hu hi
    have h7 : Reads item t₁ [x] ((s₂ ++ u) ++ []) := by
      rw [List.append_nil]
      exact h1
    have h8 := reads_star_cons eats_item h7 h6
    refine ⟨x :: xs, ?_, ?_, ?_⟩
    · rw [← List.append_assoc, e]
      simpa using h8
    · simp only [collect, h2, hc]
      rfl
    · intro y hy
      rcases List.mem_cons.mp hy with rfl | hy
      · exact h3
      · exact hr y hy
  have none : Reads (star item) [] [] [] := reads_star_nil item_nil
  induction h with
  | @last l t b h hb =>
    have := step h (.triv (triv_spaces (blanks_spaces hb) .nil)) ⟨b, [], by simp, hb, by simp⟩ clear_nil none rfl (by simp)
    simpa using this
  | @lastSep l t s h hs =>
    have := step h (sep_sepL hs (u := []) .nil) (by rw [List.append_assoc]; exact sep_ends hs) clear_nil none rfl (by simp)
    simpa using this
  | @lastRemark l t s m h hs hm =>
    have hlast : Triv [] (c!"//" ++ m) := .last rfl hm
    have h1 : SepL [] (s ++ (c!"//" ++ m)) := by
      rcases hs with hs | hs
      · exact .triv (triv_spaces (blanks_spaces hs) hlast)
      · exact sep_sepL hs hlast
    have h2 : Ends ((s ++ (c!"//" ++ m)) ++ []) := by
      rcases hs with hs | hs
      · exact ⟨s, (c!"//" ++ m), by simp, hs, by simp [EndChar]⟩
      · rw [List.append_assoc]
        exact sep_ends hs
    have := step h h1 h2 clear_nil none rfl (by simp)
    simpa using this
  | @cons l ls t s w h hs hw ih =>
    obtain ⟨xs, h6, h7, h8⟩ := ih
    have hcl : Clear w := by
      have := body_clear hw []
      rwa [List.append_nil] at this
    have hsl : SepL w s := by
      have := sep_sepL hs (u := w) .nil
      rwa [List.append_nil] at this
    exact step h hsl (sep_ends hs) hcl h6 h7 h8

theorem reads_margin {w u : Name} (hw : Spaces w) (hu : ∀ c ∈ u.head?, ¬ Space c) :
    Reads (star (alt (lit ['\n']) blank)) w [] u := by
  induction w with
  | nil =>
    refine reads_star_nil ((alt_right (lit_head_none (fun c hc hx => hu c hc (Or.inr hx)))).trans ?_)
    exact chr_head_none (fun c hc => isBlank_false (fun hx => hu c hc (Or.inl hx)))
  | cons c w ih =>
    have h1 : Reads (alt (lit ['\n']) blank) [c] [] (w ++ u) := by
      rcases hw c (by simp) with h | rfl
      · refine reads_alt_right (lit_head_none ?_) ?_
        · intro d hd
          cases hd
          rintro rfl
          exact endChar_notBlank (Or.inl rfl) h
        · unfold Reads blank
          simp only [List.cons_append, List.nil_append, chr, isBlank_iff.mpr h, if_true]
      · exact reads_alt_left (reads_lit _ _)
    exact reads_star_cons (t := [c]) (ps := []) (eats_alt (eats_lit (by simp)) eats_blank) h1
      (ih (fun d hd => hw d (by simp [hd])))

theorem collect_filter {fe : Name → Option Fl} {xs : List Pair} {ls : List (Name × List Comp)}
    (h : collect (lineOf fe) xs = .ok ls) (hr : ∀ x ∈ xs, x.rule = .line) :
    collect (lineOf fe) (xs.filter (fun p => decide (p.rule = .line))) = .ok ls := by
  rw [List.filter_eq_self.mpr (fun x hx => by simp [hr x hx])]
  exact h

/-- A written program is read back. -/
theorem getAst_written {fe : Name → Option Fl} {ls : List (Name × List Comp)} {t : Name} (h : WProg fe ls t) :
    getAst fe t = .ok (putAll ls []) := by
  obtain ⟨xs, h1, h2, h3⟩ : ∃ xs, Reads (seqs [star (alt (lit ['\n']) blank), star item, eoi]) t xs [] ∧
      collect (lineOf fe) xs = .ok ls ∧ ∀ x ∈ xs, x.rule = .line := by
    have whole : ∀ {s u : Name} {xs : List Pair}, Triv u s → Clear u → Reads (star item) u xs [] →
        Reads (seqs [star (alt (lit ['\n']) blank), star item, eoi]) (s ++ u) xs [] := by
      intro s u xs hs hu hi
      obtain ⟨w, t', rfl, k1, k2, k3⟩ := triv_split hs
      have k4 := items_triv k2 k3 hu hi
      have k5 : Reads (star (alt (lit ['\n']) blank)) w [] ((t' ++ u) ++ []) := by
        rw [List.append_nil]
        refine reads_margin k1 ?_
        rcases k3 with rfl | ⟨r, rfl⟩
        · exact clear_space hu
        · exact slash_notSpace
      have k6 : Reads (seqs [eoi]) [] [] [] := by unfold Reads; kernel_rfl
      have k7 := reads_cons (t' := []) (by simpa using k4) k6
      rw [List.append_nil, List.append_nil] at k7
      rw [List.append_assoc]
      exact reads_cons (ps := []) k5 k7
    have none : Reads (star item) [] [] [] := reads_star_nil item_nil
    cases h with
    | @empty w s hw hs =>
      have := whole (triv_spaces hw (triv_lines hs (u := []) .nil)) clear_nil none
      exact ⟨[], by simpa using this, rfl, by simp⟩
    | @emptyRemark w s m hw hs hm =>
      have := whole (triv_spaces hw (triv_lines hs (.last rfl hm))) clear_nil none
      exact ⟨[], by simpa using this, rfl, by simp⟩
    | @body w s t _ hw hs hb =>
      obtain ⟨xs, h1, h2, h3⟩ := reads_items hb
      have hcl : Clear t := by
        have := body_clear hb []
        rwa [List.append_nil] at this
      have := whole (triv_spaces hw (triv_lines hs (u := t) .nil)) hcl h1
      exact ⟨xs, by simpa using this, h2, h3⟩
  have h4 := reads_tok (r := .block) h1
  unfold Reads at h4
  rw [List.append_nil] at h4
  have h5 : block t = some (t, [.mk .block t xs], []) := h4
  simp only [getAst, h5, Pair.inner, collect_filter h2 h3, bind, Except.bind]

end Verif.Read
