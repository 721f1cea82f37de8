import Verif.Lemmas.ReadNum

/-! # Reading back names, symbols and lists -/

namespace Verif.Read
open Peg Grammar Spec Parse

/-! ## Natural numbers -/

theorem digitsVal_digits {t : Name} (h : ∀ c ∈ t, Digit c) (acc : Nat) :
    digitsVal t acc = some (t.foldl (fun n c => 10 * n + (c.toNat - 48)) acc) := by
  induction t generalizing acc with
  | nil => rfl
  | cons c t ih =>
    have hc : c.isDigit = true := by
      have := digit_nat (h c (by simp))
      simp only [Char.isDigit, Bool.and_eq_true, decide_eq_true_eq]
      exact h c (by simp)
    simp only [digitsVal, hc, if_true, List.foldl_cons, ih (fun x hx => h x (by simp [hx]))]
    rw [Nat.mul_comm]

theorem parseUInt_nat {n max : Nat} {t : Name} (h : WNat n t) (hn : n ≤ max) : parseUInt max t = some n := by
  have key : ∀ t, Digits t → decimal t ≤ max → stripPlus t = t → parseUInt max t = some (decimal t) := by
    intro t ht hm hs
    unfold parseUInt
    rw [hs]
    obtain ⟨hne, hd⟩ := ht
    cases t with
    | nil => exact absurd rfl hne
    | cons c t =>
      simp only [digitsVal_digits hd]
      rw [if_pos]
      · rfl
      · exact hm
  cases h with
  | plain h =>
    refine key t h hn ?_
    obtain ⟨hne, hd⟩ := h
    cases t with
    | nil => rfl
    | cons c t =>
      have := digit_ne (d := '+') (hd c (by simp)) (by decide)
      unfold stripPlus
      split
      · rename_i e; simp at e; exact absurd e.1 this
      · rfl
  | @plus t h =>
    have := key t h hn (by
      obtain ⟨hne, hd⟩ := h
      cases t with
      | nil => rfl
      | cons c t =>
        have := digit_ne (d := '+') (hd c (by simp)) (by decide)
        unfold stripPlus
        split
        · rename_i e; simp at e; exact absurd e.1 this
        · rfl)
    rw [← this]
    unfold parseUInt
    have h2 : stripPlus t = t := by
      obtain ⟨hne, hd⟩ := h
      cases t with
      | nil => rfl
      | cons c t =>
        have := digit_ne (d := '+') (hd c (by simp)) (by decide)
        unfold stripPlus
        split
        · rename_i e; simp at e; exact absurd e.1 this
        · rfl
    rw [h2]
    rfl

/-! ## Names -/

/-- What may follow a name. -/
def NameStop (u : Name) : Prop := ∀ c ∈ u.head?, ¬ TailChar c ∧ c ≠ '.'

theorem isTail_iff {c : Char} : (c == '_' || isLower c || isDigit c) = true ↔ TailChar c := by
  simp only [Bool.or_eq_true, beq_iff_eq, isLower_iff, isDigit_iff, TailChar]
  tauto

theorem isTail_false {c : Char} (h : ¬ TailChar c) : (c == '_' || isLower c || isDigit c) = false := by
  cases hb : (c == '_' || isLower c || isDigit c) with
  | false => rfl
  | true => exact absurd (isTail_iff.mp hb) h

theorem isLower_false {c : Char} (h : ¬ TailChar c) : isLower c = false := by
  cases hb : isLower c with
  | false => rfl
  | true => exact absurd (Or.inr (Or.inl (isLower_iff.mp hb))) h

/-- The part of a name after the sigil. -/
theorem reads_body {c : Char} {t d u : Name} (hc : 'a' ≤ c ∧ c ≤ 'z') (ht : ∀ x ∈ t, TailChar x)
    (hd : d = [] ∨ d = ['.', '.']) (hu : NameStop u) :
    ∃ l, Reads (seqs [plus Grammar.lower, nameTail, opt (tok .looseMatch (lit ['.', '.']))]) (c :: (t ++ d)) l u := by
  have hdu : ∀ x ∈ (d ++ u).head?, ¬ TailChar x := by
    rcases hd with rfl | rfl
    · exact fun x hx => (hu x hx).1
    · intro x hx
      simp at hx
      subst hx
      intro h
      rcases h with h | h | h
      · exact absurd h (by decide)
      · exact absurd h (by decide)
      · exact not_digit (by decide) h
  have hl : ∀ x ∈ (c :: t).takeWhile isLower, isLower x = true := fun x hx => List.all_eq_true.mp List.all_takeWhile x hx
  have hr : ∀ x ∈ (c :: t).dropWhile isLower, TailChar x := by
    intro x hx
    rcases List.mem_cons.mp ((List.dropWhile_suffix isLower).subset hx) with rfl | h
    · exact Or.inr (Or.inl hc)
    · exact ht x h
  have hne : (c :: t).takeWhile isLower ≠ [] := by
    simp [List.takeWhile, isLower_iff.mpr hc]
  have hstop : ∀ x ∈ ((c :: t).dropWhile isLower ++ (d ++ u)).head?, isLower x = false := by
    intro x hx
    cases hdw : (c :: t).dropWhile isLower with
    | nil => rw [hdw] at hx; exact isLower_false (hdu x hx)
    | cons y ys =>
      rw [hdw] at hx
      simp at hx
      subst hx
      have := List.head?_dropWhile_not isLower (c :: t)
      rw [hdw] at this
      simpa using this
  have h1 : Reads (plus Grammar.lower) ((c :: t).takeWhile isLower) [] ((c :: t).dropWhile isLower ++ (d ++ u)) :=
    reads_plus_chr hne hl hstop
  have h2 : Reads nameTail ((c :: t).dropWhile isLower) [] (d ++ u) :=
    reads_star_chr (fun x hx => isTail_iff.mpr (hr x hx)) (fun x hx => isTail_false (hdu x hx))
  have h3 : ∃ l, Reads (opt (tok .looseMatch (lit ['.', '.']))) d l u := by
    rcases hd with rfl | rfl
    · exact ⟨[], reads_opt_none (tok_none (lit_head_none (fun x hx => (hu x hx).2)))⟩
    · exact ⟨_, reads_opt (reads_tok (reads_lit _ _))⟩
  obtain ⟨l, h3⟩ := h3
  have h23 := reads_cons h2 (reads_one h3)
  have h123 := reads_cons (t' := (c :: t).dropWhile isLower ++ d) (u := u) (by rw [List.append_assoc]; exact h1) h23
  rw [← List.append_assoc, List.takeWhile_append_dropWhile] at h123
  exact ⟨_, h123⟩

theorem reads_name {r u : Name} (h : WName r) (hu : NameStop u) :
    ∃ l, Reads reference r [.mk .reference r l] u := by
  cases h with
  | bare h =>
    cases h with
    | @mk c t d h1 h2 h3 h4 =>
      obtain ⟨l, hl⟩ := reads_body ⟨h1, h2⟩ h3 h4 hu
      refine ⟨_, reads_tok (reads_cons (t := []) (reads_opt_none (chr_head_none ?_)) hl)⟩
      intro x hx
      simp at hx
      subst hx
      have a := lower_ne (d := '~') ⟨h1, h2⟩ (by decide)
      have b := lower_ne (d := '_') ⟨h1, h2⟩ (by decide)
      simp [a, b]
  | ref h =>
    cases h with
    | @mk s t hs h =>
      cases h with
      | @mk c t d h1 h2 h3 h4 =>
        obtain ⟨l, hl⟩ := reads_body ⟨h1, h2⟩ h3 h4 hu
        refine ⟨_, reads_tok (reads_cons (t := [s]) (ps := []) (reads_opt ?_) hl)⟩
        rcases hs with rfl | rfl <;> rfl

theorem nodeName_none {u : Name} (h : ∀ c ∈ u.head?, ¬ ('a' ≤ c ∧ c ≤ 'z') ∧ c ≠ '*') : nodeName u = none := by
  have key : ∀ ws : List Name, (∀ w ∈ ws, ∃ d w', w = d :: w' ∧ (isLower d = true ∨ d = '*')) →
      alts (ws.map lit) u = none := by
    intro ws
    induction ws with
    | nil => intro _; rfl
    | cons w ws ih =>
      intro hws
      obtain ⟨d, w', rfl, hd⟩ := hws w (by simp)
      refine (alt_right ?_).trans (ih (fun w hw => hws w (by simp [hw])))
      refine lit_head_none ?_
      rintro c hc rfl
      rcases hd with hd | hd
      · exact (h c hc).1 (isLower_iff.mp hd)
      · exact (h c hc).2 hd
  have heads : ∀ ws : List Name, ws.all (fun w => match w with | [] => false | d :: _ => isLower d || d == '*') = true →
      ∀ w ∈ ws, ∃ d w', w = d :: w' ∧ (isLower d = true ∨ d = '*') := by
    intro ws hws w hw
    have := List.all_eq_true.mp hws w hw
    cases w with
    | nil => simp at this
    | cons d w' => exact ⟨d, w', rfl, by simpa using this⟩
  exact key _ (heads _ (by decide +kernel))

theorem reference_none {u : Name} (h : ∀ c ∈ u.head?, ¬ ('a' ≤ c ∧ c ≤ 'z') ∧ c ≠ '~' ∧ c ≠ '_') :
    reference u = none := by
  refine tok_none ?_
  simp only [seqs]
  have h1 : Reads (opt (chr (fun c => c == '~' || c == '_'))) [] [] u := by
    refine reads_opt_none (chr_head_none ?_)
    intro c hc
    have := h c hc
    simp [this.2.1, this.2.2]
  have h2 : plus Grammar.lower u = none := by
    refine seq_none_left (chr_head_none ?_)
    intro c hc
    cases hb : isLower c with
    | false => rfl
    | true => exact absurd (isLower_iff.mp hb) (h c hc).1
  exact seq_none_right h1 (seq_none_left h2)

/-- The first character of a numeral. -/
def NumHead (c : Char) : Prop := c = '+' ∨ c = '-' ∨ Digit c

theorem wint_head {v : Fl} {t : Name} (h : WInt v t) : ∃ c w, t = c :: w ∧ NumHead c := by
  cases h with
  | mk hs ht =>
    obtain ⟨hne, hd⟩ := ht
    cases hs with
    | none =>
      rename_i t'
      cases t' with
      | nil => exact absurd rfl hne
      | cons c w => exact ⟨c, w, rfl, Or.inr (Or.inr (hd c (by simp)))⟩
    | plus => exact ⟨'+', _, rfl, Or.inl rfl⟩
    | minus => exact ⟨'-', _, rfl, Or.inr (Or.inl rfl)⟩

theorem wnum_head {v : Fl} {t : Name} (h : WNum v t) : ∃ c w, t = c :: w ∧ NumHead c := by
  cases h with
  | int h => exact wint_head h
  | @dec n s i f hs hi hf | @exp n m s i f s' x e hs hi hf he hs' hx =>
    obtain ⟨hne, hd⟩ := hi
    cases hs with
    | none =>
      cases i with
      | nil => exact absurd rfl hne
      | cons c w => exact ⟨c, _, rfl, Or.inr (Or.inr (hd c (by simp)))⟩
    | plus => exact ⟨'+', _, rfl, Or.inl rfl⟩
    | minus => exact ⟨'-', _, rfl, Or.inr (Or.inl rfl)⟩

theorem numHead_nat {c : Char} (h : NumHead c) : c.toNat = 43 ∨ c.toNat = 45 ∨ (48 ≤ c.toNat ∧ c.toNat ≤ 57) := by
  rcases h with rfl | rfl | h
  · exact Or.inl rfl
  · exact Or.inr (Or.inl rfl)
  · exact Or.inr (Or.inr (digit_nat h))

/-- A character whose code is not one of these. -/
theorem ne_of_nat {c d : Char} (h : c.toNat ≠ d.toNat) : c ≠ d := by rintro rfl; exact h rfl

theorem numHead_notLower {c : Char} (h : NumHead c) : ¬ ('a' ≤ c ∧ c ≤ 'z') := by
  intro h'
  have := lower_nat h'
  have := numHead_nat h
  omega

theorem numHead_ne {c d : Char} (h : NumHead c) (hd : d.toNat ≠ 43 ∧ d.toNat ≠ 45 ∧ (d.toNat < 48 ∨ 57 < d.toNat)) :
    c ≠ d := by
  apply ne_of_nat
  have := numHead_nat h
  omega

theorem numHead_notBlank {c : Char} (h : NumHead c) : ¬ Blank c := by
  intro hb
  have := blank_toNat hb
  have := numHead_nat h
  omega

theorem wbare_head {t : Name} (h : WBare t) : ∃ c w, t = c :: w ∧ 'a' ≤ c ∧ c ≤ 'z' := by
  cases h with
  | mk h1 h2 _ _ => exact ⟨_, _, rfl, h1, h2⟩

theorem wref_head {t : Name} (h : WRef t) : ∃ c w, t = c :: w ∧ (c = '~' ∨ c = '_') := by
  cases h with
  | mk h1 _ => exact ⟨_, _, rfl, h1⟩

theorem wname_head {t : Name} (h : WName t) : ∃ c w, t = c :: w ∧ (c = '~' ∨ c = '_' ∨ ('a' ≤ c ∧ c ≤ 'z')) := by
  cases h with
  | bare h => obtain ⟨c, w, e, h1, h2⟩ := wbare_head h; exact ⟨c, w, e, Or.inr (Or.inr ⟨h1, h2⟩)⟩
  | ref h => obtain ⟨c, w, e, h⟩ := wref_head h; exact ⟨c, w, e, by tauto⟩

theorem nameHead_notBlank {c : Char} (h : c = '~' ∨ c = '_' ∨ ('a' ≤ c ∧ c ≤ 'z')) : ¬ Blank c := by
  intro hb
  have h1 := blank_toNat hb
  rcases h with rfl | rfl | h
  · revert h1; decide
  · revert h1; decide
  · have := lower_nat h; omega

/-! ## What follows a component -/

/-- The characters that may follow a component, apart from blanks. -/
def EndChar (c : Char) : Prop := c = '\n' ∨ c = ';' ∨ c = '>' ∨ c = '/' ∨ c = '"'

/-- Blanks and then the end of the component. -/
def Ends (u : Name) : Prop := ∃ g r, u = g ++ r ∧ Blanks g ∧ ∀ c ∈ r.head?, EndChar c

theorem endChar_nat {c : Char} (h : EndChar c) : c.toNat = 10 ∨ c.toNat = 59 ∨ c.toNat = 62 ∨ c.toNat = 47 ∨ c.toNat = 34 := by
  rcases h with rfl | rfl | rfl | rfl | rfl <;> decide

theorem endChar_notBlank {c : Char} (h : EndChar c) : ¬ Blank c := by
  intro hb
  have := blank_toNat hb
  have := endChar_nat h
  omega

theorem ends_head {u : Name} (h : Ends u) : ∀ c ∈ u.head?, Blank c ∨ EndChar c := by
  obtain ⟨g, r, rfl, hg, hr⟩ := h
  intro c hc
  cases g with
  | nil => exact Or.inr (hr c hc)
  | cons d g =>
    simp at hc
    subst hc
    exact Or.inl (hg d (by simp))

/-- The codes of the characters that can directly follow an argument. -/
theorem stop_nat {c : Char} (h : Blank c ∨ EndChar c) : c.toNat = 32 ∨ c.toNat = 44 ∨ c.toNat = 124 ∨ c.toNat = 9 ∨
    c.toNat = 10 ∨ c.toNat = 59 ∨ c.toNat = 62 ∨ c.toNat = 47 ∨ c.toNat = 34 := by
  rcases h with h | h
  · have := blank_toNat h; omega
  · have := endChar_nat h; omega

theorem stop_notDigit {c : Char} (h : Blank c ∨ EndChar c) : ¬ Digit c := by
  intro hd
  have := digit_nat hd
  have := stop_nat h
  omega

theorem stop_ne {c d : Char} (h : Blank c ∨ EndChar c)
    (hd : d.toNat ≠ 32 ∧ d.toNat ≠ 44 ∧ d.toNat ≠ 124 ∧ d.toNat ≠ 9 ∧ d.toNat ≠ 10 ∧ d.toNat ≠ 59 ∧ d.toNat ≠ 62 ∧
      d.toNat ≠ 47 ∧ d.toNat ≠ 34) : c ≠ d := by
  apply ne_of_nat
  have := stop_nat h
  omega

theorem stop_notLower {c : Char} (h : Blank c ∨ EndChar c) : ¬ ('a' ≤ c ∧ c ≤ 'z') := by
  intro hl
  have := lower_nat hl
  have := stop_nat h
  omega

theorem stop_notTail {c : Char} (h : Blank c ∨ EndChar c) : ¬ TailChar c := by
  intro ht
  rcases ht with ht | ht | ht
  · exact stop_ne h (by decide) ht
  · exact stop_notLower h ht
  · exact stop_notDigit h ht

/-- Anything that starts with a blank or an end character. -/
def Stops (u : Name) : Prop := ∀ c ∈ u.head?, Blank c ∨ EndChar c

theorem gap_stops {g : Name} (hg : Gap g) (u : Name) : Stops (g ++ u) := by
  intro c hc
  cases g with
  | nil => exact absurd rfl hg.1
  | cons d g =>
    simp at hc
    subst hc
    exact Or.inl (hg.2 d (by simp))

theorem stops_num {u : Name} (h : Stops u) : NumStop u := fun c hc =>
  ⟨stop_notDigit (h c hc), stop_ne (h c hc) (by decide), stop_ne (h c hc) (by decide), stop_ne (h c hc) (by decide)⟩

theorem stops_name {u : Name} (h : Stops u) : NameStop u := fun c hc =>
  ⟨stop_notTail (h c hc), stop_ne (h c hc) (by decide)⟩

/-- No further item of a list follows at the end. -/
theorem ends_no_item {p : Peg} (hp : ∀ r, (∀ c ∈ r.head?, EndChar c) → p r = none) {u : Name} (h : Ends u) :
    seq (plus blank) p u = none := by
  obtain ⟨g, r, rfl, hg, hr⟩ := h
  cases g with
  | nil =>
    refine seq_none_left (seq_none_left (chr_head_none ?_))
    intro c hc
    exact isBlank_false (endChar_notBlank (hr c hc))
  | cons d g =>
    exact seq_none_right (reads_gap ⟨by simp, hg⟩ (fun c hc => endChar_notBlank (hr c hc))) (hp r hr)

/-! ## Lists of items -/

/-- A list of items separated by blanks, each leaving one token. -/
theorem reads_list {α : Type} {W : α → Name → Prop} {p : Peg} [Snd p] {f : Pair → Res α}
    (hitem : ∀ a t u, W a t → Stops u → ∃ x, Reads p t [x] u ∧ f x = .ok a)
    (hstart : ∀ a t, W a t → ∀ u, ∀ c ∈ (t ++ u).head?, ¬ Blank c)
    (hend : ∀ r, (∀ c ∈ r.head?, EndChar c) → p r = none)
    {l : List α} {t u : Name} (h : WList W l t) (hu : Ends u) :
    ∃ xs, Reads (seqs [p, star (seq (plus blank) p)]) t xs u ∧ collect f xs = .ok l := by
  induction h with
  | @one a t hw =>
    obtain ⟨x, h1, h2⟩ := hitem a t u hw (ends_head hu)
    have h3 : Reads (star (seq (plus blank) p)) [] [] u := reads_star_nil (ends_no_item hend hu)
    have h4 := reads_cons (t' := []) h1 (reads_one h3)
    refine ⟨[x], by simpa using h4, ?_⟩
    simp only [collect, h2]
    rfl
  | @cons a l t g w hw hg hl ih =>
    obtain ⟨xs, h1, h2⟩ := ih
    obtain ⟨x, h3, h4⟩ := hitem a t (g ++ (w ++ u)) hw (gap_stops hg _)
    have hwst : ∀ c ∈ (w ++ u).head?, ¬ Blank c := by
      cases hl with
      | one h => exact hstart _ _ h u
      | cons h _ _ => intro c; rw [List.append_assoc]; exact hstart _ _ h _ c
    have h5 : Reads (plus blank) g [] (w ++ u) := reads_gap hg hwst
    -- split what the tail read
    unfold Reads at h1
    simp only [seqs] at h1
    obtain ⟨c1, ps1, r1, c2, ps2, e1, e2, e3, e4⟩ := seq_some h1
    obtain ⟨c3, ps3, r3, c4, ps4, e5, e6, e7, e8⟩ := seq_some e2
    simp only [Option.some.injEq, Prod.mk.injEq] at e6
    obtain ⟨rfl, rfl, rfl⟩ := e6
    simp only [List.append_nil] at e7 e8
    subst e7 e8
    have h6 : seq (plus blank) p (g ++ (w ++ r3)) = some (g ++ c1, [] ++ ps1, r1) := seq_ok h5 e1
    have h7 : star (seq (plus blank) p) (g ++ (w ++ r3)) = some ((g ++ c1) ++ c2, ([] ++ ps1) ++ ps2, r3) :=
      star_some (Snd.sound (p := seq (plus blank) p)) (eats_seq_left (eats_plus eats_blank)) h6 e5
    have h8 : Reads (star (seq (plus blank) p)) (g ++ w) xs r3 := by
      unfold Reads
      rw [List.append_assoc, h7, e3, e4]
      simp
    refine ⟨x :: xs, ?_, ?_⟩
    · have h9 := reads_cons (t' := g ++ w) (u := r3) (by rw [List.append_assoc]; exact h3) (reads_one h8)
      simpa using h9
    · simp only [collect, h4, h2]
      rfl

/-! ## The items of the lists -/

theorem endChar_nameStart {c : Char} (h : EndChar c) : ¬ ('a' ≤ c ∧ c ≤ 'z') ∧ c ≠ '~' ∧ c ≠ '_' :=
  ⟨stop_notLower (Or.inr h), stop_ne (Or.inr h) (by decide), stop_ne (Or.inr h) (by decide)⟩

theorem reference_end {r : Name} (h : ∀ c ∈ r.head?, EndChar c) : reference r = none :=
  reference_none (fun c hc => endChar_nameStart (h c hc))

theorem integer_none {u : Name} (h : ∀ c ∈ u.head?, ¬ NumHead c) : integer u = none := by
  refine tok_none ?_
  simp only [seqs]
  have h1 : Reads plusMinus [] [] u := by
    refine reads_opt_none (chr_head_none ?_)
    intro c hc
    have h1 : c ≠ '+' := fun e => h c hc (Or.inl e)
    have h2 : c ≠ '-' := fun e => h c hc (Or.inr (Or.inl e))
    simp [h1, h2]
  exact seq_none_right h1 (seq_none_left (seq_none_left (chr_head_none (fun c hc =>
    isDigit_false (fun hd => h c hc (Or.inr (Or.inr hd)))))))

theorem float_none {u : Name} (h : ∀ c ∈ u.head?, ¬ NumHead c) : float u = none := by
  refine tok_none ?_
  simp only [seqs]
  have h1 : Reads plusMinus [] [] u := by
    refine reads_opt_none (chr_head_none ?_)
    intro c hc
    have h1 : c ≠ '+' := fun e => h c hc (Or.inl e)
    have h2 : c ≠ '-' := fun e => h c hc (Or.inr (Or.inl e))
    simp [h1, h2]
  refine seq_none_left ?_
  exact seq_none_right h1 (seq_none_left (chr_head_none (fun c hc =>
    isDigit_false (fun hd => h c hc (Or.inr (Or.inr hd))))))

theorem number_none {u : Name} (h : ∀ c ∈ u.head?, ¬ NumHead c) : number u = none :=
  tok_none ((alt_right (float_none h)).trans (integer_none h))

theorem stop_notNumHead {c : Char} (h : Blank c ∨ EndChar c) : ¬ NumHead c := by
  intro hn
  have := numHead_nat hn
  have := stop_nat h
  omega

theorem integer_end {r : Name} (h : ∀ c ∈ r.head?, EndChar c) : integer r = none :=
  integer_none (fun c hc => stop_notNumHead (Or.inr (h c hc)))

theorem f32Of_num {v : Fl} {r : Rule} {t : Name} {l : List Pair} (h : WNum v t) : f32Of (.mk r t l) = .ok v := by
  simp only [f32Of, Pair.text, parseF32_num h, need]

theorem usizeOf_nat {n : Nat} {r : Rule} {t : Name} {l : List Pair} (h : WNat n t) (hn : n < 2 ^ 64) :
    usizeOf (.mk r t l) = .ok n := by
  simp only [usizeOf, Pair.text, parseUInt_nat h (Nat.le_sub_one_of_lt hn), need]

theorem head_of {t u : Name} {c : Char} {w : Name} (h : t = c :: w) : (t ++ u).head? = some c := by
  subst h; rfl

/-- The numbers of `choose`. -/
theorem reads_ints {l : List Fl} {t u : Name} (h : WList WInt l t) (hu : Ends u) :
    ∃ xs, Reads (seqs [integer, star (seq (plus blank) integer)]) t xs u ∧ collect f32Of xs = .ok l := by
  refine reads_list ?_ ?_ (fun r hr => integer_end hr) h hu
  · intro a t u ha hu
    exact ⟨_, reads_int ha (stops_num hu), f32Of_num (.int ha)⟩
  · intro a t ha u c hc
    obtain ⟨d, w, e, hd⟩ := wint_head ha
    rw [head_of e] at hc
    cases hc
    exact numHead_notBlank hd

/-- The names of `mix`. -/
theorem reads_names {l : List Name} {t u : Name} (h : WList (fun r t => t = r ∧ WName r) l t) (hu : Ends u) :
    ∃ xs, Reads (seqs [reference, star (seq (plus blank) reference)]) t xs u ∧ xs.map Pair.text = l := by
  have key : ∀ {xs : List Pair} {l : List Name}, collect (fun x => (.ok x.text : Res Name)) xs = .ok l →
      xs.map Pair.text = l := by
    intro xs
    induction xs with
    | nil => intro l h; cases h; rfl
    | cons x xs ih =>
      intro l h
      simp only [collect] at h
      cases hc : collect (fun x => (.ok x.text : Res Name)) xs with
      | error e => rw [hc] at h; cases h
      | ok m => rw [hc] at h; cases h; rw [List.map_cons, ih hc]
  suffices hs : ∃ xs, Reads (seqs [reference, star (seq (plus blank) reference)]) t xs u ∧
      collect (fun x => (.ok x.text : Res Name)) xs = .ok l by
    obtain ⟨xs, h1, h2⟩ := hs
    exact ⟨xs, h1, key h2⟩
  refine reads_list ?_ ?_ (fun r hr => reference_end hr) h hu
  · rintro a t u ⟨rfl, ha⟩ hu
    obtain ⟨l, hl⟩ := reads_name ha (stops_name hu)
    exact ⟨_, hl, rfl⟩
  · rintro a t ⟨rfl, ha⟩ u c hc
    obtain ⟨d, w, e, hd⟩ := wname_head ha
    rw [head_of e] at hc
    cases hc
    exact nameHead_notBlank hd

/-! ### Groups of a `seq` pattern -/

theorem wnat_head {n : Nat} {t : Name} (h : WNat n t) : ∃ c w, t = c :: w ∧ NumHead c := by
  obtain ⟨v, hv⟩ := wnat_int h
  exact wint_head hv

theorem reads_note_nat {n : Nat} {t u : Name} (h : WNat n t) (hn : n < 2 ^ 64) (hd : ∀ c ∈ u.head?, ¬ Digit c)
    (hp : ∀ c ∈ u.head?, c ≠ '.') : ∃ x, Reads note t [x] u ∧ seqElem x = .ok (.note n) := by
  have hi : Reads integer t [.mk .integer t []] u := by
    obtain ⟨v, hv⟩ := wnat_int h
    cases hv with
    | @mk m s t hs ht =>
      have h1 := reads_sign hs ht u
      have h2 : Reads (plus digit) t [] u := reads_digits ht hd
      have h3 : Reads (Peg.not (lit ['.'])) [] [] u := reads_not (lit_head_none hp)
      have h23 : Reads (seqs [plus digit, Peg.not (lit ['.'])]) t [] u := by
        have := reads_cons (t' := []) h2 (reads_one h3)
        simpa using this
      exact reads_tok (r := .integer) (reads_cons h1 h23)
  refine ⟨_, reads_tok (reads_alt_left hi), ?_⟩
  simp only [seqElem, Pair.inner, next, bind, Except.bind, Pair.rule, usizeOf_nat h hn, Except.map]

theorem reads_note_rest (u : Name) : ∃ x, Reads note ['_'] [x] u ∧ seqElem x = .ok .rest := by
  refine ⟨_, reads_tok (reads_alt_right (integer_none ?_) (reads_alt_left (reads_tok (reads_lit ['_'] u)))), rfl⟩
  intro c hc
  cases hc
  rintro (h | h | h)
  · exact absurd h (by decide)
  · exact absurd h (by decide)
  · exact not_digit (by decide) h

theorem reads_note_ref {d : Char} (hd : 'a' ≤ d ∧ d ≤ 'z') (u : Name) :
    ∃ x, Reads note ['~', d] [x] u ∧ seqElem x = .ok (.ref ['~', d]) := by
  have h1 : Reads noteRef ['~', d] [.mk .noteRef ['~', d] []] u := by
    refine reads_tok (reads_seq (t := ['~']) (t' := [d]) (ps := []) (qs := []) (reads_lit ['~'] _) ?_)
    unfold Reads Grammar.lower
    simp [chr, isLower_iff.mpr hd]
  refine ⟨_, reads_tok (reads_alt_right (integer_none ?_) (reads_alt_right (tok_none ?_) (reads_alt_left h1))), rfl⟩
  · intro c hc
    cases hc
    rintro (h | h | h)
    · exact absurd h (by decide)
    · exact absurd h (by decide)
    · exact not_digit (by decide) h
  · rfl

theorem note_stop {u : Name} (h : Stops u) : note u = none := by
  refine tok_none ?_
  refine (alt_right (integer_none (fun c hc => stop_notNumHead (h c hc)))).trans ?_
  refine (alt_right (tok_none (lit_head_none (fun c hc => stop_ne (h c hc) (by decide))))).trans ?_
  exact (alt_right (tok_none (seq_none_left (lit_head_none (fun c hc => stop_ne (h c hc) (by decide)))))).trans rfl

theorem wgroup_head {g : List SeqElem} {t : Name} (h : WGroup g t) :
    ∃ c w, t = c :: w ∧ (NumHead c ∨ c = '_' ∨ c = '~') := by
  cases h with
  | last h _ => obtain ⟨c, w, e, h⟩ := wnat_head h; exact ⟨c, w, e, Or.inl h⟩
  | lastRest => exact ⟨_, _, rfl, by simp⟩
  | lastRef _ _ => exact ⟨_, _, rfl, by simp⟩
  | note h _ _ _ =>
    obtain ⟨c, w, e, h'⟩ := wnat_head h
    subst e
    exact ⟨c, _, rfl, Or.inl h'⟩
  | rest _ => exact ⟨_, _, rfl, by simp⟩
  | ref _ _ _ => exact ⟨_, _, rfl, by simp⟩

theorem groupHead_notBlank {c : Char} (h : NumHead c ∨ c = '_' ∨ c = '~') : ¬ Blank c := by
  rcases h with h | rfl | rfl
  · exact numHead_notBlank h
  · rintro (h | h | h | h) <;> exact absurd h (by decide)
  · rintro (h | h | h | h) <;> exact absurd h (by decide)

theorem reads_group_star {g : List SeqElem} {t u : Name} (h : WGroup g t) (hu : Stops u) :
    ∃ xs, Reads (star note) t xs u ∧ collect seqElem xs = .ok g := by
  have hend : Reads (star note) [] [] u := reads_star_nil (note_stop hu)
  have one : ∀ {t : Name} {e : SeqElem} (x : Pair), Reads note t [x] u → seqElem x = .ok e →
      ∃ xs, Reads (star note) t xs u ∧ collect seqElem xs = .ok [e] := by
    intro t e x h1 h2
    have := reads_star_cons eats_note (t' := []) h1 hend
    refine ⟨_, by simpa using this, ?_⟩
    simp only [List.append_nil, collect, h2]
    rfl
  have more : ∀ {t w : Name} {e : SeqElem} {g : List SeqElem} (x : Pair), Reads note t [x] (w ++ u) →
      seqElem x = .ok e → (∃ xs, Reads (star note) w xs u ∧ collect seqElem xs = .ok g) →
      ∃ xs, Reads (star note) (t ++ w) xs u ∧ collect seqElem xs = .ok (e :: g) := by
    rintro t w e g x h1 h2 ⟨xs, h3, h4⟩
    refine ⟨_, reads_star_cons eats_note h1 h3, ?_⟩
    simp only [List.cons_append, List.nil_append, collect, h2, h4]
    rfl
  induction h with
  | last h hn =>
    obtain ⟨x, h1, h2⟩ := reads_note_nat h hn (fun c hc => stop_notDigit (hu c hc))
      (fun c hc => stop_ne (hu c hc) (by decide))
    exact one x h1 h2
  | lastRest =>
    obtain ⟨x, h1, h2⟩ := reads_note_rest u
    exact one x h1 h2
  | lastRef a b =>
    obtain ⟨x, h1, h2⟩ := reads_note_ref ⟨a, b⟩ u
    exact one x h1 h2
  | @note n t w g h hn hg hd ih =>
    obtain ⟨c, w', e, hc⟩ := wgroup_head hg
    obtain ⟨x, h1, h2⟩ := reads_note_nat (u := w ++ u) h hn (by
        intro d hd'
        rw [head_of e] at hd'
        cases hd'
        exact hd c (by rw [e]; rfl)) (by
        intro d hd'
        rw [head_of e] at hd'
        cases hd'
        rcases hc with hc | rfl | rfl
        · exact numHead_ne hc (by decide)
        · decide
        · decide)
    exact more x h1 h2 ih
  | @rest w g hg ih =>
    obtain ⟨x, h1, h2⟩ := reads_note_rest (w ++ u)
    exact more x h1 h2 ih
  | @ref c w g a b hg ih =>
    obtain ⟨x, h1, h2⟩ := reads_note_ref ⟨a, b⟩ (w ++ u)
    exact more x h1 h2 ih

theorem reads_group {g : List SeqElem} {t u : Name} (h : WGroup g t) (hu : Stops u) :
    ∃ x, Reads compound t [x] u ∧ collect seqElem x.inner = .ok g := by
  obtain ⟨xs, h1, h2⟩ := reads_group_star h hu
  have hne : xs ≠ [] := by
    rintro rfl
    cases h2
    cases h
  have key : Reads (plus note) t xs u := by
    unfold Reads at h1 ⊢
    simp only [Peg.star, Option.some.injEq] at h1
    cases hs : (t ++ u).length with
    | zero => rw [hs] at h1; simp only [starN, Prod.mk.injEq] at h1; exact absurd h1.2.1.symm hne
    | succ n =>
      rw [hs] at h1
      simp only [starN] at h1
      cases hn : note (t ++ u) with
      | none => rw [hn] at h1; simp only [Prod.mk.injEq] at h1; exact absurd h1.2.1.symm hne
      | some y =>
        obtain ⟨c, ps, r⟩ := y
        rw [hn] at h1
        simp only [Prod.mk.injEq] at h1
        have hl := congrArg List.length (Snd.sound (p := note) hn).1
        have hc : 0 < c.length := List.length_pos_iff.mpr (eats_note hn)
        simp only [List.length_append] at hl hs
        have hf := starN_fuel (Snd.sound (p := note)) eats_note (s := r) (n := n) (m := r.length)
          (by omega) (by omega)
        have hst : star note r = some (starN note n r) := by simp only [Peg.star, hf]
        simp only [Peg.plus, Peg.seq, hn, hst, Option.map_some, h1.1, h1.2.1, h1.2.2]
  exact ⟨_, reads_tok key, h2⟩

theorem compound_end {r : Name} (h : ∀ c ∈ r.head?, EndChar c) : compound r = none :=
  tok_none (seq_none_left (note_stop (fun c hc => Or.inr (h c hc))))

/-- The groups of a `seq` pattern. -/
theorem reads_groups {gs : List (List SeqElem)} {t u : Name} (h : WList WGroup gs t) (hu : Ends u) :
    ∃ xs, Reads (seqs [compound, star (seq (plus blank) compound)]) t xs u ∧
      collect (fun g => collect seqElem g.inner) xs = .ok gs := by
  refine reads_list ?_ ?_ (fun r hr => compound_end hr) h hu
  · intro a t u ha hu
    exact reads_group ha hu
  · intro a t ha u c hc
    obtain ⟨d, w, e, hd⟩ := wgroup_head ha
    rw [head_of e] at hc
    cases hc
    exact groupHead_notBlank hd

/-! ### Sections of `arrange` -/

/-- What is repeated in `arrange`. -/
abbrev sectionTurn : Peg := seqs [plus blank, reference, plus blank, number]

theorem wsection_head {x : NumRef × NumRef} {t : Name} (h : WSection x t) :
    ∃ c w, t = c :: w ∧ (c = '~' ∨ c = '_' ∨ ('a' ≤ c ∧ c ≤ 'z')) := by
  cases h with
  | mk hr _ _ =>
    obtain ⟨c, w, e, h⟩ := wname_head hr
    subst e
    exact ⟨c, _, rfl, h⟩

theorem reads_section {x : NumRef × NumRef} {t u : Name} (h : WSection x t) (hu : Stops u) :
    ∃ a b, Reads (seqs [reference, plus blank, number]) t [a, b] u ∧ numRef a = .ok x.1 ∧ numRef b = .ok x.2 := by
  cases h with
  | @mk r t g v hr hg hv =>
    obtain ⟨l1, h1⟩ := reads_name (u := g ++ (t ++ u)) hr (stops_name (gap_stops hg _))
    obtain ⟨l2, h2⟩ := reads_num hv (stops_num hu)
    obtain ⟨c, w, e, hc⟩ := wnum_head hv
    have h3 : Reads (plus blank) g [] (t ++ u) := by
      refine reads_gap hg ?_
      intro d hd
      rw [head_of e] at hd
      cases hd
      exact numHead_notBlank hc
    have h4 := reads_cons h3 (reads_one h2)
    have h5 := reads_cons (t' := g ++ t) (u := u) (by rw [List.append_assoc]; exact h1) h4
    refine ⟨_, _, h5, rfl, ?_⟩
    simp only [numRef, Pair.rule, f32Of_num hv, Except.map]

theorem section_end {u : Name} (h : Ends u) : sectionTurn u = none := by
  have := ends_no_item (p := seqs [reference, plus blank, number])
    (fun r hr => seq_none_left (reference_end hr)) h
  exact this

theorem reads_sections {l : List (NumRef × NumRef)} {t u : Name} (h : WList WSection l t) (hu : Ends u) :
    ∃ xs, Reads (seqs [reference, plus blank, number, star sectionTurn]) t xs u ∧
      collect numRef xs = .ok (l.flatMap (fun x => [x.1, x.2])) := by
  -- the first section and the repetition, joined
  have join : ∀ {t w u : Name} {ps qs : List Pair}, Reads (seqs [reference, plus blank, number]) t ps (w ++ u) →
      Reads (star sectionTurn) w qs u →
      Reads (seqs [reference, plus blank, number, star sectionTurn]) (t ++ w) (ps ++ qs) u := by
    intro t w u ps qs h1 h2
    unfold Reads at h1 h2 ⊢
    simp only [seqs] at h1
    obtain ⟨c1, p1, r1, c2, p2, e1, e2, e3, e4⟩ := seq_some h1
    obtain ⟨c3, p3, r3, c4, p4, e5, e6, e7, e8⟩ := seq_some e2
    obtain ⟨c5, p5, r5, c6, p6, e9, e10, e11, e12⟩ := seq_some e6
    simp only [Option.some.injEq, Prod.mk.injEq] at e10
    obtain ⟨rfl, rfl, rfl⟩ := e10
    have h3 : seqs [reference, plus blank, number, star sectionTurn] (t ++ (w ++ u)) = some _ :=
      seq_ok e1 (seq_ok e5 (seq_ok e9 (seq_ok h2 rfl)))
    rw [List.append_assoc, h3, e3, e4, e7, e8, e11, e12]
    simp
  induction h with
  | @one x t hw =>
    obtain ⟨a, b, h1, h2, h3⟩ := reads_section hw (ends_head hu)
    have h4 : Reads (star sectionTurn) [] [] u := reads_star_nil (section_end hu)
    refine ⟨_, by simpa using join (w := []) h1 h4, ?_⟩
    simp only [collect, h2, h3, List.flatMap_cons, List.flatMap_nil]
    rfl
  | @cons x l t g w hw hg hl ih =>
    obtain ⟨xs, h1, h2⟩ := ih
    obtain ⟨a, b, h3, h4, h5⟩ := reads_section (u := g ++ (w ++ u)) hw (gap_stops hg _)
    have hwst : ∀ c ∈ (w ++ u).head?, ¬ Blank c := by
      intro c hc
      obtain ⟨d, w', e, hd⟩ : ∃ d w', w = d :: w' ∧ (d = '~' ∨ d = '_' ∨ ('a' ≤ d ∧ d ≤ 'z')) := by
        cases hl with
        | one h => exact wsection_head h
        | cons h _ _ =>
          obtain ⟨d, w', e, hd⟩ := wsection_head h
          subst e
          exact ⟨d, _, rfl, hd⟩
      rw [head_of e] at hc
      cases hc
      exact nameHead_notBlank hd
    have h6 : Reads (plus blank) g [] (w ++ u) := reads_gap hg hwst
    have h7 : Reads (star sectionTurn) (g ++ w) xs u := by
      unfold Reads at h1 h6 ⊢
      simp only [seqs] at h1
      obtain ⟨c1, p1, r1, c2, p2, e1, e2, e3, e4⟩ := seq_some h1
      obtain ⟨c3, p3, r3, c4, p4, e5, e6, e7, e8⟩ := seq_some e2
      obtain ⟨c5, p5, r5, c6, p6, e9, e10, e11, e12⟩ := seq_some e6
      obtain ⟨c7, p7, r7, c8, p8, e13, e14, e15, e16⟩ := seq_some e10
      simp only [Option.some.injEq, Prod.mk.injEq] at e14
      obtain ⟨rfl, rfl, rfl⟩ := e14
      have h8 : sectionTurn (g ++ (w ++ r7)) = some _ := seq_ok h6 (seq_ok e1 (seq_ok e5 (seq_ok e9 rfl)))
      have h9 := star_some (Snd.sound (p := sectionTurn)) (eats_seq_left (eats_plus eats_blank)) h8 e13
      rw [List.append_assoc, h9, e3, e4, e7, e8, e11, e12, e15, e16]
      simp
    refine ⟨_, join (by rw [List.append_assoc]; exact h3) h7, ?_⟩
    simp only [List.cons_append, List.nil_append, collect, h2, h4, h5, List.flatMap_cons]
    rfl

/-! ### Symbols, events and code -/

theorem isSym_iff {c : Char} : (isAlnum c || c == '_' || c == '-') = true ↔ SymChar c := by
  simp only [isAlnum, Bool.or_eq_true, beq_iff_eq, isLower_iff, isDigit_iff, decide_eq_true_eq, SymChar]
  tauto

theorem isSym_false {c : Char} (h : ¬ SymChar c) : (isAlnum c || c == '_' || c == '-') = false := by
  cases hb : (isAlnum c || c == '_' || c == '-') with
  | false => rfl
  | true => exact absurd (isSym_iff.mp hb) h

theorem reads_sym {s u : Name} (h : WSym s) (hu : ∀ c ∈ u.head?, ¬ SymChar c) : ∃ l, Reads symbol s [.mk .symbol s l] u := by
  cases h with
  | @slash t hne ht =>
    refine ⟨[], reads_tok (reads_alt_right ?_ ?_)⟩
    · simp only [seqs]
      exact seq_none_left (lit_head_none (by intro c hc; cases hc; decide))
    · exact reads_seq (t := ['\\']) (ps := []) (reads_lit _ _)
        (reads_plus_chr hne (fun c hc => isSym_iff.mpr (ht c hc)) (fun c hc => isSym_false (hu c hc)))
  | @quote t hne ht =>
    refine ⟨[], reads_tok (reads_alt_left ?_)⟩
    have h1 : Reads (plus symChar) t [] ('\'' :: u) := by
      refine reads_plus_chr hne (fun c hc => isSym_iff.mpr (ht c hc)) ?_
      intro c hc
      cases hc
      rfl
    have h2 : Reads (lit ['\'']) ['\''] [] u := reads_lit _ _
    exact reads_cons (t := ['\'']) (ps := []) (reads_lit _ _) (reads_cons (t := t) h1 (reads_one h2))

theorem wsym_head {s : Name} (h : WSym s) : ∃ c w, s = c :: w ∧ (c = '\\' ∨ c = '\'') := by
  cases h with
  | slash _ _ => exact ⟨_, _, rfl, Or.inl rfl⟩
  | quote _ _ => exact ⟨_, _, rfl, Or.inr rfl⟩

theorem symHead_nat {c : Char} (h : c = '\\' ∨ c = '\'') : c.toNat = 92 ∨ c.toNat = 39 := by
  rcases h with rfl | rfl <;> decide

theorem symHead_notBlank {c : Char} (h : c = '\\' ∨ c = '\'') : ¬ Blank c := by
  intro hb
  have := blank_toNat hb
  have := symHead_nat h
  omega

theorem symHead_notNum {c : Char} (h : c = '\\' ∨ c = '\'') : ¬ NumHead c := by
  intro hb
  have := numHead_nat hb
  have := symHead_nat h
  omega

end Verif.Read
