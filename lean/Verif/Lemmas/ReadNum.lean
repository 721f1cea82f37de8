import Verif.Parser.Nodes
import Verif.Lemmas.Tokens
import Verif.Spec.Write
import Mathlib.Tactic.FieldSimp
import Mathlib.Tactic.Ring

/-! # Reading back numerals and names -/

namespace Verif.Read
open Peg Grammar Spec

/-- `p` reads exactly `t` before `u`, leaving the tokens `ps`. -/
def Reads (p : Peg) (t : Name) (ps : List Pair) (u : Name) : Prop := p (t ++ u) = some (t, ps, u)

theorem reads_lit (w u : Name) : Reads (lit w) w [] u := lit_append w u

theorem reads_seq {p q : Peg} {t t' u : Name} {ps qs : List Pair} (hp : Reads p t ps (t' ++ u))
    (hq : Reads q t' qs u) : Reads (seq p q) (t ++ t') (ps ++ qs) u := by
  unfold Reads at *
  rw [List.append_assoc]
  exact seq_ok hp hq

theorem reads_nil (u : Name) : Reads (seqs []) [] [] u := rfl

theorem reads_cons {p : Peg} {l : List Peg} {t t' u : Name} {ps qs : List Pair} (hp : Reads p t ps (t' ++ u))
    (hq : Reads (seqs l) t' qs u) : Reads (seqs (p :: l)) (t ++ t') (ps ++ qs) u := reads_seq hp hq

theorem reads_one {p : Peg} {t u : Name} {ps : List Pair} (h : Reads p t ps u) : Reads (seqs [p]) t ps u := by
  have := reads_cons (l := []) (t' := []) h (reads_nil u)
  simpa using this

theorem reads_tok {p : Peg} {r : Rule} {t u : Name} {ps : List Pair} (h : Reads p t ps u) :
    Reads (tok r p) t [.mk r t ps] u := tok_ok h

theorem reads_alt_left {p q : Peg} {t u : Name} {ps : List Pair} (h : Reads p t ps u) : Reads (alt p q) t ps u :=
  alt_left h

theorem reads_alt_right {p q : Peg} {t u : Name} {ps : List Pair} (hp : p (t ++ u) = none) (h : Reads q t ps u) :
    Reads (alt p q) t ps u := (alt_right hp).trans h

theorem reads_opt {p : Peg} {t u : Name} {ps : List Pair} (h : Reads p t ps u) : Reads (opt p) t ps u := opt_ok h

theorem reads_opt_none {p : Peg} {u : Name} (h : p u = none) : Reads (opt p) [] [] u := opt_none h

theorem reads_not {p : Peg} {u : Name} (h : p u = none) : Reads (Peg.not p) [] [] u := not_ok h

theorem reads_star_nil {p : Peg} {u : Name} (h : p u = none) : Reads (star p) [] [] u := star_none h

theorem reads_star_cons {p : Peg} [hs : Snd p] (he : Eats p) {t t' u : Name} {ps qs : List Pair}
    (h : Reads p t ps (t' ++ u)) (h' : Reads (star p) t' qs u) : Reads (star p) (t ++ t') (ps ++ qs) u := by
  unfold Reads at *
  rw [List.append_assoc]
  exact star_some hs.sound he h h'

theorem reads_star_chr {f : Char → Bool} {t u : Name} (ht : ∀ c ∈ t, f c = true) (hu : ∀ c ∈ u.head?, f c = false) :
    Reads (star (chr f)) t [] u := star_chr ht hu

theorem reads_plus_chr {f : Char → Bool} {t u : Name} (hne : t ≠ []) (ht : ∀ c ∈ t, f c = true)
    (hu : ∀ c ∈ u.head?, f c = false) : Reads (plus (chr f)) t [] u := plus_chr hne ht hu

theorem seq_none_left {p q : Peg} {s : Name} (h : p s = none) : seq p q s = none := by simp only [seq, h]

theorem seq_none_right {p q : Peg} {t u : Name} {ps : List Pair} (hp : Reads p t ps u) (hq : q u = none) :
    seq p q (t ++ u) = none := by
  unfold Reads at hp
  simp only [seq, hp, hq, Option.map_none]

/-! ## Characters -/

theorem isDigit_iff {c : Char} : isDigit c = true ↔ Digit c := by
  simp only [isDigit, decide_eq_true_eq, Digit]

theorem isDigit_false {c : Char} (h : ¬ Digit c) : isDigit c = false := by
  cases hb : isDigit c with
  | false => rfl
  | true => exact absurd (isDigit_iff.mp hb) h

theorem isLower_iff {c : Char} : isLower c = true ↔ 'a' ≤ c ∧ c ≤ 'z' := by
  simp only [isLower, decide_eq_true_eq]

theorem isBlank_iff {c : Char} : (c == ' ' || c == ',' || c == '|' || c == '\t') = true ↔ Blank c := by
  simp only [Bool.or_eq_true, beq_iff_eq, Blank]
  tauto

theorem isBlank_false {c : Char} (h : ¬ Blank c) : (c == ' ' || c == ',' || c == '|' || c == '\t') = false := by
  cases hb : (c == ' ' || c == ',' || c == '|' || c == '\t') with
  | false => rfl
  | true => exact absurd (isBlank_iff.mp hb) h

theorem char_le {a b : Char} : a ≤ b ↔ a.toNat ≤ b.toNat := Iff.rfl

theorem digit_nat {c : Char} (h : Digit c) : 48 ≤ c.toNat ∧ c.toNat ≤ 57 := h

theorem lower_nat {c : Char} (h : 'a' ≤ c ∧ c ≤ 'z') : 97 ≤ c.toNat ∧ c.toNat ≤ 122 := h

theorem digit_ne {c d : Char} (h : Digit c) (hd : d.toNat < 48 ∨ 57 < d.toNat) : c ≠ d := by
  rintro rfl
  have := digit_nat h
  omega

theorem lower_ne {c d : Char} (h : 'a' ≤ c ∧ c ≤ 'z') (hd : d.toNat < 97 ∨ 122 < d.toNat) : c ≠ d := by
  rintro rfl
  have := lower_nat h
  omega

theorem not_digit {c : Char} (h : c.toNat < 48 ∨ 57 < c.toNat) : ¬ Digit c := by
  intro hd
  have := digit_nat hd
  omega

theorem blank_toNat {c : Char} (h : Blank c) : c.toNat = 32 ∨ c.toNat = 44 ∨ c.toNat = 124 ∨ c.toNat = 9 := by
  rcases h with rfl | rfl | rfl | rfl <;> decide

theorem reads_blanks {b u : Name} (hb : Blanks b) (hu : ∀ c ∈ u.head?, ¬ Blank c) : Reads (star blank) b [] u :=
  reads_star_chr (fun c hc => isBlank_iff.mpr (hb c hc)) (fun c hc => isBlank_false (hu c hc))

theorem reads_gap {g u : Name} (hg : Gap g) (hu : ∀ c ∈ u.head?, ¬ Blank c) : Reads (plus blank) g [] u :=
  reads_plus_chr hg.1 (fun c hc => isBlank_iff.mpr (hg.2 c hc)) (fun c hc => isBlank_false (hu c hc))

/-! ## Values of numerals -/

theorem digitVal_digit {c : Char} (h : Digit c) : digitVal c = some (c.toNat - 48) := by
  unfold digitVal
  unfold Digit at h
  rw [if_pos h]

theorem digitVal_none {c : Char} (h : ¬ Digit c) : digitVal c = none := by
  unfold digitVal
  unfold Digit at h
  rw [if_neg h]

theorem takeDigits_append {t u : Name} (ht : ∀ c ∈ t, Digit c) (hu : ∀ c ∈ u.head?, ¬ Digit c) :
    takeDigits (t ++ u) = (t.map (fun c => c.toNat - 48), u) := by
  induction t with
  | nil =>
    cases u with
    | nil => rfl
    | cons c u => simp [takeDigits, digitVal_none (hu c (by simp))]
  | cons c t ih =>
    simp only [List.cons_append, takeDigits, digitVal_digit (ht c (by simp)), ih (fun x hx => ht x (by simp [hx])),
      List.map_cons]

theorem decVal_map (t : Name) : decVal (t.map (fun c => c.toNat - 48)) = decimal t := by
  simp only [decVal, decimal, List.foldl_map]

theorem takeSign_append {n : Bool} {s t : Name} (hs : WSign n s) (ht : Digits t) (u : Name) :
    takeSign (s ++ (t ++ u)) = (n, t ++ u) := by
  cases hs with
  | plus => rfl
  | minus => rfl
  | none =>
    obtain ⟨hne, hd⟩ := ht
    cases t with
    | nil => exact absurd rfl hne
    | cons c t =>
      have h1 := digit_ne (d := '-') (hd c (by simp)) (by decide)
      have h2 := digit_ne (d := '+') (hd c (by simp)) (by decide)
      simp only [List.nil_append, List.cons_append]
      unfold takeSign
      split
      · rename_i e; simp at e; exact absurd e.1 h1
      · rename_i e; simp at e; exact absurd e.1 h2
      · rfl

theorem lower_digit {c : Char} (h : Digit c) : Verif.lower c = c := by
  unfold Verif.lower
  have := digit_nat h
  rw [if_neg]
  intro h'
  have h1 : (65 : Nat) ≤ c.toNat := h'.1
  omega

theorem not_word {c : Char} {t w : Name} (h : Digit c) {d : Char} (hd : d.toNat < 48 ∨ 57 < d.toNat) :
    (c :: t).map Verif.lower ≠ d :: w := by
  simp only [List.map_cons, lower_digit h]
  intro e
  exact digit_ne h hd (List.cons.inj e).1

theorem parseF32_of {n : Bool} {s t u : Name} {x : ℚ} (hs : WSign n s) (ht : Digits t)
    (hx : takeNumber (t ++ u) = some x) : parseF32 (s ++ (t ++ u)) = some (Fl.round f32 n (signed n x)) := by
  unfold parseF32
  rw [takeSign_append hs ht u]
  obtain ⟨hne, hd⟩ := ht
  cases t with
  | nil => exact absurd rfl hne
  | cons c t =>
    have hc := hd c (by simp)
    have h1 := fun w => not_word (t := t ++ u) (w := w) hc (d := 'i') (by decide)
    have h2 := fun w => not_word (t := t ++ u) (w := w) hc (d := 'n') (by decide)
    simp only [List.cons_append] at hx ⊢
    simp only [h1, h2, or_self, if_false, hx, Option.map_some, signed]

theorem takeNumber_int {t : Name} (ht : Digits t) : takeNumber (t ++ []) = some (decimal t : ℚ) := by
  unfold takeNumber
  rw [takeDigits_append ht.2 (by simp)]
  simp only [List.map_eq_nil_iff, ht.1, if_false, takeExp, Option.map_some, decVal_map, pow10]
  norm_num

theorem pow10_neg (n : Nat) : pow10 (0 - (n : Int)) = 1 / 10 ^ n := by
  cases n with
  | zero => norm_num [pow10]
  | succ n =>
    have : (0 - ((n + 1 : Nat) : Int)) = Int.negSucc n := by omega
    rw [this]
    simp only [pow10, Rat.mkRat_eq_div]
    push_cast
    ring

theorem takeNumber_dec {i f : Name} (hi : Digits i) (hf : ∀ c ∈ f, Digit c) :
    takeNumber (i ++ '.' :: f) = some ((decimal (i ++ f) : ℚ) / 10 ^ f.length) := by
  unfold takeNumber
  rw [takeDigits_append hi.2 (by intro c hc; simp at hc; subst hc; exact not_digit (by decide))]
  have := takeDigits_append hf (u := []) (by simp)
  rw [List.append_nil] at this
  simp only [this, List.map_eq_nil_iff, hi.1, false_and, if_false, takeExp, Option.map_some, List.length_map,
    pow10_neg, ← List.map_append, decVal_map]
  rw [mul_one_div]

theorem pow10_eq (z : Int) : pow10 z = (10 : ℚ) ^ z := by
  cases z with
  | ofNat n => simp [pow10]
  | negSucc n =>
    simp only [pow10, Rat.mkRat_eq_div, zpow_negSucc]
    push_cast
    rw [one_div]

theorem takeExp_exp {m : Bool} {s x : Name} {e : Char} (he : e = 'e' ∨ e = 'E') (hs : WSign m s) (hx : Digits x) :
    takeExp (e :: (s ++ x)) = some (if m then -(decimal x : Int) else decimal x) := by
  have h1 := takeSign_append hs hx []
  have h2 := takeDigits_append hx.2 (u := []) (by simp)
  rw [List.append_nil] at h1 h2
  have h3 : x.map (fun c => c.toNat - 48) ≠ [] := by simpa using hx.1
  simp only [takeExp, he, if_true, h1, h2, h3, false_or, ne_eq, not_true_eq_false, if_false, decVal_map]

theorem takeNumber_exp {m : Bool} {s i f x : Name} {e : Char} (hi : Digits i) (hf : ∀ c ∈ f, Digit c)
    (he : e = 'e' ∨ e = 'E') (hs : WSign m s) (hx : Digits x) :
    takeNumber (i ++ '.' :: (f ++ e :: (s ++ x))) =
      some (scaled m (decimal x) ((decimal (i ++ f) : ℚ) / 10 ^ f.length)) := by
  unfold takeNumber
  rw [takeDigits_append hi.2 (by intro c hc; simp at hc; subst hc; exact not_digit (by decide))]
  have := takeDigits_append hf (u := e :: (s ++ x)) (by
    intro c hc
    cases hc
    rcases he with rfl | rfl <;> exact not_digit (by decide))
  simp only [this, List.map_eq_nil_iff, hi.1, false_and, if_false, takeExp_exp he hs hx, Option.map_some, List.length_map,
    ← List.map_append, decVal_map, pow10_eq]
  congr 1
  rw [zpow_sub₀ (by norm_num), zpow_natCast]
  unfold scaled
  cases m with
  | false => simp only [Bool.false_eq_true, if_false, zpow_natCast]; ring
  | true => simp only [if_true, zpow_neg, zpow_natCast]; field_simp

theorem parseF32_int {v : Fl} {t : Name} (h : WInt v t) : parseF32 t = some v := by
  cases h with
  | mk hs ht =>
    have := parseF32_of hs ht (u := []) (takeNumber_int ht)
    rwa [List.append_nil] at this

theorem parseF32_num {v : Fl} {t : Name} (h : WNum v t) : parseF32 t = some v := by
  cases h with
  | int h => exact parseF32_int h
  | dec hs hi hf => exact parseF32_of hs hi (takeNumber_dec hi hf)
  | exp hs hi hf he hs' hx => exact parseF32_of hs hi (takeNumber_exp hi hf he hs' hx)

/-! ## Reading numerals -/

/-- What may follow a numeral. -/
def NumStop (u : Name) : Prop := ∀ c ∈ u.head?, ¬ Digit c ∧ c ≠ '.' ∧ c ≠ 'e' ∧ c ≠ 'E'

theorem numStop_digit {u : Name} (h : NumStop u) : ∀ c ∈ u.head?, isDigit c = false :=
  fun c hc => isDigit_false (h c hc).1

theorem lit_head_none {d : Char} {w u : Name} (h : ∀ c ∈ u.head?, c ≠ d) : lit (d :: w) u = none := by
  cases u with
  | nil => rfl
  | cons c u =>
    simp only [lit]
    rw [if_neg (fun e => h c (by simp) e.symm)]

theorem chr_head_none {f : Char → Bool} {u : Name} (h : ∀ c ∈ u.head?, f c = false) : chr f u = none := by
  cases u with
  | nil => rfl
  | cons c u => simp [chr, h c (by simp)]

theorem head_append {t u : Name} (h : t ≠ []) : (t ++ u).head? = t.head? := by
  cases t with
  | nil => exact absurd rfl h
  | cons c t => rfl

theorem digits_head {t : Name} (h : Digits t) (u : Name) : ∃ c, (t ++ u).head? = some c ∧ Digit c := by
  obtain ⟨hne, hd⟩ := h
  cases t with
  | nil => exact absurd rfl hne
  | cons c t => exact ⟨c, rfl, hd c (by simp)⟩

theorem reads_sign {n : Bool} {s t : Name} (hs : WSign n s) (ht : Digits t) (u : Name) :
    Reads plusMinus s [] (t ++ u) := by
  cases hs with
  | plus => rfl
  | minus => rfl
  | none =>
    refine reads_opt_none (chr_head_none ?_)
    intro c hc
    obtain ⟨d, hd, hdd⟩ := digits_head ht u
    rw [hd] at hc
    cases hc
    have h1 := digit_ne (d := '-') hdd (by decide)
    have h2 := digit_ne (d := '+') hdd (by decide)
    simp [h1, h2]

theorem reads_digits {t u : Name} (ht : Digits t) (hu : ∀ c ∈ u.head?, ¬ Digit c) : Reads (plus digit) t [] u :=
  reads_plus_chr ht.1 (fun c hc => isDigit_iff.mpr (ht.2 c hc)) (fun c hc => isDigit_false (hu c hc))

theorem reads_int {v : Fl} {t u : Name} (h : WInt v t) (hu : NumStop u) : Reads integer t [.mk .integer t []] u := by
  cases h with
  | @mk n s t hs ht =>
    have h1 := reads_sign hs ht u
    have h2 : Reads (plus digit) t [] u := reads_digits ht (fun c hc => (hu c hc).1)
    have h3 : Reads (Peg.not (lit ['.'])) [] [] u := reads_not (lit_head_none (fun c hc => (hu c hc).2.1))
    have h23 : Reads (seqs [plus digit, Peg.not (lit ['.'])]) t [] u := by
      have := reads_cons (t' := []) h2 (reads_one h3)
      simpa using this
    have h4 := reads_cons (l := [plus digit, Peg.not (lit ['.'])]) (p := plusMinus) (t' := t) (u := u) h1
      h23
    exact reads_tok (r := .integer) h4

theorem float_int_none {n : Bool} {s t u : Name} (hs : WSign n s) (ht : Digits t) (hu : NumStop u) :
    float (s ++ (t ++ u)) = none := by
  refine tok_none ?_
  simp only [seqs]
  have h1 := reads_sign hs ht u
  have h2 : Reads (plus digit) t [] u := reads_digits ht (fun c hc => (hu c hc).1)
  have h12 := reads_seq h1 h2
  rw [← List.append_assoc]
  exact seq_none_right h12 (seq_none_left (lit_head_none (fun c hc => (hu c hc).2.1)))

theorem reads_num {v : Fl} {t u : Name} (h : WNum v t) (hu : NumStop u) :
    ∃ l, Reads number t [.mk .number t l] u := by
  cases h with
  | int h =>
    refine ⟨_, reads_tok (reads_alt_right ?_ (reads_int h hu))⟩
    cases h with
    | mk hs ht => rw [List.append_assoc]; exact float_int_none hs ht hu
  | @dec n s i f hs hi hf =>
    refine ⟨_, reads_tok (reads_alt_left (reads_tok (ps := []) ?_))⟩
    have h1 := reads_sign hs hi ('.' :: (f ++ u))
    have h2 : Reads (plus digit) i [] ('.' :: (f ++ u)) :=
      reads_digits hi (by intro c hc; simp at hc; subst hc; exact not_digit (by decide))
    have h3 : Reads (star digit) f [] u :=
      reads_star_chr (fun c hc => isDigit_iff.mpr (hf c hc)) (numStop_digit hu)
    have h4 : Reads (opt (seq (chr (fun c => c == 'e' || c == 'E')) integer)) [] [] u := by
      refine reads_opt_none (seq_none_left (chr_head_none ?_))
      intro c hc
      have := hu c hc
      simp [this.2.2.1, this.2.2.2]
    have h12 : Reads (seq plusMinus (plus digit)) (s ++ i) [] ('.' :: (f ++ u)) := reads_seq h1 h2
    have h34 : Reads (seqs [star digit, opt (seq (chr (fun c => c == 'e' || c == 'E')) integer)]) f [] u := by
      have := reads_cons (t' := []) h3 (reads_one h4)
      simpa using this
    have h5 := reads_cons (t' := '.' :: f) (u := u) h12 (reads_cons (t := ['.']) (reads_lit ['.'] (f ++ u)) h34)
    simpa using h5
  | @exp n m s i f s' x e hs hi hf he hs' hx =>
    have h1 := reads_sign hs hi ('.' :: ((f ++ e :: (s' ++ x)) ++ u))
    have h2 : Reads (plus digit) i [] ('.' :: ((f ++ e :: (s' ++ x)) ++ u)) :=
      reads_digits hi (by intro c hc; simp at hc; subst hc; exact not_digit (by decide))
    have h3 : Reads (star digit) f [] (e :: (s' ++ x) ++ u) :=
      reads_star_chr (fun c hc => isDigit_iff.mpr (hf c hc)) (by
        intro c hc
        cases hc
        rcases he with rfl | rfl <;> decide)
    have h0 : Reads (chr (fun c => c == 'e' || c == 'E')) [e] [] ((s' ++ x) ++ u) := by
      rcases he with rfl | rfl <;> rfl
    have h4 : Reads (opt (seq (chr (fun c => c == 'e' || c == 'E')) integer)) (e :: (s' ++ x))
        [.mk .integer (s' ++ x) []] u := reads_opt (reads_seq (t := [e]) (ps := []) h0 (reads_int (.mk hs' hx) hu))
    have h12 : Reads (seq plusMinus (plus digit)) (s ++ i) [] ('.' :: ((f ++ e :: (s' ++ x)) ++ u)) := reads_seq h1 h2
    have h34 := reads_cons (l := [opt (seq (chr (fun c => c == 'e' || c == 'E')) integer)]) h3 (reads_one h4)
    have h5 := reads_cons (t' := '.' :: (f ++ e :: (s' ++ x))) (u := u) h12
      (reads_cons (t := ['.']) (reads_lit ['.'] ((f ++ e :: (s' ++ x)) ++ u)) h34)
    refine ⟨_, reads_tok (reads_alt_left (reads_tok (ps := [.mk .integer (s' ++ x) []]) ?_))⟩
    simpa using h5

theorem wnat_int {n : Nat} {t : Name} (h : WNat n t) : ∃ v, WInt v t := by
  cases h with
  | plain h => exact ⟨_, WInt.mk (s := []) .none h⟩
  | plus h => exact ⟨_, WInt.mk (s := ['+']) .plus h⟩

end Verif.Read
