import Verif.Spec.Report
import Verif.Props.Wasm
import Verif.Spec.Demo

/-! # The report of an error on the page (C66) -/

namespace Verif.Props
open Verif Spec Spec.Report Report Browser

/-! ### Texts as lists of code units -/

theorem utf16_append (a b : Name) : utf16 (a ++ b) = utf16 a ++ utf16 b := List.flatMap_append

theorem utf16Char_small {c : Char} (h : c.toNat < 128) : utf16Char c = [c.toNat] := if_pos (by omega)

theorem utf16_ascii {s : Name} (h : ∀ c ∈ s, c.toNat < 128) : utf16 s = s.map Char.toNat := by
  induction s with
  | nil => rfl
  | cons c s ih =>
    rw [utf16, List.flatMap_cons, utf16Char_small (h c (by simp))]
    exact congrArg _ (ih fun d hd => h d (by simp [hd]))

theorem utf8_ascii {s : Name} (h : ∀ c ∈ s, c.toNat < 128) : Wasm.utf8 s = s.map Char.toNat := by
  induction s with
  | nil => rfl
  | cons c s ih =>
    have : Wasm.utf8Char c = [c.toNat] := if_pos (h c (by simp))
    rw [Wasm.utf8, List.flatMap_cons, this]
    exact congrArg _ (ih fun d hd => h d (by simp [hd]))

/-- A code unit below the surrogates belongs to a character. -/
theorem mem_utf16 {s : Name} {n : Nat} (h : n ∈ utf16 s) (hn : n < 0xD800) : ∃ c ∈ s, c.toNat = n := by
  obtain ⟨c, hc, hu⟩ := List.mem_flatMap.mp h
  refine ⟨c, hc, ?_⟩
  unfold utf16Char at hu
  split at hu
  · exact (List.mem_singleton.mp hu).symm
  · simp at hu
    omega

theorem not_mem_utf16 {s : Name} {d : Char} (h : d ∉ s) (hd : d.toNat < 0xD800) : d.toNat ∉ utf16 s := by
  intro hm
  obtain ⟨c, hc, he⟩ := mem_utf16 hm hd
  have : c = d := by rw [← Char.ofNat_toNat c, ← Char.ofNat_toNat d, he]
  exact h (this ▸ hc)

theorem length_utf16 {s : Name} (h : ∀ c ∈ s, c.toNat < 0x10000) : (utf16 s).length = s.length := by
  induction s with
  | nil => rfl
  | cons c s ih =>
    have : utf16Char c = [c.toNat] := if_pos (h c (by simp))
    rw [utf16, List.flatMap_cons, this, List.singleton_append, List.length_cons, List.length_cons]
    exact congrArg (· + 1) (ih fun d hd => h d (by simp [hd]))

/-! ### Splitting -/

/-- A separator ending in a mark that occurs nowhere else: only what stands before the next mark matters. -/
theorem after_mark {s u rest : List Nat} {b : Nat} (hs : b ∉ s) (hu : b ∉ u) :
    after (s ++ [b]) (u ++ b :: rest) = if s <:+ u then some rest else after (s ++ [b]) rest := by
  induction u with
  | nil =>
    cases s with
    | nil => simp [after]
    | cons a s =>
      rw [List.nil_append, after, if_neg, if_neg (by simp)]
      simp only [List.cons_append, List.isPrefixOf, Bool.and_eq_true, beq_iff_eq, not_and]
      intro h
      simp [h] at hs
  | cons c u ih =>
    rw [List.mem_cons, not_or] at hu
    by_cases he : s = c :: u
    · subst he
      have hp : (c :: u ++ [b]).isPrefixOf (c :: u ++ b :: rest) = true := by
        rw [List.isPrefixOf_iff_prefix]
        exact ⟨rest, by simp⟩
      rw [show c :: u ++ b :: rest = c :: (u ++ b :: rest) from rfl] at hp ⊢
      rw [after, if_pos hp, if_pos (List.suffix_refl _)]
      simp
    · have hp : ¬ ((s ++ [b]).isPrefixOf (c :: u ++ b :: rest) = true) := by
        rw [List.isPrefixOf_iff_prefix]
        rintro ⟨t, ht⟩
        rw [List.append_assoc] at ht
        apply he
        have key : ∀ {x y : List Nat} {p q : List Nat}, b ∉ x → b ∉ y → x ++ b :: p = y ++ b :: q → x = y := by
          intro x
          induction x with
          | nil =>
            intro y p q _ hy h
            cases y with
            | nil => rfl
            | cons d y => simp at h; simp [← h.1] at hy
          | cons d x ihx =>
            intro y p q hx hy h
            cases y with
            | nil => simp at h; simp [h.1] at hx
            | cons d' y =>
              simp only [List.cons_append, List.cons.injEq] at h
              rw [h.1, ihx (fun hm => hx (by simp [hm])) (fun hm => hy (by simp [hm])) h.2]
        exact key hs (by simp [hu.1, hu.2]) ht
      rw [List.cons_append, after, ← List.cons_append, if_neg hp, ih hu.2]
      have : s <:+ c :: u ↔ s <:+ u := by
        rw [List.suffix_cons_iff]
        simp [he]
      simp only [this]

theorem after_none {s u : List Nat} {b : Nat} (hu : b ∉ u) : after (s ++ [b]) u = none := by
  induction u with
  | nil => simp [after]
  | cons c u ih =>
    rw [after, if_neg, ih fun h => hu (by simp [h])]
    rw [List.isPrefixOf_iff_prefix]
    intro h
    exact hu (h.subset (by simp))

theorem upTo_all {sep l : List Nat} (h : after sep l = none) : upTo sep l = l := by
  induction l with
  | nil => rfl
  | cons c l ih =>
    rw [after] at h
    split at h
    · cases h
    · rename_i hp
      rw [upTo, if_neg hp, ih h]

theorem upTo_mark {u rest : List Nat} {b : Nat} (hu : b ∉ u) : upTo [b] (u ++ b :: rest) = u := by
  induction u with
  | nil => simp [upTo]
  | cons c u ih =>
    rw [List.mem_cons, not_or] at hu
    rw [List.cons_append, upTo, if_neg (by simp [hu.1]), ih hu.2]

theorem upTo_absent {u : List Nat} {b : Nat} (hu : b ∉ u) : upTo [b] u = u :=
  upTo_all (after_none (s := []) hu)

theorem after_length {sep l r : List Nat} (h : after sep l = some r) : sep.length ≤ l.length := by
  induction l with
  | nil =>
    rw [after] at h
    split at h
    · rename_i hs; simp [hs]
    · cases h
  | cons c l ih =>
    rw [after] at h
    split at h
    · rename_i hp
      exact (List.isPrefixOf_iff_prefix.mp hp).length_le
    · have := ih h
      simp only [List.length_cons]
      omega

/-- What is found stays found when more follows. -/
theorem after_more {sep l r x : List Nat} (hs : sep ≠ []) (h : after sep l = some r) : after sep (l ++ x) = some (r ++ x) := by
  induction l with
  | nil => simp [after, hs] at h
  | cons c l ih =>
    rw [after] at h
    split at h
    · rename_i hp
      cases h
      have hp' : sep.isPrefixOf (c :: l ++ x) = true := by
        rw [List.isPrefixOf_iff_prefix] at hp ⊢
        exact hp.trans (List.prefix_append _ _)
      have hl : sep.length ≤ (c :: l).length := (List.isPrefixOf_iff_prefix.mp hp).length_le
      rw [List.cons_append, after, ← List.cons_append, if_pos hp', List.drop_append_of_le_length hl]
    · rename_i hp
      have hp' : ¬ (sep.isPrefixOf (c :: l ++ x) = true) := by
        rw [List.isPrefixOf_iff_prefix] at hp ⊢
        intro h'
        have hl := after_length h
        exact hp (List.prefix_of_prefix_length_le h' (List.prefix_append _ _) (by simp only [List.length_cons]; omega))
      rw [List.cons_append, after, ← List.cons_append, if_neg hp', ih h]

/-! ### Numbers, names and lines -/

theorem dec_digit {n : Nat} {c : Char} (h : c ∈ decText n) : 48 ≤ c.toNat ∧ c.toNat ≤ 57 := by
  have := Nat.isDigit_of_mem_toDigits (by omega) (by omega) h
  simp only [Char.isDigit, Bool.and_eq_true, decide_eq_true_eq] at this
  exact this

theorem takeWhile_whole {p : Nat → Bool} {l : List Nat} (h : ∀ x ∈ l, p x = true) : l.takeWhile p = l := by
  induction l with
  | nil => rfl
  | cons x l ih => rw [List.takeWhile_cons_of_pos (h x (by simp)), ih fun y hy => h y (by simp [hy])]

theorem parseInt_dec (n : Nat) : parseInt (utf16 (decText n)) = some n := by
  have hd : ∀ c ∈ decText n, c.toNat < 128 := fun c hc => by have := dec_digit hc; omega
  have hall : (utf16 (decText n)).takeWhile (fun c => 48 ≤ c && c ≤ 57) = utf16 (decText n) := by
    refine takeWhile_whole ?_
    rw [utf16_ascii hd]
    intro x hx
    obtain ⟨c, hc, rfl⟩ := List.mem_map.mp hx
    have := dec_digit hc
    simp [this.1, this.2]
  have hv : (utf16 (decText n)).foldl (fun n d => 10 * n + (d - 48)) 0 = n := by
    rw [utf16_ascii hd, List.foldl_map]
    have := Nat.ofDigitChars_ten_toDigits (n := n)
    rw [Nat.ofDigitChars_eq_foldl] at this
    exact this
  unfold parseInt
  rw [hall]
  split
  · rename_i h0
    exfalso
    rw [utf16_ascii hd, List.map_eq_nil_iff] at h0
    exact Nat.toDigits_ne_nil h0
  · rw [hv]

theorem lineColFrom_line {s rest : Name} (h : '\n' ∉ s) : ∀ l c, lineColFrom (l, c) (s ++ '\n' :: rest) = lineColFrom (l + 1, 1) rest := by
  induction s with
  | nil => intro l c; simp [lineColFrom]
  | cons d s ih =>
    intro l c
    rw [List.mem_cons, not_or] at h
    cases s with
    | nil =>
      by_cases hd : d = '\r'
      · subst hd; simp [lineColFrom]
      · rw [List.cons_append, List.nil_append, lineColFrom]
        · rw [if_neg (Ne.symm h.1)]
          exact ih h.2 l (c + 1)
        · intro s' h1 _; exact hd h1
    | cons d' s =>
      rw [List.cons_append, lineColFrom]
      · rw [if_neg (Ne.symm h.1)]
        exact ih h.2 l (c + 1)
      · intro s' _ h2
        rw [List.cons_append, List.cons.injEq] at h2
        exact h.2 (by simp [h2.1])

theorem lineColFrom_last {s : Name} (h : '\n' ∉ s) : ∀ l c, lineColFrom (l, c) s = (l, c + s.length) := by
  induction s with
  | nil => intro l c; rfl
  | cons d s ih =>
    intro l c
    rw [List.mem_cons, not_or] at h
    rw [lineColFrom]
    · rw [if_neg (Ne.symm h.1), ih h.2, List.length_cons]
      congr 1
      omega
    · intro s' _ h2
      exact h.2 (by simp [h2])

theorem lineCol_joined {ls : List Name} {cur : Name} (hl : ∀ l ∈ ls, '\n' ∉ l) (hc : '\n' ∉ cur) :
    lineCol (joined ls ++ cur) = (ls.length + 1, cur.length + 1) := by
  have : ∀ n, lineColFrom (n, 1) (joined ls ++ cur) = (n + ls.length, cur.length + 1) := by
    induction ls with
    | nil => intro n; rw [joined, List.flatMap_nil, List.nil_append, lineColFrom_last hc]; simp [Nat.add_comm]
    | cons l ls ih =>
      intro n
      rw [joined, List.flatMap_cons, List.append_assoc, List.append_assoc, List.singleton_append,
        lineColFrom_line (hl l (by simp)), ← joined, ih (fun x hx => hl x (by simp [hx])), List.length_cons]
      congr 1
      omega
  rw [lineCol, this, Nat.add_comm]

theorem lineAt_joined {ls : List Name} {cur tail : Name} (hl : ∀ l ∈ ls, '\n' ∉ l) (hc : '\n' ∉ cur)
    (ht : tail = [] ∨ ∃ t, tail = '\n' :: t) : lineNo ls.length (utf16 (joined ls ++ (cur ++ tail))) = some (utf16 cur) := by
  have h10 : ∀ {x : Name}, '\n' ∉ x → 10 ∉ utf16 x := fun h => not_mem_utf16 (d := '\n') h (by decide)
  induction ls with
  | nil =>
    rw [joined, List.flatMap_nil, List.nil_append, utf16_append, List.length_nil, lineNo]
    rcases ht with rfl | ⟨t, rfl⟩
    · rw [show utf16 [] = [] from rfl, List.append_nil, upTo_absent (h10 hc)]
    · exact congrArg some (upTo_mark (b := 10) (h10 hc))
  | cons l ls ih =>
    rw [joined, List.flatMap_cons, List.append_assoc, List.append_assoc, List.singleton_append, ← joined, utf16_append,
      List.length_cons, lineNo]
    have := after_mark (s := []) (u := utf16 l) (rest := utf16 (joined ls ++ (cur ++ tail))) (b := 10) (by simp) (h10 (hl l (by simp)))
    rw [if_pos (by simp), List.nil_append] at this
    rw [show utf16 ('\n' :: (joined ls ++ (cur ++ tail))) = 10 :: utf16 (joined ls ++ (cur ++ tail)) from rfl, this]
    exact ih fun x hx => hl x (by simp [hx])

/-! ### The hint -/

theorem replaceFirst_skip {a : Nat} {pat new u v : List Nat} (h : a ∉ u) :
    replaceFirst (a :: pat) new (u ++ v) = u ++ replaceFirst (a :: pat) new v := by
  induction u with
  | nil => rfl
  | cons c u ih =>
    rw [List.mem_cons, not_or] at h
    rw [List.cons_append, replaceFirst, if_neg (by simp [h.1]), ih h.2, List.cons_append]

theorem ruleName_char {x : Name} (h : RuleName x ∨ x = c!"EOI") {c : Char} (hc : c ∈ x) :
    c.toNat < 128 ∧ c.toNat ≠ 0 ∧ c ≠ '[' ∧ c ≠ ']' ∧ c ≠ ',' ∧ (RuleName x → c ≠ 'E') := by
  have key : ∀ d : Char, c.toNat ≠ d.toNat → c ≠ d := fun d h h' => h (h' ▸ rfl)
  rcases h with h | h
  · have : c.toNat = 95 ∨ (97 ≤ c.toNat ∧ c.toNat ≤ 122) ∨ (48 ≤ c.toNat ∧ c.toNat ≤ 57) := by
      rcases h.2 c hc with rfl | ⟨h1, h2⟩ | ⟨h1, h2⟩
      · exact .inl rfl
      · exact .inr (.inl ⟨h1, h2⟩)
      · exact .inr (.inr ⟨h1, h2⟩)
    refine ⟨by omega, by omega, key _ ?_, key _ ?_, key _ ?_, fun _ => key _ ?_⟩
    · show c.toNat ≠ 91; omega
    · show c.toNat ≠ 93; omega
    · show c.toNat ≠ 44; omega
    · show c.toNat ≠ 69; omega
  · subst h
    have hd : ∀ c ∈ c!"EOI", c.toNat < 128 ∧ c.toNat ≠ 0 ∧ c ≠ '[' ∧ c ≠ ']' ∧ c ≠ ',' := by decide
    obtain ⟨h1, h2, h3, h4, h5⟩ := hd c hc
    refine ⟨h1, h2, h3, h4, h5, ?_⟩
    · intro hr
      rcases hr.2 'E' (by decide) with h | ⟨h1, h2⟩ | ⟨h1, h2⟩
      · exact absurd h (by decide)
      · exact absurd h1 (by decide)
      · exact absurd h2 (by decide)

theorem mem_commas {l : List Name} {c : Char} (h : c ∈ commas l) : (∃ x ∈ l, c ∈ x) ∨ c = ',' ∨ c = ' ' := by
  induction l with
  | nil => cases h
  | cons x l ih =>
    cases l with
    | nil => exact .inl ⟨x, by simp, h⟩
    | cons y l =>
      rw [commas] at h
      · rcases List.mem_append.mp h with h | h
        · exact .inl ⟨x, by simp, h⟩
        · rcases List.mem_cons.mp h with h | h
          · exact .inr (.inl h)
          · rcases List.mem_cons.mp h with h | h
            · exact .inr (.inr h)
            · rcases ih h with ⟨z, hz, hc⟩ | h
              · exact .inl ⟨z, by simp [hz], hc⟩
              · exact .inr h
      · simp

theorem commas_cons (x y : Name) (l : List Name) : commas (x :: y :: l) = x ++ (c!", " ++ commas (y :: l)) := rfl

theorem replaced {ps : List Name} (h : ∀ x ∈ ps, RuleName x ∨ x = c!"EOI") (hc : ps.count c!"EOI" ≤ 1) :
    replaceFirst (utf16 c!"EOI") (utf16 c!"END OF INPUT") (utf16 (commas ps)) = utf16 (commas (ps.map shownAs)) := by
  have h69 : ∀ {x : Name}, 'E' ∉ x → 69 ∉ utf16 x := fun h => not_mem_utf16 (d := 'E') h (by decide)
  have hpat : utf16 c!"EOI" = 69 :: [79, 73] := rfl
  have hfirst : ∀ v, replaceFirst (utf16 c!"EOI") (utf16 c!"END OF INPUT") (utf16 c!"EOI" ++ v) = utf16 c!"END OF INPUT" ++ v := by
    intro v
    rw [hpat, show (69 :: [79, 73] ++ v : List Nat) = 69 :: ([79, 73] ++ v) from rfl, replaceFirst,
      if_pos (by simp [List.isPrefixOf])]
    simp
  have hsame : ∀ {x : Name}, RuleName x → shownAs x = x := by
    intro x hx
    refine if_neg ?_
    rintro rfl
    exact (ruleName_char (.inl hx) (c := 'E') (by decide)).2.2.2.2.2 hx rfl
  have hno : ∀ {x : Name}, RuleName x → 'E' ∉ x := fun hx hm => (ruleName_char (.inl hx) hm).2.2.2.2.2 hx rfl
  induction ps with
  | nil => rfl
  | cons x ps ih =>
    cases ps with
    | nil =>
      rcases h x (by simp) with hx | rfl
      · have := replaceFirst_skip (pat := [79, 73]) (new := utf16 c!"END OF INPUT") (u := utf16 x) (v := []) (h69 (hno hx))
        rw [List.append_nil] at this
        show replaceFirst _ _ (utf16 x) = utf16 (shownAs x)
        rw [hsame hx, hpat, this, replaceFirst, List.append_nil]
      · rfl
    | cons y l =>
      rw [commas_cons, List.map_cons, List.map_cons, commas_cons, ← List.map_cons, utf16_append, utf16_append, utf16_append, utf16_append]
      rcases h x (by simp) with hx | rfl
      · have h2 : 69 ∉ utf16 c!", " := by decide
        rw [hpat, replaceFirst_skip (h69 (hno hx)), replaceFirst_skip h2, ← hpat, ih (fun z hz => h z (by simp [hz])), hsame hx]
        refine Nat.le_trans ?_ hc
        exact List.count_le_count_cons
      · rw [hfirst]
        have h0 : (y :: l).count c!"EOI" = 0 := by
          rw [List.count_cons_self] at hc
          omega
        have : (y :: l).map shownAs = y :: l := by
          have : ∀ z ∈ y :: l, shownAs z = z := by
            intro z hz
            refine if_neg ?_
            rintro rfl
            exact absurd (List.count_pos_iff.mpr hz) (by omega)
          calc (y :: l).map shownAs = (y :: l).map id := List.map_congr_left this
            _ = y :: l := List.map_id _
        rw [this]
        rfl

theorem joinCommas_append (sep a b : List Nat) : joinCommas sep (a ++ b) = joinCommas sep a ++ joinCommas sep b :=
  List.flatMap_append

theorem joinCommas_none {sep a : List Nat} (h : 44 ∉ a) : joinCommas sep a = a := by
  induction a with
  | nil => rfl
  | cons c a ih =>
    rw [List.mem_cons, not_or] at h
    rw [joinCommas, List.flatMap_cons, if_neg (Ne.symm h.1)]
    exact congrArg _ (ih h.2)

theorem joined_names (sep : Name) {l : List Name} (h : ∀ x ∈ l, ',' ∉ x) :
    joinCommas (utf16 sep) (utf16 (commas l)) = utf16 (List.intercalate (sep ++ [' ']) l) := by
  have h44 : ∀ {x : Name}, ',' ∉ x → 44 ∉ utf16 x := fun h => not_mem_utf16 (d := ',') h (by decide)
  induction l with
  | nil => rfl
  | cons x l ih =>
    cases l with
    | nil =>
      show joinCommas _ (utf16 x) = _
      rw [joinCommas_none (h44 (h x (by simp)))]
      simp [List.intercalate]
    | cons y l =>
      rw [commas_cons, utf16_append, utf16_append, joinCommas_append, joinCommas_append, ih fun z hz => h z (by simp [hz]),
        joinCommas_none (h44 (h x (by simp)))]
      have : List.intercalate (sep ++ [' ']) (x :: y :: l) = x ++ ((sep ++ [' ']) ++ List.intercalate (sep ++ [' ']) (y :: l)) := by
        simp [List.intercalate]
      rw [this, utf16_append, utf16_append, utf16_append]
      rw [show utf16 c!", " = [44, 32] from rfl, show joinCommas (utf16 sep) [44, 32] = utf16 sep ++ utf16 [' '] by
        simp [joinCommas, utf16, utf16Char]]

/-! ### The message -/

/-- What is sent before the list of rules that were not expected. -/
def headOf (f : Failure) : Name :=
  c!"pos" ++ '[' :: (decText (Wasm.utf8 f.before).length ++ c!"], line" ++ '[' :: (decText (lineCol f.before).1 ++ c!"], col" ++ '[' ::
    (decText (lineCol f.before).2 ++ c!"], positives" ++ '[' :: (commas f.positives ++ c!"], negatives" ++ ['[']))))

theorem message_eq (f : Failure) : message f = headOf f ++ (commas f.negatives ++ c!"]") := by
  simp [message, headOf]

theorem not_suffix_last {s u : List Nat} {a b : Nat} (hs : s.getLast? = some a) (hu : u.getLast? = some b) (h : a ≠ b) : ¬ s <:+ u := by
  rintro ⟨t, rfl⟩
  rw [List.getLast?_append, hs] at hu
  cases hu
  exact h rfl

theorem suffix_short {s x y : List Nat} (h : s <:+ x ++ y) (hl : s.length ≤ y.length) : s <:+ y :=
  List.suffix_of_suffix_length_le h (List.suffix_append _ _) hl

theorem dec_marks (n : Nat) : '[' ∉ decText n ∧ ']' ∉ decText n := by
  constructor
  · intro h; have := dec_digit h; revert this; decide
  · intro h; have := dec_digit h; revert this; decide

/-- The four parts of the message are found. -/
theorem parts {f : Failure} (hf : Sound f) {T : List Nat} (hT : 91 ∉ T) :
    (∃ r, second (utf16 c!"line[") (utf16 (headOf f) ++ T) = some (utf16 (decText (lineCol f.before).1) ++ 93 :: r)) ∧
    (∃ r, second (utf16 c!"col[") (utf16 (headOf f) ++ T) = some (utf16 (decText (lineCol f.before).2) ++ 93 :: r)) ∧
    (∃ r, second (utf16 c!"positives[") (utf16 (headOf f) ++ T) = some (utf16 (commas f.positives) ++ 93 :: r)) ∧
    after (utf16 c!"negatives[") (utf16 (headOf f) ++ T) = some T := by
  have hC : '[' ∉ commas f.positives := by
    intro h
    rcases mem_commas h with ⟨x, hx, hc⟩ | h | h
    · exact (ruleName_char (hf.1 x hx) hc).2.2.1 rfl
    · cases h
    · cases h
  have n91 : ∀ {x : Name}, '[' ∉ x → 91 ∉ utf16 x := fun h => not_mem_utf16 (d := '[') h (by decide)
  generalize hp : (Wasm.utf8 f.before).length = p
  have hhead : utf16 (headOf f) ++ T = utf16 c!"pos" ++ 91 :: (utf16 (decText p ++ c!"], line") ++ 91 ::
      (utf16 (decText (lineCol f.before).1 ++ c!"], col") ++ 91 :: (utf16 (decText (lineCol f.before).2 ++ c!"], positives") ++ 91 ::
        (utf16 (commas f.positives ++ c!"], negatives") ++ 91 :: T)))) := by
    have : ∀ (a b : Name), utf16 (a ++ '[' :: b) = utf16 a ++ 91 :: utf16 b := by
      intro a b
      rw [utf16_append]
      rfl
    have all : ∀ a b c d e : Name, utf16 (a ++ '[' :: (b ++ '[' :: (c ++ '[' :: (d ++ '[' :: (e ++ ['[']))))) ++ T =
        utf16 a ++ 91 :: (utf16 b ++ 91 :: (utf16 c ++ 91 :: (utf16 d ++ 91 :: (utf16 e ++ 91 :: T)))) := by
      intro a b c d e
      rw [this, this, this, this, this]
      simp [utf16]
    rw [headOf, hp]
    exact all _ _ _ _ _
  have m1 : 91 ∉ utf16 c!"pos" := by decide
  have m2 : 91 ∉ utf16 (decText p ++ c!"], line") := n91 (by simp [(dec_marks p).1])
  have m3 : 91 ∉ utf16 (decText (lineCol f.before).1 ++ c!"], col") := n91 (by simp [(dec_marks (lineCol f.before).1).1])
  have m4 : 91 ∉ utf16 (decText (lineCol f.before).2 ++ c!"], positives") := n91 (by simp [(dec_marks (lineCol f.before).2).1])
  have m5 : 91 ∉ utf16 (commas f.positives ++ c!"], negatives") := n91 (by simp [hC])
  have last : ∀ (a : Name) (b : Name) (n : Nat), (utf16 b).getLast? = some n → (utf16 (a ++ b)).getLast? = some n := by
    intro a b n h
    rw [utf16_append, List.getLast?_append, h]
    rfl
  have l2 := last (decText p) c!"], line" 101 rfl
  have l3 := last (decText (lineCol f.before).1) c!"], col" 108 rfl
  have l4 := last (decText (lineCol f.before).2) c!"], positives" 115 rfl
  have l5 := last (commas f.positives) c!"], negatives" 115 rfl
  have suf : ∀ (a b s : Name), s <:+ b → utf16 s <:+ utf16 (a ++ b) := by
    rintro a b s ⟨t, rfl⟩
    rw [utf16_append, utf16_append, ← List.append_assoc]
    exact List.suffix_append _ _
  rw [hhead]
  refine ⟨⟨utf16 c!", col" ++ 91 :: (utf16 (decText (lineCol f.before).2 ++ c!"], positives") ++ 91 ::
        (utf16 (commas f.positives ++ c!"], negatives") ++ 91 :: T)), ?_⟩,
    ⟨utf16 c!", positives" ++ 91 :: (utf16 (commas f.positives ++ c!"], negatives") ++ 91 :: T), ?_⟩,
    ⟨utf16 c!", negatives" ++ 91 :: T, ?_⟩, ?_⟩
  · rw [second, show utf16 c!"line[" = utf16 c!"line" ++ [91] from rfl, after_mark (by decide) m1, if_neg (by decide),
      after_mark (by decide) m2, if_pos (suf _ _ _ (by decide)), Option.map_some, upTo_all]
    · simp [utf16_append]; rfl
    · rw [after_mark (by decide) m3, if_neg (not_suffix_last (a := 101) rfl l3 (by decide)),
        after_mark (by decide) m4, if_neg (not_suffix_last (a := 101) rfl l4 (by decide)),
        after_mark (by decide) m5, if_neg (not_suffix_last (a := 101) rfl l5 (by decide)), after_none hT]
  · rw [second, show utf16 c!"col[" = utf16 c!"col" ++ [91] from rfl, after_mark (by decide) m1, if_neg (by decide),
      after_mark (by decide) m2, if_neg (not_suffix_last (a := 108) rfl l2 (by decide)),
      after_mark (by decide) m3, if_pos (suf _ _ _ (by decide)), Option.map_some, upTo_all]
    · simp [utf16_append]; rfl
    · rw [after_mark (by decide) m4, if_neg (not_suffix_last (a := 108) rfl l4 (by decide)),
        after_mark (by decide) m5, if_neg (not_suffix_last (a := 108) rfl l5 (by decide)), after_none hT]
  · rw [second, show utf16 c!"positives[" = utf16 c!"positives" ++ [91] from rfl, after_mark (by decide) m1, if_neg (by decide),
      after_mark (by decide) m2, if_neg (not_suffix_last (a := 115) rfl l2 (by decide)),
      after_mark (by decide) m3, if_neg (not_suffix_last (a := 115) rfl l3 (by decide)),
      after_mark (by decide) m4, if_pos (suf _ _ _ (by decide)), Option.map_some, upTo_all]
    · simp [utf16_append]; rfl
    · rw [after_mark (by decide) m5, if_neg, after_none hT]
      intro h
      rw [utf16_append] at h
      exact absurd (suffix_short h (by decide)) (by decide)
  · rw [show utf16 c!"negatives[" = utf16 c!"negatives" ++ [91] from rfl, after_mark (by decide) m1, if_neg (by decide),
      after_mark (by decide) m2, if_neg (not_suffix_last (a := 115) rfl l2 (by decide)),
      after_mark (by decide) m3, if_neg (not_suffix_last (a := 115) rfl l3 (by decide)),
      after_mark (by decide) m4, if_neg, after_mark (by decide) m5, if_pos (suf _ _ _ (by decide))]
    intro h
    rw [utf16_append] at h
    exact absurd (suffix_short h (by decide)) (by decide)

/-! ### The bytes that arrive -/

theorem buffer_text {cls : Nat} {msg buf : List Nat} (h : ErrorBuffer cls msg buf) (h0 : ∀ b ∈ msg, b ≠ 0) :
    (buf.drop 2).filter (· ≠ 0) = msg.take 254 := by
  obtain ⟨hl, _, _, h1, h2⟩ := h
  have : buf.drop 2 = msg.take 254 ++ List.replicate (254 - msg.length) 0 := by
    apply List.ext_getElem?
    intro i
    rw [List.getElem?_drop]
    by_cases hi : i < 254
    · by_cases hm : i < msg.length
      · rw [h1 i hi hm, List.getElem?_append_left (by simp; omega), List.getElem?_take_of_lt hi]
      · rw [h2 i hi (by omega), List.getElem?_append_right (by simp; omega), List.getElem?_replicate, if_pos (by simp; omega)]
    · rw [List.getElem?_eq_none (by omega), List.getElem?_eq_none (by simp; omega)]
  rw [this, List.filter_append, List.filter_eq_self.mpr, List.filter_eq_nil_iff.mpr, List.append_nil]
  · intro b hb; simp [List.eq_of_mem_replicate hb]
  · intro b hb; simpa using h0 b (List.mem_of_mem_take hb)

theorem message_ascii {f : Failure} (hf : Sound f) : ∀ c ∈ message f, c.toNat < 128 ∧ c.toNat ≠ 0 := by
  have hd : ∀ n, ∀ c ∈ decText n, c.toNat < 128 ∧ c.toNat ≠ 0 := fun n c hc => by have := dec_digit hc; omega
  have hc : ∀ l : List Name, (∀ x ∈ l, RuleName x ∨ x = c!"EOI") → ∀ c ∈ commas l, c.toNat < 128 ∧ c.toNat ≠ 0 := by
    intro l hl c hc
    rcases mem_commas hc with ⟨x, hx, hc⟩ | rfl | rfl
    · obtain ⟨h1, h2, _⟩ := ruleName_char (hl x hx) hc
      exact ⟨h1, h2⟩
    · decide
    · decide
  have ht : ∀ s : Name, s ∈ [c!"pos[", c!"], line[", c!"], col[", c!"], positives[", c!"], negatives[", c!"]"] →
      ∀ c ∈ s, c.toNat < 128 ∧ c.toNat ≠ 0 := by decide
  intro c h
  unfold message at h
  rcases List.mem_append.mp h with h | h
  · rcases List.mem_append.mp h with h | h
    · rcases List.mem_append.mp h with h | h
      · rcases List.mem_append.mp h with h | h
        · rcases List.mem_append.mp h with h | h
          · rcases List.mem_append.mp h with h | h
            · rcases List.mem_append.mp h with h | h
              · rcases List.mem_append.mp h with h | h
                · rcases List.mem_append.mp h with h | h
                  · rcases List.mem_append.mp h with h | h
                    · exact ht _ (by simp) c h
                    · exact hd _ c h
                  · exact ht _ (by simp) c h
                · exact hd _ c h
              · exact ht _ (by simp) c h
            · exact hd _ c h
          · exact ht _ (by simp) c h
        · exact hc _ hf.1 c h
      · exact ht _ (by simp) c h
    · exact hc _ (fun x hx => .inl (hf.2.2 x hx)) c h
  · exact ht _ (by simp) c h

/-- The text that the page reads from the result. -/
theorem info_eq {decode : List Nat → List Nat} (hdec : AsciiDecoder decode) {f : Failure} (hf : Sound f) {buf : List Nat}
    (hb : ErrorBuffer 1 (Wasm.utf8 (message f)) buf) :
    decode ((buf.drop 2).filter (· ≠ 0)) = (utf16 (message f)).take 254 := by
  have ha := message_ascii hf
  have h8 := utf8_ascii fun c hc => (ha c hc).1
  have h16 := utf16_ascii fun c hc => (ha c hc).1
  rw [buffer_text hb, h8, h16, hdec]
  · intro b hb
    obtain ⟨c, hc, rfl⟩ := List.mem_map.mp (List.mem_of_mem_take hb)
    exact (ha c hc).1
  · rw [h8]
    intro b hb
    obtain ⟨c, hc, rfl⟩ := List.mem_map.mp hb
    exact (ha c hc).2

theorem length_ascii {s : Name} (h : ∀ c ∈ s, c.toNat < 128) : (utf16 s).length = s.length := by
  rw [utf16_ascii h, List.length_map]

theorem head_ascii {f : Failure} (hf : Sound f) : ∀ c ∈ headOf f, c.toNat < 128 := by
  intro c hc
  refine (message_ascii hf c ?_).1
  rw [message_eq]
  exact List.mem_append_left _ hc

theorem intercalate_ne {sep : Name} {l : List Name} (hl : l ≠ []) (h : ∀ x ∈ l, x ≠ []) : List.intercalate sep l ≠ [] := by
  match l, hl with
  | [x], _ => simpa [List.intercalate] using h x (by simp)
  | x :: y :: l, _ => simpa [List.intercalate] using fun h' => absurd h' (h x (by simp))

/-- The report when the names of the rules fit, whatever code is kept. -/
theorem report_found {L : Lang} {decode : List Nat → List Nat} (hdec : AsciiDecoder decode) (τ : TableOrder)
    (parseMsg : Name → List Nat) (e e' : Engine L) (code : Name) (hu : e.updateWithCode τ code = .ok (e', some .parsing))
    (f : Failure) (hf : Sound f) (hm : parseMsg code = Wasm.utf8 (message f))
    (ls : List Name) (cur : Name) (hbefore : f.before = joined ls ++ cur) (hl : ∀ l ∈ ls, '\n' ∉ l) (hc : '\n' ∉ cur)
    (hfit : (message f).length ≤ 254 + (commas f.negatives).length + 1) :
    ∃ buf info last, Wasm.update τ parseMsg e code = .ok (e', buf) ∧
      (∀ kept : Option (List Nat), reportOf decode kept buf = match kept.bind (lineNo ls.length) with
        | none => ⟨[info, utf16 (c!"%cError at line " ++ decText (ls.length + 1))], true⟩
        | some l => ⟨[info, utf16 (c!"%cError at line " ++ decText (ls.length + 1)),
            l.take cur.length ++ utf16 c!"%c %c" ++ l.drop cur.length,
            utf16 (List.replicate cur.length '_' ++ c!"%c^^^ ") ++ last], false⟩) ∧
      ((message f).length ≤ 254 → info = utf16 (message f) ∧ last = utf16 (hint f)) := by
  obtain ⟨buf, h1, hb⟩ := c29_result_buffer τ parseMsg e code hu
  simp only [hm] at hb
  have hinfo := info_eq hdec hf hb
  have hlen : (utf16 (headOf f)).length ≤ 254 := by
    rw [length_ascii (head_ascii hf)]
    rw [message_eq, List.length_append, List.length_append] at hfit
    simp at hfit
    omega
  have hT : ∃ T, (utf16 (message f)).take 254 = utf16 (headOf f) ++ T ∧ 91 ∉ T ∧
      ((message f).length ≤ 254 → T = utf16 (commas f.negatives) ++ [93]) := by
    refine ⟨(utf16 (commas f.negatives ++ c!"]")).take (254 - (utf16 (headOf f)).length), ?_, ?_, ?_⟩
    · rw [message_eq, utf16_append, List.take_append, List.take_of_length_le hlen]
    · intro h
      have := List.mem_of_mem_take h
      refine absurd this (not_mem_utf16 (d := '[') ?_ (by decide))
      intro h
      rcases List.mem_append.mp h with h | h
      · rcases mem_commas h with ⟨x, hx, hc⟩ | h | h
        · exact (ruleName_char (.inl (hf.2.2 x hx)) hc).2.2.1 rfl
        · cases h
        · cases h
      · revert h; decide
    · intro hs
      have ha := length_ascii fun c hc => (message_ascii hf c hc).1
      rw [message_eq, utf16_append, List.length_append, ← message_eq] at ha
      rw [List.take_of_length_le (by omega), utf16_append]
      rfl
  obtain ⟨T, hT1, hT2, hT3⟩ := hT
  obtain ⟨⟨r1, p1⟩, ⟨r2, p2⟩, ⟨r3, p3⟩, p4⟩ := parts hf hT2
  have p4 : second (utf16 c!"negatives[") (utf16 (headOf f) ++ T) = some T := by
    rw [second, p4, Option.map_some, show utf16 c!"negatives[" = utf16 c!"negatives" ++ [91] from rfl, upTo_all (after_none hT2)]
  have n93 : ∀ {x : Name}, ']' ∉ x → 93 ∉ utf16 x := fun h => not_mem_utf16 (d := ']') h (by decide)
  have hlc : lineCol f.before = (ls.length + 1, cur.length + 1) := by rw [hbefore]; exact lineCol_joined hl hc
  have q1 : untilBracket (utf16 (decText (lineCol f.before).1) ++ 93 :: r1) = utf16 (decText (ls.length + 1)) := by
    rw [hlc]; exact upTo_mark (b := 93) (n93 (dec_marks _).2)
  have q2 : untilBracket (utf16 (decText (lineCol f.before).2) ++ 93 :: r2) = utf16 (decText (cur.length + 1)) := by
    rw [hlc]; exact upTo_mark (b := 93) (n93 (dec_marks _).2)
  have bracket : ∀ l : List Name, (∀ x ∈ l, RuleName x ∨ x = c!"EOI") → ']' ∉ commas l := by
    intro l hl h
    rcases mem_commas h with ⟨x, hx, hc⟩ | h | h
    · exact (ruleName_char (hl x hx) hc).2.2.2.1 rfl
    · cases h
    · cases h
  have q3 : untilBracket (utf16 (commas f.positives) ++ 93 :: r3) = utf16 (commas f.positives) :=
    upTo_mark (b := 93) (n93 (bracket _ hf.1))
  have hpos : joinCommas (utf16 c!" ||") (replaceFirst (utf16 c!"EOI") (utf16 c!"END OF INPUT") (utf16 (commas f.positives))) =
      utf16 (List.intercalate c!" || " (f.positives.map shownAs)) := by
    rw [replaced hf.1 hf.2.1, joined_names]
    · rfl
    · intro x hx
      obtain ⟨y, hy, rfl⟩ := List.mem_map.mp hx
      unfold shownAs
      split
      · decide
      · intro h; exact (ruleName_char (hf.1 y hy) h).2.2.2.2.1 rfl
  have hrep : List.replicate cur.length 95 = utf16 (List.replicate cur.length '_') := by
    generalize cur.length = n
    induction n with
    | zero => rfl
    | succ n ih => rw [List.replicate_succ, List.replicate_succ, ih]; rfl
  refine ⟨buf, (utf16 (message f)).take 254,
    (if (utf16 (List.intercalate c!" || " (f.positives.map shownAs))).length > 0 then
      utf16 c!"expecting " ++ utf16 (List.intercalate c!" || " (f.positives.map shownAs)) else []) ++
    (if (joinCommas (utf16 c!" or") (untilBracket T)).length > 0 then
      utf16 c!"unexpected " ++ joinCommas (utf16 c!" or") (untilBracket T) else []), h1, ?_, ?_⟩
  · intro kept
    unfold reportOf
    simp only [hinfo, hb.2.1, if_true, hT1, p1, p2, p3, p4, q1, q2, q3, parseInt_dec, Option.bind_some, Option.getD_some,
      if_neg (Nat.succ_ne_zero _), Nat.add_sub_cancel, hpos]
    rw [hrep, utf16_append _ (decText _)]
    cases kept.bind (lineNo ls.length) with
    | none => rfl
    | some l => simp only [utf16_append, List.append_assoc]
  · intro hs
    refine ⟨List.take_of_length_le (by rw [length_ascii fun c hc => (message_ascii hf c hc).1]; exact hs), ?_⟩
    have hneg : joinCommas (utf16 c!" or") (untilBracket T) = utf16 (List.intercalate c!" or " f.negatives) := by
      rw [hT3 hs, untilBracket, show utf16 c!"]" = [93] from rfl,
        upTo_mark (n93 (bracket _ fun x hx => .inl (hf.2.2 x hx))), joined_names]
      · rfl
      · intro x hx h; exact (ruleName_char (.inl (hf.2.2 x hx)) h).2.2.2.2.1 rfl
    have hne : ∀ {l : List Name} {sep : Name}, (∀ x ∈ l, x ≠ []) → ((utf16 (List.intercalate sep l)).length > 0 ↔ ¬ l = []) := by
      intro l sep hl
      constructor
      · rintro h rfl; simp [List.intercalate, utf16] at h
      · intro h
        have := intercalate_ne (sep := sep) h hl
        cases hi : List.intercalate sep l with
        | nil => exact absurd hi this
        | cons c r =>
          rw [utf16, List.flatMap_cons, List.length_append]
          have : 0 < (utf16Char c).length := by unfold utf16Char; split <;> simp
          omega
    have hn1 : ∀ x ∈ f.positives.map shownAs, x ≠ [] := by
      intro x hx
      obtain ⟨y, hy, rfl⟩ := List.mem_map.mp hx
      unfold shownAs
      split
      · simp
      · rcases hf.1 y hy with h | h
        · exact h.1
        · rename_i h'; exact absurd h h'
    rw [hneg, hint, utf16_append]
    congr 1
    · simp only [hne hn1, List.map_eq_nil_iff]
      by_cases hp : f.positives = []
      · simp [hp, utf16]
      · simp only [hp, not_false_eq_true, if_true, if_false, utf16_append]
    · simp only [hne fun x hx => (hf.2.2 x hx).1]
      by_cases hp : f.negatives = []
      · simp [hp, utf16]
      · simp only [hp, not_false_eq_true, if_true, if_false, utf16_append]

/-- **C66 (part).** When the names of the rules fit, the report of a syntax error shows the number of the line, the line
itself with the mark at the place of the failure, and, when all of the message fits, the rules that were expected. -/
theorem c66_report_partial {L : Lang} {decode : List Nat → List Nat} (hdec : AsciiDecoder decode) (τ : TableOrder)
    (parseMsg : Name → List Nat) (e e' : Engine L) (code : Name) (hu : e.updateWithCode τ code = .ok (e', some .parsing))
    (f : Failure) (hf : Sound f) (hm : parseMsg code = Wasm.utf8 (message f))
    (ls : List Name) (cur rest tail : Name) (hcode : code = joined ls ++ (cur ++ rest ++ tail)) (hbefore : f.before = joined ls ++ cur)
    (hl : ∀ l ∈ ls, '\n' ∉ l) (hc : '\n' ∉ cur) (hr : '\n' ∉ rest) (ht : tail = [] ∨ ∃ t, tail = '\n' :: t)
    (hbmp : ∀ c ∈ cur, c.toNat < 0x10000)
    (hfit : (message f).length ≤ 254 + (commas f.negatives).length + 1) :
    ∃ buf info last, Wasm.update τ parseMsg e code = .ok (e', buf) ∧
      report decode (utf16 code) buf = ⟨[info, utf16 (c!"%cError at line " ++ decText (ls.length + 1)),
        utf16 (cur ++ c!"%c %c" ++ rest), utf16 (List.replicate cur.length '_' ++ c!"%c^^^ ") ++ last], false⟩ ∧
      ((message f).length ≤ 254 → info = utf16 (message f) ∧ last = utf16 (hint f)) := by
  obtain ⟨buf, info, last, h1, h2, h3⟩ := report_found hdec τ parseMsg e e' code hu f hf hm ls cur hbefore hl hc hfit
  refine ⟨buf, info, last, h1, ?_, h3⟩
  have hline : lineNo ls.length (utf16 code) = some (utf16 (cur ++ rest)) := by
    rw [hcode]
    exact lineAt_joined hl (by simp [hc, hr]) ht
  have htake : (utf16 (cur ++ rest)).take cur.length = utf16 cur := by
    rw [utf16_append, ← length_utf16 hbmp, List.take_left]
  have hdrop : (utf16 (cur ++ rest)).drop cur.length = utf16 rest := by
    rw [utf16_append, ← length_utf16 hbmp, List.drop_left]
  rw [report, h2, Option.bind_some, hline]
  simp only [htake, hdrop]
  rw [utf16_append (cur ++ _) rest, utf16_append cur]

/-- **C66 is false for long lists of rules.** When the list of the rules that were expected does not fit in the 254
bytes, the page throws an exception and shows neither the line nor the mark. -/
theorem c66_long_lists {L : Lang} {decode : List Nat → List Nat} (hdec : AsciiDecoder decode) (τ : TableOrder)
    (parseMsg : Name → List Nat) (e e' : Engine L) (code : Name) (hu : e.updateWithCode τ code = .ok (e', some .parsing))
    (f : Failure) (hf : Sound f) (hm : parseMsg code = Wasm.utf8 (message f))
    (hlong : 254 + (commas f.negatives).length + 1 < (message f).length) :
    ∃ buf, Wasm.update τ parseMsg e code = .ok (e', buf) ∧
      report decode (utf16 code) buf = ⟨[(utf16 (message f)).take 254], true⟩ := by
  obtain ⟨buf, h1, hb⟩ := c29_result_buffer τ parseMsg e code hu
  simp only [hm] at hb
  have hinfo := info_eq hdec hf hb
  refine ⟨buf, h1, ?_⟩
  have hlen : 254 < (utf16 (headOf f)).length := by
    rw [length_ascii (head_ascii hf)]
    rw [message_eq, List.length_append, List.length_append] at hlong
    simp at hlong
    omega
  have hcut : (utf16 (message f)).take 254 = (utf16 (headOf f)).take 254 := by
    rw [message_eq, utf16_append, List.take_append_of_le_length (by omega)]
  have hfull : after (utf16 c!"negatives[") (utf16 (headOf f)) = some [] := by
    have := (parts hf (T := []) (by simp)).2.2.2
    rwa [List.append_nil] at this
  have hnone : second (utf16 c!"negatives[") ((utf16 (message f)).take 254) = none := by
    rw [hcut, second, Option.map_eq_none_iff]
    cases ha : after (utf16 c!"negatives[") ((utf16 (headOf f)).take 254) with
    | none => rfl
    | some r =>
      have := after_more (x := (utf16 (headOf f)).drop 254) (by decide) ha
      rw [List.take_append_drop, hfull] at this
      have h0 := congrArg (Option.map List.length) this
      simp at h0
      omega
  unfold report reportOf
  simp only [hinfo, hb.2.1, if_true, hnone]
  generalize second (utf16 c!"line[") _ = a
  generalize second (utf16 c!"col[") _ = b
  generalize second (utf16 c!"positives[") _ = c
  cases a <;> cases b <;> cases c <;> rfl

/-- The list of rules for a place where any of forty nodes may stand. -/
def longFailure : Failure := ⟨c!"o: ", List.replicate 40 c!"sinosc", []⟩

example : ∃ e', (Engine.new (glicol Demo.plat 1 (Demo.table [])) 1).updateWithCode .ident c!"o: $" = .ok (e', some .parsing) ∧
    Sound longFailure ∧ longFailure.before <+: c!"o: $" ∧
    254 + (commas longFailure.negatives).length + 1 < (message longFailure).length := by
  refine ⟨_, rfl, ⟨?_, ?_, ?_⟩, by decide +kernel, by decide +kernel⟩
  · intro x hx
    rw [List.eq_of_mem_replicate hx]
    refine .inl ⟨by decide, ?_⟩
    decide
  · decide +kernel
  · intro x hx; cases hx

/-- The hypotheses of `c66_report_partial` for a failure in the second of two lines. -/
example : ∃ e', (Engine.new (glicol Demo.plat 1 (Demo.table [])) 1).updateWithCode .ident c!"o: sin 440\nöx: $ 1\n" =
      .ok (e', some .parsing) ∧
    Sound ⟨c!"o: sin 440\nöx: ", [c!"EOI", c!"node"], [c!"ws"]⟩ ∧
    c!"o: sin 440\nöx: $ 1\n" = joined [c!"o: sin 440"] ++ (c!"öx: " ++ c!"$ 1" ++ c!"\n") ∧
    (message ⟨c!"o: sin 440\nöx: ", [c!"EOI", c!"node"], [c!"ws"]⟩).length ≤ 254 ∧
    hint ⟨c!"o: sin 440\nöx: ", [c!"EOI", c!"node"], [c!"ws"]⟩ = c!"expecting END OF INPUT || nodeunexpected ws" := by
  refine ⟨_, rfl, ⟨?_, ?_, ?_⟩, by decide, by decide +kernel, by decide +kernel⟩
  · intro x hx
    simp only [List.mem_cons, List.not_mem_nil, or_false] at hx
    rcases hx with rfl | rfl
    · exact .inr rfl
    · exact .inl ⟨by decide, by decide⟩
  · decide
  · intro x hx
    simp only [List.mem_cons, List.not_mem_nil, or_false] at hx
    subst hx
    exact ⟨by decide, by decide⟩

/-- **C66 is false for characters outside the basic plane.** Columns are counted in characters and the line is cut by
code units, so that the mark comes too early, in the middle of the character. -/
theorem c66_wide_counterexample : ∃ (f : Failure) (rest : Name) (e' : Engine (glicol Demo.plat 1 (Demo.table []))) (buf : List Nat),
    Sound f ∧ (message f).length ≤ 254 ∧
    Wasm.update .ident (fun _ => Wasm.utf8 (message f)) (Engine.new _ 1) (f.before ++ rest) = .ok (e', buf) ∧
    (report id (utf16 (f.before ++ rest)) buf).logs[2]? ≠ some (utf16 (f.before ++ c!"%c %c" ++ rest)) := by
  let f : Failure := ⟨[Char.ofNat 0x1D11E], [], []⟩
  have hf : Sound f := ⟨by simp [f], by simp [f], by simp [f]⟩
  obtain ⟨buf, h1, hb⟩ := c29_result_buffer (L := glicol Demo.plat 1 (Demo.table [])) .ident (fun _ => Wasm.utf8 (message f))
    (Engine.new _ 1) (f.before ++ c!"$") (e' := Engine.new _ 1) (r := some .parsing) rfl
  refine ⟨f, c!"$", _, buf, hf, by decide +kernel, h1, ?_⟩
  have hinfo := info_eq (decode := id) (fun _ _ => rfl) hf hb
  unfold report reportOf
  simp only [hinfo, hb.2.1, if_true]
  decide +kernel

/-- **C66 (part).** When a sample or a reference is missing, the page shows the sentence with its name, as far as it
fits in 254 bytes. -/
theorem c66_missing_names_partial {L : Lang} {decode : List Nat → List Nat} (hdec : AsciiDecoder decode) (τ : TableOrder)
    (parseMsg : Name → List Nat) (e e' : Engine L) (code : Name) (err : EngineError)
    (hu : e.updateWithCode τ code = .ok (e', some err)) (v sentence : Name) (hv : ∀ c ∈ v, c.toNat < 128 ∧ c.toNat ≠ 0)
    (hs : (err = .nonExistSample v ∧ sentence = c!"There is no sample named " ++ v) ∨
      (err = .nonExistReference v ∧ sentence = c!"There is no reference named " ++ v)) :
    ∃ buf, Wasm.update τ parseMsg e code = .ok (e', buf) ∧
      report decode (utf16 code) buf = ⟨[utf16 (c!"%c" ++ sentence.take 254)], false⟩ := by
  have key : ∀ (cls : Nat) (msg buf : List Nat), cls ≠ 1 → (∀ c ∈ sentence, c.toNat < 128 ∧ c.toNat ≠ 0) → Utf8 sentence msg →
      ErrorBuffer cls msg buf → report decode (utf16 code) buf = ⟨[utf16 (c!"%c" ++ sentence.take 254)], false⟩ := by
    intro cls msg buf hcls ha hmsg hb
    have h8 : msg = sentence.map Char.toNat := by
      clear hs hb
      induction hmsg with
      | nil => rfl
      | cons h _ ih =>
        have hc := (ha _ List.mem_cons_self).1
        rw [ih fun d hd => ha d (by simp [hd])]
        cases h with
        | one h1 => rfl
        | two h1 h2 h3 h4 => omega
        | three h1 h2 h3 h4 h5 => omega
        | four h1 h2 h3 h4 h5 h6 => omega
    have hb0 := buffer_text hb (by
      rw [h8]
      intro b hb
      obtain ⟨c, hc, rfl⟩ := List.mem_map.mp hb
      exact (ha c hc).2)
    unfold report reportOf
    simp only [hb0, hb.2.1, Option.some.injEq, hcls, if_false]
    rw [hdec, utf16_append, utf16_ascii fun c hc => (ha c (List.mem_of_mem_take hc)).1, h8, List.map_take]
    rw [h8]
    intro b hb
    obtain ⟨c, hc, rfl⟩ := List.mem_map.mp (List.mem_of_mem_take hb)
    exact (ha c hc).1
  obtain ⟨buf, h1, hb⟩ := c29_result_buffer τ parseMsg e code hu
  refine ⟨buf, h1, ?_⟩
  rcases hs with ⟨rfl, rfl⟩ | ⟨rfl, rfl⟩
  · obtain ⟨msg, hm, hb⟩ := hb
    refine key 2 msg buf (by decide) ?_ hm hb
    intro c hc
    rcases List.mem_append.mp hc with h | h
    · exact (show ∀ c ∈ c!"There is no sample named ", c.toNat < 128 ∧ c.toNat ≠ 0 by decide) c h
    · exact hv c h
  · obtain ⟨msg, hm, hb⟩ := hb
    refine key 3 msg buf (by decide) ?_ hm hb
    intro c hc
    rcases List.mem_append.mp hc with h | h
    · exact (show ∀ c ∈ c!"There is no reference named ", c.toNat < 128 ∧ c.toNat ≠ 0 by decide) c h
    · exact hv c h

/-- A program with a reference to nothing. -/
example : ∃ e', Toy.e0.updateWithCode TableOrder.ident Toy.t3 = .ok (e', some (.nonExistReference Toy.nameA)) ∧
    ∀ c ∈ Toy.nameA, c.toNat < 128 ∧ c.toNat ≠ 0 := ⟨_, rfl, by decide⟩

/-! ### The package -/

theorem npmCode_append (calls : List Call) (c : Call) :
    npmCode (calls ++ [c]) = match c with | .run _ => npmCode calls | .play t => some t := by
  rw [npmCode, List.foldl_append]
  cases c <;> rfl

theorem npmCode_runs {calls runs : List Call} (h : ∀ c ∈ runs, ∃ t, c = .run t) : npmCode (calls ++ runs) = npmCode calls := by
  induction runs generalizing calls with
  | nil => rw [List.append_nil]
  | cons c cs ih =>
    obtain ⟨t, rfl⟩ := h c List.mem_cons_self
    rw [show calls ++ .run t :: cs = (calls ++ [.run t]) ++ cs by simp, ih fun c hc => h c (by simp [hc]), npmCode_append]

/-- **C66 for the package (part).** After `play` the report is that of the page. -/
theorem c66_npm_play_partial {L : Lang} {decode : List Nat → List Nat} (hdec : AsciiDecoder decode) (τ : TableOrder)
    (parseMsg : Name → List Nat) (e e' : Engine L) (calls : List Call) (code : Name)
    (hu : e.updateWithCode τ code = .ok (e', some .parsing))
    (f : Failure) (hf : Sound f) (hm : parseMsg code = Wasm.utf8 (message f))
    (ls : List Name) (cur rest tail : Name) (hcode : code = joined ls ++ (cur ++ rest ++ tail)) (hbefore : f.before = joined ls ++ cur)
    (hl : ∀ l ∈ ls, '\n' ∉ l) (hc : '\n' ∉ cur) (hr : '\n' ∉ rest) (ht : tail = [] ∨ ∃ t, tail = '\n' :: t)
    (hbmp : ∀ c ∈ cur, c.toNat < 0x10000)
    (hfit : (message f).length ≤ 254 + (commas f.negatives).length + 1) :
    ∃ buf info last, Wasm.update τ parseMsg e code = .ok (e', buf) ∧
      npmReport decode (calls ++ [.play code]) buf = ⟨[info, utf16 (c!"%cError at line " ++ decText (ls.length + 1)),
        utf16 (cur ++ c!"%c %c" ++ rest), utf16 (List.replicate cur.length '_' ++ c!"%c^^^ ") ++ last], false⟩ ∧
      ((message f).length ≤ 254 → info = utf16 (message f) ∧ last = utf16 (hint f)) := by
  simp only [npmReport, npmCode_append]
  exact c66_report_partial hdec τ parseMsg e e' code hu f hf hm ls cur rest tail hcode hbefore hl hc hr ht hbmp hfit

/-- **C66 is false for programs sent with `run`.** When `play` was never used, no report of a syntax error shows the line:
an exception ends it after the number of the line. -/
theorem c66_npm_run {L : Lang} {decode : List Nat → List Nat} (hdec : AsciiDecoder decode) (τ : TableOrder)
    (parseMsg : Name → List Nat) (e e' : Engine L) (calls : List Call) (hruns : ∀ c ∈ calls, ∃ t, c = .run t) (code : Name)
    (hu : e.updateWithCode τ code = .ok (e', some .parsing))
    (f : Failure) (hf : Sound f) (hm : parseMsg code = Wasm.utf8 (message f))
    (ls : List Name) (cur : Name) (hbefore : f.before = joined ls ++ cur) (hl : ∀ l ∈ ls, '\n' ∉ l) (hc : '\n' ∉ cur)
    (hfit : (message f).length ≤ 254 + (commas f.negatives).length + 1) :
    ∃ buf info, Wasm.update τ parseMsg e code = .ok (e', buf) ∧
      npmReport decode (calls ++ [.run code]) buf =
        ⟨[info, utf16 (c!"%cError at line " ++ decText (ls.length + 1))], true⟩ := by
  obtain ⟨buf, info, last, h1, h2, -⟩ := report_found hdec τ parseMsg e e' code hu f hf hm ls cur hbefore hl hc hfit
  refine ⟨buf, info, h1, ?_⟩
  have := npmCode_runs (calls := []) hruns
  rw [List.nil_append] at this
  rw [npmReport, npmCode_append, h2, this]
  rfl

/-- **C66 is false for programs sent with `run` after `play`.** The report shows the line of the program that was last
played, not of the program that has the error. -/
theorem c66_npm_stale {L : Lang} {decode : List Nat → List Nat} (hdec : AsciiDecoder decode) (τ : TableOrder)
    (parseMsg : Name → List Nat) (e e' : Engine L) (calls runs : List Call) (hruns : ∀ c ∈ runs, ∃ t, c = .run t)
    (played code : Name) (hu : e.updateWithCode τ code = .ok (e', some .parsing))
    (f : Failure) (hf : Sound f) (hm : parseMsg code = Wasm.utf8 (message f))
    (ls : List Name) (cur : Name) (hbefore : f.before = joined ls ++ cur) (hl : ∀ l ∈ ls, '\n' ∉ l) (hc : '\n' ∉ cur)
    (hfit : (message f).length ≤ 254 + (commas f.negatives).length + 1)
    (ms : List Name) (line tail : Name) (hplayed : played = joined ms ++ (line ++ tail)) (hlen : ms.length = ls.length)
    (hms : ∀ l ∈ ms, '\n' ∉ l) (hline : '\n' ∉ line) (ht : tail = [] ∨ ∃ t, tail = '\n' :: t) :
    ∃ buf, Wasm.update τ parseMsg e code = .ok (e', buf) ∧
      (npmReport decode (calls ++ .play played :: runs ++ [.run code]) buf).logs[2]? =
        some ((utf16 line).take cur.length ++ utf16 c!"%c %c" ++ (utf16 line).drop cur.length) := by
  obtain ⟨buf, info, last, h1, h2, -⟩ := report_found hdec τ parseMsg e e' code hu f hf hm ls cur hbefore hl hc hfit
  refine ⟨buf, h1, ?_⟩
  have hkept : npmCode (calls ++ .play played :: runs ++ [.run code]) = some played := by
    rw [npmCode_append, show calls ++ .play played :: runs = (calls ++ [.play played]) ++ runs by simp]
    simp only [npmCode_runs hruns, npmCode_append]
  have hl2 : lineNo ls.length (utf16 played) = some (utf16 line) := by
    rw [hplayed, ← hlen]
    exact lineAt_joined hms hline ht
  rw [npmReport, hkept, h2, Option.map_some, Option.bind_some, hl2]
  rfl

/-- The hypotheses of the theorems about the package: a program with a fault in its second line, after one that was played. -/
example : ∃ e', (Engine.new (glicol Demo.plat 1 (Demo.table [])) 1).updateWithCode .ident c!"o: sin 440\nx: $ 1" =
      .ok (e', some .parsing) ∧
    Sound ⟨c!"o: sin 440\nx: ", [c!"node"], []⟩ ∧ (message ⟨c!"o: sin 440\nx: ", [c!"node"], []⟩).length ≤ 254 ∧
    c!"o: sin 440\nx: $ 1" = joined [c!"o: sin 440"] ++ (c!"x: " ++ c!"$ 1" ++ []) ∧
    c!"o: imp 1;\n\n" = joined [c!"o: imp 1;"] ++ ([] ++ c!"\n") := by
  refine ⟨_, rfl, ⟨?_, ?_, ?_⟩, by decide +kernel, by decide, by decide⟩
  · intro x hx
    simp only [List.mem_cons, List.not_mem_nil, or_false] at hx
    subst hx
    exact .inl ⟨by decide, by decide⟩
  · decide
  · intro x hx; cases hx

end Verif.Props
