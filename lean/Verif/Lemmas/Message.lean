import Verif.Spec.Message
import Verif.Lemmas.History

/-! Splitting and reading message texts (helpers). -/

namespace Verif
open Spec

variable {L : Lang}

theorem whitespace_iff (c : Char) : isWhitespace c = decide (c.toNat ∈ whiteSpace) := by
  rw [Bool.eq_iff_iff]
  simp only [isWhitespace, whiteSpace, Bool.or_eq_true, Bool.and_eq_true, decide_eq_true_eq,
    beq_iff_eq, List.mem_cons, List.not_mem_nil, or_false]
  omega

theorem splitOn_noSep {sep : Char} {s : Name} (h : sep ∉ s) : splitOn sep s = [s] := by
  induction s with
  | nil => rfl
  | cons c s ih =>
    simp only [List.mem_cons, not_or] at h
    simp only [splitOn, Ne.symm h.1, if_false, ih h.2]

theorem splitOn_append {sep : Char} {s t : Name} (h : sep ∉ s) :
    splitOn sep (s ++ sep :: t) = s :: splitOn sep t := by
  induction s with
  | nil => simp [splitOn]
  | cons c s ih =>
    simp only [List.mem_cons, not_or] at h
    simp only [List.cons_append, splitOn, Ne.symm h.1, if_false, ih h.2]

theorem splitOn_join {sep : Char} {ps : List Name} (hne : ps ≠ []) (h : ∀ p, p ∈ ps → sep ∉ p) :
    splitOn sep (join sep ps) = ps := by
  induction ps with
  | nil => exact absurd rfl hne
  | cons p ps ih =>
    cases ps with
    | nil => exact splitOn_noSep (h p (by simp))
    | cons q ps =>
      simp only [join]
      rw [splitOn_append (h p (by simp)), ih (by simp) (fun x hx => h x (List.mem_cons_of_mem _ hx))]

theorem splitOn_ne_nil (sep : Char) (s : Name) : splitOn sep s ≠ [] := by
  cases s with
  | nil => simp [splitOn]
  | cons c s =>
    simp only [splitOn]
    split
    · simp
    · split <;> simp

theorem join_cons_head {sep c : Char} {p : Name} {ps : List Name} :
    join sep ((c :: p) :: ps) = c :: join sep (p :: ps) := by
  cases ps <;> simp [join]

theorem join_splitOn (sep : Char) (s : Name) : join sep (splitOn sep s) = s := by
  induction s with
  | nil => rfl
  | cons c s ih =>
    simp only [splitOn]
    split
    · rename_i h
      subst h
      cases hs : splitOn c s with
      | nil => exact absurd hs (splitOn_ne_nil c s)
      | cons p ps =>
        rw [hs] at ih
        show join c ([] :: p :: ps) = _
        simp only [join, List.nil_append, ih]
    · cases hs : splitOn sep s with
      | nil => exact absurd hs (splitOn_ne_nil sep s)
      | cons p ps =>
        rw [hs] at ih
        simp only [join_cons_head, ih]

theorem splitOn_pieces {sep : Char} {s : Name} : ∀ p, p ∈ splitOn sep s →
    sep ∉ p ∧ ∀ x, x ∈ p → x ∈ s := by
  induction s with
  | nil => intro p hp; simp [splitOn] at hp; subst hp; simp
  | cons c s ih =>
    intro p hp
    simp only [splitOn] at hp
    split at hp
    · rcases List.mem_cons.mp hp with rfl | hp
      · simp
      · exact ⟨(ih p hp).1, fun x hx => List.mem_cons_of_mem _ ((ih p hp).2 x hx)⟩
    · rename_i hc
      cases hs : splitOn sep s with
      | nil => exact absurd hs (splitOn_ne_nil sep s)
      | cons q qs =>
        rw [hs] at hp ih
        rcases List.mem_cons.mp hp with rfl | hp
        · obtain ⟨h1, h2⟩ := ih q (by simp)
          refine ⟨?_, ?_⟩
          · simp only [List.mem_cons, not_or]
            exact ⟨fun h => hc h.symm, h1⟩
          · intro x hx
            rcases List.mem_cons.mp hx with rfl | hx
            · simp
            · exact List.mem_cons_of_mem _ (h2 x hx)
        · obtain ⟨h1, h2⟩ := ih p (List.mem_cons_of_mem _ hp)
          exact ⟨h1, fun x hx => List.mem_cons_of_mem _ (h2 x hx)⟩

theorem mem_join {sep c : Char} {ps : List Name} (hc : c ≠ sep) :
    c ∈ join sep ps ↔ ∃ p, p ∈ ps ∧ c ∈ p := by
  induction ps with
  | nil => simp [join]
  | cons p ps ih =>
    cases ps with
    | nil => simp [join]
    | cons q ps =>
      simp only [join, List.mem_append, List.mem_cons, ih, hc, false_or]
      constructor
      · rintro (h | ⟨r, hr, h⟩)
        · exact ⟨p, .inl rfl, h⟩
        · exact ⟨r, .inr hr, h⟩
      · rintro ⟨r, rfl | hr, h⟩
        · exact .inl h
        · exact .inr ⟨r, hr, h⟩

/-! ### Numerals -/

theorem digitChar_spec {d : Nat} (h : d ≤ 9) :
    (Nat.digitChar d).isDigit = true ∧ (Nat.digitChar d).toNat - 48 = d ∧ Nat.digitChar d ≠ '+' := by
  have : d = 0 ∨ d = 1 ∨ d = 2 ∨ d = 3 ∨ d = 4 ∨ d = 5 ∨ d = 6 ∨ d = 7 ∨ d = 8 ∨ d = 9 := by omega
  rcases this with h | h | h | h | h | h | h | h | h | h <;> subst h <;> decide

theorem isDigit_spec {c : Char} (h : c.isDigit = true) :
    c.toNat - 48 ≤ 9 ∧ Nat.digitChar (c.toNat - 48) = c := by
  have h1 : 48 ≤ c.toNat ∧ c.toNat ≤ 57 := by
    simp only [Char.isDigit, Bool.and_eq_true, decide_eq_true_eq] at h
    exact ⟨UInt32.le_iff_toNat_le.mp h.1, UInt32.le_iff_toNat_le.mp h.2⟩
  refine ⟨by omega, ?_⟩
  have hc : c = Char.ofNat c.toNat := (Char.ofNat_toNat c).symm
  have : c.toNat = 48 ∨ c.toNat = 49 ∨ c.toNat = 50 ∨ c.toNat = 51 ∨ c.toNat = 52 ∨ c.toNat = 53 ∨
      c.toNat = 54 ∨ c.toNat = 55 ∨ c.toNat = 56 ∨ c.toNat = 57 := by omega
  rw [hc]
  rcases this with h | h | h | h | h | h | h | h | h | h <;> rw [h] <;> decide

theorem digitsVal_spec : ∀ {s : Name} {acc v : Nat}, digitsVal s acc = some v ↔
    ∃ ds : List Nat, (∀ d, d ∈ ds → d ≤ 9) ∧ s = ds.map Nat.digitChar ∧
      v = ds.foldl (fun a d => a * 10 + d) acc := by
  intro s
  induction s with
  | nil =>
    intro acc v
    simp only [digitsVal, Option.some.injEq]
    constructor
    · intro h; exact ⟨[], by simp, rfl, h.symm⟩
    · rintro ⟨ds, _, h1, h2⟩
      have : ds = [] := by cases ds with | nil => rfl | cons a b => simp at h1
      subst this
      exact h2.symm
  | cons c s ih =>
    intro acc v
    simp only [digitsVal]
    constructor
    · intro h
      split at h
      · rename_i hd
        obtain ⟨h1, h2⟩ := isDigit_spec hd
        obtain ⟨ds, e1, e2, e3⟩ := ih.mp h
        refine ⟨(c.toNat - 48) :: ds, ?_, ?_, ?_⟩
        · intro d hm
          rcases List.mem_cons.mp hm with rfl | hm
          · exact h1
          · exact e1 d hm
        · simp only [List.map_cons, h2, e2]
        · simpa using e3
      · cases h
    · rintro ⟨ds, e1, e2, e3⟩
      cases ds with
      | nil => simp at e2
      | cons d ds =>
        simp only [List.map_cons, List.cons.injEq] at e2
        obtain ⟨rfl, e2⟩ := e2
        obtain ⟨h1, h2, _⟩ := digitChar_spec (e1 d (by simp))
        rw [h1, h2]
        simp only [if_true]
        exact ih.mpr ⟨ds, fun x hx => e1 x (List.mem_cons_of_mem _ hx), e2, by simpa using e3⟩

theorem parseUInt_spec {max : Nat} {s : Name} {v : Nat} :
    parseUInt max s = some v ↔ Numeral max s v := by
  have key : ∀ ds : Name, (match ds with
      | [] => none
      | _ => match digitsVal ds 0 with
        | some v => if v ≤ max then some v else none
        | none => none) = some v ↔
      ∃ l : List Nat, l ≠ [] ∧ (∀ d, d ∈ l → d ≤ 9) ∧ ds = l.map Nat.digitChar ∧
        v = l.foldl (fun a d => a * 10 + d) 0 ∧ v ≤ max := by
    intro ds
    cases ds with
    | nil =>
      simp only [reduceCtorEq, false_iff]
      rintro ⟨l, h1, _, h2, _⟩
      cases l with
      | nil => exact h1 rfl
      | cons a b => simp at h2
    | cons c ds =>
      simp only
      constructor
      · intro h
        split at h
        · rename_i w hw
          split at h
          · rename_i hle
            cases h
            obtain ⟨l, e1, e2, e3⟩ := digitsVal_spec.mp hw
            refine ⟨l, ?_, e1, e2, e3, hle⟩
            rintro rfl
            simp at e2
          · cases h
        · cases h
      · rintro ⟨l, _, h2, h3, h4, h5⟩
        rw [digitsVal_spec.mpr ⟨l, h2, h3, h4⟩]
        simp [h5]
  unfold parseUInt
  by_cases hp : ∃ l, s = '+' :: l
  · obtain ⟨l, rfl⟩ := hp
    refine (key l).trans ?_
    constructor
    · rintro ⟨ds, h1, h2, h3, h4, h5⟩
      exact ⟨ds, h1, h2, .inr (by rw [h3]), h4, h5⟩
    · rintro ⟨ds, h1, h2, h3 | h3, h4, h5⟩
      · cases ds with
        | nil => exact absurd rfl h1
        | cons d ds =>
          simp only [List.map_cons, List.cons.injEq] at h3
          exact absurd h3.1.symm (digitChar_spec (h2 d (by simp))).2.2
      · simp only [List.cons.injEq, true_and] at h3
        exact ⟨ds, h1, h2, h3, h4, h5⟩
  · have hm : stripPlus s = s := by
      unfold stripPlus
      split
      · exact absurd ⟨_, rfl⟩ hp
      · rfl
    rw [hm]
    refine (key s).trans ?_
    constructor
    · rintro ⟨ds, h1, h2, h3, h4, h5⟩
      exact ⟨ds, h1, h2, .inl h3, h4, h5⟩
    · rintro ⟨ds, h1, h2, h3 | h3, h4, h5⟩
      · exact ⟨ds, h1, h2, h3, h4, h5⟩
      · exact absurd ⟨_, h3⟩ hp

theorem position_spec {max : Nat} {s : Name} : Position max s ((parseUInt max s).getD 0) := by
  cases h : parseUInt max s with
  | some v => exact .inl (parseUInt_spec.mp h)
  | none =>
    refine .inr ⟨?_, rfl⟩
    intro w hw
    rw [parseUInt_spec.mpr hw] at h
    cases h

theorem valueMsg_spec {pos : Nat} {v : Name} : ValueMsg L pos v (valueMsg L pos v) := by
  unfold valueMsg
  cases h : L.parseNum v with
  | some x => exact .number h
  | none => exact .symbol h

/-! ### Nothing else fits -/

theorem position_eq {max : Nat} {s : Name} {v : Nat} (h : Position max s v) : v = (parseUInt max s).getD 0 := by
  rcases h with h | ⟨h, rfl⟩
  · rw [parseUInt_spec.mpr h]; rfl
  · cases hp : parseUInt max s with
    | none => rfl
    | some w => exact absurd (parseUInt_spec.mp hp) (h w)

theorem valueMsg_eq {pos : Nat} {v : Name} {m : Msg L.Num} (h : ValueMsg L pos v m) : m = valueMsg L pos v := by
  cases h with
  | number h => simp only [valueMsg, h]
  | symbol h => simp only [valueMsg, h]

theorem splits_eq {msg : Name} {cmds : List (List Name)} (h : Splits msg cmds) :
    cmds = (splitOn ';' (msg.filter (fun c => !decide (c.toNat ∈ whiteSpace)))).map (splitOn ',') := by
  rw [h.text, splitOn_join (by simpa using h.nonempty.1) (by
      intro p hp hsemi
      obtain ⟨fs, hfs, rfl⟩ := List.mem_map.mp hp
      rw [mem_join (by decide)] at hsemi
      obtain ⟨f, hf, hc⟩ := hsemi
      exact h.semi fs f hfs hf hc), List.map_map]
  refine (List.map_id cmds).symm.trans (List.map_congr_left fun fs hfs => ?_)
  exact (splitOn_join (h.nonempty.2 fs hfs) (h.comma fs · hfs)).symm

end Verif
