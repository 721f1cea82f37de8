import Verif.Lemmas.ReadProg
import Verif.Lemmas.ParseTree
import Verif.Lemmas.Colon

/-!
# Definitions of an accepted text
-/

namespace Verif.Parse
open Peg Grammar

theorem lastOf_cons {α β : Type} {k' : α} {v' : β} {l : List (α × β)} {k : α} {v : β} :
    LastOf ((k', v') :: l) k v ↔ LastOf l k v ∨ (k = k' ∧ v = v' ∧ ∀ e ∈ l, e.1 ≠ k) := by
  constructor
  · rintro ⟨l₁, l₂, h, hn⟩
    cases l₁ with
    | nil =>
      simp only [List.nil_append, List.cons.injEq, Prod.mk.injEq] at h
      obtain ⟨⟨rfl, rfl⟩, rfl⟩ := h
      exact Or.inr ⟨rfl, rfl, hn⟩
    | cons x l₁ =>
      simp only [List.cons_append, List.cons.injEq] at h
      exact Or.inl ⟨l₁, l₂, h.2, hn⟩
  · rintro (⟨l₁, l₂, rfl, hn⟩ | ⟨rfl, rfl, hn⟩)
    · exact ⟨(k', v') :: l₁, l₂, rfl, hn⟩
    · exact ⟨[], l, rfl, hn⟩

theorem mem_put_iff {k : Name} {v : List Comp} {t : Ast Comp} (hd : (t.map Prod.fst).Nodup) {x : Name × List Comp} :
    x ∈ put k v t ↔ x = (k, v) ∨ (x ∈ t ∧ x.1 ≠ k) := by
  induction t with
  | nil => simp [put]
  | cons y t ih =>
    obtain ⟨k', v'⟩ := y
    simp only [List.map_cons, List.nodup_cons] at hd
    simp only [put]
    split
    · rename_i h
      subst h
      simp only [List.mem_cons]
      constructor
      · rintro (h | h)
        · exact Or.inl h
        · refine Or.inr ⟨Or.inr h, ?_⟩
          rintro e
          exact hd.1 (List.mem_map.mpr ⟨x, h, e⟩)
      · rintro (h | ⟨h | h, hn⟩)
        · exact Or.inl h
        · subst h; exact absurd rfl hn
        · exact Or.inr h
    · rename_i h
      simp only [List.mem_cons, ih hd.2]
      constructor
      · rintro (h' | h' | h')
        · subst h'; exact Or.inr ⟨Or.inl rfl, h⟩
        · exact Or.inl h'
        · exact Or.inr ⟨Or.inr h'.1, h'.2⟩
      · rintro (h' | ⟨h' | h', hn⟩)
        · exact Or.inr (Or.inl h')
        · exact Or.inl h'
        · exact Or.inr (Or.inr ⟨h', hn⟩)

/-- The table holds the last definition of each name. -/
theorem mem_putAll_iff {l : List (Name × List Comp)} {t : Ast Comp} (hd : (t.map Prod.fst).Nodup) {k : Name}
    {v : List Comp} : (k, v) ∈ putAll l t ↔ LastOf l k v ∨ ((k, v) ∈ t ∧ ∀ e ∈ l, e.1 ≠ k) := by
  induction l generalizing t with
  | nil => simp [putAll, LastOf]
  | cons y l ih =>
    obtain ⟨k', v'⟩ := y
    rw [putAll, ih (put_nodup hd), mem_put_iff hd, lastOf_cons]
    constructor
    · rintro (h | ⟨h | h, hn⟩)
      · exact Or.inl (Or.inl h)
      · cases h; exact Or.inl (Or.inr ⟨rfl, rfl, hn⟩)
      · refine Or.inr ⟨h.1, ?_⟩
        intro e he
        rcases List.mem_cons.mp he with rfl | he
        · exact Ne.symm h.2
        · exact hn e he
    · rintro ((h | ⟨rfl, rfl, hn⟩) | ⟨h, hn⟩)
      · exact Or.inl h
      · exact Or.inr ⟨Or.inl rfl, hn⟩
      · refine Or.inr ⟨Or.inr ⟨h, ?_⟩, fun e he => hn e (by simp [he])⟩
        exact fun e => hn (k', v') (by simp) e.symm

theorem put_new {k : Name} {v : List Comp} {t : Ast Comp} (h : k ∉ t.map Prod.fst) : put k v t = t ++ [(k, v)] := by
  induction t with
  | nil => rfl
  | cons y t ih =>
    obtain ⟨k', v'⟩ := y
    simp only [List.map_cons, List.mem_cons, not_or] at h
    simp only [put, if_neg (Ne.symm h.1), ih h.2, List.cons_append]

/-- Distinct names: the table is the list of definitions. -/
theorem putAll_distinct {l : List (Name × List Comp)} {t : Ast Comp} (h : ((t ++ l).map Prod.fst).Nodup) :
    putAll l t = t ++ l := by
  induction l generalizing t with
  | nil => simp [putAll]
  | cons y l ih =>
    obtain ⟨k, v⟩ := y
    have hk : k ∉ t.map Prod.fst := by
      intro hm
      simp only [List.map_append, List.map_cons, List.nodup_append] at h
      exact h.2.2 k hm k (by simp) rfl
    rw [putAll, put_new hk, ih (by simpa using h)]
    simp

/-! ## Cutting the text -/

/-- What a line leaves: its name, blanks, a colon, and one token with that name. -/
theorem line_shape {s c r : Name} {ps : List Pair} (h : line s = some (c, ps, r)) :
    ∃ k b rest ch l, c = k ++ (b ++ ':' :: rest) ∧ WrittenName k ∧ (∀ x ∈ b, Space x ∧ x ≠ '\n') ∧ Plain rest ∧
      ps = [.mk .line c [.mk .reference k l, ch]] := by
  obtain ⟨l, h', rfl⟩ := tok_some h
  simp only [seqs] at h'
  obtain ⟨c1, p1, r1, c2', p2', h1, k1, rfl, rfl⟩ := seq_some h'
  obtain ⟨c2, p2, r2, c3', p3', h2, k2, rfl, rfl⟩ := seq_some k1
  obtain ⟨c3, p3, r3, c4', p4', h3, k3, rfl, rfl⟩ := seq_some k2
  obtain ⟨c4, p4, r4, c5', p5', h4, k4, rfl, rfl⟩ := seq_some k3
  obtain ⟨c5, p5, r5, c6', p6', h5, h6, rfl, rfl⟩ := seq_some k4
  simp only [Option.some.injEq, Prod.mk.injEq] at h6
  obtain ⟨rfl, rfl, rfl⟩ := h6
  have q1 := (Snd.sound (p := reference) h1).2
  have q4 := (cl_star (inferInstanceAs (Cl blank))).plain h4
  have q5 := Cl.plain h5
  obtain ⟨l1, _, rfl⟩ := tok_some h1
  obtain ⟨l5, _, rfl⟩ := tok_some h5
  obtain rfl : c3 = [':'] := (lit_some h3).1
  rw [silent_star silent_blank h2, silent_lit _ h3, silent_star silent_blank h4]
  refine ⟨c1, c2, c4 ++ (c5 ++ []), _, l1, rfl, (q1 _ (List.mem_singleton_self _)).1.here, ?_, plain_append q4 (plain_append q5 plain_nil), rfl⟩
  intro x hx
  have := (star_chr_some h2).1 x hx
  simp only [Bool.or_eq_true, beq_iff_eq] at this
  rcases this with ((rfl | rfl) | rfl) | rfl <;> exact ⟨by simp [Space], by decide⟩

theorem silent_newline : Silent newline := by
  intro s c ps r h
  unfold newline at h
  simp only [alts] at h
  rcases alt_some h with h | ⟨_, h⟩
  · exact silent_lit _ h
  · rcases alt_some h with h | ⟨_, h⟩
    · exact silent_lit _ h
    · rcases alt_some h with h | ⟨_, h⟩
      · exact silent_lit _ h
      · cases h

theorem silent_not {p : Peg} : Silent (Peg.not p) := by
  intro s c ps r h
  unfold Peg.not at h
  split at h
  · cases h
  · cases h; rfl

theorem silent_comment : Silent comment := by
  intro s c ps r h
  simp only [comment, seqs] at h
  obtain ⟨c1, p1, r1, c2', p2', h1, k1, rfl, rfl⟩ := seq_some h
  obtain ⟨c2, p2, r2, c3', p3', h2, k2, rfl, rfl⟩ := seq_some k1
  obtain ⟨c3, p3, r3, c4', p4', h3, k3, rfl, rfl⟩ := seq_some k2
  obtain ⟨c4, p4, r4, c5', p5', h4, k4, rfl, rfl⟩ := seq_some k3
  simp only [Option.some.injEq, Prod.mk.injEq] at k4
  obtain ⟨rfl, rfl, rfl⟩ := k4
  have hs : Silent (seq (Peg.not newline) any) := by
    intro s c ps r h
    obtain ⟨a1, q1, s1, a2, q2, e1, e2, rfl, rfl⟩ := seq_some h
    obtain ⟨d, _, _, rfl, _⟩ := chr_some e2
    rw [silent_not e1]
    rfl
  rw [silent_lit _ h1, silent_star hs h2, silent_star silent_newline h3, silent_not h4]
  rfl

/-- A definition leaves one token, a comment none. -/
theorem item_shape {s c r : Name} {ps : List Pair} (h : item s = some (c, ps, r)) :
    (∃ k b rest t ch l, c = k ++ (b ++ ':' :: rest) ∧ WrittenName k ∧ (∀ x ∈ b, Space x ∧ x ≠ '\n') ∧ Plain rest ∧
      ps = [.mk .line t [.mk .reference k l, ch]]) ∨ (Plain c ∧ ps = []) := by
  simp only [item, seqs] at h
  obtain ⟨c1, p1, r1, c2', p2', h1, k1, rfl, rfl⟩ := seq_some h
  obtain ⟨c2, p2, r2, c3', p3', h2, k2, rfl, rfl⟩ := seq_some k1
  obtain ⟨c3, p3, r3, c4', p4', h3, k3, rfl, rfl⟩ := seq_some k2
  obtain ⟨c4, p4, r4, c5', p5', h4, k4, rfl, rfl⟩ := seq_some k3
  obtain ⟨c5, p5, r5, c6', p6', h5, h6, rfl, rfl⟩ := seq_some k4
  simp only [Option.some.injEq, Prod.mk.injEq] at h6
  obtain ⟨rfl, rfl, rfl⟩ := h6
  have e3 : p3 = [] := by
    unfold opt at h3
    split at h3
    · rename_i x hx
      cases h3
      exact silent_lit _ hx
    · cases h3; rfl
  have e5 : Silent (seq (lit ['\n']) (star blank)) := by
    intro s c ps r h
    obtain ⟨a1, q1, s1, a2, q2, e1, e2, rfl, rfl⟩ := seq_some h
    rw [silent_lit _ e1, silent_star silent_blank e2]
    rfl
  have q : Plain (c2 ++ (c3 ++ (c4 ++ (c5 ++ [])))) := by
    refine plain_append ?_ (plain_append ?_ (plain_append ?_ (plain_append ?_ plain_nil)))
    · exact (cl_star (inferInstanceAs (Cl blank))).plain h2
    · exact (cl_opt (cl_lit (by decide))).plain h3
    · exact (cl_star (inferInstanceAs (Cl blank))).plain h4
    · exact (cl_star (cl_seq (cl_lit (by decide)) (cl_star (inferInstanceAs (Cl blank))))).plain h5
  rw [silent_star silent_blank h2, e3, silent_star silent_blank h4, silent_star e5 h5]
  rcases alt_some h1 with h1 | ⟨_, h1⟩
  · obtain ⟨k, b, rest, ch, l, rfl, hk, hb, hr, rfl⟩ := line_shape h1
    exact Or.inl ⟨k, b, rest ++ (c2 ++ (c3 ++ (c4 ++ (c5 ++ [])))), _, ch, l, by simp, hk, hb, plain_append hr q, rfl⟩
  · have := Cl.plain h1
    rw [silent_comment h1]
    exact Or.inr ⟨plain_append this q, rfl⟩

/-- An item begins with a name or a slash. -/
theorem item_head {s c r : Name} {ps : List Pair} (h : item s = some (c, ps, r)) :
    ∀ d ∈ s.head?, ¬ Spec.Blank d ∧ d ≠ '\n' := by
  intro d hd
  by_contra hc
  have hb : Spec.Blank d ∨ d = '\n' := by
    by_contra hn
    exact hc ⟨fun h => hn (Or.inl h), fun h => hn (Or.inr h)⟩
  have hstop : ∀ c ∈ s.head?, Spec.Blank c ∨ Read.EndChar c := by
    intro c hc
    rw [Option.mem_def] at hc hd
    rw [hd] at hc
    cases hc
    rcases hb with hb | rfl
    · exact Or.inl hb
    · exact Or.inr (Or.inl rfl)
  have hslash : ∀ c ∈ s.head?, c ≠ '/' := by
    intro c hc
    rw [Option.mem_def] at hc hd
    rw [hd] at hc
    cases hc
    rcases hb with hb | rfl
    · rintro rfl
      exact Read.endChar_notBlank (by simp [Read.EndChar]) hb
    · decide
  have h1 : reference s = none := Read.reference_none (fun c hc =>
    ⟨Read.stop_notLower (hstop c hc), Read.stop_ne (hstop c hc) (by decide), Read.stop_ne (hstop c hc) (by decide)⟩)
  have h2 : alt line comment s = none :=
    (alt_right (tok_none (Read.seq_none_left h1))).trans (Read.comment_none hslash)
  have : item s = none := Read.seq_none_left h2
  rw [this] at h
  cases h

/-- One turn of the loop of the program. -/
theorem items_step {s c : Name} {ps : List Pair} (h : star item s = some (c, ps, [])) :
    (s = [] ∧ ps = []) ∨ ∃ c₁ p₁ r c₂ p₂, item s = some (c₁, p₁, r) ∧ star item r = some (c₂, p₂, []) ∧ ps = p₁ ++ p₂ ∧
      r.length < s.length := by
  cases hi : item s with
  | none =>
    have := star_none (p := item) hi
    rw [this] at h
    cases h
    exact Or.inl ⟨rfl, rfl⟩
  | some x =>
    obtain ⟨c₁, p₁, r⟩ := x
    have hl := congrArg List.length (Snd.sound (p := item) hi).1
    have hpos : 0 < c₁.length := List.length_pos_iff.mpr (eats_item hi)
    simp only [List.length_append] at hl
    have hst : star item r = some (starN item r.length r) := rfl
    have := star_some (Snd.sound (p := item)) eats_item hi hst
    rw [this] at h
    simp only [Option.some.injEq, Prod.mk.injEq] at h
    refine Or.inr ⟨c₁, p₁, r, (starN item r.length r).1, (starN item r.length r).2.1, rfl, ?_, h.2.1.symm, by omega⟩
    rw [hst, ← h.2.2]

theorem lastOf_exists {α β : Type} [DecidableEq α] {l : List (α × β)} {k : α} (h : ∃ e ∈ l, e.1 = k) : ∃ v, LastOf l k v := by
  induction l with
  | nil => obtain ⟨e, he, _⟩ := h; cases he
  | cons x l ih =>
    obtain ⟨k', v'⟩ := x
    by_cases hl : ∃ e ∈ l, e.1 = k
    · obtain ⟨v, hv⟩ := ih hl
      exact ⟨v, lastOf_cons.mpr (Or.inl hv)⟩
    · obtain ⟨e, he, hk⟩ := h
      rcases List.mem_cons.mp he with rfl | he
      · exact ⟨v', lastOf_cons.mpr (Or.inr ⟨hk.symm, rfl, fun e he h => hl ⟨e, he, h⟩⟩)⟩
      · exact absurd ⟨e, he, hk⟩ hl

theorem mem_table {l : List (Name × List Comp)} {k : Name} {v : List Comp} :
    (k, v) ∈ putAll l [] ↔ LastOf l k v := by
  rw [mem_putAll_iff (by simp)]
  simp

theorem fresh_iff {l : List (Name × List Comp)} {k : Name} : (∀ e ∈ putAll l [], e.1 ≠ k) ↔ ∀ e ∈ l, e.1 ≠ k := by
  constructor
  · intro h e he hk
    obtain ⟨v, hv⟩ := lastOf_exists ⟨e, he, hk⟩
    exact h _ (mem_table.mpr hv) rfl
  · intro h e he
    rcases mem_putAll he with he | he
    · exact h e he
    · cases he

theorem inForce_pre {C : Type} {parse : Name → Except Panic (Option (Ast C))} {c t : Name} {p : Ast C} (hc : Plain c)
    (h : InForce parse t p) : InForce parse (c ++ t) p := by
  cases h with
  | none h => exact .none (plain_append hc h)
  | cons h1 h2 h3 h4 h5 h6 h7 =>
    rw [← List.append_assoc]
    exact .cons (plain_append hc h1) h2 h3 h4 h5 h6 h7

theorem block_of_items {s c : Name} {ps : List Pair} (h : star item s = some (c, ps, [])) :
    ∃ c', block s = some (c', [.mk .block c' ps], []) := by
  have hm : star (alt (lit ['\n']) blank) s = some ([], [], s) := by
    refine star_none ?_
    rcases items_step h with ⟨rfl, _⟩ | ⟨c₁, p₁, r, c₂, p₂, hi, _⟩
    · rfl
    · have hh := item_head hi
      refine (alt_right (Read.lit_head_none (fun d hd => (hh d hd).2))).trans ?_
      exact Read.chr_head_none (fun d hd => Read.isBlank_false (hh d hd).1)
  have he : eoi [] = some ([], [], []) := rfl
  have hq : seqs [star (alt (lit ['\n']) blank), star item, eoi] s = some _ :=
    seq_ok hm (seq_ok h (seq_ok he (q := seqs []) (by rfl)))
  refine ⟨c, (tok_ok (rl := .block) hq).trans ?_⟩
  simp

theorem parse_of_items {fe : Name → Option Fl} {s c : Name} {ps : List Pair} {lines : List (Name × List Comp)}
    (h : star item s = some (c, ps, [])) (hr : ∀ x ∈ ps, x.rule = .line) (hl : collect (lineOf fe) ps = .ok lines) :
    parse fe s = .ok (some (putAll lines [])) := by
  obtain ⟨c', hb⟩ := block_of_items h
  have : getAst fe s = .ok (putAll lines []) := by
    simp only [getAst, hb, Pair.inner, Read.collect_filter hl hr, bind, Except.bind]
  simp only [parse, this]

theorem collect_append {α β : Type} {f : α → Res β} {a b : List α} {l : List β} (h : collect f (a ++ b) = .ok l) :
    ∃ l₁ l₂, collect f a = .ok l₁ ∧ collect f b = .ok l₂ ∧ l = l₁ ++ l₂ := by
  induction a generalizing l with
  | nil => exact ⟨[], l, rfl, h, rfl⟩
  | cons x a ih =>
    simp only [List.cons_append, collect] at h
    obtain ⟨y, hy, h⟩ := bind_ok h
    obtain ⟨ys, hys, h⟩ := bind_ok h
    cases h
    obtain ⟨l₁, l₂, h1, h2, rfl⟩ := ih hys
    refine ⟨y :: l₁, l₂, ?_, h2, rfl⟩
    simp only [collect, hy, h1]
    rfl

/-- The tokens of the items are lines. -/
theorem items_rule {n : Nat} {s c : Name} {ps : List Pair} (hn : s.length ≤ n) (h : star item s = some (c, ps, [])) :
    ∀ x ∈ ps, x.rule = .line := by
  induction n generalizing s c ps with
  | zero =>
    rcases items_step h with ⟨_, rfl⟩ | ⟨_, _, _, _, _, _, _, _, hlt⟩
    · simp
    · omega
  | succ n ih =>
    rcases items_step h with ⟨_, rfl⟩ | ⟨c₁, p₁, r, c₂, p₂, hi, hs, rfl, hlt⟩
    · simp
    · intro x hx
      rcases List.mem_append.mp hx with hx | hx
      · rcases item_shape hi with ⟨k, b, rest, t, ch, l, _, _, _, _, rfl⟩ | ⟨_, rfl⟩
        · rw [List.mem_singleton.mp hx]
          rfl
        · cases hx
      · exact ih (by omega) hs x hx

theorem items_inForce {fe : Name → Option Fl} {n : Nat} {s c : Name} {ps : List Pair} {lines : List (Name × List Comp)}
    (hn : s.length ≤ n) (h : star item s = some (c, ps, [])) (hl : collect (lineOf fe) ps = .ok lines) :
    InForce (parse fe) s (putAll lines []) := by
  induction n generalizing s c ps lines with
  | zero =>
    rcases items_step h with ⟨rfl, rfl⟩ | ⟨_, _, _, _, _, _, _, _, hlt⟩
    · cases hl
      exact .none plain_nil
    · omega
  | succ n ih =>
    rcases items_step h with ⟨rfl, rfl⟩ | ⟨c₁, p₁, r, c₂, p₂, hi, hs, rfl, hlt⟩
    · cases hl
      exact .none plain_nil
    · obtain ⟨l₁, l₂, h1, h2, rfl⟩ := collect_append hl
      have hrec := ih (by omega) hs h2
      have htext := (Snd.sound (p := item) hi).1
      rcases item_shape hi with ⟨k, b, rest, t, ch, l, hc, hk, hb, hr, rfl⟩ | ⟨hc, rfl⟩
      · have hp := parse_of_items hs (items_rule (Nat.le_refl _) hs) h2
        simp only [collect] at h1
        obtain ⟨y, hy, h1⟩ := bind_ok h1
        cases h1
        obtain ⟨r', ch', rest', h4, _, _, hk', _⟩ := lineOf_ok hy
        simp only [Pair.inner, List.cons.injEq] at h4
        obtain ⟨h4, _⟩ := h4
        subst h4
        obtain ⟨k', comps⟩ := y
        replace hk' : k' = k := hk'
        subst hk'
        rw [htext, hc]
        have := InForce.cons (parse := parse fe) (pre := []) (comps := comps) plain_nil hk hb hr hp hrec
          (p := putAll ((k', comps) :: l₂) []) ?_
        · simpa using this
        · intro k'' v
          rw [mem_table, mem_table, lastOf_cons, fresh_iff]
          constructor
          · rintro (h | ⟨rfl, rfl, h⟩)
            · exact Or.inl h
            · exact Or.inr ⟨rfl, rfl, h⟩
          · rintro (h | ⟨rfl, rfl, h⟩)
            · exact Or.inl h
            · exact Or.inr ⟨rfl, rfl, h⟩
      · cases h1
        rw [htext]
        exact inForce_pre hc hrec

/-- Of several definitions the last is in force. -/
theorem getAst_inForce {fe : Name → Option Fl} {code : Name} {p : Ast Comp} (h : getAst fe code = .ok p) :
    InForce (parse fe) code p := by
  unfold getAst at h
  split at h
  · cases h
  · rename_i c b l r hb
    obtain ⟨lines, h1, h⟩ := bind_ok h
    cases h
    obtain ⟨l', hb', e⟩ := tok_some hb
    cases e
    simp only [seqs] at hb'
    obtain ⟨c1, p1, r1, c2', p2', k1, k2, rfl, rfl⟩ := seq_some hb'
    obtain ⟨c2, p2, r2, c3', p3', k3, k4, rfl, rfl⟩ := seq_some k2
    obtain ⟨c3, p3, r3, c4', p4', k5, k6, rfl, rfl⟩ := seq_some k4
    simp only [Option.some.injEq, Prod.mk.injEq] at k6
    obtain ⟨rfl, rfl, rfl⟩ := k6
    have hm : Silent (alt (lit ['\n']) blank) := by
      intro s c ps r h
      rcases alt_some h with h | ⟨_, h⟩
      · exact silent_lit _ h
      · exact silent_blank h
    have e1 := silent_star hm k1
    have e2 : r2 = [] ∧ p3 = [] := by
      cases r2 with
      | nil => cases k5; exact ⟨rfl, rfl⟩
      | cons d r => cases k5
    obtain ⟨rfl, rfl⟩ := e2
    subst e1
    have hplain : Plain c1 := (cl_star (cl_alt (cl_lit (by decide)) (inferInstanceAs (Cl blank)))).plain k1
    have hcode := (Snd.sound (p := star (alt (lit ['\n']) blank)) k1).1
    rw [hcode]
    have hfil : p2.filter (fun p => decide (p.rule = .line)) = p2 := List.filter_eq_self.mpr (by
      intro x hx
      simp [items_rule (Nat.le_refl _) k3 x hx])
    simp only [Pair.inner, List.nil_append, List.append_nil, hfil] at h1
    exact inForce_pre hplain (items_inForce (Nat.le_refl _) k3 h1)
  · cases h

end Verif.Parse
