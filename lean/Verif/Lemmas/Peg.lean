import Verif.Parser.Grammar

/-! # Laws of the grammar combinators -/

namespace Verif

/-- A condition on every token of a tree, and every token's text is part of the text around it. -/
inductive Pair.All (Q : Pair → Prop) : Pair → Prop where
  | mk {r : Rule} {t : Name} {l : List Pair} : Q (.mk r t l) → (∀ x ∈ l, Pair.All Q x) →
      (∀ x ∈ l, x.text <:+: t) → Pair.All Q (.mk r t l)

theorem Pair.All.here {Q : Pair → Prop} {p : Pair} (h : p.All Q) : Q p := by
  cases h; assumption

theorem Pair.All.inside {Q : Pair → Prop} {p : Pair} (h : p.All Q) : ∀ x ∈ p.inner, x.All Q := by
  cases h; assumption

theorem Pair.All.infix {Q : Pair → Prop} {p : Pair} (h : p.All Q) : ∀ x ∈ p.inner, x.text <:+: p.text := by
  cases h; assumption

namespace Peg

/-- What a parser matched is the start of the text, and its tokens satisfy `Q`. -/
def Sound (Q : Pair → Prop) (p : Peg) : Prop :=
  ∀ ⦃s c ps r⦄, p s = some (c, ps, r) → s = c ++ r ∧ ∀ x ∈ ps, x.All Q ∧ x.text <:+: c

/-- What a parser matched is never empty. -/
def Eats (p : Peg) : Prop := ∀ ⦃s c ps r⦄, p s = some (c, ps, r) → c ≠ []

/-- A parser leaves no tokens. -/
def Silent (p : Peg) : Prop := ∀ ⦃s c ps r⦄, p s = some (c, ps, r) → ps = []

variable {Q : Pair → Prop} {p q : Peg}

theorem lit_some : ∀ {w s c : Name} {ps r}, lit w s = some (c, ps, r) → c = w ∧ ps = [] ∧ s = w ++ r := by
  intro w
  induction w with
  | nil => intro s c ps r h; simp only [lit, Option.some.injEq, Prod.mk.injEq] at h; grind
  | cons a w ih =>
    intro s c ps r h
    cases s with
    | nil => simp [lit] at h
    | cons d s =>
      simp only [lit] at h
      split at h
      · cases hw : lit w s with
        | none => rw [hw] at h; cases h
        | some x =>
          obtain ⟨c', ps', r'⟩ := x
          rw [hw] at h
          obtain ⟨h1, h2, h3⟩ := ih hw
          simp only [Option.map_some, Option.some.injEq, Prod.mk.injEq] at h
          grind
      · cases h

theorem lit_append (w t : Name) : lit w (w ++ t) = some (w, [], t) := by
  induction w with
  | nil => rfl
  | cons a w ih => simp only [lit, List.cons_append, if_true, ih, Option.map_some]

theorem sound_lit (w : Name) : Sound Q (lit w) := by
  intro s c ps r h
  obtain ⟨rfl, rfl, rfl⟩ := lit_some h
  simp

theorem silent_lit (w : Name) : Silent (lit w) := fun _ _ _ _ h => (lit_some h).2.1

theorem eats_lit {w : Name} (hw : w ≠ []) : Eats (lit w) := fun _ _ _ _ h => (lit_some h).1 ▸ hw

theorem chr_some {f : Char → Bool} {s c : Name} {ps r} (h : chr f s = some (c, ps, r)) :
    ∃ d, f d = true ∧ c = [d] ∧ ps = [] ∧ s = d :: r := by
  cases s with
  | nil => cases h
  | cons d s =>
    simp only [chr] at h
    split at h
    · cases h; exact ⟨d, by assumption, rfl, rfl, rfl⟩
    · cases h

theorem sound_chr (f : Char → Bool) : Sound Q (chr f) := by
  intro s c ps r h
  obtain ⟨d, _, rfl, rfl, rfl⟩ := chr_some h
  simp

theorem silent_chr (f : Char → Bool) : Silent (chr f) := by
  intro s c ps r h
  obtain ⟨d, _, rfl, rfl, rfl⟩ := chr_some h
  rfl

theorem eats_chr (f : Char → Bool) : Eats (chr f) := by
  intro s c ps r h
  obtain ⟨d, _, rfl, rfl, rfl⟩ := chr_some h
  simp

theorem seq_some {s c : Name} {ps r} (h : seq p q s = some (c, ps, r)) :
    ∃ c1 ps1 r1 c2 ps2, p s = some (c1, ps1, r1) ∧ q r1 = some (c2, ps2, r) ∧ c = c1 ++ c2 ∧ ps = ps1 ++ ps2 := by
  unfold seq at h
  cases hp : p s with
  | none => rw [hp] at h; cases h
  | some x =>
    obtain ⟨c1, ps1, r1⟩ := x
    rw [hp] at h
    simp only at h
    cases hq : q r1 with
    | none => rw [hq] at h; cases h
    | some y =>
      obtain ⟨c2, ps2, r2⟩ := y
      rw [hq] at h
      simp only [Option.map_some, Option.some.injEq, Prod.mk.injEq] at h
      obtain ⟨rfl, rfl, rfl⟩ := h
      exact ⟨c1, ps1, r1, c2, ps2, rfl, hq, rfl, rfl⟩

theorem seq_ok {s c1 r1 c2 r2 : Name} {ps1 ps2} (hp : p s = some (c1, ps1, r1)) (hq : q r1 = some (c2, ps2, r2)) :
    seq p q s = some (c1 ++ c2, ps1 ++ ps2, r2) := by
  simp only [seq, hp, hq, Option.map_some]

theorem sound_seq (hp : Sound Q p) (hq : Sound Q q) : Sound Q (seq p q) := by
  intro s c ps r h
  obtain ⟨c1, ps1, r1, c2, ps2, h1, h2, rfl, rfl⟩ := seq_some h
  obtain ⟨e1, a1⟩ := hp h1
  obtain ⟨e2, a2⟩ := hq h2
  refine ⟨by rw [e1, e2, List.append_assoc], ?_⟩
  intro x hx
  rcases List.mem_append.mp hx with hx | hx
  · exact ⟨(a1 x hx).1, (a1 x hx).2.trans (List.prefix_append _ _).isInfix⟩
  · exact ⟨(a2 x hx).1, (a2 x hx).2.trans (List.suffix_append _ _).isInfix⟩

theorem silent_seq (hp : Silent p) (hq : Silent q) : Silent (seq p q) := by
  intro s c ps r h
  obtain ⟨c1, ps1, r1, c2, ps2, h1, h2, rfl, rfl⟩ := seq_some h
  rw [hp h1, hq h2]; rfl

theorem eats_seq_left (hp : Eats p) : Eats (seq p q) := by
  intro s c ps r h
  obtain ⟨c1, ps1, r1, c2, ps2, h1, h2, rfl, rfl⟩ := seq_some h
  have := hp h1
  simp [this]

theorem eats_seq_right (hq : Eats q) : Eats (seq p q) := by
  intro s c ps r h
  obtain ⟨c1, ps1, r1, c2, ps2, h1, h2, rfl, rfl⟩ := seq_some h
  have := hq h2
  simp [this]

theorem sound_seqs {l : List Peg} (h : ∀ x ∈ l, Sound Q x) : Sound Q (seqs l) := by
  induction l with
  | nil => intro s c ps r h; simp only [seqs, Option.some.injEq, Prod.mk.injEq] at h; grind
  | cons x l ih => exact sound_seq (h x (by simp)) (ih (fun y hy => h y (by simp [hy])))

theorem silent_seqs {l : List Peg} (h : ∀ x ∈ l, Silent x) : Silent (seqs l) := by
  induction l with
  | nil => intro s c ps r h; simp only [seqs, Option.some.injEq, Prod.mk.injEq] at h; grind
  | cons x l ih => exact silent_seq (h x (by simp)) (ih (fun y hy => h y (by simp [hy])))

theorem eats_seqs {l : List Peg} (h : ∃ x ∈ l, Eats x) : Eats (seqs l) := by
  induction l with
  | nil => obtain ⟨x, hx, _⟩ := h; cases hx
  | cons x l ih =>
    obtain ⟨y, hy, he⟩ := h
    rcases List.mem_cons.mp hy with rfl | hy
    · exact eats_seq_left he
    · exact eats_seq_right (ih ⟨y, hy, he⟩)

theorem alt_some {s : Name} {x} (h : alt p q s = some x) : p s = some x ∨ (p s = none ∧ q s = some x) := by
  unfold alt at h
  cases hp : p s with
  | none => rw [hp] at h; exact Or.inr ⟨rfl, h⟩
  | some y => rw [hp] at h; exact Or.inl h

theorem alt_left {s : Name} {x} (h : p s = some x) : alt p q s = some x := by
  simp only [alt, h]

theorem alt_right {s : Name} (h : p s = none) : alt p q s = q s := by
  simp only [alt, h]

theorem sound_alt (hp : Sound Q p) (hq : Sound Q q) : Sound Q (alt p q) := by
  intro s c ps r h
  rcases alt_some h with h | h
  · exact hp h
  · exact hq h.2

theorem silent_alt (hp : Silent p) (hq : Silent q) : Silent (alt p q) := by
  intro s c ps r h
  rcases alt_some h with h | h
  · exact hp h
  · exact hq h.2

theorem eats_alt (hp : Eats p) (hq : Eats q) : Eats (alt p q) := by
  intro s c ps r h
  rcases alt_some h with h | h
  · exact hp h
  · exact hq h.2

theorem alts_some {l : List Peg} {s : Name} {x} (h : alts l s = some x) : ∃ p ∈ l, p s = some x := by
  induction l with
  | nil => cases h
  | cons a l ih =>
    rcases alt_some h with h | h
    · exact ⟨a, by simp, h⟩
    · obtain ⟨p, hp, h⟩ := ih h.2; exact ⟨p, by simp [hp], h⟩

theorem sound_alts {l : List Peg} (h : ∀ x ∈ l, Sound Q x) : Sound Q (alts l) := by
  intro s c ps r hs
  obtain ⟨p, hp, h'⟩ := alts_some hs
  exact h p hp h'

theorem silent_alts {l : List Peg} (h : ∀ x ∈ l, Silent x) : Silent (alts l) := by
  intro s c ps r hs
  obtain ⟨p, hp, h'⟩ := alts_some hs
  exact h p hp h'

theorem eats_alts {l : List Peg} (h : ∀ x ∈ l, Eats x) : Eats (alts l) := by
  intro s c ps r hs
  obtain ⟨p, hp, h'⟩ := alts_some hs
  exact h p hp h'

theorem starN_sound (hp : Sound Q p) (n : Nat) (s : Name) :
    s = (starN p n s).1 ++ (starN p n s).2.2 ∧
      ∀ x ∈ (starN p n s).2.1, x.All Q ∧ x.text <:+: (starN p n s).1 := by
  induction n generalizing s with
  | zero => simp [starN]
  | succ n ih =>
    simp only [starN]
    cases h : p s with
    | none => simp
    | some y =>
      obtain ⟨c, ps, r⟩ := y
      obtain ⟨e1, a1⟩ := hp h
      obtain ⟨e2, a2⟩ := ih r
      refine ⟨by rw [e1, List.append_assoc, ← e2], ?_⟩
      intro x hx
      rcases List.mem_append.mp hx with hx | hx
      · exact ⟨(a1 x hx).1, (a1 x hx).2.trans (List.prefix_append _ _).isInfix⟩
      · exact ⟨(a2 x hx).1, (a2 x hx).2.trans (List.suffix_append _ _).isInfix⟩

theorem sound_star (hp : Sound Q p) : Sound Q (star p) := by
  intro s c ps r h
  have := starN_sound hp s.length s
  simp only [star, Option.some.injEq] at h
  rw [h] at this
  exact this

theorem starN_tokens {R : Pair → Prop} (hp : ∀ s c ps r, p s = some (c, ps, r) → ∀ x ∈ ps, R x) (n : Nat)
    (s : Name) : ∀ x ∈ (starN p n s).2.1, R x := by
  induction n generalizing s with
  | zero => simp [starN]
  | succ n ih =>
    simp only [starN]
    cases h : p s with
    | none => simp
    | some y =>
      obtain ⟨c, ps, r⟩ := y
      intro x hx
      rcases List.mem_append.mp hx with hx | hx
      · exact hp _ _ _ _ h x hx
      · exact ih r x hx

theorem silent_star (hp : Silent p) : Silent (star p) := by
  intro s c ps r h
  simp only [star, Option.some.injEq] at h
  have := starN_tokens (p := p) (R := fun _ => False) (fun _ _ _ _ h x hx => by rw [hp h] at hx; cases hx) s.length s
  rw [h] at this
  exact List.eq_nil_iff_forall_not_mem.mpr this

/-- A larger bound gives nothing more. -/
theorem starN_fuel (hp : Sound Q p) (he : Eats p) {s : Name} {n m : Nat} (hn : s.length ≤ n) (hm : s.length ≤ m) :
    starN p n s = starN p m s := by
  induction n generalizing s m with
  | zero =>
    have hs : s = [] := List.length_eq_zero_iff.mp (by omega)
    subst hs
    cases m with
    | zero => rfl
    | succ m =>
      simp only [starN]
      cases h : p [] with
      | none => rfl
      | some y =>
        obtain ⟨c, ps, r⟩ := y
        have h1 := (hp h).1
        have h2 := he h
        have := congrArg List.length h1
        simp only [List.length_nil, List.length_append] at this
        exact absurd (List.length_eq_zero_iff.mp (by omega)) h2
  | succ n ih =>
    cases m with
    | zero =>
      have hs : s = [] := List.length_eq_zero_iff.mp (by omega)
      subst hs
      simp only [starN]
      cases h : p [] with
      | none => rfl
      | some y =>
        obtain ⟨c, ps, r⟩ := y
        have h1 := (hp h).1
        have h2 := he h
        have := congrArg List.length h1
        simp only [List.length_nil, List.length_append] at this
        exact absurd (List.length_eq_zero_iff.mp (by omega)) h2
    | succ m =>
      simp only [starN]
      cases h : p s with
      | none => rfl
      | some y =>
        obtain ⟨c, ps, r⟩ := y
        have h1 := congrArg List.length (hp h).1
        have h2 : 0 < c.length := List.length_pos_iff.mpr (he h)
        simp only [List.length_append] at h1
        simp only [ih (s := r) (m := m) (by omega) (by omega)]

/-- `p*` either stops at once or goes on after one more `p`. -/
theorem star_none {s : Name} (h : p s = none) : star p s = some ([], [], s) := by
  simp only [star]
  cases s.length <;> simp [starN, h]

theorem star_some (hp : Sound Q p) (he : Eats p) {s c r c' r' : Name} {ps ps'} (h : p s = some (c, ps, r))
    (h' : star p r = some (c', ps', r')) : star p s = some (c ++ c', ps ++ ps', r') := by
  have h1 := congrArg List.length (hp h).1
  have h2 : 0 < c.length := List.length_pos_iff.mpr (he h)
  simp only [List.length_append] at h1
  simp only [star, Option.some.injEq] at h' ⊢
  obtain ⟨n, hn⟩ : ∃ n, s.length = n + 1 := ⟨s.length - 1, by omega⟩
  rw [hn]
  simp only [starN, h]
  rw [starN_fuel hp he (n := n) (m := r.length) (by omega) (by omega), h']

theorem sound_plus (hp : Sound Q p) : Sound Q (plus p) := sound_seq hp (sound_star hp)
theorem silent_plus (hp : Silent p) : Silent (plus p) := silent_seq hp (silent_star hp)
theorem eats_plus (hp : Eats p) : Eats (plus p) := eats_seq_left hp

theorem opt_some {s : Name} {x} (h : opt p s = some x) : p s = some x ∨ (p s = none ∧ x = ([], [], s)) := by
  unfold opt at h
  cases hp : p s with
  | none => rw [hp] at h; simp only [Option.some.injEq] at h; exact Or.inr ⟨rfl, h.symm⟩
  | some y => rw [hp] at h; exact Or.inl h

theorem opt_none {s : Name} (h : p s = none) : opt p s = some ([], [], s) := by simp only [opt, h]
theorem opt_ok {s : Name} {x} (h : p s = some x) : opt p s = some x := by simp only [opt, h]

theorem sound_opt (hp : Sound Q p) : Sound Q (opt p) := by
  intro s c ps r h
  rcases opt_some h with h | ⟨_, h⟩
  · exact hp h
  · simp only [Prod.mk.injEq] at h
    obtain ⟨rfl, rfl, rfl⟩ := h
    simp

theorem silent_opt (hp : Silent p) : Silent (opt p) := by
  intro s c ps r h
  rcases opt_some h with h | ⟨_, h⟩
  · exact hp h
  · simp only [Prod.mk.injEq] at h
    exact h.2.1

theorem not_some {s : Name} {x} (h : not p s = some x) : p s = none ∧ x = ([], [], s) := by
  unfold not at h
  cases hp : p s with
  | none => rw [hp] at h; simp only [Option.some.injEq] at h; exact ⟨rfl, h.symm⟩
  | some y => rw [hp] at h; cases h

theorem not_ok {s : Name} (h : p s = none) : not p s = some ([], [], s) := by simp only [not, h]

theorem sound_not (p : Peg) : Sound Q (not p) := by
  intro s c ps r h
  have := (not_some h).2
  simp only [Prod.mk.injEq] at this
  obtain ⟨rfl, rfl, rfl⟩ := this
  simp

theorem silent_not (p : Peg) : Silent (not p) := by
  intro s c ps r h
  have := (not_some h).2
  simp only [Prod.mk.injEq] at this
  exact this.2.1

theorem tok_some {rl : Rule} {s c : Name} {ps r} (h : tok rl p s = some (c, ps, r)) :
    ∃ l, p s = some (c, l, r) ∧ ps = [.mk rl c l] := by
  unfold tok at h
  cases hp : p s with
  | none => rw [hp] at h; cases h
  | some y =>
    obtain ⟨c', l, r'⟩ := y
    rw [hp] at h
    simp only [Option.map_some, Option.some.injEq, Prod.mk.injEq] at h
    obtain ⟨rfl, rfl, rfl⟩ := h
    exact ⟨l, rfl, rfl⟩

theorem tok_ok {rl : Rule} {s c r : Name} {l} (h : p s = some (c, l, r)) :
    tok rl p s = some (c, [.mk rl c l], r) := by simp only [tok, h, Option.map_some]

theorem tok_none {rl : Rule} {s : Name} (h : p s = none) : tok rl p s = none := by
  simp only [tok, h, Option.map_none]

theorem sound_tok {rl : Rule} (hp : Sound Q p)
    (hq : ∀ s c l r, p s = some (c, l, r) → Q (.mk rl c l)) : Sound Q (tok rl p) := by
  intro s c ps r h
  obtain ⟨l, h', rfl⟩ := tok_some h
  obtain ⟨e, a⟩ := hp h'
  refine ⟨e, ?_⟩
  intro x hx
  cases List.mem_singleton.mp hx
  exact ⟨.mk (hq _ _ _ _ h') (fun x hx => (a x hx).1) (fun x hx => (a x hx).2), List.infix_refl _⟩

theorem eats_tok {rl : Rule} (hp : Eats p) : Eats (tok rl p) := by
  intro s c ps r h
  obtain ⟨l, h', rfl⟩ := tok_some h
  exact hp h'

theorem quiet_some {s c : Name} {ps r} (h : quiet p s = some (c, ps, r)) : ∃ l, p s = some (c, l, r) ∧ ps = [] := by
  unfold quiet at h
  cases hp : p s with
  | none => rw [hp] at h; cases h
  | some y =>
    obtain ⟨c', l, r'⟩ := y
    rw [hp] at h
    simp only [Option.map_some, Option.some.injEq, Prod.mk.injEq] at h
    obtain ⟨rfl, rfl, rfl⟩ := h
    exact ⟨l, rfl, rfl⟩

theorem sound_quiet (hp : Sound Q p) : Sound Q (quiet p) := by
  intro s c ps r h
  obtain ⟨l, h', rfl⟩ := quiet_some h
  exact ⟨(hp h').1, by simp⟩

theorem silent_quiet (p : Peg) : Silent (quiet p) := by
  intro s c ps r h
  obtain ⟨l, h', rfl⟩ := quiet_some h
  rfl

theorem eats_quiet (hp : Eats p) : Eats (quiet p) := by
  intro s c ps r h
  obtain ⟨l, h', rfl⟩ := quiet_some h
  exact hp h'

theorem sound_eoi : Sound Q eoi := by
  intro s c ps r h
  cases s with
  | nil => simp only [eoi, Option.some.injEq, Prod.mk.injEq] at h; grind
  | cons => cases h

/-- A run of characters of a class, up to one outside it. -/
theorem star_chr {f : Char → Bool} {w t : Name} (hw : ∀ c ∈ w, f c = true) (ht : ∀ c ∈ t.head?, f c = false) :
    star (chr f) (w ++ t) = some (w, [], t) := by
  induction w with
  | nil =>
    refine star_none ?_
    cases t with
    | nil => rfl
    | cons c t => simp [chr, ht c (by simp)]
  | cons c w ih =>
    have h : chr f (c :: (w ++ t)) = some ([c], [], w ++ t) := by simp [chr, hw c (by simp)]
    exact star_some (Q := fun _ => True) (sound_chr f) (eats_chr f) h (ih (fun c hc => hw c (by simp [hc])))

theorem plus_chr {f : Char → Bool} {w t : Name} (hne : w ≠ []) (hw : ∀ c ∈ w, f c = true)
    (ht : ∀ c ∈ t.head?, f c = false) : plus (chr f) (w ++ t) = some (w, [], t) := by
  cases w with
  | nil => exact absurd rfl hne
  | cons c w =>
    have h : chr f (c :: (w ++ t)) = some ([c], [], w ++ t) := by simp [chr, hw c (by simp)]
    exact seq_ok h (star_chr (fun c hc => hw c (by simp [hc])) ht)

end Peg

end Verif
