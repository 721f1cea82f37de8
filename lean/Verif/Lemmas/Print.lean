import Verif.Spec.Printable
import Verif.Lemmas.Fl
import Mathlib.Tactic.FieldSimp
import Mathlib.Tactic.IntervalCases
import Mathlib.Tactic.Ring

/-! # Writing programs down -/

namespace Verif.Spec

/-- The last `k` decimal digits of a number. -/
def dig : Nat → Nat → Name
  | 0, _ => []
  | k + 1, n => dig k (n / 10) ++ [Char.ofNat (48 + n % 10)]

theorem dig_length (k n : Nat) : (dig k n).length = k := by
  induction k generalizing n with
  | zero => rfl
  | succ k ih => simp [dig, ih]

theorem digit_char {d : Nat} (h : d < 10) : Digit (Char.ofNat (48 + d)) ∧ (Char.ofNat (48 + d)).toNat - 48 = d := by
  interval_cases d <;> exact ⟨by unfold Digit; decide, by decide⟩

theorem dig_digits (k n : Nat) : ∀ c ∈ dig k n, Digit c := by
  induction k generalizing n with
  | zero => simp [dig]
  | succ k ih =>
    intro c hc
    rcases List.mem_append.mp hc with hc | hc
    · exact ih _ c hc
    · rw [List.mem_singleton.mp hc]
      exact (digit_char (Nat.mod_lt _ (by decide))).1

theorem decimal_dig (k n : Nat) (h : n < 10 ^ k) : decimal (dig k n) = n := by
  induction k generalizing n with
  | zero => simp only [pow_zero] at h; simp only [dig, decimal, List.foldl_nil]; omega
  | succ k ih =>
    have := ih (n / 10) (by rw [pow_succ] at h; omega)
    simp only [decimal] at this
    simp only [decimal, dig, List.foldl_append, this, List.foldl_cons, List.foldl_nil,
      (digit_char (Nat.mod_lt n (by decide : 0 < 10))).2]
    omega

theorem digits_exist (n : Nat) : ∃ t, Digits t ∧ decimal t = n := by
  refine ⟨dig (n + 1) n, ⟨?_, dig_digits _ _⟩, decimal_dig _ _ ?_⟩
  · intro h
    have := dig_length (n + 1) n
    rw [h] at this
    simp at this
  · exact lt_trans (Nat.lt_pow_self (by decide : 1 < 10)) (Nat.pow_lt_pow_right (by decide) (Nat.lt_succ_self n))

theorem fraction_exists (n k : Nat) : ∃ i f : Name, Digits i ∧ (∀ c ∈ f, Digit c) ∧ f.length = k ∧ decimal (i ++ f) = n := by
  have hl := dig_length (k + (n + 1)) n
  have hd := dig_digits (k + (n + 1)) n
  refine ⟨(dig (k + (n + 1)) n).take (n + 1), (dig (k + (n + 1)) n).drop (n + 1), ⟨?_, ?_⟩, ?_, ?_, ?_⟩
  · intro h
    have := congrArg List.length h
    rw [List.length_take, hl] at this
    simp at this
  · exact fun c hc => hd c (List.mem_of_mem_take hc)
  · exact fun c hc => hd c (List.mem_of_mem_drop hc)
  · rw [List.length_drop, hl]
    omega
  · rw [List.take_append_drop]
    refine decimal_dig _ _ ?_
    exact lt_trans (Nat.lt_pow_self (by decide : 1 < 10)) (Nat.pow_lt_pow_right (by decide) (by omega))

/-- Rounding gives back what it gave. -/
theorem round_single {v : Fl} (h : Single v) : Fl.round f32 (v.sign) v.val = v := by
  obtain ⟨hf, s, x, hx⟩ := h
  have hok : Fl.Ok f32 v := by rw [hx]; exact Fl.round_ok
  cases v with
  | nan => cases hf
  | inf s => cases hf
  | nz => simp [Fl.round, Fl.val, Fmt.rnd_zero, Fl.sign]
  | fin q =>
    have h1 := Fmt.rnd_rep f32_p hok.1
    have h2 := abs_le.mp hok.2
    simp only [Fl.round, Fl.val, Fl.sign, h1]
    by_cases h0 : q = 0
    · simp [h0]
    · rw [if_neg h0, if_neg (not_lt.mpr h2.2), if_neg (not_lt.mpr h2.1)]

/-- The value as a sign and a magnitude. -/
theorem single_parts {v : Fl} (h : Single v) : signed v.sign |v.val| = v.val := by
  obtain ⟨hf, _⟩ := h
  cases v with
  | nan => cases hf
  | inf s => cases hf
  | nz => simp [signed, Fl.sign, Fl.val]
  | fin q =>
    simp only [signed, Fl.sign, Fl.val]
    by_cases hq : q < 0
    · simp [hq, abs_of_neg hq]
    · simp [hq, abs_of_nonneg (not_lt.mp hq)]

theorem wsign_exists (b : Bool) : ∃ s, WSign b s := by
  cases b
  · exact ⟨_, .none⟩
  · exact ⟨_, .minus⟩

theorem rep_decimal {x : ℚ} (h : f32.Rep x) : ∃ n k : Nat, |x| = (n : ℚ) / 10 ^ k := by
  obtain ⟨m, e, _, _, rfl⟩ := h
  rw [abs_mul, abs_of_pos (pow2_pos e), pow2_eq]
  rcases Int.eq_nat_or_neg e with ⟨j, rfl | rfl⟩
  · refine ⟨m.natAbs * 2 ^ j, 0, ?_⟩
    simp [Nat.cast_natAbs]
  · refine ⟨m.natAbs * 5 ^ j, j, ?_⟩
    have : (10 : ℚ) ^ j = 2 ^ j * 5 ^ j := by rw [← mul_pow]; norm_num
    rw [this, zpow_neg, zpow_natCast]
    push_cast [Nat.cast_natAbs]
    field_simp

theorem num_exists {v : Fl} (h : Single v) : ∃ t, WNum v t := by
  have hr := round_single h
  have hp := single_parts h
  have hok : Fl.Ok f32 v := by obtain ⟨_, s, x, hx⟩ := h; rw [hx]; exact Fl.round_ok
  have hrep : f32.Rep v.val := by
    cases v with
    | nan => exact f32.rep_zero
    | inf s => exact f32.rep_zero
    | nz => exact f32.rep_zero
    | fin q => exact hok.1
  obtain ⟨n, k, hn⟩ := rep_decimal hrep
  obtain ⟨s, hs⟩ := wsign_exists v.sign
  obtain ⟨i, f, hi, hf, hk, hd⟩ := fraction_exists n k
  refine ⟨s ++ (i ++ '.' :: f), ?_⟩
  have := WNum.dec hs hi hf
  rwa [hk, hd, ← hn, hp, hr] at this

theorem int_exists {v : Fl} (h : SingleInt v) : ∃ t, WInt v t := by
  obtain ⟨h, n, hn⟩ := h
  have hr := round_single h
  have hp := single_parts h
  obtain ⟨s, hs⟩ := wsign_exists v.sign
  obtain ⟨t, ht, hd⟩ := digits_exist n.natAbs
  refine ⟨s ++ t, ?_⟩
  have := WInt.mk hs ht
  have h2 : ((n.natAbs : Nat) : ℚ) = |v.val| := by rw [hn]; simp [Nat.cast_natAbs]
  rwa [hd, h2, hp, hr] at this

theorem nat_exists (n : Nat) : ∃ t, WNat n ('+' :: t) := by
  obtain ⟨t, ht, rfl⟩ := digits_exist n
  exact ⟨t, .plus ht⟩

theorem arg_exists {a : NumRef} (h : Arg a) : ∃ t, WArg a t := by
  cases a with
  | num v => obtain ⟨t, ht⟩ := num_exists h; exact ⟨t, .num ht⟩
  | ref r => exact ⟨r, .ref h⟩

theorem gap : Gap [' '] := ⟨by simp, by simp [Blanks, Blank]⟩

theorem group_exists {g : List SeqElem} (h0 : g ≠ []) (h : ∀ x ∈ g, Elem x) :
    ∃ t, WGroup g t ∧ ∀ c ∈ t.head?, ¬ Digit c := by
  induction g with
  | nil => exact absurd rfl h0
  | cons x g ih =>
    have hx := h x (List.mem_cons_self ..)
    have hplus : ¬ Digit '+' := by unfold Digit; decide
    have hlow : ¬ Digit '_' := by unfold Digit; decide
    have htil : ¬ Digit '~' := by unfold Digit; decide
    by_cases hg : g = []
    · subst hg
      cases x with
      | note n =>
        obtain ⟨t, ht⟩ := nat_exists n
        exact ⟨_, .last ht hx, by simpa using hplus⟩
      | rest => exact ⟨_, .lastRest, by simpa using hlow⟩
      | ref r =>
        obtain ⟨c, h1, h2, rfl⟩ := hx
        exact ⟨_, .lastRef h1 h2, by simpa using htil⟩
    · obtain ⟨u, hu, hd⟩ := ih hg (fun y hy => h y (List.mem_cons_of_mem _ hy))
      cases x with
      | note n =>
        obtain ⟨t, ht⟩ := nat_exists n
        exact ⟨_, .note ht hx hu hd, by simpa using hplus⟩
      | rest => exact ⟨_, .rest hu, by simpa using hlow⟩
      | ref r =>
        obtain ⟨c, h1, h2, rfl⟩ := hx
        exact ⟨_, .ref h1 h2 hu, by simpa using htil⟩

theorem list_exists {α : Type} {W : α → Name → Prop} {l : List α} (h0 : l ≠ []) (h : ∀ x ∈ l, ∃ t, W x t) :
    ∃ t, WList W l t := by
  induction l with
  | nil => exact absurd rfl h0
  | cons x l ih =>
    obtain ⟨t, ht⟩ := h x (List.mem_cons_self ..)
    by_cases hl : l = []
    · subst hl
      exact ⟨t, .one ht⟩
    · obtain ⟨u, hu⟩ := ih hl (fun y hy => h y (List.mem_cons_of_mem _ hy))
      exact ⟨_, .cons ht gap hu⟩

theorem events_exists {e : Events} (h : Pat e) : ∃ t, WList WEvent e t :=
  list_exists (W := WEvent) h.1 (by
    rintro ⟨x, w⟩ hx
    obtain ⟨h1, h2⟩ := h.2 _ hx
    obtain ⟨u, hu⟩ := num_exists h1
    cases x with
    | num v => obtain ⟨t, ht⟩ := num_exists h2; exact ⟨_, .num ht hu⟩
    | sym s => exact ⟨_, .sym h2 hu⟩)

theorem pat_exists {e : Events} {v : Fl} (h : Pat e) (hv : Single v) : ∃ t, WPattern e v t := by
  obtain ⟨t, ht⟩ := events_exists h
  obtain ⟨u, hu⟩ := num_exists hv
  exact ⟨_, .span (b := []) (by simp [Blanks]) ht hu⟩

theorem plain_exists {e : Events} (h : Pat e) : ∃ t, WEvents e t := by
  obtain ⟨t, ht⟩ := events_exists h
  exact ⟨_, .mk (b := []) (by simp [Blanks]) ht⟩

theorem spaces_one : Spaces [' '] := by simp [Spaces, Blank]

theorem spaces_none : Spaces [] := by simp [Spaces]

theorem point_exists {p : TimeList × Fl} (h : Point p) : ∃ t, WPoint p t := by
  obtain ⟨⟨b, e⟩, v⟩ := p
  obtain ⟨h1, h2, h3⟩ := h
  obtain ⟨t, ht⟩ := num_exists h1
  obtain ⟨u, hu⟩ := num_exists h3
  cases e with
  | none => exact ⟨_, .mk (.bar (.num ht)) spaces_one spaces_one hu⟩
  | some d =>
    cases d with
    | bar v => exact h2.elim
    | sec v =>
      obtain ⟨o, ho⟩ := num_exists h2
      exact ⟨_, .mk (.offset (.num ht) spaces_one (.later spaces_one ho)) spaces_one spaces_one hu⟩
    | ms v =>
      obtain ⟨o, ho⟩ := num_exists h2
      exact ⟨_, .mk (.offset (.num ht) spaces_one (.laterMs spaces_one ho)) spaces_one spaces_one hu⟩

theorem points_exists {l : List (TimeList × Fl)} (h : ∀ p ∈ l, Point p) : ∃ t, WPointList l t := by
  suffices ∃ t, WPoints l t by
    obtain ⟨t, ht⟩ := this
    exact ⟨_, .mk spaces_none ht⟩
  induction l with
  | nil => exact ⟨_, .nil⟩
  | cons x l ih =>
    obtain ⟨t, ht⟩ := point_exists (h x (List.mem_cons_self ..))
    obtain ⟨u, hu⟩ := ih (fun y hy => h y (List.mem_cons_of_mem _ hy))
    exact ⟨_, .cons ht (w := [' ']) (by simp) spaces_one hu⟩

theorem writes_exists (fe : Name → Option Fl) {c : Comp} (h : Printable c) : ∃ t, Writes fe c t := by
  have one : ∀ {kw : Name} {f : NumRef → Comp} {a : NumRef}, (kw, f) ∈ argKinds → Arg a → ∃ t, Writes fe (f a) t := by
    intro kw f a hk ha
    obtain ⟨t, ht⟩ := arg_exists ha
    exact ⟨_, .arg hk gap ht⟩
  have num : ∀ {kw : Name} {f : Fl → Comp} {v : Fl}, (kw, f) ∈ numKinds → Single v → ∃ t, Writes fe (f v) t := by
    intro kw f v hk ha
    obtain ⟨t, ht⟩ := num_exists ha
    exact ⟨_, .num hk gap ht⟩
  have two : ∀ {kw : Name} {f : Fl → Fl → Comp} {v w : Fl}, (kw, f) ∈ twoKinds → Single v ∧ Single w → ∃ t, Writes fe (f v w) t := by
    intro kw f v w hk ha
    obtain ⟨t, ht⟩ := num_exists ha.1
    obtain ⟨u, hu⟩ := num_exists ha.2
    exact ⟨_, .two hk gap ht gap hu⟩
  have argnum : ∀ {kw : Name} {f : NumRef → Fl → Comp} {v : NumRef} {w : Fl}, (kw, f) ∈ argNumKinds → Arg v → Single w →
      ∃ t, Writes fe (f v w) t := by
    intro kw f v w hk h1 h2
    obtain ⟨t, ht⟩ := arg_exists h1
    obtain ⟨u, hu⟩ := num_exists h2
    exact ⟨_, .argNum hk gap ht gap hu⟩
  cases c with
  | points l s b =>
    obtain ⟨h1, h2⟩ := h
    obtain ⟨t, ht⟩ := points_exists h1
    rcases h2 with ⟨rfl, rfl⟩ | ⟨rfl, rfl⟩
    · exact ⟨_, .points ht⟩
    · exact ⟨_, .pointsLoop ht spaces_none⟩
  | eval => exact h.elim
  | mul a => exact one (kw := c!"mul") (f := .mul) (by simp [argKinds]) h
  | add a => exact one (kw := c!"add") (f := .add) (by simp [argKinds]) h
  | sin a => exact one (kw := c!"sin") (f := .sin) (by simp [argKinds]) h
  | saw a => exact one (kw := c!"saw") (f := .saw) (by simp [argKinds]) h
  | squ a => exact one (kw := c!"squ") (f := .squ) (by simp [argKinds]) h
  | tri a => exact one (kw := c!"tri") (f := .tri) (by simp [argKinds]) h
  | pan a => exact one (kw := c!"pan") (f := .pan) (by simp [argKinds]) h
  | onepole a => exact one (kw := c!"onepole") (f := .onepole) (by simp [argKinds]) h
  | delayms a => exact one (kw := c!"delayms") (f := .delayms) (by simp [argKinds]) h
  | imp a => cases a with
    | num v => exact num (kw := c!"imp") (f := fun v => .imp (.num v)) (by simp [numKinds]) h
    | ref r => exact h.elim
  | bd a => cases a with
    | num v => exact num (kw := c!"bd") (f := fun v => .bd (.num v)) (by simp [numKinds]) h
    | ref r => exact h.elim
  | sn a => cases a with
    | num v => exact num (kw := c!"sn") (f := fun v => .sn (.num v)) (by simp [numKinds]) h
    | ref r => exact h.elim
  | hh a => cases a with
    | num v => exact num (kw := c!"hh") (f := fun v => .hh (.num v)) (by simp [numKinds]) h
    | ref r => exact h.elim
  | constsig v => exact num (kw := c!"constsig") (f := .constsig) (by simp [numKinds]) h
  | speed v => exact num (kw := c!"speed") (f := .speed) (by simp [numKinds]) h
  | plate v => exact num (kw := c!"plate") (f := .plate) (by simp [numKinds]) h
  | envperc a d => exact two (kw := c!"envperc") (f := .envperc) (by simp [twoKinds]) h
  | sawsynth a d => exact two (kw := c!"sawsynth") (f := .sawsynth) (by simp [twoKinds]) h
  | squsynth a d => exact two (kw := c!"squsynth") (f := .squsynth) (by simp [twoKinds]) h
  | trisynth a d => exact two (kw := c!"trisynth") (f := .trisynth) (by simp [twoKinds]) h
  | apfmsgain a v => exact argnum (kw := c!"apfmsgain") (f := .apfmsgain) (by simp [argNumKinds]) h.1 h.2
  | rhpf a v => exact argnum (kw := c!"rhpf") (f := .rhpf) (by simp [argNumKinds]) h.1 h.2
  | lpf s q =>
    cases s with
    | num v => exact argnum (v := .num v) (.tail _ (.tail _ (.tail _ (.tail _ (.head _))))) h.1 h.2
    | ref r => exact argnum (v := .ref r) (.tail _ (.tail _ (.tail _ (.tail _ (.head _))))) h.1 h.2
    | event e =>
      obtain ⟨t, ht⟩ := plain_exists h.1
      obtain ⟨u, hu⟩ := num_exists h.2
      exact ⟨_, .lpfEvents gap ht gap hu⟩
    | pattern e v =>
      obtain ⟨t, ht⟩ := pat_exists h.1 h.2.1
      obtain ⟨u, hu⟩ := num_exists h.2.2
      exact ⟨_, .lpfPattern gap ht gap hu⟩
  | adsr a b c d =>
    obtain ⟨h1, h2, h3, h4⟩ := h
    obtain ⟨t1, h1⟩ := num_exists h1
    obtain ⟨t2, h2⟩ := num_exists h2
    obtain ⟨t3, h3⟩ := num_exists h3
    obtain ⟨t4, h4⟩ := num_exists h4
    exact ⟨_, .adsr gap h1 gap h2 gap h3 gap h4⟩
  | reverb a b c d e =>
    obtain ⟨h1, h2, h3, h4, h5⟩ := h
    obtain ⟨t1, h1⟩ := num_exists h1
    obtain ⟨t2, h2⟩ := num_exists h2
    obtain ⟨t3, h3⟩ := num_exists h3
    obtain ⟨t4, h4⟩ := num_exists h4
    obtain ⟨t5, h5⟩ := num_exists h5
    exact ⟨_, .reverb gap h1 gap h2 gap h3 gap h4 gap h5⟩
  | delayn a => cases a with
    | nat n => obtain ⟨t, ht⟩ := nat_exists n; exact ⟨_, .delayn gap ht h⟩
    | ref r => exact ⟨_, .delaynRef gap h⟩
  | noise n => obtain ⟨t, ht⟩ := nat_exists n; exact ⟨_, .noise (kw := c!"noise") (by simp) gap ht h⟩
  | adc n => obtain ⟨t, ht⟩ := nat_exists n; exact ⟨_, .adc gap ht h⟩
  | sp s => exact ⟨_, .sp (kw := c!"sp") (by simp) gap h⟩
  | seq ev =>
    obtain ⟨gs, h0, h1, rfl⟩ := h
    obtain ⟨t, ht⟩ := list_exists (W := WGroup) h0 (fun g hg => by
      obtain ⟨t, ht, _⟩ := group_exists (h1 g hg).1 (h1 g hg).2
      exact ⟨t, ht⟩)
    exact ⟨_, .seq gap ht⟩
  | choose vs =>
    obtain ⟨t, ht⟩ := list_exists (W := WInt) h.1 (fun v hv => int_exists (h.2 v hv))
    exact ⟨_, .choose gap ht⟩
  | mix rs =>
    obtain ⟨t, ht⟩ := list_exists (W := fun r t => t = r ∧ WName r) h.1 (fun v hv => ⟨v, rfl, h.2 v hv⟩)
    exact ⟨_, .mix gap ht⟩
  | arrange l =>
    obtain ⟨s, h0, h1, rfl⟩ := h
    obtain ⟨t, ht⟩ := list_exists (W := WSection) (l := s.map (fun x => (NumRef.ref x.1, NumRef.num x.2))) (by simpa using h0) (by
      intro x hx
      obtain ⟨y, hy, rfl⟩ := List.mem_map.mp hx
      obtain ⟨h2, h3⟩ := h1 y hy
      obtain ⟨u, hu⟩ := num_exists h3
      exact ⟨_, .mk h2 gap hu⟩)
    have := Writes.arrange (fe := fe) gap ht
    rw [List.flatMap_map] at this
    exact ⟨_, this⟩
  | balance l r => exact ⟨_, .balance gap h.1 gap h.2⟩
  | get r => exact ⟨_, .getWord gap h⟩
  | psampler e s => cases s with
    | none =>
      obtain ⟨t, ht⟩ := plain_exists h
      exact ⟨_, .psamplerEvents gap ht⟩
    | some v =>
      obtain ⟨t, ht⟩ := pat_exists h.1 h.2
      exact ⟨_, .psampler gap ht⟩
  | msgsynth s a d =>
    obtain ⟨h1, h2, h3⟩ := h
    obtain ⟨t2, h2⟩ := num_exists h2
    obtain ⟨t3, h3⟩ := num_exists h3
    exact ⟨_, .msgsynth gap h1 gap h2 gap h3⟩
  | patternSynth s v =>
    obtain ⟨⟨t, ht, rfl⟩, h2⟩ := h
    obtain ⟨u, hu⟩ := num_exists h2
    exact ⟨_, .psynth (kw := c!"psynth") (by simp) gap ht gap hu⟩
  | expr t => exact ⟨_, .code (kw := c!"expr") (f := .expr) (by simp [codeKinds]) gap h⟩
  | metaScript t => exact ⟨_, .code (kw := c!"meta") (f := .metaScript) (by simp [codeKinds]) gap h⟩

theorem chain_exists (fe : Name → Option Fl) {cs : List Comp} (h0 : cs ≠ []) (h : ∀ c ∈ cs, Printable c) : ∃ t, WChain fe cs t := by
  induction cs with
  | nil => exact absurd rfl h0
  | cons x l ih =>
    obtain ⟨t, ht⟩ := writes_exists fe (h x (List.mem_cons_self ..))
    by_cases hl : l = []
    · subst hl
      exact ⟨t, .one ht⟩
    · obtain ⟨u, hu⟩ := ih hl (fun y hy => h y (List.mem_cons_of_mem _ hy))
      exact ⟨_, .cons ht (.blank (n := []) (b := []) gap.2 (Or.inl rfl) (by simp [Blanks])) gap.2 hu⟩

theorem body_exists (fe : Name → Option Fl) {p : List (Name × List Comp)} (h0 : p ≠ [])
    (h : ∀ l ∈ p, WName l.1 ∧ l.2 ≠ [] ∧ ∀ c ∈ l.2, Printable c) : ∃ t, WBody fe p t := by
  induction p with
  | nil => exact absurd rfl h0
  | cons x l ih =>
    obtain ⟨k, cs⟩ := x
    obtain ⟨h1, h2, h3⟩ := h _ (List.mem_cons_self ..)
    obtain ⟨t, ht⟩ := chain_exists fe h2 h3
    have hl : WLine fe (k, cs) _ := .mk h1 (a := []) (by simp [Blanks]) gap.2 ht
    by_cases hl' : l = []
    · subst hl'
      exact ⟨_, .last hl (b := []) (by simp [Blanks])⟩
    · obtain ⟨u, hu⟩ := ih hl' (fun y hy => h y (List.mem_cons_of_mem _ hy))
      exact ⟨_, .cons hl (.lines (a := []) (by simp [Blanks]) (by simp) (.cons (a := []) (by simp [Blanks]) .nil)) hu⟩

theorem prog_exists (fe : Name → Option Fl) {p : List (Name × List Comp)} (h : ∀ l ∈ p, WName l.1 ∧ l.2 ≠ [] ∧ ∀ c ∈ l.2, Printable c) :
    ∃ t, WProg fe p t := by
  by_cases hp : p = []
  · subst hp
    exact ⟨_, .empty spaces_none .nil⟩
  · obtain ⟨t, ht⟩ := body_exists fe hp h
    exact ⟨_, .body spaces_none .nil ht⟩

end Verif.Spec
