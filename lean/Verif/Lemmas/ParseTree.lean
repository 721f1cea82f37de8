import Verif.Parser.Nodes
import Verif.Lemmas.Tokens

/-! # The second stage of the parser -/

namespace Verif.Parse
open Grammar

/-- The code does not panic here. -/
def Never {α : Type} (x : Res α) : Prop := ∀ q, x ≠ .error (.panic q)

theorem never_ok {α : Type} (a : α) : Never (.ok a : Res α) := by intro q h; cases h
theorem never_pure {α : Type} (a : α) : Never (pure a : Res α) := by intro q h; cases h
theorem never_err {α : Type} : Never (.error .err : Res α) := by intro q h; cases h
theorem never_need {α : Type} (o : Option α) : Never (need o) := by cases o <;> intro q h <;> cases h
theorem never_next (ps : List Pair) : Never (next ps) := by cases ps <;> intro q h <;> cases h

theorem never_bind {α β : Type} {x : Res α} {f : α → Res β} (hx : Never x) (hf : ∀ a, x = .ok a → Never (f a)) :
    Never (x >>= f) := by
  intro q h
  cases hxe : x with
  | ok a => rw [hxe] at h; exact hf a hxe q h
  | error e =>
    cases e with
    | err => rw [hxe] at h; cases h
    | panic p => exact hx p hxe

theorem never_map {α β : Type} {x : Res α} {f : α → β} (hx : Never x) : Never (x.map f) := by
  intro q h
  cases hxe : x with
  | ok a => rw [hxe] at h; cases h
  | error e =>
    cases e with
    | err => rw [hxe] at h; cases h
    | panic p => exact hx p hxe

theorem never_collect {α β : Type} {f : α → Res β} {l : List α} (h : ∀ a ∈ l, Never (f a)) :
    Never (collect f l) := by
  induction l with
  | nil => exact never_ok _
  | cons a l ih =>
    exact never_bind (h a (by simp)) (fun b _ => never_bind (ih (fun x hx => h x (by simp [hx])))
      (fun bs _ => never_ok _))

theorem never_f32Of (p : Pair) : Never (f32Of p) := never_need _
theorem never_usizeOf (p : Pair) : Never (usizeOf p) := never_need _

theorem never_nextF32 (ps : List Pair) : Never (nextF32 ps) :=
  never_bind (never_next _) (fun _ _ => never_bind (never_f32Of _) (fun _ _ => never_ok _))

theorem never_numRef (p : Pair) : Never (numRef p) := by
  unfold numRef
  split
  · exact never_map (never_f32Of _)
  · exact never_ok _
  · exact never_err

theorem never_nextNumRef (ps : List Pair) : Never (nextNumRef ps) :=
  never_bind (never_next _) (fun _ _ => never_bind (never_numRef _) (fun _ _ => never_ok _))

/-- Closes `Never` goals by the shape of the term. -/
macro "never" : tactic => `(tactic| repeat' (first
  | exact never_ok _ | exact never_pure _ | exact never_err | exact never_need _ | exact never_next _ | exact never_f32Of _
  | exact never_usizeOf _ | exact never_nextF32 _ | exact never_numRef _ | exact never_nextNumRef _ | assumption
  | refine never_collect (fun _ _ => ?_) | refine never_map ?_
  | refine never_bind ?_ (fun _ _ => ?_) | split))

theorem never_natRef (ps : List Pair) : Never (natRef ps) := by unfold natRef; never
theorem never_barOf (p : Pair) : Never (barOf p) := by unfold barOf; never
theorem never_offsetOf (ps : List Pair) : Never (offsetOf ps) := by unfold offsetOf; never

theorem never_pointOf (p : Pair) : Never (pointOf p) := by
  unfold pointOf
  have h1 := never_barOf
  have h2 := never_offsetOf
  never <;> first | exact h1 _ | exact h2 _

theorem never_seqElem (p : Pair) : Never (seqElem p) := by unfold seqElem; never

theorem never_seqOf (ps : List Pair) : Never (seqOf ps) := by
  unfold seqOf
  never <;> exact never_seqElem _

theorem never_eventOf (p : Pair) : Never (eventOf p) := by
  unfold eventOf
  never

theorem never_eventsOf (ps : List Pair) : Never (eventsOf ps) := by
  unfold eventsOf; never <;> exact never_eventOf _

theorem never_patternOf (ps : List Pair) : Never (patternOf ps) := by
  unfold patternOf; never <;> exact never_eventsOf _

theorem never_signalOf (ps : List Pair) : Never (signalOf ps) := by
  unfold signalOf; never <;> first | exact never_eventsOf _ | exact never_patternOf _

theorem never_psamplerOf (ps : List Pair) : Never (psamplerOf ps) := by
  unfold psamplerOf; never <;> first | exact never_eventsOf _ | exact never_patternOf _

theorem never_two (f : Fl → Fl → Comp) (ps : List Pair) : Never (two f ps) := by unfold two; never
theorem never_one (f : NumRef → Comp) (ps : List Pair) : Never (one f ps) := by unfold one; never
theorem never_oneNum (f : Fl → Comp) (ps : List Pair) : Never (oneNum f ps) := by unfold oneNum; never

theorem never_codeOf {ps : List Pair} (h : ∀ x ∈ ps.head?, 2 ≤ x.text.length) : Never (codeOf ps) := by
  unfold codeOf
  refine never_bind (never_next _) ?_
  rintro ⟨p, ps'⟩ hn
  cases ps with
  | nil => cases hn
  | cons x l =>
    simp only [next, Except.ok.injEq, Prod.mk.injEq] at hn
    have := h x (by simp)
    rw [hn.1] at this
    dsimp only
    split
    · rename_i e; rw [e] at this; simp at this
    · rename_i e; rw [e] at this; simp at this
    · exact never_ok _

theorem never_pointsOf {fe : Name → Option Fl} {ps : List Pair}
    (h : ∀ x ∈ ps, x.rule = .mathExpression → fe ('1' :: x.text) ≠ none) : Never (pointsOf fe ps) := by
  unfold pointsOf
  refine never_bind (never_next _) ?_
  rintro ⟨p, ps'⟩ hn
  dsimp only
  refine never_bind ?_ (fun _ _ => ?_)
  · cases ps with
    | nil => cases hn
    | cons x l =>
      simp only [next, Except.ok.injEq, Prod.mk.injEq] at hn
      obtain ⟨rfl, rfl⟩ := hn
      cases l with
      | nil => exact never_ok _
      | cons y l =>
        dsimp only
        split
        · rename_i hr
          have := h y (by simp) hr
          split
          · rename_i e; exact absurd e this
          · exact never_ok _
        · exact never_ok _
        · exact never_err
  · exact never_bind (never_collect (fun _ _ => never_pointOf _)) (fun _ _ => never_ok _)

theorem never_compOf {fe : Name → Option Fl} {r : Rule} {ps : List Pair}
    (hp : r = .points → ∀ x ∈ ps, x.rule = .mathExpression → fe ('1' :: x.text) ≠ none)
    (hc : r = .meta ∨ r = .expr ∨ r = .eval → ∀ x ∈ ps.head?, 2 ≤ x.text.length) : Never (compOf fe r ps) := by
  unfold compOf
  split
  all_goals first
    | exact never_pointsOf (hp rfl)
    | exact never_map (never_codeOf (hc (by simp)))
    | exact never_one _ _
    | exact never_two _ _
    | exact never_oneNum _ _
    | exact never_seqOf _
    | exact never_psamplerOf _
    | exact never_map (never_natRef _)
    | never

/-- What the grammar says of the tokens of a whole text. -/
theorem block_tokens {code c : Name} {ps : List Pair} {r : Name} (h : Grammar.block code = some (c, ps, r)) :
    ∃ l, ps = [.mk .block c l] ∧ c <:+: code ∧ (∀ x ∈ l, x.All TokOk ∧ x.text <:+: code) := by
  obtain ⟨e, a⟩ := Snd.sound (p := Grammar.block) h
  obtain ⟨l, _, rfl⟩ := Peg.tok_some h
  have hc : c <:+: code := e ▸ (List.prefix_append c r).isInfix
  refine ⟨l, rfl, hc, ?_⟩
  obtain ⟨h1, _⟩ := a _ (List.mem_singleton_self _)
  exact fun x hx => ⟨h1.inside x hx, (h1.infix x hx).trans hc⟩

theorem never_nodeOf {fe : Name → Option Fl} {code : Name} (hf : FactorsEvaluate fe code) (he : EvalFilled code)
    {p : Pair} (hp : p.All TokOk) (hc : p.text <:+: code) : Never (nodeOf fe p) := by
  unfold nodeOf
  refine never_bind (never_next _) ?_
  rintro ⟨n, l⟩ hn
  have hmem : n ∈ p.inner := by
    cases hi : p.inner with
    | nil => rw [hi] at hn; cases hn
    | cons x l' =>
      rw [hi] at hn
      simp only [next, Except.ok.injEq, Prod.mk.injEq] at hn
      simp [hn.1]
  have ha := hp.inside n hmem
  have ht := (hp.infix n hmem).trans hc
  dsimp only
  obtain ⟨r, t, l'⟩ := n
  refine never_compOf ?_ ?_
  · intro hr x hx hm
    have h1 := (ha.inside x hx).here
    refine hf x.text ((ha.infix x hx).trans ht) ?_
    obtain ⟨r', t', l''⟩ := x
    cases hm
    exact h1
  · intro hr x hx
    have h1 := ha.here
    rcases hr with hr | hr | hr <;> cases hr
    · obtain ⟨y, hy, h2⟩ := h1
      simp only [Pair.inner] at hx
      rw [hy] at hx
      cases hx
      exact h2
    · obtain ⟨y, hy, h2⟩ := h1
      simp only [Pair.inner] at hx
      rw [hy] at hx
      cases hx
      exact h2
    · obtain ⟨w, y, hy, h2, h3, h4⟩ := h1
      simp only [Pair.inner] at hx
      rw [hy] at hx
      cases hx
      obtain ⟨pre, post, hcode⟩ := ht
      simp only [Pair.text] at hcode
      obtain ⟨a, b, rest, h5, h6, h7⟩ := he pre w (x.text ++ '`' :: post) (by rw [← hcode, h2]; simp) h3 h4
      match hxt : x.text with
      | [] => rw [hxt] at h5; simp at h5; exact absurd h5.1.symm h6
      | [d] => rw [hxt] at h5; simp at h5; exact absurd h5.2.1.symm h7
      | _ :: _ :: _ => simp

theorem never_lineOf {fe : Name → Option Fl} {code : Name} (hf : FactorsEvaluate fe code) (he : EvalFilled code)
    {p : Pair} (hp : p.All TokOk) (hc : p.text <:+: code) : Never (lineOf fe p) := by
  unfold lineOf
  refine never_bind (never_next _) ?_
  rintro ⟨r, ps⟩ h1
  dsimp only
  split
  · refine never_bind (never_next _) ?_
    rintro ⟨ch, ps'⟩ h2
    dsimp only
    split
    · refine never_bind (never_collect ?_) (fun _ _ => never_ok _)
      intro n hn
      have hmem : ch ∈ p.inner := by
        cases hi : p.inner with
        | nil => rw [hi] at h1; cases h1
        | cons x l' =>
          rw [hi] at h1
          simp only [next, Except.ok.injEq, Prod.mk.injEq] at h1
          obtain ⟨rfl, rfl⟩ := h1
          cases l' with
          | nil => cases h2
          | cons y l' =>
            simp only [next, Except.ok.injEq, Prod.mk.injEq] at h2
            simp [h2.1]
      have ha := hp.inside ch hmem
      exact never_nodeOf hf he (ha.inside n hn) (((ha.infix n hn).trans (hp.infix ch hmem)).trans hc)
    · exact never_err
  · exact never_err

theorem never_getAst {fe : Name → Option Fl} {code : Name} (hf : FactorsEvaluate fe code) (he : EvalFilled code) :
    Never (getAst fe code) := by
  unfold getAst
  split
  · exact never_err
  · rename_i b l r hb
    obtain ⟨l', hl, _, h⟩ := block_tokens hb
    cases hl
    refine never_bind (never_collect ?_) (fun _ _ => never_ok _)
    intro x hx
    have hx' := (List.mem_filter.mp hx).1
    exact never_lineOf hf he (h x hx').1 (h x hx').2
  · exact never_err

/-! ## What comes out -/

theorem collect_ok {α β : Type} {f : α → Res β} {l : List α} {bs : List β} (h : collect f l = .ok bs) :
    List.Forall₂ (fun a b => f a = .ok b) l bs := by
  induction l generalizing bs with
  | nil => cases h; exact .nil
  | cons a l ih =>
    unfold collect at h
    cases ha : f a with
    | error e => rw [ha] at h; cases h
    | ok b =>
      rw [ha] at h
      cases hl : collect f l with
      | error e => rw [hl] at h; cases h
      | ok bs' => rw [hl] at h; cases h; exact .cons ha (ih hl)

theorem bind_ok {α β : Type} {x : Res α} {f : α → Res β} {b : β} (h : (x >>= f) = .ok b) :
    ∃ a, x = .ok a ∧ f a = .ok b := by
  cases x with
  | error e => cases h
  | ok a => exact ⟨a, rfl, h⟩

theorem map_ok {α β : Type} {x : Res α} {f : α → β} {b : β} (h : x.map f = .ok b) : ∃ a, x = .ok a ∧ f a = b := by
  cases x with
  | error e => cases h
  | ok a => cases h; exact ⟨a, rfl, rfl⟩

theorem next_ok {ps l : List Pair} {p : Pair} (h : next ps = .ok (p, l)) : ps = p :: l := by
  cases ps with
  | nil => cases h
  | cons x l' => simp only [next, Except.ok.injEq, Prod.mk.injEq] at h; simp [h]

theorem lineOf_ok {fe : Name → Option Fl} {p : Pair} {k : Name} {comps : List Comp}
    (h : lineOf fe p = .ok (k, comps)) :
    ∃ r ch rest, p.inner = r :: ch :: rest ∧ r.rule = .reference ∧ ch.rule = .chain ∧ k = r.text ∧
      List.Forall₂ (fun a b => nodeOf fe a = .ok b) ch.inner comps := by
  unfold lineOf at h
  obtain ⟨⟨r, ps⟩, h1, h⟩ := bind_ok h
  dsimp only at h
  split at h
  · rename_i hr
    obtain ⟨⟨ch, ps'⟩, h2, h⟩ := bind_ok h
    dsimp only at h
    split at h
    · rename_i hc
      obtain ⟨cs, h3, h⟩ := bind_ok h
      cases h
      exact ⟨r, ch, ps', by rw [next_ok h1, next_ok h2], hr, hc, rfl, collect_ok h3⟩
    · cases h
  · cases h

theorem getAst_ok {fe : Name → Option Fl} {code : Name} {a : Ast Comp} (h : getAst fe code = .ok a) :
    ∃ ls : List Pair, ∃ lines, (∀ x ∈ ls, x.All TokOk ∧ x.rule = .line) ∧
      List.Forall₂ (fun a b => lineOf fe a = .ok b) ls lines ∧ a = putAll lines [] := by
  unfold getAst at h
  split at h
  · cases h
  · rename_i b l r hb
    obtain ⟨l', hl, _, ht⟩ := block_tokens hb
    cases hl
    obtain ⟨lines, h1, h⟩ := bind_ok h
    cases h
    refine ⟨_, lines, ?_, collect_ok h1, rfl⟩
    intro x hx
    have hx' := List.mem_filter.mp hx
    exact ⟨(ht x hx'.1).1, by simpa using hx'.2⟩
  · cases h

theorem mem_forall₂_right {α β : Type} {R : α → β → Prop} {l : List α} {m : List β} (h : List.Forall₂ R l m)
    {b : β} (hb : b ∈ m) : ∃ a ∈ l, R a b := by
  induction h with
  | nil => cases hb
  | cons hr _ ih =>
    rcases List.mem_cons.mp hb with rfl | hb
    · exact ⟨_, by simp, hr⟩
    · obtain ⟨a, ha, hr⟩ := ih hb; exact ⟨a, by simp [ha], hr⟩

theorem mem_put {k : Name} {v : List Comp} {t : Ast Comp} {x : Name × List Comp} (h : x ∈ put k v t) :
    x = (k, v) ∨ x ∈ t := by
  induction t with
  | nil => simpa [put] using h
  | cons y t ih =>
    obtain ⟨k', v'⟩ := y
    simp only [put] at h
    split at h
    · rcases List.mem_cons.mp h with h | h
      · exact Or.inl h
      · exact Or.inr (by simp [h])
    · rcases List.mem_cons.mp h with h | h
      · exact Or.inr (by simp [h])
      · rcases ih h with h | h
        · exact Or.inl h
        · exact Or.inr (by simp [h])

theorem mem_putAll {l : List (Name × List Comp)} {t : Ast Comp} {x : Name × List Comp} (h : x ∈ putAll l t) :
    x ∈ l ∨ x ∈ t := by
  induction l generalizing t with
  | nil => exact Or.inr h
  | cons y l ih =>
    obtain ⟨k, v⟩ := y
    rcases ih h with h | h
    · exact Or.inl (by simp [h])
    · rcases mem_put h with h | h
      · exact Or.inl (by simp [h])
      · exact Or.inr h

theorem put_nodup {k : Name} {v : List Comp} {t : Ast Comp} (h : (t.map Prod.fst).Nodup) :
    ((put k v t).map Prod.fst).Nodup := by
  induction t with
  | nil => simp [put]
  | cons y t ih =>
    obtain ⟨k', v'⟩ := y
    simp only [List.map_cons, List.nodup_cons] at h
    simp only [put]
    split
    · rename_i e; subst e; simpa using h
    · rename_i e
      simp only [List.map_cons, List.nodup_cons]
      refine ⟨?_, ih h.2⟩
      intro hm
      obtain ⟨x, hx, rfl⟩ := List.mem_map.mp hm
      rcases mem_put hx with hx | hx
      · subst hx; exact e rfl
      · exact h.1 (List.mem_map_of_mem (f := Prod.fst) hx)

theorem putAll_nodup {l : List (Name × List Comp)} {t : Ast Comp} (h : (t.map Prod.fst).Nodup) :
    ((putAll l t).map Prod.fst).Nodup := by
  induction l generalizing t with
  | nil => exact h
  | cons y l ih => exact ih (put_nodup h)

/-! ## References -/

theorem written_ref {p : Pair} (h : p.All TokOk) (hr : p.rule = .reference) : WrittenName p.text := by
  obtain ⟨r, t, l⟩ := p
  cases hr
  exact h.here

theorem numRef_refs {p : Pair} {v : NumRef} (hp : p.All TokOk) (h : numRef p = .ok v) :
    ∀ r ∈ v.refs, WrittenName r := by
  unfold numRef at h
  split at h
  · obtain ⟨x, _, rfl⟩ := map_ok h
    simp [NumRef.refs]
  · rename_i hr
    cases h
    intro r hr'
    cases List.mem_singleton.mp hr'
    exact written_ref hp hr
  · cases h

theorem nextNumRef_refs {ps l : List Pair} {v : NumRef} (hp : ∀ x ∈ ps, x.All TokOk)
    (h : nextNumRef ps = .ok (v, l)) : ∀ r ∈ v.refs, WrittenName r := by
  unfold nextNumRef at h
  obtain ⟨⟨p, l'⟩, h1, h⟩ := bind_ok h
  obtain ⟨w, h2, h⟩ := bind_ok h
  cases h
  exact numRef_refs (hp p (by rw [next_ok h1]; simp)) h2

theorem natRef_refs {ps : List Pair} {v : NatRef} (hp : ∀ x ∈ ps, x.All TokOk)
    (h : natRef ps = .ok v) : ∀ r ∈ v.refs, WrittenName r := by
  unfold natRef at h
  obtain ⟨⟨p, l'⟩, h1, h⟩ := bind_ok h
  dsimp only at h
  split at h
  · obtain ⟨x, _, rfl⟩ := map_ok h
    simp [NatRef.refs]
  · rename_i hr
    cases h
    intro r hr'
    cases List.mem_singleton.mp hr'
    exact written_ref (hp p (by rw [next_ok h1]; simp)) hr
  · cases h

/-- The references of an element of a `seq` pattern. -/
def SeqElem.refs : SeqElem → List Name
  | .ref r => [r]
  | _ => []

theorem groupEvents_refs {i n j : Nat} {g : List SeqElem} {x : Fl × NatRef} (h : x ∈ groupEvents i n j g) {r : Name}
    (hr : r ∈ x.2.refs) : ∃ e ∈ g, r ∈ SeqElem.refs e := by
  induction g generalizing j with
  | nil => cases h
  | cons e g ih =>
    cases e with
    | note k =>
      rcases List.mem_cons.mp h with h | h
      · subst h; simp [NatRef.refs] at hr
      · obtain ⟨e, he, h⟩ := ih h; exact ⟨e, by simp [he], h⟩
    | rest => obtain ⟨e, he, h⟩ := ih h; exact ⟨e, by simp [he], h⟩
    | ref w =>
      rcases List.mem_cons.mp h with h | h
      · subst h; exact ⟨.ref w, List.mem_cons_self, hr⟩
      · obtain ⟨e, he, h⟩ := ih h; exact ⟨e, by simp [he], h⟩

theorem patternEvents_refs {i : Nat} {gs : List (List SeqElem)} {x : Fl × NatRef} (h : x ∈ patternEvents i gs)
    {r : Name} (hr : r ∈ x.2.refs) : ∃ g ∈ gs, ∃ e ∈ g, r ∈ SeqElem.refs e := by
  induction gs generalizing i with
  | nil => cases h
  | cons g gs ih =>
    rcases List.mem_append.mp h with h | h
    · exact ⟨g, by simp, groupEvents_refs h hr⟩
    · obtain ⟨g, hg, h⟩ := ih h; exact ⟨g, by simp [hg], h⟩

theorem seqElem_refs {p : Pair} {e : SeqElem} (hp : p.All TokOk) (h : seqElem p = .ok e) :
    ∀ r ∈ SeqElem.refs e, WrittenName r := by
  unfold seqElem at h
  obtain ⟨⟨n, l'⟩, h1, h⟩ := bind_ok h
  dsimp only at h
  split at h
  · obtain ⟨x, _, rfl⟩ := map_ok h
    simp [SeqElem.refs]
  · cases h; simp [SeqElem.refs]
  · rename_i hr
    cases h
    intro r hr'
    cases List.mem_singleton.mp hr'
    have hn := (hp.inside n (by rw [next_ok h1]; simp)).here
    obtain ⟨rl, t, l⟩ := n
    cases hr
    obtain ⟨c, hc, hn⟩ := hn
    refine ⟨['~', c], by simp, ?_, Or.inl hc⟩
    intro d hd
    simp only [List.mem_cons, List.not_mem_nil, or_false] at hd
    rcases hd with rfl | rfl
    · exact Or.inl rfl
    · exact hn
  · cases h

theorem seqOf_refs {ps : List Pair} {c : Comp} (hp : ∀ x ∈ ps, x.All TokOk) (h : seqOf ps = .ok c) :
    ∀ r ∈ c.refs, WrittenName r := by
  unfold seqOf at h
  obtain ⟨⟨paras, l⟩, h1, h⟩ := bind_ok h
  obtain ⟨gs, h2, h⟩ := bind_ok h
  cases h
  intro r hr
  simp only [Comp.refs, List.mem_flatMap] at hr
  obtain ⟨x, hx, hr⟩ := hr
  obtain ⟨g, hg, e, he, hr⟩ := patternEvents_refs hx hr
  obtain ⟨pg, hpg, h3⟩ := mem_forall₂_right (collect_ok h2) hg
  obtain ⟨pe, hpe, h4⟩ := mem_forall₂_right (collect_ok h3) he
  have ha := hp paras (by rw [next_ok h1]; simp)
  exact seqElem_refs ((ha.inside pg hpg).inside pe hpe) h4 r hr

theorem one_refs {f : NumRef → Comp} (hf : ∀ v, (f v).refs = v.refs) {ps : List Pair} {c : Comp}
    (hp : ∀ x ∈ ps, x.All TokOk) (h : one f ps = .ok c) : ∀ r ∈ c.refs, WrittenName r := by
  unfold one at h
  obtain ⟨⟨v, l⟩, h1, h⟩ := bind_ok h
  cases h
  rw [hf]
  exact nextNumRef_refs hp h1

theorem none_refs {c : Comp} (h : c.refs = []) : ∀ r ∈ c.refs, WrittenName r := by
  rw [h]; intro r hr; cases hr

theorem two_refs {f : Fl → Fl → Comp} (hf : ∀ a b, (f a b).refs = []) {ps : List Pair} {c : Comp}
    (h : two f ps = .ok c) : ∀ r ∈ c.refs, WrittenName r := by
  unfold two at h
  obtain ⟨⟨v, l⟩, h1, h⟩ := bind_ok h
  obtain ⟨⟨w, l'⟩, h2, h⟩ := bind_ok h
  cases h
  exact none_refs (hf _ _)

theorem oneNum_refs {f : Fl → Comp} (hf : ∀ a, (f a).refs = []) {ps : List Pair} {c : Comp}
    (h : oneNum f ps = .ok c) : ∀ r ∈ c.refs, WrittenName r := by
  unfold oneNum at h
  obtain ⟨⟨v, l⟩, h1, h⟩ := bind_ok h
  cases h
  exact none_refs (hf _)

theorem signalOf_refs {ps l : List Pair} {s : Signal} (hp : ∀ x ∈ ps, x.All TokOk) (h : signalOf ps = .ok (s, l))
    (q : Fl) : ∀ r ∈ (Comp.lpf s q).refs, WrittenName r := by
  unfold signalOf at h
  obtain ⟨⟨p, l'⟩, h1, h⟩ := bind_ok h
  dsimp only at h
  split at h
  · obtain ⟨x, _, h⟩ := bind_ok h
    cases h
    exact none_refs rfl
  · rename_i hr
    cases h
    intro r hr'
    cases List.mem_singleton.mp hr'
    exact written_ref (hp p (by rw [next_ok h1]; simp)) hr
  · obtain ⟨⟨x, _⟩, _, h⟩ := bind_ok h
    cases h
    exact none_refs rfl
  · obtain ⟨⟨x, _⟩, _, h⟩ := bind_ok h
    cases h
    exact none_refs rfl
  · cases h

theorem pointsOf_refs {fe : Name → Option Fl} {ps : List Pair} {c : Comp} (h : pointsOf fe ps = .ok c) :
    ∀ r ∈ c.refs, WrittenName r := by
  unfold pointsOf at h
  obtain ⟨⟨p, l'⟩, h1, h⟩ := bind_ok h
  dsimp only at h
  obtain ⟨⟨sp, lp⟩, h2, h⟩ := bind_ok h
  obtain ⟨pts, h3, h⟩ := bind_ok h
  cases h
  exact none_refs rfl

theorem psamplerOf_refs {ps : List Pair} {c : Comp} (h : psamplerOf ps = .ok c) :
    ∀ r ∈ c.refs, WrittenName r := by
  unfold psamplerOf at h
  obtain ⟨⟨p, l'⟩, h1, h⟩ := bind_ok h
  dsimp only at h
  split at h
  · obtain ⟨⟨x, _⟩, _, h⟩ := bind_ok h
    cases h
    exact none_refs rfl
  · obtain ⟨⟨x, _⟩, _, h⟩ := bind_ok h
    cases h
    exact none_refs rfl
  · cases h

theorem compOf_refs {fe : Name → Option Fl} {r : Rule} {t : Name} {ps : List Pair} {c : Comp}
    (hp : (Pair.mk r t ps).All TokOk) (h : compOf fe r ps = .ok c) : ∀ n ∈ c.refs, WrittenName n := by
  have hi : ∀ x ∈ ps, x.All TokOk := hp.inside
  have hq := hp.here
  unfold compOf at h
  split at h
  · exact pointsOf_refs h
  · obtain ⟨v, h1, rfl⟩ := map_ok h
    exact natRef_refs hi h1
  all_goals first
    | exact one_refs (fun _ => rfl) hi h
    | exact two_refs (fun _ _ => rfl) h
    | exact oneNum_refs (fun _ => rfl) h
    | exact seqOf_refs hi h
    | exact psamplerOf_refs h
    | skip
  · obtain ⟨v, h1, rfl⟩ := map_ok h; exact none_refs rfl
  · cases h
    intro n hn
    obtain ⟨x, hx, rfl⟩ := List.mem_map.mp hn
    exact written_ref (hi x hx) (hq x hx)
  · obtain ⟨v, h1, rfl⟩ := map_ok h; exact none_refs rfl
  · obtain ⟨⟨p, l'⟩, h1, h⟩ := bind_ok h
    obtain ⟨v, h2, h⟩ := bind_ok h
    cases h
    exact none_refs rfl
  · obtain ⟨⟨s, l'⟩, h1, h⟩ := bind_ok h
    obtain ⟨⟨v, l''⟩, h2, h⟩ := bind_ok h
    cases h
    exact signalOf_refs hi h1 _
  · obtain ⟨⟨a, l'⟩, h1, h⟩ := bind_ok h
    obtain ⟨⟨b, l''⟩, h2, h⟩ := bind_ok h
    cases h
    have e1 := next_ok h1
    have e2 := next_ok h2
    intro n hn
    simp only [Comp.refs, List.mem_cons, List.not_mem_nil, or_false] at hn
    have ha : a ∈ ps := by rw [e1]; simp
    have hb : b ∈ ps := by rw [e1]; rw [e2]; simp
    rcases hn with rfl | rfl
    · exact written_ref (hi _ ha) (hq _ ha)
    · exact written_ref (hi _ hb) (hq _ hb)
  · obtain ⟨⟨a, l'⟩, h1, h⟩ := bind_ok h
    obtain ⟨⟨b, l''⟩, h2, h⟩ := bind_ok h
    cases h
    exact nextNumRef_refs hi h1
  · obtain ⟨⟨a, l'⟩, h1, h⟩ := bind_ok h
    obtain ⟨⟨b, l''⟩, h2, h⟩ := bind_ok h
    cases h
    exact nextNumRef_refs hi h1
  · obtain ⟨⟨_, _⟩, _, h⟩ := bind_ok h
    obtain ⟨⟨_, _⟩, _, h⟩ := bind_ok h
    obtain ⟨⟨_, _⟩, _, h⟩ := bind_ok h
    obtain ⟨⟨_, _⟩, _, h⟩ := bind_ok h
    obtain ⟨⟨_, _⟩, _, h⟩ := bind_ok h
    cases h
    exact none_refs rfl
  · obtain ⟨⟨_, _⟩, _, h⟩ := bind_ok h
    obtain ⟨⟨_, _⟩, _, h⟩ := bind_ok h
    obtain ⟨⟨_, _⟩, _, h⟩ := bind_ok h
    obtain ⟨⟨_, _⟩, _, h⟩ := bind_ok h
    cases h
    exact none_refs rfl
  · obtain ⟨⟨a, l'⟩, h1, rfl⟩ := map_ok h
    have ha : a ∈ ps := by rw [next_ok h1]; simp
    intro n hn
    cases List.mem_singleton.mp hn
    exact written_ref (hi _ ha) (hq _ ha)
  · obtain ⟨⟨p, l'⟩, h1, h⟩ := bind_ok h
    obtain ⟨v, h2, h⟩ := bind_ok h
    cases h
    exact none_refs rfl
  · obtain ⟨v, h1, rfl⟩ := map_ok h; exact none_refs rfl
  · obtain ⟨v, h1, rfl⟩ := map_ok h; exact none_refs rfl
  · obtain ⟨v, h1, rfl⟩ := map_ok h; exact none_refs rfl
  · obtain ⟨v, h1, rfl⟩ := map_ok h
    intro n hn
    simp only [Comp.refs, List.mem_flatMap] at hn
    obtain ⟨x, hx, hn⟩ := hn
    obtain ⟨p, hp', h2⟩ := mem_forall₂_right (collect_ok h1) hx
    exact numRef_refs (hi p hp') h2 n hn
  · obtain ⟨⟨_, _⟩, _, h⟩ := bind_ok h
    obtain ⟨⟨_, _⟩, _, h⟩ := bind_ok h
    obtain ⟨⟨_, _⟩, _, h⟩ := bind_ok h
    cases h
    exact none_refs rfl
  · obtain ⟨⟨_, _⟩, _, h⟩ := bind_ok h
    obtain ⟨⟨_, _⟩, _, h⟩ := bind_ok h
    cases h
    exact none_refs rfl
  · cases h

theorem nodeOf_refs {fe : Name → Option Fl} {p : Pair} {c : Comp} (hp : p.All TokOk)
    (h : nodeOf fe p = .ok c) : ∀ n ∈ c.refs, WrittenName n := by
  unfold nodeOf at h
  obtain ⟨⟨⟨r, t, l⟩, l'⟩, h1, h⟩ := bind_ok h
  exact compOf_refs (hp.inside (.mk r t l) (by rw [next_ok h1]; simp)) h

end Verif.Parse
