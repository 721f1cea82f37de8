import Verif.Spec.Effect
import Verif.Props.Tracks

/-!
# Effects at the end of a track

C89: an effect at the end of a track is applied to what the track plays without it.
-/

namespace Verif.Props
open Verif.Spec Verif.Parse Verif.Part

variable {P : Plat} {N : Nat}

namespace Effect

section
variable {A B : Ast Comp} {k : Name} {comps : List Comp} {c : Comp} {b : Bool}

theorem same_comps {prog : Ast Comp} (hw : ProgWf prog) {c1 c2 : List Comp} (h1 : (k, c1) ∈ prog) (h2 : (k, c2) ∈ prog) : c1 = c2 :=
  Option.some.inj ((lookup_of_mem hw.1 h1).symm.trans (lookup_of_mem hw.1 h2))

/-- A component of the dry program has its place in the wet one. -/
theorem comp_up (h : AtTheEnd A B k comps c) (hw : ProgWf A) {j : Name} {cs : List Comp} {i : Nat} {d : Comp} (hk : (j, cs) ∈ A)
    (hi : cs[i]? = some d) : ∃ cs', (j, cs') ∈ B ∧ cs'[i]? = some d ∧ cs.length ≤ cs'.length ∧ (∀ x, x ∈ cs → x ∈ cs') := by
  by_cases hj : j = k
  · subst hj
    obtain rfl := same_comps hw hk h.was
    refine ⟨_, h.now, ?_, by simp, fun x hx => List.mem_append_left _ hx⟩
    rw [List.getElem?_append_left (List.getElem?_eq_some_iff.mp hi).1]
    exact hi
  · exact ⟨cs, (h.others _ _ hj).mpr hk, hi, Nat.le_refl _, fun _ h => h⟩

theorem chain_up (h : AtTheEnd A B k comps c) {j : Name} {n : Nat} (hj : j ≠ k) (hc : Chain A b j n) : Chain B b j n := by
  cases hc with
  | prog hk => exact .prog ((h.others _ _ hj).mpr hk)
  | input hb => exact .input hb

theorem chain_down (h : AtTheEnd A B k comps c) {j : Name} {n : Nat} (hj : j ≠ k) (hc : Chain B b j n) : Chain A b j n := by
  cases hc with
  | prog hk => exact .prog ((h.others _ _ hj).mp hk)
  | input hb => exact .input hb

/-- What flows to the places of the dry program, other than the output, is the same in both. -/
theorem end_flow (h : AtTheEnd A B k comps c) (hw : ProgWf A) (hwB : ProgWf B) (hin : ['~', 'i', 'n', 'p', 'u', 't'] ∉ A.map Prod.fst)
    (hinB : ['~', 'i', 'n', 'p', 'u', 't'] ∉ B.map Prod.fst)
    {p : Place} (hd : p ≠ .dest) (hp : Leads Comp.refs A b p .dest) (q : Place) : Flow Comp.refs B b q p ↔ Flow Comp.refs A b q p := by
  constructor
  · intro hf
    cases hf with
    | @next j n i hc hi =>
      cases hp with
      | step hf _ =>
        obtain ⟨j', i', m, he, hcA, hm⟩ := source_at hf
        cases he
        exact .next hcA hm
    | out _ _ => exact absurd rfl hd
    | @ref j k' r cs d i n hk hi hr hmn hc =>
      cases hp with
      | step hf _ =>
        obtain ⟨j', i', m, he, hcA, hm⟩ := source_at hf
        cases he
        obtain ⟨cs', hk', hi'⟩ : ∃ cs', (j, cs') ∈ A ∧ cs'[i]? = some d := by
          by_cases hj : j = k
          · subst hj
            obtain rfl := same_comps hwB hk h.now
            have hlen := chain_unique hw hin hcA (.prog h.was)
            subst hlen
            rw [List.getElem?_append_left hm] at hi
            exact ⟨_, h.was, hi⟩
          · exact ⟨cs, (h.others _ _ hj).mp hk, hi⟩
        refine .ref hk' hi' hr hmn ?_
        have hne : k' ≠ k := by
          rintro rfl
          exact h.unused _ _ _ _ hk' (List.mem_of_getElem? hi') hr hmn
        exact chain_down h hne hc
  · intro hf
    cases hf with
    | @next j n i hc hi =>
      by_cases hj : j = k
      · subst hj
        have hlen := chain_unique hw hin hc (.prog h.was)
        subst hlen
        exact .next (.prog h.now) (by rw [List.length_append]; omega)
      · exact .next (chain_up h hj hc) hi
    | out _ _ => exact absurd rfl hd
    | @ref j k' r cs d i n hk hi hr hmn hc =>
      obtain ⟨cs', g1, g2, -, -⟩ := comp_up h hw hk hi
      have hne : k' ≠ k := by
        rintro rfl
        exact h.unused _ _ _ _ hk (List.mem_of_getElem? hi) hr hmn
      exact .ref g1 g2 hr hmn (chain_up h hne hc)

/-- What flows to the output of the dry program is the end of the track. -/
theorem out_dry (h : AtTheEnd A B k comps c) (hw : ProgWf A) (hin : ['~', 'i', 'n', 'p', 'u', 't'] ∉ A.map Prod.fst) {q : Place} :
    Flow Comp.refs A b q .dest ↔ q = .at k (comps.length - 1) := by
  have hpos : 0 < comps.length := List.length_pos_iff.mpr (hw.2 _ _ h.was)
  constructor
  · intro hf
    generalize hl : Place.dest = d at hf
    cases hf with
    | next _ _ => cases hl
    | @out j n hc ht =>
      have hj : j = k := by
        generalize n + 1 = m at hc
        cases hc with
        | prog hk => exact h.only _ _ hk ht
        | input _ => exact absurd (by simp) ht
      subst hj
      have := chain_unique hw hin hc (.prog h.was)
      rw [show n = comps.length - 1 by omega]
    | ref _ _ _ _ _ => cases hl
  · rintro rfl
    refine .out ?_ h.track
    rw [Nat.sub_add_cancel hpos]
    exact .prog h.was

/-- What flows to the output of the wet program is the effect. -/
theorem out_wet (h : AtTheEnd A B k comps c) (hwB : ProgWf B) (hinB : ['~', 'i', 'n', 'p', 'u', 't'] ∉ B.map Prod.fst) {q : Place} :
    Flow Comp.refs B b q .dest ↔ q = .at k comps.length := by
  constructor
  · intro hf
    generalize hl : Place.dest = d at hf
    cases hf with
    | next _ _ => cases hl
    | @out j n hc ht =>
      have hj : j = k := by
        by_contra hj
        generalize n + 1 = m at hc
        cases hc with
        | prog hk => exact hj (h.only _ _ ((h.others _ _ hj).mp hk) ht)
        | input _ => exact absurd (by simp) ht
      subst hj
      have := chain_unique hwB hinB hc (.prog h.now)
      rw [List.length_append] at this
      simp only [List.length_singleton] at this
      rw [show n = comps.length by omega]
    | ref _ _ _ _ _ => cases hl
  · rintro rfl
    refine .out ?_ h.track
    have : Chain B b k (comps ++ [c]).length := .prog h.now
    rw [List.length_append] at this
    exact this

/-- What flows into the effect is the end of the track. -/
theorem into (h : AtTheEnd A B k comps c) (hw : ProgWf A) (hwB : ProgWf B) (hrefs : c.refs = []) {q : Place} :
    Flow Comp.refs B b q (.at k comps.length) ↔ q = .at k (comps.length - 1) := by
  have hpos : 0 < comps.length := List.length_pos_iff.mpr (hw.2 _ _ h.was)
  constructor
  · intro hf
    generalize hl : Place.at k comps.length = d at hf
    cases hf with
    | @next j n i hc hi =>
      injection hl with h1 h2
      rw [← h1, show i = comps.length - 1 by omega]
    | out _ _ => cases hl
    | @ref j k' r cs d i n hk hi hr hmn hc =>
      injection hl with h1 h2
      subst h1 h2
      obtain rfl := same_comps hwB hk h.now
      simp only [List.getElem?_concat_length, Option.some.injEq] at hi
      subst hi
      rw [hrefs] at hr
      cases hr
  · rintro rfl
    have : Flow Comp.refs B b (.at k (comps.length - 1)) (.at k (comps.length - 1 + 1)) := .next (.prog h.now) (by simp; omega)
    rwa [Nat.sub_add_cancel hpos] at this

/-- What leads to the output in the dry program does so in the wet one. -/
theorem end_leads (h : AtTheEnd A B k comps c) (hw : ProgWf A) (hwB : ProgWf B) (hin : ['~', 'i', 'n', 'p', 'u', 't'] ∉ A.map Prod.fst)
    (hinB : ['~', 'i', 'n', 'p', 'u', 't'] ∉ B.map Prod.fst) (hrefs : c.refs = []) {p : Place} (hp : Leads Comp.refs A b p .dest) :
    Leads Comp.refs B b p .dest := by
  generalize hl : Place.dest = d at hp
  induction hp with
  | refl => exact .refl _
  | @step p q r hf hq ih =>
    subst hl
    by_cases hd : q = .dest
    · subst hd
      obtain rfl := (out_dry h hw hin).mp hf
      exact .step ((into h hw hwB hrefs).mpr rfl) (.step ((out_wet h hwB hinB).mpr rfl) (.refl _))
    · exact .step ((end_flow h hw hwB hin hinB hd hq p).mpr hf) (ih rfl)

end

section
variable {parse parse' : Name → Except Panic (Option (Ast Comp))} {e0 e1 : Engine (glicol P N parse)} {f0 f1 : Engine (glicol P N parse')}
  {A B : Ast Comp} {k : Name} {comps : List Comp} {c : Comp} {b : Bool} {exts : List (List Buf)} {start start' : Place → List Buf} {sig sig' : Place → List (List Buf)}

/-- The signals of the dry program are the same in the wet one. -/
theorem end_same {T : P.ext.State → Prop} (hx : ExtShape P N T) (hxf : ExtFirst P) (hm : Libm32 P.libm) (hN : 0 < N)
    (he : AtTheEnd A B k comps c) (hrefs : c.refs = []) (hw : ProgWf A) (hwB : ProgWf B)
    (hin : ['~', 'i', 'n', 'p', 'u', 't'] ∉ A.map Prod.fst) (hinB : ['~', 'i', 'n', 'p', 'u', 't'] ∉ B.map Prod.fst)
    (h : Sounds e0 e1 A b exts start sig) (h' : Sounds f0 f1 B b exts start' sig') (hne : exts ≠ [])
    (hset : (⟨f0.samples, f0.sr, f0.bpm, f0.seed⟩ : Env) = ⟨e0.samples, e0.sr, e0.bpm, e0.seed⟩)
    (hsg : ∀ e, e ∈ A → ∀ c, c ∈ e.2 → c.Sg) (ha : AllNew e0 A) (ha' : AllNew f0 B) (hfree : FreeOf ByRole A b)
    (hext : Leads Comp.refs A b (.at ['~', 'i', 'n', 'p', 'u', 't'] 0) .dest →
      ∀ x, x ∈ exts → 2 ≤ x.length ∧ ∀ b, b ∈ x.take 2 → ∀ v, v ∈ b → v.Ok f32) :
    ∀ q p, Flow Comp.refs A b q p → Leads Comp.refs A b p .dest → SameSig (sig q) (sig' q) := by
  have hflow : ∀ p, p ≠ .dest → Leads Comp.refs A b p .dest → ∀ q, Flow Comp.refs B b q p ↔ Flow Comp.refs A b q p :=
    fun p hd hp q => end_flow he hw hwB hin hinB hd hp q
  have sg := places_single hxf hm h hne hsg ha hfree hext
  obtain ⟨rank, hrank⟩ := rank_exists hfree.forward
  have key : ∀ (n : Nat) q p, rank q < n → Flow Comp.refs A b q p → Leads Comp.refs A b p .dest → SameSig (sig q) (sig' q) := by
    intro n
    induction n with
    | zero => intro q p h; omega
    | succ n ih =>
      intro q p hn hf hd
      have hlead : Leads Comp.refs A b q .dest := .step hf hd
      have hlead' : Leads Comp.refs B b q .dest := end_leads he hw hwB hin hinB hrefs hlead
      obtain ⟨j, i, m, rfl, hc, hi⟩ := source_at hf
      cases hc with
      | @prog _ cs hk =>
        have hci := List.getElem?_eq_getElem hi
        have hmem : cs[i] ∈ cs := List.getElem_mem hi
        obtain ⟨cs', hk', hci', -, hsub⟩ := comp_up he hw hk hci
        obtain ⟨old, o1, o2⟩ := ha j cs hk
        obtain ⟨old', o1', o2'⟩ := ha' j cs' hk'
        refine component_part hx hxf hN hwB hinB h h' hne hset (φ := id) (ψ := id) hk hci hlead hk' hci' hlead' o1 (o2 _ hmem) o1'
          (o2' _ (hsub _ hmem)) (hfree.parts j cs i _ hk hci hlead) (hfree.refs j cs _ hk hmem) (fun q hq => hfree.forward q _ hq hlead)
          ?_ (fun q' => ⟨fun h => ⟨q', (hflow _ (by simp) hlead _).mp h, rfl⟩, fun ⟨q, h, e⟩ => (hflow _ (by simp) hlead _).mpr (e ▸ h)⟩) (fun _ _ _ _ h => h) ?_
          ?_ (fun q hq => .step ((hflow _ (by simp) hlead _).mpr hq) hlead') (fun q hq => sg q _ hq hlead) (.inl fun _ _ => rfl) ?_
        · intro q hq hl
          have hqd : q ≠ .dest := by
            rintro rfl; obtain ⟨_, _, _, h, _⟩ := source_at hq; cases h
          have hq := (hflow _ (by simp) hlead _).mp hq
          exact hfree.forward q _ hq hlead (same_back hflow hl hqd (.step hq hlead))
        · cases i with
          | zero => exact .inl ⟨rfl, rfl⟩
          | succ i => exact .inr ⟨i, i, rfl, rfl, rfl⟩
        · intro hni r hr n hc
          refine ⟨n, chain_up he ?_ hc, rfl⟩
          rintro rfl
          exact he.unused _ _ _ _ hk hmem hr (.named (hfree.refs j cs _ hk hmem hni _ hr))
        · intro q hq
          have := hrank q _ hq hlead
          exact ih q _ (by omega) hq hlead
      | input hb =>
        have : i = 0 := by omega
        subst this
        have hi2 := hext hlead
        rw [input_signal h hlead (fun x hx => (hi2 x hx).1), input_signal h' hlead' (fun x hx => (hi2 x hx).1)]
        refine ⟨rfl, 2, .inr rfl, ?_⟩
        intro o ho
        obtain ⟨x, hx, rfl⟩ := List.mem_map.mp ho
        have := (hi2 x hx).1
        simp; omega
  intro q p hf hd
  exact key (rank q + 1) q p (Nat.lt_succ_self _) hf hd

/-- The output of one place. -/
theorem output_one (h : Sounds e0 e1 A b exts start sig) {p : Place} (hp : ∀ q, Flow Comp.refs A b q .dest ↔ q = p) :
    OutputOf N (sig p) (sig .dest) := by
  have hl := h.length .dest (.refl _)
  refine ⟨(h.length p (.step ((hp p).mpr rfl) (.refl _))).trans hl.symm, ?_⟩
  intro t ch s ht hch hs
  obtain ⟨srcs, s1, s2, o, ho1, ho2, ho3⟩ := h.output t (hl ▸ ht)
  have hsrcs : srcs = [p] := by
    have hall : ∀ q, q ∈ srcs → q = p := fun q hq => (hp q).mp ((s2 q).mp hq)
    have hmem : p ∈ srcs := (s2 _).mpr ((hp p).mpr rfl)
    match srcs, s1, hall, hmem with
    | [q], _, hall, _ => rw [hall q (by simp)]
    | q :: q' :: l, s1, hall, _ =>
      have h1 := hall q (by simp)
      have h2 := hall q' (by simp)
      rw [h1, h2] at s1
      simp at s1
  subst hsrcs
  obtain ⟨vs, y, v1, v2, v3⟩ := ho3 ch s hch hs
  cases v1 with
  | cons hab hrest =>
    cases hrest
    obtain ⟨x, hx, hv⟩ := hab
    refine ⟨_, by rw [hx]; exact hv, ?_⟩
    simp only [sampleAt, ho1, Option.bind_some, v2, v3]
    rfl

/-- The effect plays on the signal of the track. -/
theorem end_plays (he : AtTheEnd A B k comps c) (hrefs : c.refs = []) (hn : NotesInputs c) (hw : ProgWf A) (hwB : ProgWf B)
    (hinB : ['~', 'i', 'n', 'p', 'u', 't'] ∉ B.map Prod.fst) (h' : Sounds f0 f1 B b exts start' sig') (hne : exts ≠ [])
    (ha' : AllNew f0 B) : ∃ n, play P N ⟨f0.samples, f0.sr, f0.bpm, f0.seed⟩ c [.index n]
      ((sig' (.at k (comps.length - 1))).map (fun o => [(n, o)])) = .ok (sig' (.at k comps.length)) := by
  have hpos : 0 < comps.length := List.length_pos_iff.mpr (hw.2 _ _ he.was)
  have hlead : Leads Comp.refs B b (.at k comps.length) .dest := .step ((out_wet he hwB hinB).mpr rfl) (.refl _)
  have hlead0 : Leads Comp.refs B b (.at k (comps.length - 1)) .dest := .step ((into he hw hwB hrefs).mpr rfl) hlead
  obtain ⟨old, o1, o2⟩ := ha' k _ he.now
  obtain ⟨refs, qs, srcs, left, inputs, r1, r2, r3, r4, r5, r6, r7, r8, r9⟩ :=
    h'.component k _ comps.length c old he.now (by simp) hlead o1 (o2 c (by simp))
  have hrefs0 : refs = [] := by
    rw [List.eq_nil_iff_forall_not_mem]
    intro r hr
    have := (r1 r).mp hr
    rw [hrefs] at this
    cases this
  subst hrefs0
  cases r3
  cases r4
  have r9 := r9 hn
  have hloop : ∀ q, Flow Comp.refs B b q (.at k comps.length) → ¬ Leads Comp.refs B b (.at k comps.length) q := by
    intro q hq hl
    have hq := (into he hw hwB hrefs).mp hq
    cases hl with
    | refl =>
      injection hq with _ h2
      omega
    | step hf hl =>
      generalize hp : Place.at k comps.length = p at hf
      cases hf with
      | @next j n i hc hi =>
        injection hp with h1 h2
        subst h1 h2
        have := chain_unique hwB hinB hc (.prog he.now)
        rw [List.length_append, List.length_singleton] at this
        omega
      | out _ _ =>
        rw [dest_ends hl] at hq
        cases hq
      | @ref j k' r cs d i n hk hi hr hmn hc =>
        injection hp with h1 h2
        subst h1
        by_cases hj : j = k
        · subst hj
          obtain rfl := same_comps hwB hk he.now
          rcases List.mem_append.mp (List.mem_of_getElem? hi) with hd | hd
          · exact he.unused _ _ _ _ he.was hd hr hmn
          · rw [List.mem_singleton.mp hd, hrefs] at hr
            cases hr
        · exact he.unused _ _ _ _ ((he.others _ _ hj).mp hk) (List.mem_of_getElem? hi) hr hmn
  obtain ⟨Q, q1, q2, num, q3, q4⟩ := run_inputs h' r6 hne hloop r7
  have hQ : Q = [.at k (comps.length - 1)] := by
    have hall : ∀ q, q ∈ Q → q = .at k (comps.length - 1) := fun q hq => (into he hw hwB hrefs).mp ((q2 q).mp hq)
    have hmem : .at k (comps.length - 1) ∈ Q := (q2 _).mpr ((into he hw hwB hrefs).mpr rfl)
    match Q, q1, hall, hmem with
    | [q], _, hall, _ => rw [hall q (by simp)]
    | q :: q' :: l, s1, hall, _ =>
      have h1 := hall q (by simp)
      have h2 := hall q' (by simp)
      rw [h1, h2] at s1
      simp at s1
  subst hQ
  have hsit := q3 (.at k (comps.length - 1)) (by simp)
  have hleft : left = some (num (.at k (comps.length - 1))) := (r5 _).mpr ⟨comps.length - 1, by omega, hsit⟩
  subst hleft
  obtain ⟨-, hfed⟩ := q4 _ (.refl _)
  have hinp : inputs = (sig' (.at k (comps.length - 1))).map (fun o => [(num (.at k (comps.length - 1)), o)]) := by
    apply List.ext_getElem?
    intro t
    by_cases ht : t < inputs.length
    · obtain ⟨bufs, b1, b2⟩ := hfed t _ (List.getElem?_eq_getElem ht)
      cases b1 with
      | cons hb hr =>
        cases hr
        rw [List.getElem?_eq_getElem ht, List.getElem?_map, hb]
        simp only [List.map_cons, List.map_nil, List.zip_cons_cons, List.zip_nil_right] at b2
        rw [List.perm_singleton.mp b2]
        rfl
    · rw [List.getElem?_eq_none (by omega), List.getElem?_eq_none (by rw [List.length_map, h'.length _ hlead0]; omega)]
  refine ⟨num (.at k (comps.length - 1)), ?_⟩
  rw [← hinp]
  simpa using r9

end

/-! ### Volume -/

/-- What `mul g` (`add g`) makes of a block. -/
def scaled (isMul : Bool) (g : Fl) : List Buf → List Buf
  | [l] => [l.map (arithOp isMul · g), l.map (arithOp isMul · g)]
  | [l, r] => [l.map (arithOp isMul · g), r.map (arithOp isMul · g)]
  | o => o

theorem arith_runs (isMul : Bool) (g : Fl) (n : Nat) (dry : List (List Buf))
    (hs : ∀ x, x ∈ dry → (x.length = 1 ∨ x.length = 2) ∧ ∀ b, b ∈ x → b.length = N) :
    ∀ out : List Buf, out.length = 2 → runBlocks (procG P) (arithNode P isMul ⟨g, [n]⟩) out (dry.map (fun o => [(n, o)])) =
      .ok (dry.map (scaled isMul g)) := by
  induction dry with
  | nil => intro out _; rfl
  | cons o dry ih =>
    intro out ho
    obtain ⟨a, b, rfl⟩ := List.length_eq_two.mp ho
    have hp : procG P (arithNode P isMul ⟨g, [n]⟩) [(n, o)] [a, b] = .ok (arithNode P isMul ⟨g, [n]⟩, scaled isMul g o) ∧ (scaled isMul g o).length = 2 := by
      obtain ⟨h1, h2⟩ := hs o List.mem_cons_self
      rcases h1 with h1 | h1
      · obtain ⟨l, rfl⟩ := List.length_eq_one_iff.mp h1
        have e : [l] = bufsOf true (l.map (fun v => (v, v))) := by simp [bufsOf, Function.comp_def]
        refine ⟨?_, rfl⟩
        rw [arith_proc]
        conv_lhs => rw [e]
        rw [applyOp_one]
        simp [scaled, rightVal, Function.comp_def]
      · obtain ⟨l, r, rfl⟩ := List.length_eq_two.mp h1
        have hl : l.length = r.length := by rw [h2 l (by simp), h2 r (by simp)]
        have e : [l, r] = bufsOf false (l.zip r) := by
          simp only [bufsOf, Bool.false_eq_true, if_false, List.map_fst_zip (Nat.le_of_eq hl), List.map_snd_zip (Nat.le_of_eq hl.symm)]
        refine ⟨?_, rfl⟩
        rw [arith_proc]
        conv_lhs => rw [e]
        rw [applyOp_one]
        have e1 : (l.zip r).map (fun p => arithOp isMul p.1 g) = l.map (arithOp isMul · g) := by
          rw [← List.map_fst_zip (Nat.le_of_eq hl), List.map_map]; simp [List.map_fst_zip (Nat.le_of_eq hl), Function.comp_def]
        have e2 : (l.zip r).map (fun p => arithOp isMul (rightVal false p) g) = r.map (arithOp isMul · g) := by
          rw [← List.map_snd_zip (Nat.le_of_eq hl.symm), List.map_map]; simp [List.map_snd_zip (Nat.le_of_eq hl.symm), Function.comp_def, rightVal]
        simp only [e1, e2, scaled]
    rw [List.map_cons, runBlocks, hp.1]
    simp only [ih (fun x hx => hs x (List.mem_cons_of_mem _ hx)) _ hp.2, List.map_cons]

theorem sideAt_scaled (isMul : Bool) (g : Fl) (ch s : Nat) (o : List Buf) :
    sideAt ch s (scaled isMul g o) = (sideAt ch s o).map (arithOp isMul · g) := by
  match o with
  | [] => rfl
  | [l] => simp [scaled, sideAt]
  | [l, r] => simp only [scaled, sideAt]; split <;> simp
  | _ :: _ :: _ :: _ => rfl

/-- A zero before a sample is not heard behind a gain. -/
theorem gain_again {isMul : Bool} {x g : Fl} (hx : x.Ok f32) : Fl.fin 0 +. arithOp isMul (.fin 0 +. x) g = .fin 0 +. arithOp isMul x g := by
  cases x with
  | nan => rfl
  | inf s => rfl
  | nz =>
    have : (Fl.fin 0 +. .nz) = .fin 0 := by kernel_rfl
    rw [this]
    have h0 : ∀ s, Fl.fin 0 +. Fl.round f32 s 0 = .fin 0 := by intro s; cases s <;> kernel_rfl
    cases isMul
    · cases g with
      | nan => rfl
      | inf s => rfl
      | nz => kernel_rfl
      | fin q => rfl
    · cases g with
      | nan => rfl
      | inf s => rfl
      | nz => kernel_rfl
      | fin q =>
        simp only [arithOp, Fl.mul, Fl.val, zero_mul, h0]
  | fin q => rw [zero_add_fin hx]

/-- A gain of 1. -/
theorem gain_one {x : Fl} (hx : x.Ok f32) : Fl.fin 0 +. (x *. .fin 1) = .fin 0 +. x := by
  cases x with
  | nan => rfl
  | inf s => cases s <;> rfl
  | nz => kernel_rfl
  | fin q =>
    have h1 : f32.rnd q = q := Fmt.rnd_rep f32_p hx.1
    have h2 := abs_le.mp hx.2
    have : Fl.fin q *. .fin 1 = .fin q ∨ (q = 0 ∧ Fl.fin q *. .fin 1 = .nz) := by
      simp only [Fl.mul, Fl.val, mul_one, Fl.round, h1]
      split
      · rename_i h0
        subst h0
        split
        · exact .inr ⟨rfl, rfl⟩
        · exact .inl rfl
      · rw [if_neg (by linarith), if_neg (by linarith)]
        exact .inl rfl
    rcases this with h | ⟨rfl, h⟩
    · rw [h]
    · rw [h]; kernel_rfl

end Effect

section
variable {fe : Name → Option Fl} {T : P.ext.State → Prop} {e0 e1 e2 f0 f1 f2 : Engine (glicol P N (Parse.parse fe))}

/-- **C89** (partial). Two texts, of which the second has an effect `c` at the end of the only track of the first (`AtTheEnd`), sent to
two engines with the same settings, for which the components are new: `dry` is what the first text plays, `wet` what the second plays,
up to the sign of zeros (`OutputOf`), and `wet` is what the effect alone makes of `dry`. The effect may be any component that has no
references and hears its input. For several tracks see C88. Missing: feedback, references to several chains at once (as `~a..`),
components kept from an earlier text. Effects with references: C91. -/
theorem c89_effect_partial (hx : ExtShape P N T) (hxf : ExtFirst P) (hm : Libm32 P.libm) (hN : 0 < N)
    (hr : CleanReach _ e0) (hr' : CleanReach _ f0) (heN : e0.N = N) (hfN : f0.N = N)
    (hset : (⟨f0.samples, f0.sr, f0.bpm, f0.seed⟩ : Env) = ⟨e0.samples, e0.sr, e0.bpm, e0.seed⟩) (τ σ : TableOrder) (code code' : Name)
    (A B : Ast Comp) (hparse : Parse.parse fe code = .ok (some A)) (hparse' : Parse.parse fe code' = .ok (some B))
    {k : Name} {comps : List Comp} {c : Comp} (he : AtTheEnd A B k comps c) (hrefs : c.refs = []) (hn : NotesInputs c)
    (hc : CleanProg (glicol P N (Parse.parse fe)) A) (hc' : CleanProg (glicol P N (Parse.parse fe)) B)
    (ha : AllNew e0 A) (ha' : AllNew f0 B) (hu : e0.updateWithCode τ code = .ok (e1, none))
    (hu' : f0.updateWithCode σ code' = .ok (f1, none)) (b : Bool)
    (hb : b = true ↔ ['~', 'i', 'n', 'p', 'u', 't'] ∈ e1.index.map Prod.fst)
    (hb' : b = true ↔ ['~', 'i', 'n', 'p', 'u', 't'] ∈ f1.index.map Prod.fst)
    (hfree : FreeOf ByRole A b)
    (steps steps' : List (HashOrder × List Buf)) (outs outs' : List (List Buf)) (hne : steps ≠ [])
    (hin : steps.map Prod.snd = steps'.map Prod.snd)
    (hext : Leads Comp.refs A b (.at ['~', 'i', 'n', 'p', 'u', 't'] 0) .dest →
      ∀ x, x ∈ steps.map Prod.snd → 2 ≤ x.length ∧ ∀ b, b ∈ x.take 2 → ∀ v, v ∈ b → v.Ok f32)
    (h : Plays e1 steps e2 outs) (h' : Plays f1 steps' f2 outs') :
    ∃ (n : Nat) (dry wet : List (List Buf)), OutputOf N dry outs ∧ OutputOf N wet outs' ∧
      (∀ x, x ∈ dry → (x.length = 1 ∨ x.length = 2) ∧ ∀ b, b ∈ x → b.length = N ∧ ∀ v, v ∈ b → v.Ok f32) ∧
      play P N ⟨e0.samples, e0.sr, e0.bpm, e0.seed⟩ c [.index n] (dry.map (fun o => [(n, o)])) = .ok wet := by
  obtain ⟨start, sig, rfl, hs⟩ := c49_texts_sound_as_written_partial hx hr heN τ code A hparse hc hu steps outs h b hb
  obtain ⟨start', sig', rfl, hs'⟩ := c49_texts_sound_as_written_partial hx hr' hfN σ code' B hparse' hc' hu' steps' outs' h' b hb'
  rw [← hin] at hs'
  have hw := glicol_parserWf P N fe code A hparse
  have hwB := glicol_parserWf P N fe code' B hparse'
  have hne' : steps.map Prod.snd ≠ [] := by simpa using hne
  have hf : Flow Comp.refs A b (.at k (comps.length - 1)) .dest := (Effect.out_dry he hw hc.noInput).mpr rfl
  have same := Effect.end_same hx hxf hm hN he hrefs hw hwB hc.noInput hc'.noInput hs hs' hne' hset (Parse.sg_parse hparse) ha ha' hfree hext
    _ _ hf (.refl _)
  have hsingle := places_single hxf hm hs hne' (Parse.sg_parse hparse) ha hfree hext _ _ hf (.refl _)
  obtain ⟨n, hplay⟩ := Effect.end_plays he hrefs hn hw hwB hc'.noInput hs' hne' ha'
  rw [← same.1, hset] at hplay
  refine ⟨n, sig (.at k (comps.length - 1)), sig' (.at k comps.length),
    Effect.output_one hs (fun q => Effect.out_dry he hw hc.noInput), Effect.output_one hs' (fun q => Effect.out_wet he hwB hc'.noInput), ?_, hplay⟩
  intro x hxm
  obtain ⟨h1, h2⟩ := hs.shape _ (.step hf (.refl _)) x hxm
  exact ⟨h1, fun b hb => ⟨h2 b hb, hsingle x hxm b hb⟩⟩

/-- **C89** for volume (partial): `mul g` at the end of the only track multiplies every sample of both sides by `g`, and `add g` adds
`g` to it (then 0 is added, so that -0 is heard as 0). Missing as in `c89_effect_partial`. -/
theorem c89_volume_partial (hx : ExtShape P N T) (hxf : ExtFirst P) (hm : Libm32 P.libm) (hN : 0 < N)
    (hr : CleanReach _ e0) (hr' : CleanReach _ f0) (heN : e0.N = N) (hfN : f0.N = N)
    (hset : (⟨f0.samples, f0.sr, f0.bpm, f0.seed⟩ : Env) = ⟨e0.samples, e0.sr, e0.bpm, e0.seed⟩) (τ σ : TableOrder) (code code' : Name)
    (A B : Ast Comp) (hparse : Parse.parse fe code = .ok (some A)) (hparse' : Parse.parse fe code' = .ok (some B))
    {k : Name} {comps : List Comp} {isMul : Bool} {g : Fl} (he : AtTheEnd A B k comps (if isMul then .mul (.num g) else .add (.num g)))
    (hc : CleanProg (glicol P N (Parse.parse fe)) A) (hc' : CleanProg (glicol P N (Parse.parse fe)) B)
    (ha : AllNew e0 A) (ha' : AllNew f0 B) (hu : e0.updateWithCode τ code = .ok (e1, none))
    (hu' : f0.updateWithCode σ code' = .ok (f1, none)) (b : Bool)
    (hb : b = true ↔ ['~', 'i', 'n', 'p', 'u', 't'] ∈ e1.index.map Prod.fst)
    (hb' : b = true ↔ ['~', 'i', 'n', 'p', 'u', 't'] ∈ f1.index.map Prod.fst)
    (hfree : FreeOf ByRole A b)
    (steps steps' : List (HashOrder × List Buf)) (outs outs' : List (List Buf))
    (hin : steps.map Prod.snd = steps'.map Prod.snd)
    (hext : Leads Comp.refs A b (.at ['~', 'i', 'n', 'p', 'u', 't'] 0) .dest →
      ∀ x, x ∈ steps.map Prod.snd → 2 ≤ x.length ∧ ∀ b, b ∈ x.take 2 → ∀ v, v ∈ b → v.Ok f32)
    (h : Plays e1 steps e2 outs) (h' : Plays f1 steps' f2 outs') :
    outs'.length = outs.length ∧ ∀ t ch s x, ch < 2 → s < N → sampleAt outs t ch s = some x →
      sampleAt outs' t ch s = some (.fin 0 +. (if isMul then x *. g else x +. g)) := by
  by_cases hne : steps = []
  · subst hne
    have : steps' = [] := by simpa using hin.symm
    subst this
    cases h
    cases h'
    exact ⟨rfl, fun t ch s x _ _ hx => by
      have hno : sampleAt [] t ch s = none := rfl
      cases hno.symm.trans hx⟩
  have hcomp : (if isMul then Comp.mul (.num g) else .add (.num g)) = arithComp isMul (.num g) := by cases isMul <;> rfl
  have hop : ∀ x : Fl, (if isMul then x *. g else x +. g) = arithOp isMul x g := by intro x; cases isMul <;> rfl
  obtain ⟨n, dry, wet, h1, h2, h3, h4⟩ := c89_effect_partial hx hxf hm hN hr hr' heN hfN hset τ σ code code' A B hparse hparse' he
    (by cases isMul <;> rfl) (by cases isMul <;> trivial) hc hc' ha ha' hu hu' b hb hb' hfree steps steps' outs outs' hne hin hext h h'
  have hw : wet = dry.map (Effect.scaled isMul g) := by
    have := play_ok (P := P) (N := N) (env := ⟨e0.samples, e0.sr, e0.bpm, e0.seed⟩) (msgs := [.index n])
      (arith_make P N ⟨e0.samples, e0.sr, e0.bpm, e0.seed⟩ isMul (.num g) [n]).1
      (arith_make P N ⟨e0.samples, e0.sr, e0.bpm, e0.seed⟩ isMul (.num g) [n]).2
      (Effect.arith_runs isMul g n dry (fun x hx => ⟨(h3 x hx).1, fun b hb => ((h3 x hx).2 b hb).1⟩) _ (shaped_fresh N 2 (arithNode P isMul (arith g))).1)
    rw [hcomp] at h4
    exact Except.ok.inj (h4.symm.trans this)
  subst hw
  have hlen : outs'.length = outs.length := by rw [← h1.1, ← h2.1, List.length_map]
  refine ⟨hlen, ?_⟩
  intro t ch s x hch hs hx
  have ht : t < outs.length := by
    by_contra hc
    rw [sampleAt, List.getElem?_eq_none (by omega)] at hx
    cases hx
  obtain ⟨v, v1, v2⟩ := h1.2 t ch s ht hch hs
  obtain ⟨w, w1, w2⟩ := h2.2 t ch s (by omega) hch hs
  rw [hx] at v2
  cases v2
  rw [w2, hop]
  obtain ⟨o, ho, hv⟩ := Option.bind_eq_some_iff.mp v1
  rw [List.getElem?_map, ho, Option.map_some, Option.bind_some, Effect.sideAt_scaled, hv] at w1
  cases w1
  obtain ⟨bf, b1, b2⟩ := sideAt_mem hv
  rw [Effect.gain_again (((h3 o (List.mem_of_getElem? ho)).2 bf b1).2 v b2)]

/-- **C89** for `mul 1` (partial): at the end of the only track it changes nothing. Missing as in `c89_effect_partial`. -/
theorem c89_unity_partial (hx : ExtShape P N T) (hxf : ExtFirst P) (hm : Libm32 P.libm) (hN : 0 < N)
    (hr : CleanReach _ e0) (hr' : CleanReach _ f0) (heN : e0.N = N) (hfN : f0.N = N)
    (hset : (⟨f0.samples, f0.sr, f0.bpm, f0.seed⟩ : Env) = ⟨e0.samples, e0.sr, e0.bpm, e0.seed⟩) (τ σ : TableOrder) (code code' : Name)
    (A B : Ast Comp) (hparse : Parse.parse fe code = .ok (some A)) (hparse' : Parse.parse fe code' = .ok (some B))
    {k : Name} {comps : List Comp} (he : AtTheEnd A B k comps (.mul (.num (.fin 1))))
    (hc : CleanProg (glicol P N (Parse.parse fe)) A) (hc' : CleanProg (glicol P N (Parse.parse fe)) B)
    (ha : AllNew e0 A) (ha' : AllNew f0 B) (hu : e0.updateWithCode τ code = .ok (e1, none))
    (hu' : f0.updateWithCode σ code' = .ok (f1, none)) (b : Bool)
    (hb : b = true ↔ ['~', 'i', 'n', 'p', 'u', 't'] ∈ e1.index.map Prod.fst)
    (hb' : b = true ↔ ['~', 'i', 'n', 'p', 'u', 't'] ∈ f1.index.map Prod.fst)
    (hfree : FreeOf ByRole A b)
    (steps steps' : List (HashOrder × List Buf)) (outs outs' : List (List Buf))
    (hin : steps.map Prod.snd = steps'.map Prod.snd)
    (hext : Leads Comp.refs A b (.at ['~', 'i', 'n', 'p', 'u', 't'] 0) .dest →
      ∀ x, x ∈ steps.map Prod.snd → 2 ≤ x.length ∧ ∀ b, b ∈ x.take 2 → ∀ v, v ∈ b → v.Ok f32)
    (h : Plays e1 steps e2 outs) (h' : Plays f1 steps' f2 outs') :
    outs'.length = outs.length ∧ ∀ t ch s, ch < 2 → s < N → sampleAt outs' t ch s = sampleAt outs t ch s := by
  obtain ⟨hl, hv⟩ := c89_volume_partial hx hxf hm hN hr hr' heN hfN hset τ σ code code' A B hparse hparse' (isMul := true) (g := .fin 1) he
    hc hc' ha ha' hu hu' b hb hb' hfree steps steps' outs outs' hin hext h h'
  refine ⟨hl, ?_⟩
  intro t ch s hch hs
  by_cases ht : t < outs.length
  · have hne : steps ≠ [] := by
      rintro rfl
      cases h
      exact absurd ht (Nat.not_lt_zero _)
    obtain ⟨n, dry, wet, h1, -, h3, -⟩ := c89_effect_partial hx hxf hm hN hr hr' heN hfN hset τ σ code code' A B hparse hparse' he
      rfl trivial hc hc' ha ha' hu hu' b hb hb' hfree steps steps' outs outs' hne hin hext h h'
    obtain ⟨v, v1, v2⟩ := h1.2 t ch s ht hch hs
    obtain ⟨o, ho, hov⟩ := Option.bind_eq_some_iff.mp v1
    obtain ⟨bf, b1, b2⟩ := sideAt_mem hov
    have hok := ((h3 o (List.mem_of_getElem? ho)).2 bf b1).2 v b2
    rw [v2, hv t ch s _ hch hs v2]
    simp only [if_true]
    rw [Effect.gain_one (Fl.add_ok _ _), (add_again (x := .fin 0) (by simp) hok).1]
  · have h1 : sampleAt outs t ch s = none := by rw [sampleAt, List.getElem?_eq_none (by omega)]; rfl
    have h2 : sampleAt outs' t ch s = none := by rw [sampleAt, List.getElem?_eq_none (by omega)]; rfl
    rw [h1, h2]

end

/-! ### Examples -/

def louderText : Name := c!"~a: imp 22050 >> mul 3\no: ~a >> add 1 >> mul 2"

def louderProg : Ast Comp :=
  [(c!"~a", [.imp (.num (.fin 22050)), .mul (.num (.fin 3))]), (c!"o", [.get c!"~a", .add (.num (.fin 1)), .mul (.num (.fin 2))])]

theorem louder_end : AtTheEnd soloO louderProg c!"o" [.get c!"~a", .add (.num (.fin 1))] (.mul (.num (.fin 2))) := by
  refine ⟨by simp [soloO], by simp [louderProg], ?_, by decide, ?_, ?_⟩
  · intro j cs hj
    simp [soloO, louderProg, hj]
  · exact fun j cs h => (by decide : ∀ e ∈ soloO, '~' ∉ e.1 → e.1 = c!"o") (j, cs) h
  · intro j cs d r h1 h2 h3 hm
    have := (by decide : ∀ e ∈ soloO, ∀ c ∈ e.2, ∀ r ∈ c.refs, r = c!"~a") (j, cs) h1 d h2 r h3
    subst this
    exact absurd (Parted.means_plain hm (by decide)) (by decide)

/-- A track with and without `mul 2` at its end: the hypotheses of `c89_effect_partial` and `c89_volume_partial` are met. -/
example (fe : Name → Option Fl) :
    ExtShape notePlat 2 (fun _ => True) ∧ ExtFirst notePlat ∧ Libm32 notePlat.libm ∧ CleanReach _ (Engine.new (glicol notePlat 2 (parse fe)) 2) ∧
    parse fe soloTextO = .ok (some soloO) ∧ parse fe louderText = .ok (some louderProg) ∧
    AtTheEnd soloO louderProg c!"o" [.get c!"~a", .add (.num (.fin 1))] (.mul (.num (.fin 2))) ∧
    CleanProg (glicol notePlat 2 (parse fe)) soloO ∧ CleanProg (glicol notePlat 2 (parse fe)) louderProg ∧
    AllNew (Engine.new (glicol notePlat 2 (parse fe)) 2) soloO ∧ AllNew (Engine.new (glicol notePlat 2 (parse fe)) 2) louderProg ∧
    FreeOf ByRole soloO true ∧ ¬ Leads Comp.refs soloO true (.at ['~', 'i', 'n', 'p', 'u', 't'] 0) .dest ∧
    (∃ e1 e2, (Engine.new (glicol notePlat 2 (parse fe)) 2).updateWithCode .ident soloTextO = .ok (e1, none) ∧
      Plays e1 (List.replicate 2 (.rev, [])) e2 (List.replicate 2 [[.fin 4, .fin 1], [.fin 4, .fin 1]]) ∧
      ['~', 'i', 'n', 'p', 'u', 't'] ∈ e1.index.map Prod.fst) ∧
    ∃ e1 e2, (Engine.new (glicol notePlat 2 (parse fe)) 2).updateWithCode .ident louderText = .ok (e1, none) ∧
      Plays e1 (List.replicate 2 (.ident, [])) e2 (List.replicate 2 [[.fin 8, .fin 2], [.fin 8, .fin 2]]) ∧
      ['~', 'i', 'n', 'p', 'u', 't'] ∈ e1.index.map Prod.fst := by
  have hn : ∀ prog, AllNew (Engine.new (glicol notePlat 2 (parse fe)) 2) prog :=
    fun prog k comps _ => ⟨[], .inr ⟨rfl, fun a ha => by cases ha⟩, fun _ _ _ ho => by cases ho⟩
  have p1 : parse fe soloTextO = .ok (some soloO) := by kernel_rfl
  have hwise := band_wise soloO_sub (by decide) (by decide)
  refine ⟨notePlat_meets.1, notePlat_first, notePlat_meets.2, .new 2, p1, by kernel_rfl, louder_end,
    ⟨?_, show _ ∉ soloO.map Prod.fst by decide⟩, ⟨?_, show _ ∉ louderProg.map Prod.fst by decide⟩, hn _, hn _,
    wise_free (glicol_parserWf notePlat 2 fe soloTextO _ p1) (by decide) hwise, ?_, Demo.playsText_spec (by kernel_rfl), Demo.playsText_spec (by kernel_rfl)⟩
  · have hall : ∀ e ∈ soloO, Distinct Comp.eq e.2 := by unfold Distinct; decide
    exact fun k c hm => hall (k, c) hm
  · have hall : ∀ e ∈ louderProg, Distinct Comp.eq e.2 := by unfold Distinct; decide
    exact fun k c hm => hall (k, c) hm
  · intro hl
    obtain ⟨j, comps, c, h1, h2, h3⟩ := Parted.leads_input (by decide) (Parted.plain_of hwise) hl
    exact (by decide : ∀ e ∈ soloO, ∀ c ∈ e.2, ['~', 'i', 'n', 'p', 'u', 't'] ∉ c.refs) (j, comps) h1 c h2 h3

end Verif.Props
