import Verif.Lemmas.Part
import Verif.Lemmas.SingleCompound
import Verif.Props.BlockSize
import Verif.Props.HashOrder
import Verif.Props.Settings

/-!
# What was played before

C84: a program all of whose components are new sounds the same whatever the engine played before.
-/

namespace Verif.Props
open Verif.Spec Verif.Parse Verif.Part

variable {P : Plat} {N : Nat}

/-! ### Helpers -/

section
variable {parse parse' : Name → Except Panic (Option (Ast Comp))} {e0 e1 : Engine (glicol P N parse)} {f0 f1 : Engine (glicol P N parse')}
  {new : Ast Comp} {b : Bool} {exts : List (List Buf)} {start start' : Place → List Buf} {sig sig' : Place → List (List Buf)}

theorem source_at {q p : Place} (hf : Flow Comp.refs new b q p) : ∃ j i n, q = .at j i ∧ Chain new b j n ∧ i < n := by
  cases hf with
  | next hc hi => exact ⟨_, _, _, rfl, hc, by omega⟩
  | out hc _ => exact ⟨_, _, _, rfl, hc, by omega⟩
  | ref _ _ _ _ hc => exact ⟨_, _, _, rfl, hc, by omega⟩

/-- All signals that reach the output consist of f32 numbers. -/
theorem places_single (hxf : ExtFirst P) (hm : Libm32 P.libm) (h : Sounds e0 e1 new b exts start sig) (hne : exts ≠ [])
    (hsg : ∀ e, e ∈ new → ∀ c, c ∈ e.2 → c.Sg) (ha : AllNew e0 new) (hfree : FreeOf ByRole new b)
    (hext : Leads Comp.refs new b (.at ['~', 'i', 'n', 'p', 'u', 't'] 0) .dest →
      ∀ x, x ∈ exts → 2 ≤ x.length ∧ ∀ b, b ∈ x.take 2 → ∀ v, v ∈ b → v.Ok f32) :
    ∀ q p, Flow Comp.refs new b q p → Leads Comp.refs new b p .dest → ∀ o, o ∈ sig q → SgBufs o := by
  obtain ⟨rank, hrank⟩ := rank_exists hfree.forward
  have key : ∀ (n : Nat) q p, rank q < n → Flow Comp.refs new b q p → Leads Comp.refs new b p .dest → ∀ o, o ∈ sig q → SgBufs o := by
    intro n
    induction n with
    | zero => intro q p h; omega
    | succ n ih =>
      intro q p hn hf hd
      have hlead : Leads Comp.refs new b q .dest := .step hf hd
      obtain ⟨k, i, m, rfl, hc, hi⟩ := source_at hf
      cases hc with
      | @prog _ comps hk =>
        have hci := List.getElem?_eq_getElem hi
        have hmem : comps[i] ∈ comps := List.getElem_mem hi
        obtain ⟨old, ho1, ho2⟩ := ha k comps hk
        have hloop : ∀ q, Flow Comp.refs new b q (.at k i) → ¬ Leads Comp.refs new b (.at k i) q :=
          fun q hq => hfree.forward q _ hq hlead
        obtain ⟨refs, qs, srcs, left, inputs, _, _, _, _, _, r6, r7, r8, _⟩ := h.component k comps i _ old hk hci hlead ho1 (ho2 _ hmem)
        obtain ⟨Q, q1, q2, num, _, q4⟩ := run_inputs h r6 hne hloop r7
        obtain ⟨_, hfed⟩ := q4 Q (.refl _)
        refine sg_play_any hxf hm (hsg _ hk _ hmem) wiring_isWiring ?_ r8
        intro inp hinp e he
        obtain ⟨t, ht⟩ := List.mem_iff_getElem?.mp hinp
        obtain ⟨bufs, h1, h2⟩ := hfed t inp ht
        have he2 : e.2 ∈ bufs := (List.of_mem_zip (h2.mem_iff.mp he)).2
        obtain ⟨s, hs, hso⟩ := forall₂_left (List.Forall₂.flip h1) _ he2
        obtain ⟨q, hq, rfl⟩ := List.mem_map.mp hs
        have hq := (q2 q).mp hq
        have := hrank q _ hq hlead
        exact ih q _ (by omega) hq hlead _ (List.mem_of_getElem? hso)
      | input hb =>
        have : i = 0 := by omega
        subst this
        have hi2 := hext hlead
        rw [input_signal h hlead (fun x hx => (hi2 x hx).1)]
        intro o ho
        obtain ⟨x, hx, rfl⟩ := List.mem_map.mp ho
        exact (hi2 x hx).2
  intro q p hf hd
  exact key (rank q + 1) q p (Nat.lt_succ_self _) hf hd

theorem dest_ends {A : Ast Comp} {q : Place} (h : Leads Comp.refs A b .dest q) : q = .dest := by
  cases h with
  | refl => rfl
  | step hf _ => obtain ⟨_, _, _, h, _⟩ := source_at hf; cases h

/-- What leads to the output in the first program leads to it in the second, in the same way. -/
theorem same_leads {A B : Ast Comp} (hflow : ∀ p, Leads Comp.refs A b p .dest → ∀ q, Flow Comp.refs A b q p → Flow Comp.refs B b q p)
    {p q : Place} (h : Leads Comp.refs A b p q) (hq : Leads Comp.refs A b q .dest) : Leads Comp.refs B b p q := by
  induction h with
  | refl => exact .refl _
  | step hf hl ih => exact .step (hflow _ (leads_trans hl hq) _ hf) (ih hq)

theorem same_back {A B : Ast Comp}
    (hflow : ∀ p, p ≠ .dest → Leads Comp.refs A b p .dest → ∀ q, Flow Comp.refs B b q p ↔ Flow Comp.refs A b q p)
    {p q : Place} (h : Leads Comp.refs B b p q) (hqd : q ≠ .dest) (hq : Leads Comp.refs A b q .dest) : Leads Comp.refs A b p q := by
  induction h with
  | refl => exact .refl _
  | step hf hl ih =>
    refine .step ((hflow _ ?_ (leads_trans (ih hqd hq) hq) _).mp hf) (ih hqd hq)
    rintro rfl
    exact hqd (dest_ends hl)

/-- All signals that reach the output are the same in both runs. -/
theorem places_same {A B : Ast Comp} {T : P.ext.State → Prop} (hx : ExtShape P N T) (hxf : ExtFirst P) (hm : Libm32 P.libm) (hN : 0 < N) (hw : ProgWf B)
    (hin : ['~', 'i', 'n', 'p', 'u', 't'] ∉ B.map Prod.fst)
    (h : Sounds e0 e1 A b exts start sig) (h' : Sounds f0 f1 B b exts start' sig') (hne : exts ≠ [])
    (hset : (⟨f0.samples, f0.sr, f0.bpm, f0.seed⟩ : Env) = ⟨e0.samples, e0.sr, e0.bpm, e0.seed⟩)
    (hkept : ∀ k comps, (k, comps) ∈ A → (k, comps) ∈ B)
    (hflow : ∀ p, p ≠ .dest → Leads Comp.refs A b p .dest → ∀ q, Flow Comp.refs B b q p ↔ Flow Comp.refs A b q p)
    (hout : ∀ q, Flow Comp.refs A b q .dest → Flow Comp.refs B b q .dest)
    (hsg : ∀ e, e ∈ A → ∀ c, c ∈ e.2 → c.Sg) (ha : AllNew e0 A) (ha' : AllNew f0 A) (hfree : FreeOf ByRole A b)
    (hext : Leads Comp.refs A b (.at ['~', 'i', 'n', 'p', 'u', 't'] 0) .dest →
      ∀ x, x ∈ exts → 2 ≤ x.length ∧ ∀ b, b ∈ x.take 2 → ∀ v, v ∈ b → v.Ok f32) :
    ∀ q p, Flow Comp.refs A b q p → Leads Comp.refs A b p .dest → SameSig (sig q) (sig' q) := by
  have hdown : ∀ p, Leads Comp.refs A b p .dest → ∀ q, Flow Comp.refs A b q p → Flow Comp.refs B b q p := by
    intro p hp q hq
    by_cases hd : p = .dest
    · subst hd; exact hout q hq
    · exact (hflow p hd hp q).mpr hq
  have sg := places_single hxf hm h hne hsg ha hfree hext
  obtain ⟨rank, hrank⟩ := rank_exists hfree.forward
  have key : ∀ (n : Nat) q p, rank q < n → Flow Comp.refs A b q p → Leads Comp.refs A b p .dest → SameSig (sig q) (sig' q) := by
    intro n
    induction n with
    | zero => intro q p h; omega
    | succ n ih =>
      intro q p hn hf hd
      have hlead : Leads Comp.refs A b q .dest := .step hf hd
      have hlead' : Leads Comp.refs B b q .dest := same_leads hdown hlead (.refl _)
      obtain ⟨k, i, m, rfl, hc, hi⟩ := source_at hf
      cases hc with
      | @prog _ comps hk =>
        have hci := List.getElem?_eq_getElem hi
        have hmem : comps[i] ∈ comps := List.getElem_mem hi
        obtain ⟨old, o1, o2⟩ := ha k comps hk
        obtain ⟨old', o1', o2'⟩ := ha' k comps hk
        refine component_part hx hxf hN hw hin h h' hne hset (φ := id) (ψ := id) hk hci hlead (hkept _ _ hk) hci hlead' o1 (o2 _ hmem) o1'
          (o2' _ hmem) (hfree.parts k comps i _ hk hci hlead) (hfree.refs k comps _ hk hmem) (fun q hq => hfree.forward q _ hq hlead)
          ?_ (fun q' => ⟨fun h => ⟨q', (hflow _ (by simp) hlead _).mp h, rfl⟩, fun ⟨q, h, e⟩ => (hflow _ (by simp) hlead _).mpr (e ▸ h)⟩) (fun _ _ _ _ h => h) ?_
          ?_ (fun q hq => .step ((hflow _ (by simp) hlead _).mpr hq) hlead') (fun q hq => sg q _ hq hlead) (.inl fun _ _ => rfl) ?_
        · intro q hq hl
          have hqd : q ≠ .dest := by
            rintro rfl; obtain ⟨_, _, _, h, _⟩ := source_at hq; cases h
          have hq := (hflow _ (by simp) hlead _).mp hq
          exact hfree.forward q _ hq hlead (same_back hflow hl hqd (.step hq hlead))
        · cases i with
          | zero => exact .inl ⟨rfl, rfl⟩
          | succ i => exact .inr ⟨i, i, rfl, rfl, rfl⟩
        · intro _ r _ n hc
          refine ⟨n, ?_, rfl⟩
          generalize n + 1 = m at hc ⊢
          cases hc with
          | prog hk => exact .prog (hkept _ _ hk)
          | input hb => exact .input hb
        · intro q hq
          have := hrank q _ hq hlead
          exact ih q _ (by omega) hq hlead
      | input hb =>
        have : i = 0 := by omega
        subst this
        have hi2 := hext hlead
        rw [input_signal h hlead (fun x hx => (hi2 x hx).1), input_signal h' hlead' (fun x hx => (hi2 x hx).1)]
        refine ⟨rfl, 2, .inr rfl, ?_⟩
        intro o ho
        obtain ⟨x, hx, rfl⟩ := List.mem_map.mp ho
        have := (hi2 x hx).1
        simp; omega
  intro q p hf hd
  exact key (rank q + 1) q p (Nat.lt_succ_self _) hf hd

/-- The programs sound the same. -/
theorem past_programs {A B : Ast Comp} {T : P.ext.State → Prop} (hx : ExtShape P N T) (hxf : ExtFirst P) (hm : Libm32 P.libm) (hN : 0 < N) (hw : ProgWf B)
    (hin : ['~', 'i', 'n', 'p', 'u', 't'] ∉ B.map Prod.fst)
    (h : Sounds e0 e1 A b exts start sig) (h' : Sounds f0 f1 B b exts start' sig')
    (hset : (⟨f0.samples, f0.sr, f0.bpm, f0.seed⟩ : Env) = ⟨e0.samples, e0.sr, e0.bpm, e0.seed⟩)
    (hkept : ∀ k comps, (k, comps) ∈ A → (k, comps) ∈ B)
    (hflow : ∀ p, Leads Comp.refs A b p .dest → ∀ q, Flow Comp.refs B b q p ↔ Flow Comp.refs A b q p)
    (hsg : ∀ e, e ∈ A → ∀ c, c ∈ e.2 → c.Sg) (ha : AllNew e0 A) (ha' : AllNew f0 A) (hfree : FreeOf ByRole A b)
    (hext : Leads Comp.refs A b (.at ['~', 'i', 'n', 'p', 'u', 't'] 0) .dest →
      ∀ x, x ∈ exts → 2 ≤ x.length ∧ ∀ b, b ∈ x.take 2 → ∀ v, v ∈ b → v.Ok f32) : sig .dest = sig' .dest := by
  by_cases hne : exts = []
  · subst hne
    rw [List.length_eq_zero_iff.mp (h.length .dest (.refl _)), List.length_eq_zero_iff.mp (h'.length .dest (.refl _))]
  have same := places_same hx hxf hm hN hw hin h h' hne hset hkept (fun p _ => hflow p) (fun q hq => (hflow _ (.refl _) q).mpr hq) hsg ha ha' hfree hext
  refine output_part h h' (φ := id) (fun q' => ⟨fun h => ⟨q', (hflow _ (.refl _) _).mp h, rfl⟩,
      fun ⟨q, h, e⟩ => (hflow _ (.refl _) _).mpr (e ▸ h)⟩) (fun _ _ _ _ h => h)
    (fun q hq => places_single hxf hm h hne hsg ha hfree hext q _ hq (.refl _)) hfree.output ?_
  intro q hq
  rw [(same q _ hq (.refl _)).1]
  exact List.forall₂_same.mpr (fun _ _ => .inl rfl)

end

/-- **C84** (partial). Two engines with the same settings and whatever past (without repeated components) get the same text, none of
whose components is in their programs: they play the same blocks, whatever the iteration orders of the maps in either engine.
Missing: feedback, references to several chains at once (as `~a..`, C42), sums of more than two chains, pasts with
repeated components. -/
theorem c84_past_partial {fe : Name → Option Fl} {T : P.ext.State → Prop} (hx : ExtShape P N T) (hxf : ExtFirst P) (hm : Libm32 P.libm) (hN : 0 < N)
    {e0 e1 e2 f0 f1 f2 : Engine (glicol P N (Parse.parse fe))}
    (hr : CleanReach _ e0) (hr' : CleanReach _ f0) (heN : e0.N = N) (hfN : f0.N = N)
    (hset : (⟨f0.samples, f0.sr, f0.bpm, f0.seed⟩ : Env) = ⟨e0.samples, e0.sr, e0.bpm, e0.seed⟩) (τ σ : TableOrder) (code : Name)
    (new : Ast Comp) (hparse : Parse.parse fe code = .ok (some new)) (hc : CleanProg (glicol P N (Parse.parse fe)) new)
    (ha : AllNew e0 new) (ha' : AllNew f0 new) (hu : e0.updateWithCode τ code = .ok (e1, none))
    (hu' : f0.updateWithCode σ code = .ok (f1, none)) (b : Bool)
    (hb : b = true ↔ ['~', 'i', 'n', 'p', 'u', 't'] ∈ e1.index.map Prod.fst)
    (hb' : b = true ↔ ['~', 'i', 'n', 'p', 'u', 't'] ∈ f1.index.map Prod.fst)
    (hfree : FreeOf ByRole new b)
    (steps steps' : List (HashOrder × List Buf)) (outs outs' : List (List Buf)) (hin : steps.map Prod.snd = steps'.map Prod.snd)
    (hext : Leads Comp.refs new b (.at ['~', 'i', 'n', 'p', 'u', 't'] 0) .dest →
      ∀ x, x ∈ steps.map Prod.snd → 2 ≤ x.length ∧ ∀ b, b ∈ x.take 2 → ∀ v, v ∈ b → v.Ok f32)
    (h : Plays e1 steps e2 outs) (h' : Plays f1 steps' f2 outs') : outs = outs' := by
  obtain ⟨start, sig, rfl, hs⟩ := c49_texts_sound_as_written_partial hx hr heN τ code new hparse hc hu steps outs h b hb
  obtain ⟨start', sig', rfl, hs'⟩ := c49_texts_sound_as_written_partial hx hr' hfN σ code new hparse hc hu' steps' outs' h' b hb'
  rw [← hin] at hs'
  exact past_programs hx hxf hm hN (glicol_parserWf P N fe code new hparse) hc.noInput hs hs' hset
    (fun _ _ h => h) (fun _ _ _ => Iff.rfl) (Parse.sg_parse hparse) ha ha' hfree hext

/-- **C84** (partial). An engine that has played whatever it was sent and has then been emptied by an empty program plays any text as an
engine with the same settings that has never had a program. Missing: as `c84_past_partial`. -/
theorem c84_emptied_partial {fe : Name → Option Fl} {T : P.ext.State → Prop} (hx : ExtShape P N T) (hxf : ExtFirst P) (hm : Libm32 P.libm) (hN : 0 < N)
    {e0 e1 e2 g f0 f1 f2 : Engine (glicol P N (Parse.parse fe))}
    (hr : CleanReach _ e0) (hnone : e0.ast = none) (hg : CleanReach _ g) (τ0 : TableOrder) (empty : Name)
    (hempty : Parse.parse fe empty = .ok (some [])) (hu0 : g.updateWithCode τ0 empty = .ok (f0, none)) (heN : e0.N = N) (hgN : g.N = N)
    (hset : (⟨g.samples, g.sr, g.bpm, g.seed⟩ : Env) = ⟨e0.samples, e0.sr, e0.bpm, e0.seed⟩) (τ σ : TableOrder) (code : Name)
    (new : Ast Comp) (hparse : Parse.parse fe code = .ok (some new)) (hc : CleanProg (glicol P N (Parse.parse fe)) new)
    (hu : e0.updateWithCode τ code = .ok (e1, none)) (hu' : f0.updateWithCode σ code = .ok (f1, none)) (b : Bool)
    (hb : b = true ↔ ['~', 'i', 'n', 'p', 'u', 't'] ∈ e1.index.map Prod.fst)
    (hb' : b = true ↔ ['~', 'i', 'n', 'p', 'u', 't'] ∈ f1.index.map Prod.fst)
    (hfree : FreeOf ByRole new b)
    (steps steps' : List (HashOrder × List Buf)) (outs outs' : List (List Buf)) (hin : steps.map Prod.snd = steps'.map Prod.snd)
    (hext : Leads Comp.refs new b (.at ['~', 'i', 'n', 'p', 'u', 't'] 0) .dest →
      ∀ x, x ∈ steps.map Prod.snd → 2 ≤ x.length ∧ ∀ b, b ∈ x.take 2 → ∀ v, v ∈ b → v.Ok f32)
    (h : Plays e1 steps e2 outs) (h' : Plays f1 steps' f2 outs') : outs = outs' := by
  have hclean : CleanProg (glicol P N (Parse.parse fe)) [] := ⟨fun _ _ hm => (by cases hm), fun hm => (by cases hm)⟩
  have u := updated (glicol_parserWf P N fe) (glicol_eqLaws P N _) hg hempty hclean hu0
  obtain ⟨x1, x2, x3, x4, x5, _⟩ := u.settings
  have hf0 : CleanReach _ f0 := .step (.update τ0 empty) hg (fun p hp => by
    have : p = [] := by
      have := hempty.symm.trans hp
      cases this
      rfl
    subst this
    exact hclean) (by simp only [Op.apply, hu0]; rfl)
  refine c84_past_partial hx hxf hm hN hr hf0 heN (x1.trans hgN) ?_ τ σ code new hparse hc ?_ ?_ hu hu' b hb hb' hfree steps steps' outs outs'
    hin hext h h'
  · rw [← hset, x2, x3, x4, x5]
  · exact fun k comps _ => ⟨[], .inr ⟨rfl, fun a ha => by rw [hnone] at ha; cases ha⟩, fun _ _ _ ho => by cases ho⟩
  · refine fun k comps _ => ⟨[], .inr ⟨rfl, fun a ha => ?_⟩, fun _ _ _ ho => by cases ho⟩
    rw [u.ast] at ha
    cases ha
    exact fun hm => by cases hm

/-! ### Examples -/

/-- A new engine gets a program, plays a block, gets an empty program, then the text; it plays `outs` and has an input. -/
def playsAfter (P : Plat) (N : Nat) (fe : Name → Option Fl) (before empty code : Name) (steps : List (HashOrder × List Buf))
    (outs : List (List Buf)) : Bool :=
  match (Engine.new (glicol P N (parse fe)) N).updateWithCode .ident before with
  | .ok (g0, none) =>
    match nextBlockFuel 1000 .ident g0 [] with
    | some (.ok (g, _)) =>
      match g.updateWithCode .ident empty with
      | .ok (f0, none) =>
        match f0.updateWithCode .ident code with
        | .ok (f1, none) => decide (['~', 'i', 'n', 'p', 'u', 't'] ∈ f1.index.map Prod.fst) &&
          match Demo.playFuel steps f1 with
          | some (_, o) => decide (o = outs)
          | none => false
        | _ => false
      | _ => false
    | _ => false
  | _ => false

theorem playsAfter_spec {P : Plat} {N : Nat} {fe : Name → Option Fl} {before empty code : Name} {steps : List (HashOrder × List Buf)}
    {outs : List (List Buf)} (h : playsAfter P N fe before empty code steps outs = true) :
    ∃ (g0 g f0 f1 f2 : Engine (glicol P N (parse fe))) (o : List Buf),
      (Engine.new (glicol P N (parse fe)) N).updateWithCode .ident before = .ok (g0, none) ∧ g0.nextBlock .ident [] = .ok (g, o) ∧
      g.updateWithCode .ident empty = .ok (f0, none) ∧ f0.updateWithCode .ident code = .ok (f1, none) ∧ Plays f1 steps f2 outs ∧
      ['~', 'i', 'n', 'p', 'u', 't'] ∈ f1.index.map Prod.fst := by
  unfold playsAfter at h
  split at h
  · rename_i g0 h0
    split at h
    · rename_i g o h1
      split at h
      · rename_i f0 h2
        split at h
        · rename_i f1 h3
          rw [Bool.and_eq_true, decide_eq_true_eq] at h
          obtain ⟨hi, h⟩ := h
          split at h
          · rename_i f2 o2 h4
            rw [decide_eq_true_eq] at h
            subst h
            exact ⟨g0, g, f0, f1, f2, o, h0, nextBlockFuel_spec h1, h2, h3, Demo.playFuel_spec h4, hi⟩
          · cases h
        · cases h
      · cases h
    · cases h
  · cases h

/-- A platform whose powers are those of two, for the pitches one and two octaves up. -/
def notePlat : Plat := { Demo.plat with
  libm := { Demo.plat.libm with powf := fun _ y => if y = .fin 1 then .fin 2 else if y = .fin 2 then .fin 4 else .fin 1 } }

/-- A sequence of two notes that come from other chains. -/
def noteText : Name := c!"~a: constsig 72\n~b: constsig 84\no: speed 22050 >> seq ~a~b >> mul 3"

def noteProg : Ast Comp :=
  [(c!"~a", [.constsig (.fin 72)]), (c!"~b", [.constsig (.fin 84)]),
   (c!"o", [.speed (.fin 22050), .seq [(.fin 0, .ref c!"~a"), (.fin (1 / 2), .ref c!"~b")], .mul (.num (.fin 3))])]

theorem notePlat_first : ExtFirst notePlat where
  first := fun _ _ _ _ _ _ _ => rfl
  single := ⟨fun _ => True, fun _ _ _ _ _ => trivial, fun _ _ _ _ _ _ => trivial, fun _ _ _ _ _ _ _ _ hb h => by
    cases h; exact ⟨trivial, hb⟩⟩

theorem notePlat_meets : ExtShape notePlat 2 (fun _ => True) ∧ Libm32 notePlat.libm := by
  refine ⟨⟨fun _ _ _ _ _ => trivial, fun _ _ _ _ _ _ => trivial, ?_⟩, ⟨fun _ => sg_zero, ?_⟩⟩
  · intro s o ins b s' b' _ _ hb h
    cases h
    exact ⟨trivial, rfl, hb⟩
  · intro x y
    show Fl.Ok f32 (if y = .fin 1 then .fin 2 else if y = .fin 2 then .fin 4 else .fin 1)
    split
    · exact (show (Fl.fin 1 +. Fl.fin 1) = .fin 2 by kernel_rfl) ▸ sg_add _ _
    · split
      · exact (show (Fl.fin 2 +. Fl.fin 2) = .fin 4 by kernel_rfl) ▸ sg_add _ _
      · exact sg_one

theorem noteText_parses (fe : Name → Option Fl) : parse fe noteText = .ok (some noteProg) := by kernel_rfl

theorem noteProg_wise (b : Bool) : Wise ByRole noteProg b := by
  refine ⟨⟨fun k => if k = c!"o" then 1 else 0, ?_⟩, ?_, by decide⟩
  · have : ∀ e ∈ noteProg, ∀ c ∈ e.2, ∀ r ∈ c.refs, '.' ∉ r ∧ r ∈ noteProg.map Prod.fst ∧
        (if r = c!"o" then 1 else 0) < (if e.1 = c!"o" then 1 else 0) := by decide
    intro k comps c r hk hc hr
    have := this (k, comps) hk c hc r hr
    exact ⟨this.1, .inl this.2.1, this.2.2⟩
  · intro k comps i c hk hi
    simp only [noteProg, List.mem_cons, Prod.mk.injEq, List.not_mem_nil, or_false] at hk
    have hm := List.mem_of_getElem? hi
    rcases hk with ⟨rfl, rfl⟩ | ⟨rfl, rfl⟩ | ⟨rfl, rfl⟩ <;> simp only [List.mem_cons, List.not_mem_nil, or_false] at hm
    · subst hm; trivial
    · subst hm; trivial
    · rcases hm with rfl | rfl | rfl <;> trivial

theorem noteProg_clean (P : Plat) (N : Nat) (fe : Name → Option Fl) : CleanProg (glicol P N (parse fe)) noteProg := by
  have hall : ∀ e ∈ noteProg, Distinct Comp.eq e.2 := by unfold Distinct; decide
  exact ⟨fun k c hm => hall (k, c) hm, show _ ∉ noteProg.map Prod.fst by decide⟩

/-- `noteText` meets the hypotheses of `c84_emptied_partial`, and so those of `c84_past_partial`: in a new engine, and in one that
has played a block of `o: constsig 7`, whose nodes had the first numbers, and has been emptied. -/
example (fe : Name → Option Fl) : ExtShape notePlat 2 (fun _ => True) ∧ ExtFirst notePlat ∧ Libm32 notePlat.libm ∧
    CleanReach _ (Engine.new (glicol notePlat 2 (parse fe)) 2) ∧ parse fe c!"" = .ok (some []) ∧
    parse fe noteText = .ok (some noteProg) ∧ CleanProg (glicol notePlat 2 (parse fe)) noteProg ∧ FreeOf ByRole noteProg true ∧
    (∃ e1 e2, (Engine.new (glicol notePlat 2 (parse fe)) 2).updateWithCode .ident noteText = .ok (e1, none) ∧
      Plays e1 (List.replicate 2 (.rev, [])) e2 [[[.fin 6, .fin 0], [.fin 0, .fin 0]], [[.fin 12, .fin 0], [.fin 0, .fin 0]]] ∧
      ['~', 'i', 'n', 'p', 'u', 't'] ∈ e1.index.map Prod.fst) ∧
    ∃ g f0 f1 f2, CleanReach (glicol notePlat 2 (parse fe)) g ∧
      g.updateWithCode .ident c!"" = .ok (f0, none) ∧ f0.updateWithCode .ident noteText = .ok (f1, none) ∧
      Plays f1 (List.replicate 2 (.ident, [])) f2 [[[.fin 6, .fin 0], [.fin 0, .fin 0]], [[.fin 12, .fin 0], [.fin 0, .fin 0]]] ∧
      ['~', 'i', 'n', 'p', 'u', 't'] ∈ f1.index.map Prod.fst := by
  obtain ⟨g0, g, f0, f1, f2, o, h0, h1, h2, h3, h4, h5⟩ := playsAfter_spec (P := notePlat) (N := 2) (fe := fe) (before := c!"o: constsig 7")
    (empty := c!"") (code := noteText) (steps := List.replicate 2 (.ident, []))
    (outs := [[[.fin 6, .fin 0], [.fin 0, .fin 0]], [[.fin 12, .fin 0], [.fin 0, .fin 0]]]) (by kernel_rfl)
  have hb : parse fe c!"o: constsig 7" = .ok (some [(c!"o", [.constsig (.fin 7)])]) := by kernel_rfl
  refine ⟨notePlat_meets.1, notePlat_first, notePlat_meets.2, .new 2, by kernel_rfl, noteText_parses fe, noteProg_clean .., wise_free
    (glicol_parserWf notePlat 2 fe noteText _ (noteText_parses fe)) (by decide) (noteProg_wise true), Demo.playsText_spec (by kernel_rfl),
    g, f0, f1, f2, ?_, h2, h3, h4, h5⟩
  refine .step (.nextBlock .ident []) (.step (.update .ident c!"o: constsig 7") (.new 2) ?_ (by simp only [Op.apply, h0]; rfl)) trivial
    (by simp only [Op.apply, h1]; rfl)
  intro p hp
  have := hb.symm.trans hp
  cases this
  refine ⟨fun k c hm => ?_, fun hm => absurd hm (show _ ∉ [c!"o"] by decide)⟩
  have hk : (k, c) = (c!"o", [.constsig (.fin 7)]) := List.mem_singleton.mp hm
  cases hk
  exact List.pairwise_singleton _ _

/-- The condition that the components are new cannot be dropped: a pulse that is sent again goes on where it was. -/
theorem c84_kept_goes_on (P : Plat) (fe : Name → Option Fl) :
    Verif.Spec.PagePlay.gets (Engine.new (glicol P 1 (parse fe)) 1) [.update .ident c!"o: imp 22050", .nextBlock .ident []] =
      [.answer none, .block [[.fin 1], [.fin 1]]] ∧
    Verif.Spec.PagePlay.gets (Engine.new (glicol P 1 (parse fe)) 1)
      [.update .ident c!"o: imp 22050", .nextBlock .ident [], .update .ident c!"o: imp 22050", .nextBlock .ident []] =
      [.answer none, .block [[.fin 1], [.fin 1]], .answer none, .block [[.fin 0], [.fin 0]]] :=
  ⟨Settings.getsFuel_spec (by kernel_rfl), Settings.getsFuel_spec (by kernel_rfl)⟩

/-- `o: constsig a`, `p: constsig b` and `q: constsig c`. -/
def threeProg (a b c : Fl) : Ast Comp := [(c!"o", [.constsig a]), (c!"p", [.constsig b]), (c!"q", [.constsig c])]

example (fe : Name → Option Fl) : parse fe c!"o: constsig 33554432\np: constsig -33554432\nq: constsig 1" =
    .ok (some (threeProg (.fin 33554432) (.fin (-33554432)) (.fin 1))) := by kernel_rfl

/-- What a new engine plays of `threeProg a b c`, whose chains it connects to the output in the order `τ`. -/
theorem three_plays (P : Plat) (a b c : Fl) (τ : TableOrder) (o : Fl) (h : (τ = .ident ∧ o = flSum [c, b, a]) ∨ (τ = .rev ∧ o = flSum [a, b, c])) :
    ∃ e1 e2, (Engine.new (glicol P 1 (Demo.table [(['1'], threeProg a b c)])) 1).updateWithCode τ ['1'] = .ok (e1, none) ∧
      Plays e1 [(.ident, [])] e2 [[[o], [o]]] := by
  have h : (match (Engine.new (glicol P 1 (Demo.table [(['1'], threeProg a b c)])) 1).updateWithCode τ ['1'] with
      | .ok (e, none) => (Demo.playFuel [(.ident, [])] e).map Prod.snd
      | _ => none) = some [[[o], [o]]] := by
    rcases h with ⟨rfl, rfl⟩ | ⟨rfl, rfl⟩ <;> kernel_rfl
  split at h
  · rename_i e he
    obtain ⟨⟨e2, o'⟩, hp, rfl⟩ := Option.map_eq_some_iff.mp h
    exact ⟨e, e2, he, Demo.playFuel_spec hp⟩
  · cases h

/-- C84 (and with it C34 and C85 to C87) is false for sums of more than two chains: a new engine plays 2^25, -2^25 and 1 together as
0 or as 1, depending on the iteration order of the map of chains, in which their ends are connected to the output (f32 sums,
C42). -/
theorem c84_order_counterexample (P : Plat) :
    let e0 := Engine.new (glicol P 1 (Demo.table [(['1'], threeProg (.fin (2 ^ 25)) (.fin (-2 ^ 25)) (.fin 1))])) 1
    (∃ e1 e2, e0.updateWithCode .ident ['1'] = .ok (e1, none) ∧ Plays e1 [(.ident, [])] e2 [[[.fin 0], [.fin 0]]]) ∧
    ∃ f1 f2, e0.updateWithCode .rev ['1'] = .ok (f1, none) ∧ Plays f1 [(.ident, [])] f2 [[[.fin 1], [.fin 1]]] :=
  ⟨three_plays P _ _ _ _ _ (.inl ⟨rfl, by kernel_rfl⟩), three_plays P _ _ _ _ _ (.inr ⟨rfl, by kernel_rfl⟩)⟩

end Verif.Props
