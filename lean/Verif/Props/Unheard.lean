import Verif.Spec.Unheard
import Verif.Props.Past

/-!
# Chains nobody hears

C86: chains that do not go to the output and that nobody refers to can be added or removed without changing the sound.
-/

namespace Verif.Props
open Verif.Spec Verif.Parse Verif.Part

variable {P : Plat} {N : Nat}

/-! ### Helpers -/

/-- What flows to the places of the smaller program, other than the output, is the same in both. -/
theorem part_flow {A B : Ast Comp} {b : Bool} (hkept : ∀ k comps, (k, comps) ∈ A → (k, comps) ∈ B)
    (hunused : ∀ k comps, (k, comps) ∈ B → (k, comps) ∉ A → ∀ j cs c r, (j, cs) ∈ A → c ∈ cs → r ∈ c.refs → ¬ Means r k) (hwB : ProgWf B)
    (hinB : ['~', 'i', 'n', 'p', 'u', 't'] ∉ B.map Prod.fst) {p : Place} (hd : p ≠ .dest) (hp : Leads Comp.refs A b p .dest) (q : Place) :
    Flow Comp.refs B b q p ↔ Flow Comp.refs A b q p := by
  have up : ∀ {k n}, Chain A b k n → Chain B b k n := by
    intro k n h
    cases h with
    | prog h => exact .prog (hkept _ _ h)
    | input hb => exact .input hb
  have comps_eq : ∀ {k c1 c2}, (k, c1) ∈ A → (k, c2) ∈ B → c1 = c2 := by
    intro k c1 c2 h1 h2
    exact Option.some.inj ((lookup_of_mem hwB.1 (hkept _ _ h1)).symm.trans (lookup_of_mem hwB.1 h2))
  constructor
  · intro h
    cases h with
    | @next k n i hc hi =>
      cases hp with
      | step hf _ =>
        obtain ⟨j, i', m, he, hcA, _⟩ := source_at hf
        cases he
        have := chain_unique hwB hinB hc (up hcA)
        subst this
        exact .next hcA hi
    | out _ _ => exact absurd rfl hd
    | @ref k k' r comps c i n hk hi hr hmn hc =>
      cases hp with
      | step hf _ =>
        obtain ⟨j, i', m, he, hcA, _⟩ := source_at hf
        cases he
        have hkA : (k, comps) ∈ A := by
          generalize hkk : k = k0 at hcA
          cases hcA with
          | prog h => subst hkk; rwa [← comps_eq h hk]
          | input _ => subst hkk; exact absurd (List.mem_map.mpr ⟨_, hk, rfl⟩) hinB
        refine .ref hkA hi hr hmn ?_
        generalize hl : n + 1 = m at hc
        cases hc with
        | @prog _ cs hk' =>
          by_cases hA : (k', cs) ∈ A
          · exact .prog hA
          · exact absurd hmn (hunused _ _ hk' hA _ _ _ _ hkA (List.mem_of_getElem? hi) hr)
        | input hb => exact .input hb
  · intro h
    cases h with
    | next hc hi => exact .next (up hc) hi
    | out hc ht => exact .out (up hc) ht
    | ref hk hi hr hmn hc => exact .ref (hkept _ _ hk) hi hr hmn (up hc)

/-- What flows to the places of the smaller program is the same in both. -/
theorem unheard_flow {A B : Ast Comp} {b : Bool} (hu : Unheard A B) (hwB : ProgWf B)
    (hinB : ['~', 'i', 'n', 'p', 'u', 't'] ∉ B.map Prod.fst) {p : Place} (hp : Leads Comp.refs A b p .dest) (q : Place) :
    Flow Comp.refs B b q p ↔ Flow Comp.refs A b q p := by
  by_cases hd : p = .dest
  · subst hd
    constructor
    · intro h
      generalize hl : Place.dest = d at h
      cases h with
      | next _ _ => cases hl
      | @out k n hc ht =>
        generalize hl : n + 1 = m at hc
        cases hc with
        | @prog _ comps hk =>
          by_cases hA : (k, comps) ∈ A
          · exact .out (by rw [hl]; exact .prog hA) ht
          · exact absurd (hu.silent _ _ hk hA) ht
        | input hb => exact absurd (by simp) ht
      | ref _ _ _ _ _ => cases hl
    · intro h
      generalize hl : Place.dest = d at h
      cases h with
      | next _ _ => cases hl
      | @out k n hc ht =>
        refine .out ?_ ht
        generalize n + 1 = m at hc ⊢
        cases hc with
        | prog h => exact .prog (hu.kept _ _ h)
        | input hb => exact .input hb
      | ref _ _ _ _ _ => cases hl
  · exact part_flow hu.kept hu.unused hwB hinB hd hp q

/-- **C86** (partial). Two texts, of which the second has the chains of the first and others that nobody hears (`Unheard`), sent to two
engines with the same settings, for which the components of the first text are new: they play the same blocks, whatever the iteration
orders of the maps in either engine. Of the chains that nobody hears nothing is required (except that the texts can be played: they may
panic, see C37). Missing, in the chains that are heard: feedback, references to several chains at once (as `~a..`),
sums of more than two chains. -/
theorem c86_unheard_partial {fe : Name → Option Fl} {T : P.ext.State → Prop} (hx : ExtShape P N T) (hxf : ExtFirst P) (hm : Libm32 P.libm) (hN : 0 < N)
    {e0 e1 e2 f0 f1 f2 : Engine (glicol P N (Parse.parse fe))}
    (hr : CleanReach _ e0) (hr' : CleanReach _ f0) (heN : e0.N = N) (hfN : f0.N = N)
    (hset : (⟨f0.samples, f0.sr, f0.bpm, f0.seed⟩ : Env) = ⟨e0.samples, e0.sr, e0.bpm, e0.seed⟩) (τ σ : TableOrder) (code code' : Name)
    (small big : Ast Comp) (hparse : Parse.parse fe code = .ok (some small)) (hparse' : Parse.parse fe code' = .ok (some big))
    (hun : Unheard small big)
    (hc : CleanProg (glicol P N (Parse.parse fe)) small) (hc' : CleanProg (glicol P N (Parse.parse fe)) big)
    (ha : AllNew e0 small) (ha' : AllNew f0 small) (hu : e0.updateWithCode τ code = .ok (e1, none))
    (hu' : f0.updateWithCode σ code' = .ok (f1, none)) (b : Bool)
    (hb : b = true ↔ ['~', 'i', 'n', 'p', 'u', 't'] ∈ e1.index.map Prod.fst)
    (hb' : b = true ↔ ['~', 'i', 'n', 'p', 'u', 't'] ∈ f1.index.map Prod.fst)
    (hfree : FreeOf ByRole small b)
    (steps steps' : List (HashOrder × List Buf)) (outs outs' : List (List Buf)) (hin : steps.map Prod.snd = steps'.map Prod.snd)
    (hext : Leads Comp.refs small b (.at ['~', 'i', 'n', 'p', 'u', 't'] 0) .dest →
      ∀ x, x ∈ steps.map Prod.snd → 2 ≤ x.length ∧ ∀ b, b ∈ x.take 2 → ∀ v, v ∈ b → v.Ok f32)
    (h : Plays e1 steps e2 outs) (h' : Plays f1 steps' f2 outs') : outs = outs' := by
  obtain ⟨start, sig, rfl, hs⟩ := c49_texts_sound_as_written_partial hx hr heN τ code small hparse hc hu steps outs h b hb
  obtain ⟨start', sig', rfl, hs'⟩ := c49_texts_sound_as_written_partial hx hr' hfN σ code' big hparse' hc' hu' steps' outs' h' b hb'
  rw [← hin] at hs'
  have hw' := glicol_parserWf P N fe code' big hparse'
  exact past_programs hx hxf hm hN hw' hc'.noInput hs hs' hset hun.kept (fun p hp q => unheard_flow hun hw' hc'.noInput hp q)
    (Parse.sg_parse hparse) ha ha' hfree hext

/-! ### Examples -/

/-- `noteText` (C84) with two chains that nobody hears: one feeds back into itself, the other hears everything. -/
def crowdedText : Name := c!"~z: ~a >> add ~z\n~a: constsig 72\n~b: constsig 84\n~y: o >> mul ~z\no: speed 22050 >> seq ~a~b >> mul 3"

def crowdedProg : Ast Comp :=
  [(c!"~z", [.get c!"~a", .add (.ref c!"~z")]), (c!"~a", [.constsig (.fin 72)]), (c!"~b", [.constsig (.fin 84)]),
   (c!"~y", [.get c!"o", .mul (.ref c!"~z")]),
   (c!"o", [.speed (.fin 22050), .seq [(.fin 0, .ref c!"~a"), (.fin (1 / 2), .ref c!"~b")], .mul (.num (.fin 3))])]

theorem crowded_unheard : Unheard noteProg crowdedProg := by
  have h1 : ∀ e ∈ noteProg, e ∈ crowdedProg := by
    intro e he
    simp only [noteProg, crowdedProg, List.mem_cons, List.not_mem_nil, or_false] at he ⊢
    rcases he with rfl | rfl | rfl <;> simp
  have h2 : ∀ e ∈ crowdedProg, e ∈ noteProg ∨ e.1 = c!"~z" ∨ e.1 = c!"~y" := by
    intro e he
    simp only [noteProg, crowdedProg, List.mem_cons, List.not_mem_nil, or_false] at he ⊢
    rcases he with rfl | rfl | rfl | rfl | rfl <;> simp
  have h3 : ∀ e ∈ noteProg, ∀ c ∈ e.2, ∀ r ∈ c.refs, '.' ∉ r ∧ r ≠ c!"~z" ∧ r ≠ c!"~y" := by decide
  refine ⟨fun k comps h => h1 _ h, ?_, ?_⟩
  · intro k comps hk hn
    rcases h2 _ hk with h | h | h
    · exact absurd h hn
    · have h : k = c!"~z" := h
      rw [h]; decide
    · have h : k = c!"~y" := h
      rw [h]; decide
  · intro k comps hk hn j cs c r hj hc hr hm
    obtain ⟨d1, d2, d3⟩ := h3 (j, cs) hj c hc r hr
    have hkr : k = r := by
      cases hm with
      | named _ => rfl
      | pattern => exact absurd (by simp) d1
    subst hkr
    rcases h2 _ hk with h | h | h
    · exact hn h
    · exact d2 h
    · exact d3 h

/-- Both texts, in new engines: the hypotheses of `c86_unheard_partial` are met. -/
example (fe : Name → Option Fl) :
    ExtShape notePlat 2 (fun _ => True) ∧ ExtFirst notePlat ∧ Libm32 notePlat.libm ∧ CleanReach _ (Engine.new (glicol notePlat 2 (parse fe)) 2) ∧
    parse fe noteText = .ok (some noteProg) ∧ parse fe crowdedText = .ok (some crowdedProg) ∧ Unheard noteProg crowdedProg ∧
    CleanProg (glicol notePlat 2 (parse fe)) noteProg ∧ CleanProg (glicol notePlat 2 (parse fe)) crowdedProg ∧
    AllNew (Engine.new (glicol notePlat 2 (parse fe)) 2) noteProg ∧ FreeOf ByRole noteProg true ∧
    (∃ e1 e2, (Engine.new (glicol notePlat 2 (parse fe)) 2).updateWithCode .ident noteText = .ok (e1, none) ∧
      Plays e1 (List.replicate 2 (.rev, [])) e2 [[[.fin 6, .fin 0], [.fin 0, .fin 0]], [[.fin 12, .fin 0], [.fin 0, .fin 0]]] ∧
      ['~', 'i', 'n', 'p', 'u', 't'] ∈ e1.index.map Prod.fst) ∧
    ∃ e1 e2, (Engine.new (glicol notePlat 2 (parse fe)) 2).updateWithCode .ident crowdedText = .ok (e1, none) ∧
      Plays e1 (List.replicate 2 (.ident, [])) e2 [[[.fin 6, .fin 0], [.fin 0, .fin 0]], [[.fin 12, .fin 0], [.fin 0, .fin 0]]] ∧
      ['~', 'i', 'n', 'p', 'u', 't'] ∈ e1.index.map Prod.fst := by
  refine ⟨notePlat_meets.1, notePlat_first, notePlat_meets.2, .new 2, noteText_parses fe, by kernel_rfl, crowded_unheard, noteProg_clean ..,
    ⟨?_, show _ ∉ crowdedProg.map Prod.fst by decide⟩,
    fun k comps _ => ⟨[], .inr ⟨rfl, fun a ha => by cases ha⟩, fun _ _ _ ho => by cases ho⟩,
    wise_free (glicol_parserWf notePlat 2 fe noteText _ (noteText_parses fe)) (by decide) (noteProg_wise true),
    Demo.playsText_spec (by kernel_rfl), Demo.playsText_spec (by kernel_rfl)⟩
  have hall : ∀ e ∈ crowdedProg, Distinct Comp.eq e.2 := by unfold Distinct; decide
  exact fun k c hm => hall (k, c) hm

/-- That nobody refers to the chains cannot be dropped: a pattern like `~a..` hears a chain whose name begins so, however it is meant. -/
theorem c86_pattern_hears (P : Plat) (fe : Name → Option Fl) :
    Verif.Spec.PagePlay.gets (Engine.new (glicol P 1 (parse fe)) 1) [.update .ident c!"~a: constsig 1\no: mix ~a..", .nextBlock .ident []] =
      [.answer none, .block [[.fin 1], [.fin 1]]] ∧
    Verif.Spec.PagePlay.gets (Engine.new (glicol P 1 (parse fe)) 1)
      [.update .ident c!"~a: constsig 1\n~ab: constsig 2\no: mix ~a..", .nextBlock .ident []] =
      [.answer none, .block [[.fin 3], [.fin 3]]] :=
  ⟨Settings.getsFuel_spec (by kernel_rfl), Settings.getsFuel_spec (by kernel_rfl)⟩

end Verif.Props
