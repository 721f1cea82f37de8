import Verif.Props.Echo
import Verif.Props.Filter

/-!
# A filter at the end of a track

C89 for `onepole`, `lpf` and `rhpf`: what is heard is the solution of the equation of the filter (C56) for what was heard without it.
-/

namespace Verif.Props
open Verif.Spec Verif.Parse Verif.Double Verif.Part

/-- `E` is the equation of the filter `c` at the sample rate `sr` (C56). -/
inductive FilterLaw (P : Plat) (sr : Nat) : Comp → (List Fl → List Fl → Prop) → Prop where
  | onepole (rate : Fl) : FilterLaw P sr (.onepole (.num rate)) (OnePoleEq (fun _ => .fin 1 -. pole P.libm rate) (fun _ => pole P.libm rate))
  | lpf (cutoff q : Fl) : FilterLaw P sr (.lpf (.num cutoff) q) (LaggingEq (fun _ => lowPass P.libm sr cutoff q))
  | rhpf (cutoff q : Fl) : sr = 44100 → FilterLaw P sr (.rhpf (.num cutoff) q) (LaggingEq (fun _ => highPass P.libm sr cutoff q))

variable {P : Plat} {N : Nat}

namespace Tone

/-- The nodes of the filters. -/
inductive Node (P : Plat) : GNode P → Prop where
  | onepole (f : OnePole) : Node P (.prim (.onepole f))
  | rhpf (f : Rhpf) : Node P (.prim (.rhpf f))
  | rlpf (f : Rlpf) : Node P (.prim (.rlpf f))

/-- A filter hears the left side of its input. -/
theorem proc_left {g : GNode P} (hg : Node P g) (k : Nat) (x : Buf) (rest : List Buf) (out : List Buf) :
    procG P g [(k, x :: rest)] out = procG P g [(k, [x])] out := by
  cases hg <;> rfl

/-- A filter has one output, as long as its input. -/
theorem proc_shape {g : GNode P} (hg : Node P g) {k : Nat} {x : Buf} {out : List Buf} {r : GNode P × List Buf} (ho : out.length = 1)
    (h : procG P g [(k, [x])] out = .ok r) : Node P r.1 ∧ ∃ y, r.2 = [y] ∧ y.length = x.length := by
  obtain ⟨o, rfl⟩ := List.length_eq_one_iff.mp ho
  cases hg with
  | onepole f =>
    simp only [procG, procPrim, procOnePole, chan, List.getElem?_cons_zero, bind, Except.bind, reState] at h
    cases h
    exact ⟨.onepole _, _, rfl, run_length _ _ _⟩
  | rhpf f =>
    simp only [procG, procPrim, procRhpf, chan, List.getElem?_cons_zero, bind, Except.bind, reState] at h
    cases h
    exact ⟨.rhpf _, _, rfl, run_length _ _ _⟩
  | rlpf f =>
    simp only [procG, procPrim, procRlpf, chan, List.getElem?_cons_zero, bind, Except.bind, reState] at h
    cases hr : runM (rlpfStep P.libm f) (f.cutoff, f.step, f.mem) x with
    | error e => rw [hr] at h; cases h
    | ok q =>
      rw [hr] at h
      cases h
      exact ⟨.rlpf _, _, rfl, runM_length hr⟩

/-- A filter plays what it plays for the left side of its input. -/
theorem blocks_left (k : Nat) : ∀ (dry : List (List Buf)), (∀ o, o ∈ dry → o ≠ [] ∧ (o.headD []).length = N) → ∀ (g : GNode P) (out : List Buf) (r : List (List Buf)),
    Node P g → out.length = 1 → runBlocks (procG P) g out (monoFrom k (Echo.lefts dry)) = .ok r →
    runBlocks (procG P) g out (dry.map (fun o => [(k, o)])) = .ok r ∧ ∀ o, o ∈ r → o.length = 1 ∧ (o.headD []).length = N
  | [], _, _, _, r, _, _, h => by
    cases h
    exact ⟨rfl, fun _ h => nomatch h⟩
  | o :: dry, hl, g, out, r, hg, ho, h => by
    obtain ⟨hne, hlen⟩ := hl o List.mem_cons_self
    obtain ⟨x, rest, rfl⟩ := List.exists_cons_of_ne_nil hne
    have e : monoFrom k (Echo.lefts ((x :: rest) :: dry)) = [(k, [x])] :: monoFrom k (Echo.lefts dry) := rfl
    rw [e, runBlocks] at h
    rw [List.map_cons, runBlocks, proc_left hg]
    cases hp : procG P g [(k, [x])] out with
    | error e => rw [hp] at h; cases h
    | ok q =>
      obtain ⟨h1, y, h2, h3⟩ := proc_shape hg ho hp
      rw [hp] at h
      simp only at h ⊢
      cases hq : runBlocks (procG P) q.1 q.2 (monoFrom k (Echo.lefts dry)) with
      | error e => rw [hq] at h; cases h
      | ok s =>
        rw [hq] at h
        cases h
        obtain ⟨g1, g2⟩ := blocks_left k dry (fun o ho => hl o (List.mem_cons_of_mem _ ho)) q.1 q.2 s h1 (by rw [h2]; rfl) hq
        rw [g1]
        refine ⟨rfl, ?_⟩
        intro o ho
        rcases List.mem_cons.mp ho with rfl | ho
        · rw [h2]
          exact ⟨rfl, h3.trans hlen⟩
        · exact g2 o ho

theorem oneFrom_mono (k : Nat) (bs : List Buf) : oneFrom k true (bs.map (·.map (fun v => (v, v)))) = monoFrom k bs := by
  simp [oneFrom, monoFrom, bufsOf, Function.comp_def]

theorem lefts_pairs (bs : List Buf) : Spec.lefts (bs.map (·.map (fun v => (v, v)))) = bs.flatten := by
  rw [Spec.lefts, ← List.map_flatten, List.map_map]
  simp [Function.comp_def]

/-- What a filter makes of blocks. -/
theorem filtered {env : Env} {c : Comp} {E : List Fl → List Fl → Prop} (hf : FilterLaw P env.sr c E) (k : Nat) (dry : List (List Buf))
    (hl : ∀ o, o ∈ dry → o ≠ [] ∧ (o.headD []).length = N) :
    ∃ wet, play P N env c [.index k] (dry.map (fun o => [(k, o)])) = .ok wet ∧ (∀ o, o ∈ wet → o.length = 1 ∧ (o.headD []).length = N) ∧
      E (Echo.lefts dry).flatten (Echo.lefts wet).flatten := by
  have key : ∀ (g0 g : GNode P) (refs : List Name) (outs : List (List Buf)) (ys : List Fl),
      makeNode P N env.samples env.sr env.bpm env.seed c = .ok (fresh N 1 g0, refs) → sendMsgs g0 [.index k] = .ok g → Node P g →
      play P N env c [.index k] (monoFrom k (Echo.lefts dry)) = .ok outs → channel 0 outs = some ys → E (Echo.lefts dry).flatten ys →
      ∃ wet, play P N env c [.index k] (dry.map (fun o => [(k, o)])) = .ok wet ∧ (∀ o, o ∈ wet → o.length = 1 ∧ (o.headD []).length = N) ∧
        E (Echo.lefts dry).flatten (Echo.lefts wet).flatten := by
    intro g0 g refs outs ys hmk hmsg hg hp hch hE
    have hrun : runBlocks (procG P) g (fresh N 1 g0).buffers (monoFrom k (Echo.lefts dry)) = .ok outs := by
      unfold play at hp
      rw [hmk] at hp
      simp only [show (fresh N 1 g0).node = g0 from rfl, hmsg] at hp
      cases hr : runBlocks (procG P) g (fresh N 1 g0).buffers (monoFrom k (Echo.lefts dry)) with
      | error e => rw [hr] at hp; cases hp
      | ok r => rw [hr] at hp; cases hp; rfl
    obtain ⟨h1, h2⟩ := blocks_left k dry hl g _ outs hg (shaped_fresh N 1 g0).1 hrun
    refine ⟨outs, play_ok hmk hmsg h1, h2, ?_⟩
    rw [SineOf.channel_mono (fun o ho => (h2 o ho).1)] at hch
    rw [Echo.lefts.eq_def outs, Option.some.inj hch]
    exact hE
  cases hf with
  | onepole rate =>
    obtain ⟨outs, ys, h1, h2, h3⟩ := c56_onepole P N env rate k true ((Echo.lefts dry).map (·.map (fun v => (v, v))))
    rw [oneFrom_mono] at h1
    rw [lefts_pairs] at h3
    exact key _ _ _ outs ys rfl rfl (.onepole _) h1 h2 h3
  | lpf cutoff q =>
    obtain ⟨outs, ys, h1, h2, h3⟩ := c56_lpf_partial P N env cutoff q k true ((Echo.lefts dry).map (·.map (fun v => (v, v))))
    rw [oneFrom_mono] at h1
    rw [lefts_pairs] at h3
    exact key _ _ _ outs ys rfl rfl (.rlpf _) h1 h2 h3
  | rhpf cutoff q hsr =>
    obtain ⟨outs, ys, h1, h2, h3⟩ := c56_rhpf_partial P N env hsr cutoff q k true ((Echo.lefts dry).map (·.map (fun v => (v, v))))
    rw [oneFrom_mono] at h1
    rw [lefts_pairs] at h3
    exact key _ _ _ outs ys rfl rfl (.rhpf _) h1 h2 h3

theorem law_refs {sr : Nat} {c : Comp} {E : List Fl → List Fl → Prop} (hf : FilterLaw P sr c E) : c.refs = [] ∧ NotesInputs c := by
  cases hf <;> exact ⟨rfl, trivial⟩

end Tone

section
variable {fe : Name → Option Fl} {T : P.ext.State → Prop} {e0 e1 e2 f0 f1 f2 : Engine (glicol P N (Parse.parse fe))}

/-- **C89** for filters (partial): with `onepole`, `lpf` or `rhpf` at the end of the only track both sides play the solution `ys` of the equation of the filter (C56) for
what the left side plays without it (`xs`), from silence and across blocks; the sign of zeros is lost at the output. Missing as in `c89_effect_partial`; for `rhpf` other sample rates
than 44100, to which it pays no attention (C56). -/
theorem c89_filter_partial (hx : ExtShape P N T) (hxf : ExtFirst P) (hm : Libm32 P.libm) (hN : 0 < N)
    (hr : CleanReach _ e0) (hr' : CleanReach _ f0) (heN : e0.N = N) (hfN : f0.N = N)
    (hset : (⟨f0.samples, f0.sr, f0.bpm, f0.seed⟩ : Env) = ⟨e0.samples, e0.sr, e0.bpm, e0.seed⟩) (τ σ : TableOrder) (code code' : Name)
    (A B : Ast Comp) (hparse : Parse.parse fe code = .ok (some A)) (hparse' : Parse.parse fe code' = .ok (some B))
    {k : Name} {comps : List Comp} {c : Comp} (he : AtTheEnd A B k comps c) {E : List Fl → List Fl → Prop} (hf : FilterLaw P e0.sr c E)
    (hc : CleanProg (glicol P N (Parse.parse fe)) A) (hc' : CleanProg (glicol P N (Parse.parse fe)) B)
    (ha : AllNew e0 A) (ha' : AllNew f0 B) (hu : e0.updateWithCode τ code = .ok (e1, none))
    (hu' : f0.updateWithCode σ code' = .ok (f1, none)) (b : Bool)
    (hb : b = true ↔ ['~', 'i', 'n', 'p', 'u', 't'] ∈ e1.index.map Prod.fst)
    (hb' : b = true ↔ ['~', 'i', 'n', 'p', 'u', 't'] ∈ f1.index.map Prod.fst)
    (hfree : FreeOf ByRole A b)
    (steps steps' : List (HashOrder × List Buf)) (outs outs' : List (List Buf)) (hne : steps ≠ [])
    (hin : steps.map Prod.snd = steps'.map Prod.snd)
    (hext : Leads Comp.refs A b (.at ['~', 'i', 'n', 'p', 'u', 't'] 0) .dest →
      ∀ x, x ∈ steps.map Prod.snd → 2 ≤ x.length ∧ ∀ b, b ∈ x.take 2 → ∀ v, v ∈ b → v.Ok f32)
    (h : Plays e1 steps e2 outs) (h' : Plays f1 steps' f2 outs') :
    ∃ xs ys : List Fl, E xs ys ∧ xs.length = outs.length * N ∧ ys.length = outs'.length * N ∧
      (∀ t s, t < outs.length → s < N → ∃ x, xs[t * N + s]? = some x ∧ sampleAt outs t 0 s = some (.fin 0 +. x)) ∧
      ∀ t s ch, t < outs'.length → s < N → ch < 2 → ∃ y, ys[t * N + s]? = some y ∧ sampleAt outs' t ch s = some (.fin 0 +. y) := by
  obtain ⟨i, dry, wet, h1, h2, h3, h4⟩ := c89_effect_partial hx hxf hm hN hr hr' heN hfN hset τ σ code code' A B hparse hparse' he
    (Tone.law_refs hf).1 (Tone.law_refs hf).2 hc hc' ha ha' hu hu' b hb hb' hfree steps steps' outs outs' hne hin hext h h'
  have hl : ∀ o, o ∈ dry → o ≠ [] ∧ (o.headD []).length = N := by
    intro o ho
    obtain ⟨g1, g2⟩ := h3 o ho
    cases o with
    | nil => simp at g1
    | cons x rest => exact ⟨by simp, (g2 x List.mem_cons_self).1⟩
  obtain ⟨w, w1, w2, w3⟩ := Tone.filtered (N := N) (env := ⟨e0.samples, e0.sr, e0.bpm, e0.seed⟩) hf i dry hl
  cases Except.ok.inj (h4.symm.trans w1)
  have hld : ∀ o, o ∈ Echo.lefts dry → o.length = N := by
    intro o ho
    obtain ⟨x, hx, rfl⟩ := List.mem_map.mp ho
    exact (hl x hx).2
  have hlw : ∀ o, o ∈ Echo.lefts wet → o.length = N := by
    intro o ho
    obtain ⟨x, hx, rfl⟩ := List.mem_map.mp ho
    exact (w2 x hx).2
  refine ⟨_, _, w3, ?_, ?_, fun t s ht hs => Echo.left_at h1 hld ht hs, ?_⟩
  · rw [SineOf.flatten_len hld, Echo.lefts, List.length_map, h1.1]
  · rw [SineOf.flatten_len hlw, Echo.lefts, List.length_map, h2.1]
  · intro t s ch ht hs hch
    obtain ⟨y, y1, y2⟩ := Echo.left_at h2 hlw ht hs
    refine ⟨y, y1, ?_⟩
    obtain ⟨z, z1, z2⟩ := h2.2 t ch s ht hch hs
    obtain ⟨o, o1, o2⟩ := Option.bind_eq_some_iff.mp z1
    obtain ⟨l, rfl⟩ := List.length_eq_one_iff.mp (w2 o (List.mem_of_getElem? o1)).1
    obtain ⟨z', z1', z2'⟩ := h2.2 t 0 s ht (by omega) hs
    rw [o1] at z1'
    have : z' = z := Option.some.inj (z1'.symm.trans o2)
    rw [z2, ← y2, z2', this]

end

/-! ### Examples -/

def toneText : Name := c!"~a: imp 22050 >> mul 3\no: ~a >> add 1 >> onepole 0.5"

def toneProg : Ast Comp :=
  [(c!"~a", [.imp (.num (.fin 22050)), .mul (.num (.fin 3))]), (c!"o", [.get c!"~a", .add (.num (.fin 1)), .onepole (.num (.fin (mkRat 1 2)))])]

theorem tone_end : AtTheEnd soloO toneProg c!"o" [.get c!"~a", .add (.num (.fin 1))] (.onepole (.num (.fin (mkRat 1 2)))) := by
  refine ⟨by simp [soloO], by simp [toneProg], ?_, by decide, ?_, ?_⟩
  · intro j cs hj
    simp [soloO, toneProg, hj]
  · exact louder_end.only
  · exact louder_end.unused

/-- A track with and without `onepole 0.5` at its end: the hypotheses of `c89_filter_partial` that are not shown beside `c89_volume_partial` are met. -/
example (fe : Name → Option Fl) :
    parse fe toneText = .ok (some toneProg) ∧ AtTheEnd soloO toneProg c!"o" [.get c!"~a", .add (.num (.fin 1))] (.onepole (.num (.fin (mkRat 1 2)))) ∧
    (∃ E, FilterLaw notePlat (Engine.new (glicol notePlat 2 (parse fe)) 2).sr (.onepole (.num (.fin (mkRat 1 2)))) E) ∧
    CleanProg (glicol notePlat 2 (parse fe)) toneProg ∧ AllNew (Engine.new (glicol notePlat 2 (parse fe)) 2) toneProg ∧
    ∃ e1 e2 outs, (Engine.new (glicol notePlat 2 (parse fe)) 2).updateWithCode .ident toneText = .ok (e1, none) ∧
      Plays e1 (List.replicate 2 (.ident, [])) e2 outs ∧
      ['~', 'i', 'n', 'p', 'u', 't'] ∈ e1.index.map Prod.fst := by
  refine ⟨by kernel_rfl, tone_end, ⟨_, .onepole _⟩, ⟨?_, show _ ∉ toneProg.map Prod.fst by decide⟩,
    fun k comps _ => ⟨[], .inr ⟨rfl, fun a ha => by cases ha⟩, fun _ _ _ ho => by cases ho⟩, ?_⟩
  · have hall : ∀ e ∈ toneProg, Distinct Comp.eq e.2 := by unfold Distinct; decide
    exact fun k c hm => hall (k, c) hm
  · obtain ⟨outs, h⟩ := playsSome_spec (P := notePlat) (N := 2) (parse := parse fe) (code := toneText)
      (steps := List.replicate 2 (.ident, [])) (by kernel_rfl)
    obtain ⟨e1, e2, h⟩ := Demo.playsText_spec h
    exact ⟨e1, e2, outs, h⟩

end Verif.Props
