import Verif.Props.Tone

/-!
# A filter whose cutoff is a chain

C91 for `lpf ~m q` and `rhpf ~m q` at the end of a track: the cutoff in each block is the first sample of what `~m` plays on its own.
-/

namespace Verif.Props
open Verif.Spec Verif.Parse Verif.Double Verif.Part

/-- The coefficients of the filter `c`, whose cutoff comes from the chain `r`, at the sample rate `sr` (C56). -/
inductive CutoffLaw (P : Plat) (sr : Nat) (r : Name) : Comp → (Fl → Coefs) → Prop where
  | lpf (q : Fl) : CutoffLaw P sr r (.lpf (.ref r) q) (fun cutoff => lowPass P.libm sr cutoff q)
  | rhpf (q : Fl) : sr = 44100 → CutoffLaw P sr r (.rhpf (.ref r) q) (fun cutoff => highPass P.libm sr cutoff q)

variable {P : Plat} {N : Nat}

namespace Sweep

/-- The nodes of the filters, which know their two inputs. -/
inductive Node (P : Plat) (n m : Nat) : GNode P → Prop where
  | rhpf (f : Rhpf) : f.order = [n, m] → Node P n m (.prim (.rhpf f))
  | rlpf (f : Rlpf) : f.order = [n, m] → Node P n m (.prim (.rlpf f))

/-- A filter hears the left side of its inputs, in whatever order they come. -/
theorem proc_left {g : GNode P} {n m : Nat} (hg : Node P n m g) (hnm : n ≠ m) {x y : Buf} {xr yr : List Buf} {inp : Ins}
    (hp : inp.Perm [(n, x :: xr), (m, y :: yr)]) (out : List Buf) :
    procG P g inp out = procG P g [(n, [x]), (m, [y])] out := by
  have hi := Combine.inputAt_pair hnm hp
  have hj := Combine.inputAt_pair hnm (List.Perm.refl [(n, [x]), (m, [y])])
  obtain ⟨a, b, rfl⟩ := List.length_eq_two.mp (show inp.length = 2 by rw [hp.length_eq]; rfl)
  cases hg with
  | rhpf f ho =>
    simp only [procG, procPrim, procRhpf, ho, hi, hj, chan, List.getElem?_cons_zero, bind, Except.bind]
  | rlpf f ho =>
    simp only [procG, procPrim, procRlpf, ho, hi, hj, chan, List.getElem?_cons_zero, bind, Except.bind]

/-- A filter has one output, as long as its input. -/
theorem proc_shape {g : GNode P} {n m : Nat} (hg : Node P n m g) (hnm : n ≠ m) {x y : Buf} {out : List Buf} {r : GNode P × List Buf} (ho : out.length = 1)
    (h : procG P g [(n, [x]), (m, [y])] out = .ok r) : Node P n m r.1 ∧ ∃ z, r.2 = [z] ∧ z.length = x.length := by
  have hj := Combine.inputAt_pair hnm (List.Perm.refl [(n, [x]), (m, [y])])
  obtain ⟨o, rfl⟩ := List.length_eq_one_iff.mp ho
  cases hg with
  | rhpf f ho =>
    simp only [procG, procPrim, procRhpf, ho, hj, chan, List.getElem?_cons_zero, bind, Except.bind, reState] at h
    cases hc : firstSample y with
    | error e => rw [hc] at h; cases h
    | ok c =>
      rw [hc] at h
      cases h
      exact ⟨.rhpf _ rfl, _, rfl, run_length _ _ _⟩
  | rlpf f ho =>
    simp only [procG, procPrim, procRlpf, ho, hj, chan, List.getElem?_cons_zero, bind, Except.bind, reState] at h
    cases hc : firstSample y with
    | error e => rw [hc] at h; cases h
    | ok c =>
      rw [hc] at h
      cases h
      exact ⟨.rlpf _ rfl, _, rfl, run_length _ _ _⟩

/-- A filter plays what it plays for the left sides of its inputs. -/
theorem blocks_left {n m : Nat} (hnm : n ≠ m) : ∀ (dry side : List (List Buf)) (inputs : List Ins), dry.length = inputs.length → side.length = inputs.length →
    (∀ o, o ∈ dry → o ≠ [] ∧ (o.headD []).length = N) → (∀ o, o ∈ side → o ≠ []) →
    (∀ (t : Nat) (inp : Ins), inputs[t]? = some inp → ∃ d s, dry[t]? = some d ∧ side[t]? = some s ∧ inp.Perm [(n, d), (m, s)]) →
    ∀ (g : GNode P) (out : List Buf) (r : List (List Buf)), Node P n m g → out.length = 1 →
    runBlocks (procG P) g out (List.zipWith (fun x y => [(n, [x]), (m, [y])]) (Echo.lefts dry) (Echo.lefts side)) = .ok r →
    runBlocks (procG P) g out inputs = .ok r ∧ ∀ o, o ∈ r → o.length = 1 ∧ (o.headD []).length = N
  | [], [], [], _, _, _, _, _, _, _, r, _, _, h => by
    cases h
    exact ⟨rfl, fun _ h => nomatch h⟩
  | [], _, _ :: _, hd, _, _, _, _, _, _, _, _, _, _ => by cases hd
  | _ :: _, _, [], hd, _, _, _, _, _, _, _, _, _, _ => by cases hd
  | _, _ :: _, [], _, hd, _, _, _, _, _, _, _, _, _ => by cases hd
  | _, [], _ :: _, _, hd, _, _, _, _, _, _, _, _, _ => by cases hd
  | d :: dry, s :: side, inp :: inputs, hd, hs, hld, hls, hf, g, out, r, hg, ho, h => by
    obtain ⟨hne, hlen⟩ := hld d List.mem_cons_self
    obtain ⟨x, xr, rfl⟩ := List.exists_cons_of_ne_nil hne
    obtain ⟨y, yr, rfl⟩ := List.exists_cons_of_ne_nil (hls s List.mem_cons_self)
    obtain ⟨d', s', e1, e2, hp⟩ := hf 0 inp rfl
    cases e1
    cases e2
    have e : List.zipWith (fun x y => ([(n, [x]), (m, [y])] : Ins)) (Echo.lefts ((x :: xr) :: dry)) (Echo.lefts ((y :: yr) :: side)) =
      [(n, [x]), (m, [y])] :: List.zipWith (fun x y => [(n, [x]), (m, [y])]) (Echo.lefts dry) (Echo.lefts side) := rfl
    rw [e, runBlocks] at h
    rw [runBlocks, proc_left hg hnm hp]
    cases hp : procG P g [(n, [x]), (m, [y])] out with
    | error e => rw [hp] at h; cases h
    | ok q =>
      obtain ⟨h1, z, h2, h3⟩ := proc_shape hg hnm ho hp
      rw [hp] at h
      simp only at h ⊢
      cases hq : runBlocks (procG P) q.1 q.2 (List.zipWith (fun x y => [(n, [x]), (m, [y])]) (Echo.lefts dry) (Echo.lefts side)) with
      | error e => rw [hq] at h; cases h
      | ok s =>
        rw [hq] at h
        cases h
        obtain ⟨g1, g2⟩ := blocks_left hnm dry side inputs (by simpa using hd) (by simpa using hs)
          (fun o ho => hld o (List.mem_cons_of_mem _ ho)) (fun o ho => hls o (List.mem_cons_of_mem _ ho))
          (fun t inp ht => hf (t + 1) inp ht) q.1 q.2 s h1 (by rw [h2]; rfl) hq
        rw [g1]
        refine ⟨rfl, ?_⟩
        intro o ho
        rcases List.mem_cons.mp ho with rfl | ho
        · rw [h2]
          exact ⟨rfl, h3.trans hlen⟩
        · exact g2 o ho

/-- Two blocks, sample by sample. -/
def pairs (x y : Buf) : List ((Fl × Fl) × (Fl × Fl)) := List.zipWith (fun a b => ((a, a), (b, b))) x y

theorem pairs_len : ∀ {x y : Buf}, x.length = y.length → (pairs x y).length = x.length
  | x, y, h => by simp [pairs, h]

theorem pairs_fst : ∀ {x y : Buf}, x.length = y.length → (pairs x y).map (fun p => p.1.1) = x
  | [], _, _ => rfl
  | _ :: _, [], h => by cases h
  | a :: x, b :: y, h => by
    have := pairs_fst (x := x) (y := y) (by simpa using h)
    simp only [pairs, List.zipWith_cons_cons, List.map_cons] at this ⊢
    rw [this]

theorem pairs_snd : ∀ {x y : Buf}, x.length = y.length → (pairs x y).map (fun p => p.2.1) = y
  | [], [], _ => rfl
  | [], _ :: _, h => by cases h
  | _ :: _, [], h => by cases h
  | a :: x, b :: y, h => by
    have := pairs_snd (x := x) (y := y) (by simpa using h)
    simp only [pairs, List.zipWith_cons_cons, List.map_cons] at this ⊢
    rw [this]

/-- Blocks of pairs. -/
theorem pairs_blocks (n m : Nat) : ∀ (a b : List Buf), a.length = b.length → (∀ x, x ∈ a → x.length = N) → (∀ x, x ∈ b → x.length = N) →
    Sized N (List.zipWith pairs a b) ∧ (List.zipWith pairs a b).flatten.map (fun p => p.1.1) = a.flatten ∧
      (List.zipWith pairs a b).flatten.map (fun p => p.2.1) = b.flatten ∧
      twoFrom false n m true true (List.zipWith pairs a b) = List.zipWith (fun x y => [(n, [x]), (m, [y])]) a b
  | [], [], _, _, _ => ⟨fun _ h => (nomatch h), rfl, rfl, rfl⟩
  | [], _ :: _, h, _, _ => by cases h
  | _ :: _, [], h, _, _ => by cases h
  | x :: a, y :: b, h, ha, hb => by
    obtain ⟨g1, g2, g3, g4⟩ := pairs_blocks n m a b (by simpa using h) (fun x hx => ha x (List.mem_cons_of_mem _ hx))
      (fun x hx => hb x (List.mem_cons_of_mem _ hx))
    have hx := ha x List.mem_cons_self
    have hl : x.length = y.length := hx.trans (hb y List.mem_cons_self).symm
    refine ⟨?_, ?_, ?_, ?_⟩
    · intro p hp
      rcases List.mem_cons.mp hp with rfl | hp
      · rw [pairs_len hl, hx]
      · exact g1 p hp
    · rw [List.zipWith_cons_cons, List.flatten_cons, List.map_append, g2, pairs_fst hl, List.flatten_cons]
    · rw [List.zipWith_cons_cons, List.flatten_cons, List.map_append, g3, pairs_snd hl, List.flatten_cons]
    · have e1 := pairs_fst hl
      have e2 := pairs_snd hl
      simp only [twoFrom, List.zipWith_cons_cons, List.map_cons, bufsOf] at g4 ⊢
      rw [g4]
      simp [Function.comp_def, e1, e2]

/-- What a filter with a cutoff from a chain makes of blocks. -/
theorem filtered (hN : 0 < N) {env : Env} {r : Name} {c : Comp} {co : Fl → Coefs} (hf : CutoffLaw P env.sr r c co) {n m : Nat} (hnm : n ≠ m)
    (dry side : List (List Buf)) (inputs : List Ins) (hd : dry.length = inputs.length) (hs : side.length = inputs.length)
    (hld : ∀ o, o ∈ dry → o ≠ [] ∧ (o.headD []).length = N) (hls : ∀ o, o ∈ side → o ≠ [] ∧ (o.headD []).length = N)
    (hin : ∀ (t : Nat) (inp : Ins), inputs[t]? = some inp → ∃ d s, dry[t]? = some d ∧ side[t]? = some s ∧ inp.Perm [(n, d), (m, s)]) :
    ∃ wet, play P N env c [.index n, .index m] inputs = .ok wet ∧ (∀ o, o ∈ wet → o.length = 1 ∧ (o.headD []).length = N) ∧
      LaggingEq (fun t => co ((Echo.lefts side).flatten.getD (t / N * N) (.fin 0))) (Echo.lefts dry).flatten (Echo.lefts wet).flatten := by
  have lefts_len : ∀ {l : List (List Buf)}, (∀ o, o ∈ l → o ≠ [] ∧ (o.headD []).length = N) → ∀ x, x ∈ Echo.lefts l → x.length = N := by
    intro l hl x hx
    obtain ⟨o, ho, rfl⟩ := List.mem_map.mp hx
    exact (hl o ho).2
  obtain ⟨p1, p2, p3, p4⟩ := pairs_blocks (N := N) n m (Echo.lefts dry) (Echo.lefts side) (by simp [Echo.lefts, hd, hs]) (lefts_len hld) (lefts_len hls)
  have key : ∀ (g0 g : GNode P) (refs : List Name) (outs : List (List Buf)) (ys : List Fl),
      makeNode P N env.samples env.sr env.bpm env.seed c = .ok (fresh N 1 g0, refs) → sendMsgs g0 [.index n, .index m] = .ok g → Node P n m g →
      play P N env c [.index n, .index m] (List.zipWith (fun x y => [(n, [x]), (m, [y])]) (Echo.lefts dry) (Echo.lefts side)) = .ok outs →
      channel 0 outs = some ys → LaggingEq (fun t => co ((Echo.lefts side).flatten.getD (t / N * N) (.fin 0))) (Echo.lefts dry).flatten ys →
      ∃ wet, play P N env c [.index n, .index m] inputs = .ok wet ∧ (∀ o, o ∈ wet → o.length = 1 ∧ (o.headD []).length = N) ∧
        LaggingEq (fun t => co ((Echo.lefts side).flatten.getD (t / N * N) (.fin 0))) (Echo.lefts dry).flatten (Echo.lefts wet).flatten := by
    intro g0 g refs outs ys hmk hmsg hg hp hch hE
    have hrun : runBlocks (procG P) g (fresh N 1 g0).buffers (List.zipWith (fun x y => [(n, [x]), (m, [y])]) (Echo.lefts dry) (Echo.lefts side)) = .ok outs := by
      unfold play at hp
      rw [hmk] at hp
      simp only [show (fresh N 1 g0).node = g0 from rfl, hmsg] at hp
      cases hr : runBlocks (procG P) g (fresh N 1 g0).buffers (List.zipWith (fun x y => [(n, [x]), (m, [y])]) (Echo.lefts dry) (Echo.lefts side)) with
      | error e => rw [hr] at hp; cases hp
      | ok r => rw [hr] at hp; cases hp; rfl
    obtain ⟨h1, h2⟩ := blocks_left hnm dry side inputs hd hs hld (fun o ho => (hls o ho).1) hin g _ outs hg (shaped_fresh N 1 g0).1 hrun
    refine ⟨outs, play_ok hmk hmsg h1, h2, ?_⟩
    rw [SineOf.channel_mono (fun o ho => (h2 o ho).1)] at hch
    rw [Echo.lefts.eq_def outs, Option.some.inj hch]
    exact hE
  cases hf with
  | lpf q =>
    obtain ⟨outs, ys, h1, h2, h3⟩ := c56_lpf_mod_partial P N hN env r q false true true n m hnm _ p1
    rw [p4] at h1
    rw [p2, p3] at h3
    exact key _ _ _ outs ys rfl rfl (.rlpf _ rfl) h1 h2 h3
  | rhpf q hsr =>
    obtain ⟨outs, ys, h1, h2, h3⟩ := c56_rhpf_mod_partial P N hN env hsr r q false true true n m hnm _ p1
    rw [p4] at h1
    rw [p2, p3] at h3
    exact key _ _ _ outs ys rfl rfl (.rhpf _ rfl) h1 h2 h3

theorem plays_len {L : Lang} {e e' : Engine L} {steps : List (HashOrder × List (List L.Num))} {outs : List (List (List L.Num))} (h : Plays e steps e' outs) : outs.length = steps.length := by
  induction h with
  | nil => rfl
  | cons _ _ ih => rw [List.length_cons, List.length_cons, ih]

theorem law_refs {sr : Nat} {r : Name} {c : Comp} {co : Fl → Coefs} (hf : CutoffLaw P sr r c co) : c.refs = [r] ∧ toldRefs c = [r] ∧ NotesInputs c := by
  cases hf <;> exact ⟨rfl, rfl, trivial⟩

end Sweep

section
variable {fe : Name → Option Fl} {T : P.ext.State → Prop} {e0 e1 e2 f0 f1 f2 : Engine (glicol P N (Parse.parse fe))}

/-- **C91** for filters (partial): with `lpf ~r q` or `rhpf ~r q` at the end of the only track both sides play the solution `ys` of the equation of the filter (C56) for what the
left side plays without it (`xs`), where the cutoff of each block is the first sample, on the left, of what `~r` plays on its own (`cs`) in this block; the sign of zeros is lost at
the outputs. Missing as in `c91_effect_partial`, and for `rhpf` other sample rates than 44100, to which it pays no attention (C56). -/
theorem c91_filter_partial (hx : ExtShape P N T) (hxf : ExtFirst P) (hm : Libm32 P.libm) (hN : 0 < N)
    (hr : CleanReach _ e0) (hr' : CleanReach _ f0) (heN : e0.N = N) (hfN : f0.N = N)
    (hset : (⟨f0.samples, f0.sr, f0.bpm, f0.seed⟩ : Env) = ⟨e0.samples, e0.sr, e0.bpm, e0.seed⟩) (τ σ : TableOrder) (code code' : Name)
    (A B : Ast Comp) (hparse : Parse.parse fe code = .ok (some A)) (hparse' : Parse.parse fe code' = .ok (some B))
    {k r : Name} {comps : List Comp} {c : Comp} (he : AtTheEnd A B k comps c) {co : Fl → Coefs} (hf : CutoffLaw P f0.sr r c co)
    (hplain : '.' ∉ r ∧ r ≠ k)
    (hc : CleanProg (glicol P N (Parse.parse fe)) A) (hc' : CleanProg (glicol P N (Parse.parse fe)) B)
    (ha : AllNew e0 A) (ha' : AllNew f0 B) (hu : e0.updateWithCode τ code = .ok (e1, none))
    (hu' : f0.updateWithCode σ code' = .ok (f1, none)) (b : Bool)
    (hb : b = true ↔ ['~', 'i', 'n', 'p', 'u', 't'] ∈ e1.index.map Prod.fst)
    (hb' : b = true ↔ ['~', 'i', 'n', 'p', 'u', 't'] ∈ f1.index.map Prod.fst)
    (hfree : FreeOf ByRole A b)
    (steps steps' : List (HashOrder × List Buf)) (outs outs' : List (List Buf)) (hne : steps ≠ [])
    (hin : steps.map Prod.snd = steps'.map Prod.snd)
    (hext : Leads Comp.refs A b (.at ['~', 'i', 'n', 'p', 'u', 't'] 0) .dest →
      ∀ x, x ∈ steps.map Prod.snd → 2 ≤ x.length ∧ ∀ b, b ∈ x.take 2 → ∀ v, v ∈ b → v.Ok f32)
    (h : Plays e1 steps e2 outs) (h' : Plays f1 steps' f2 outs') (own : List (List Buf))
    (hown : PlaysOnItsOwn P N fe ⟨f0.samples, f0.sr, f0.bpm, f0.seed⟩ b (steps.map Prod.snd) B r own) :
    ∃ xs cs ys : List Fl, LaggingEq (fun t => co (cs.getD (t / N * N) (.fin 0))) xs ys ∧
      xs.length = outs.length * N ∧ cs.length = own.length * N ∧ ys.length = outs'.length * N ∧
      (∀ t s, t < outs.length → s < N → ∃ x, xs[t * N + s]? = some x ∧ sampleAt outs t 0 s = some (.fin 0 +. x)) ∧
      (∀ t s, t < own.length → s < N → ∃ x, cs[t * N + s]? = some x ∧ sampleAt own t 0 s = some (.fin 0 +. x)) ∧
      ∀ t s ch, t < outs'.length → s < N → ch < 2 → ∃ y, ys[t * N + s]? = some y ∧ sampleAt outs' t ch s = some (.fin 0 +. y) := by
  obtain ⟨hrefs, htold, hnotes⟩ := Sweep.law_refs hf
  have hone : ∀ s, s ∈ c.refs → s = r := fun s hs => by rw [hrefs] at hs; exact List.mem_singleton.mp hs
  obtain ⟨n, num, dry, side, inputs, wet, d1, -, d3, d4, d5, d6, d7, d8, d9⟩ := c91_effect_partial hx hxf hm hN hr hr' heN hfN hset τ σ code code' A B hparse hparse' he
    hnotes (fun s hs => by rw [hone s hs]; exact hplain) hc hc' ha ha' hu hu' b hb hb' hfree steps steps' outs outs' hne hin hext h h' (fun _ => own)
    (fun s hs => by rw [hone s hs]; exact hown)
  have hmem : r ∈ c.refs := by rw [hrefs]; exact List.mem_singleton_self _
  have hfirst : firsts c.refs = [r] := by rw [hrefs]; rfl
  rw [hfirst, List.map_singleton, List.map_singleton] at d8
  rw [htold, List.map_singleton] at d9
  obtain ⟨s1, s2⟩ := d5 r hmem
  have hd : dry.length = inputs.length := (d3.1.trans (Sweep.plays_len h)).trans d7.symm
  have hs : (side r).length = inputs.length := by
    obtain ⟨_, _, _, _, _, _, _, ss, _, _, _, _, _, _, _, _, _, _, _, i11, i12⟩ := hown
    have := congrArg List.length i11
    rw [List.length_map, List.length_map] at this
    exact ((s1.1.trans (Sweep.plays_len i12)).trans this).trans d7.symm
  have shape : ∀ {l : List (List Buf)}, (∀ x, x ∈ l → (x.length = 1 ∨ x.length = 2) ∧ ∀ b, b ∈ x → b.length = N ∧ ∀ v, v ∈ b → v.Ok f32) →
      (∀ o, o ∈ l → o ≠ [] ∧ (o.headD []).length = N) ∧ ∀ o, o ∈ Echo.lefts l → o.length = N := by
    intro l hl
    have : ∀ o, o ∈ l → o ≠ [] ∧ (o.headD []).length = N := by
      intro o ho
      obtain ⟨g1, g2⟩ := hl o ho
      cases o with
      | nil => simp at g1
      | cons x rest => exact ⟨by simp, (g2 x List.mem_cons_self).1⟩
    refine ⟨this, fun o ho => ?_⟩
    obtain ⟨x, hx, rfl⟩ := List.mem_map.mp ho
    exact (this x hx).2
  obtain ⟨w, w1, w2, w3⟩ := Sweep.filtered hN (env := ⟨f0.samples, f0.sr, f0.bpm, f0.seed⟩) hf (Ne.symm (d1 r hmem)) dry (side r) inputs hd hs (shape d4).1 (shape s2).1
    (fun t inp ht => by
      obtain ⟨bufs, c1, c2⟩ := d8 t inp ht
      cases c1 with
      | cons h1 hr =>
        cases hr with
        | cons h2 hr =>
          cases hr
          exact ⟨_, _, h1, h2, c2⟩)
  cases Except.ok.inj (d9.symm.trans w1)
  have hlw : ∀ o, o ∈ Echo.lefts wet → o.length = N := by
    intro o ho
    obtain ⟨x, hx, rfl⟩ := List.mem_map.mp ho
    exact (w2 x hx).2
  refine ⟨_, _, _, w3, ?_, ?_, ?_, fun t s ht hs => Echo.left_at d3 (shape d4).2 ht hs, fun t s ht hs => Echo.left_at s1 (shape s2).2 ht hs, ?_⟩
  · rw [SineOf.flatten_len (shape d4).2, Echo.lefts, List.length_map, d3.1]
  · rw [SineOf.flatten_len (shape s2).2, Echo.lefts, List.length_map, s1.1]
  · rw [SineOf.flatten_len hlw, Echo.lefts, List.length_map, d6.1]
  · intro t s ch ht hs hch
    obtain ⟨y, y1, y2⟩ := Echo.left_at d6 hlw ht hs
    refine ⟨y, y1, ?_⟩
    obtain ⟨z, z1, z2⟩ := d6.2 t ch s ht hch hs
    obtain ⟨o, o1, o2⟩ := Option.bind_eq_some_iff.mp z1
    obtain ⟨l, rfl⟩ := List.length_eq_one_iff.mp (w2 o (List.mem_of_getElem? o1)).1
    obtain ⟨z', z1', z2'⟩ := d6.2 t 0 s ht (by omega) hs
    rw [o1] at z1'
    have : z' = z := Option.some.inj (z1'.symm.trans o2)
    rw [z2, ← y2, z2', this]

end

/-- The filter `rhpf ~m 1.0` of the example beside `c91_effect_partial` meets the hypotheses of `c91_filter_partial` as well: a new engine runs at 44100 samples per second. -/
example (fe : Name → Option Fl) :
    CutoffLaw notePlat (Engine.new (glicol notePlat 2 (parse fe)) 2).sr c!"~m" (.rhpf (.ref c!"~m") (.fin 1)) (fun cutoff => highPass notePlat.libm 44100 cutoff (.fin 1)) ∧
    AtTheEnd leftProg cutProg c!"o" [.get c!"~a", .add (.num (.fin 1))] (.rhpf (.ref c!"~m") (.fin 1)) ∧ '.' ∉ c!"~m" ∧ c!"~m" ≠ c!"o" ∧
    PlaysOnItsOwn notePlat 2 fe ⟨[], (Engine.new (glicol notePlat 2 (parse fe)) 2).sr, (Engine.new (glicol notePlat 2 (parse fe)) 2).bpm,
      (Engine.new (glicol notePlat 2 (parse fe)) 2).seed⟩ true (List.replicate 2 []) cutProg c!"~m" (List.replicate 2 [[.fin 5, .fin 2], [.fin 5, .fin 2]]) :=
  ⟨.rhpf _ rfl, cut_end, by decide, by decide, m_own fe (m_heard rfl)⟩

end Verif.Props
