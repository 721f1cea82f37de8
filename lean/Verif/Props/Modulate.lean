import Verif.Props.Mixing
import Verif.Props.SeqRef

/-!
# What a component hears of a reference

C91: a component hears of a chain that it names what this chain plays on its own.
-/

namespace Verif.Props
open Verif.Spec Verif.Parse Verif.Double Verif.Part

variable {P : Plat} {N : Nat}

namespace Modulate

theorem firsts_nodup : ∀ l : List Name, (firsts l).Nodup
  | [] => .nil
  | a :: l => by
    rw [firsts, List.nodup_cons]
    exact ⟨fun h => by simp at h, (firsts_nodup l).filter _⟩

section
variable {parse : Name → Except Panic (Option (Ast Comp))} {e0 e1 : Engine (glicol P N parse)}
  {all : Ast Comp} {b : Bool} {exts : List (List Buf)} {start : Place → List Buf} {sig : Place → List (List Buf)}

theorem ref_places (hw : ProgWf all) (hin : ['~', 'i', 'n', 'p', 'u', 't'] ∉ all.map Prod.fst) {en : Name → Nat} {refs : List Name}
    {qs : List Place} (h : RefPlaces all b refs qs) (hen : ∀ r, r ∈ refs → '.' ∉ r ∧ Chain all b r (en r + 1)) :
    qs = refs.map (fun r => .at r (en r)) := by
  induction h with
  | nil => rfl
  | @named r n rs qs _ hc _ ih =>
    have := chain_unique hw hin hc (hen r List.mem_cons_self).2
    cases this
    rw [ih (fun s hs => hen s (List.mem_cons_of_mem _ hs))]
    rfl
  | @pattern base l rs qs _ _ _ _ _ =>
    exact absurd (by simp) (hen _ List.mem_cons_self).1

theorem sits_numbers {f : Name → Place} {num : Place → Nat} (hnum : ∀ p n q m, Sits e1 p n → Sits e1 q m → (p = q ↔ n = m)) :
    ∀ {refs : List Name} {srcs : List Nat}, List.Forall₂ (Sits e1) (refs.map f) srcs → (∀ r, r ∈ refs → Sits e1 (f r) (num (f r))) →
      srcs = refs.map (fun r => num (f r))
  | [], _, h, _ => by cases h; rfl
  | r :: refs, _, h, hs => by
    cases h with
    | cons h1 h2 =>
      rw [sits_numbers hnum h2 (fun s hm => hs s (List.mem_cons_of_mem _ hm)), (hnum _ _ _ _ h1 (hs r List.mem_cons_self)).mp rfl]
      rfl

/-- What a component plays, whose sources do not depend on it: the places `before` (at most one, the left neighbour) and the ends of the chains it names. -/
theorem component_hears (h : Sounds e0 e1 all b exts start sig) (hne : exts ≠ []) (hw : ProgWf all)
    (hin : ['~', 'i', 'n', 'p', 'u', 't'] ∉ all.map Prod.fst) (ha : AllNew e0 all) {k : Name} {comps : List Comp} {i : Nat} {c : Comp}
    (hk : (k, comps) ∈ all) (hi : comps[i]? = some c) (hn : NotesInputs c) (hlead : Leads Comp.refs all b (.at k i) .dest)
    (hloop : ∀ q, Flow Comp.refs all b q (.at k i) → ¬ Leads Comp.refs all b (.at k i) q)
    {en : Name → Nat} (hen : ∀ r, r ∈ c.refs → '.' ∉ r ∧ Chain all b r (en r + 1)) {before : List Place}
    (hbef : ∀ q, q ∈ before ↔ ∃ j, i = j + 1 ∧ q = .at k j) (hbn : before.Nodup) (hself : ∀ r, r ∈ c.refs → Place.at r (en r) ∉ before) :
    ∃ (num : Place → Nat) (inputs : List Ins), inputs.length = exts.length ∧
      ((before ++ (firsts c.refs).map (fun r => Place.at r (en r))).map num).Nodup ∧
      FedBy ((before ++ (firsts c.refs).map (fun r => Place.at r (en r))).map num)
        ((before ++ (firsts c.refs).map (fun r => Place.at r (en r))).map sig) inputs ∧
      play P N ⟨e0.samples, e0.sr, e0.bpm, e0.seed⟩ c
        ((before.map num ++ (toldRefs c).map (fun r => num (.at r (en r)))).map .index) inputs = .ok (sig (.at k i)) := by
  obtain ⟨old, o1, o2⟩ := ha k _ hk
  obtain ⟨refs, qs, srcs, left, inputs, r1, r2, r3, r4, r5, r6, r7, _, r9⟩ :=
    h.component k _ i c old hk hi hlead o1 (o2 c (List.mem_of_getElem? hi))
  obtain ⟨Q, q1, q2, num, q3, q4⟩ := run_inputs h r6 hne hloop r7
  have hmem : ∀ q, q ∈ before ++ (firsts c.refs).map (fun r => Place.at r (en r)) ↔ q ∈ Q := by
    intro q
    rw [q2, flow_into hw hk hi, List.mem_append, hbef, List.mem_map]
    refine or_congr Iff.rfl ?_
    constructor
    · rintro ⟨r, hr, rfl⟩
      rw [firsts_mem] at hr
      exact ⟨r, r, en r, hr, .named (hen r hr).1, (hen r hr).2, rfl⟩
    · rintro ⟨s, r, n, h1, h2, h3, rfl⟩
      obtain rfl := Parted.means_plain h2 (hen s h1).1
      cases chain_unique hw hin h3 (hen r h1).2
      exact ⟨r, firsts_mem.mpr h1, rfl⟩
  have hnd : (before ++ (firsts c.refs).map (fun r => Place.at r (en r))).Nodup := by
    refine List.nodup_append'.mpr ⟨hbn, (firsts_nodup _).map (fun r r' he => by injection he), ?_⟩
    intro q h1 h2
    obtain ⟨r, hr, rfl⟩ := List.mem_map.mp h2
    exact hself r (firsts_mem.mp hr) h1
  obtain ⟨f1, f2⟩ := q4 _ ((List.perm_ext_iff_of_nodup hnd q1).mpr hmem)
  refine ⟨num, inputs, r6, f1, f2, ?_⟩
  have hqs := ref_places hw hin r3 (fun r hr => hen r ((r1 r).mp hr))
  subst hqs
  have hsit : ∀ r, r ∈ refs → Sits e1 (.at r (en r)) (num (.at r (en r))) := fun r hr =>
    q3 _ ((hmem _).mp (List.mem_append_right _ (List.mem_map.mpr ⟨r, firsts_mem.mpr ((r1 r).mp hr), rfl⟩)))
  have hsrcs := sits_numbers h.numbers r4 hsit
  have hleft : left.toList = before.map num := by
    match before, hbef, hbn, hmem with
    | [], hbef, _, _ =>
      cases left with
      | none => rfl
      | some n =>
        obtain ⟨j, hj, _⟩ := (r5 n).mp rfl
        exact absurd ((hbef _).mpr ⟨j, hj, rfl⟩) (by simp)
    | [q], hbef, _, hmem =>
      obtain ⟨j, hj, rfl⟩ := (hbef q).mp (by simp)
      have := (r5 _).mpr ⟨j, hj, q3 _ ((hmem _).mp (by simp))⟩
      rw [this]
      rfl
    | q :: q' :: l, hbef, hbn, _ =>
      obtain ⟨j, hj, rfl⟩ := (hbef q).mp (by simp)
      obtain ⟨j', hj', rfl⟩ := (hbef q').mp (by simp)
      have : j = j' := by omega
      subst this
      simp at hbn
  have := r9 hn
  rw [hleft, hsrcs, r2] at this
  exact this

end

end Modulate

variable {fe : Name → Option Fl} {T : P.ext.State → Prop} {e0 e1 e2 f0 f1 f2 : Engine (glicol P N (Parse.parse fe))}

/-- The signal of a chain in the text `all` is what it plays on its own. -/
theorem Modulate.own_signal (hx : ExtShape P N T) (hxf : ExtFirst P) (hm : Libm32 P.libm) (hN : 0 < N) {all : Ast Comp} {b : Bool}
    {exts : List (List Buf)} {start : Place → List Buf} {sig : Place → List (List Buf)} (hs : Sounds f0 f1 all b exts start sig)
    (hne : exts ≠ []) (hw : ProgWf all) (hin : ['~', 'i', 'n', 'p', 'u', 't'] ∉ all.map Prod.fst) (ha : AllNew f0 all) {r : Name}
    (hr : '.' ∉ r) {own : List (List Buf)} (hown : PlaysOnItsOwn P N fe ⟨f0.samples, f0.sr, f0.bpm, f0.seed⟩ b exts all r own) :
    ∃ n, Chain all b r (n + 1) ∧ (Leads Comp.refs all b (.at r n) .dest → OutputOf N (sig (.at r n)) own ∧
      ∀ x, x ∈ sig (.at r n) → (x.length = 1 ∨ x.length = 2) ∧ ∀ b, b ∈ x → b.length = N ∧ ∀ v, v ∈ b → v.Ok f32) := by
  obtain ⟨g0, g1, g2, σ, code', g, solo, steps', i1, i2, i3, i4, i5, i6, i7, i8, i9, i10, i13, i11, i12⟩ := hown
  obtain ⟨start', sig', he, hs'⟩ := c49_texts_sound_as_written_partial hx i1 i2 σ code' solo i4 i6 i9 steps' _ i12 b i10
  rw [i11] at hs'
  have hw' := glicol_parserWf P N fe code' solo i4
  obtain ⟨n, hch'⟩ := Combine.heard_end (b := b) i5 hw'
  refine ⟨n, Combine.heard_chain i5 (Combine.heard_ne i5 hr) hch', fun hlr => ?_⟩
  obtain ⟨dup, ok⟩ := Combine.heard_same hx hxf hm hN i5 hr hw' i6.noInput hw hin hch' hlr hs' hs hne i3.symm
    (Parse.sg_parse i4) i7 ha i8 i13
  have out' := Effect.output_one hs' (fun q => Combine.heard_out i5 hw' i6.noInput)
  have hlen' := hs'.length .dest (.refl _)
  subst he
  refine ⟨⟨by rw [hs.length _ hlr, hlen'], ?_⟩, fun x hx => ⟨(hs.shape _ hlr x hx).1, ok x hx⟩⟩
  intro t ch s ht hch hsN
  obtain ⟨o, w, w1, w2, w3⟩ := Combine.heard_sample dup out' (t := t) (ch := ch) (s := s) ht hch hsN
  exact ⟨w, by rw [w1]; exact w2, w3⟩

/-- **C91** (partial). A text whose only track is one component `c`, which may name any number of chains, is sent to an engine for which its components are new. It
plays what `c` alone plays (`wet`), when it is told the chains in the order in which it names them, and hears of each the signal (`side`)
that this chain plays on its own (`PlaysOnItsOwn`), up to the sign of zeros (`OutputOf`). Each chain is heard once, even if it is named twice.
Missing: feedback, references to several chains at once (as `~a..`; for `mix` see C90), components kept from an earlier text, `~input`. -/
theorem c91_source_partial (hx : ExtShape P N T) (hxf : ExtFirst P) (hm : Libm32 P.libm) (hN : 0 < N)
    (hr : CleanReach _ f0) (hfN : f0.N = N) (τ : TableOrder) (code : Name) (all : Ast Comp) (hparse : Parse.parse fe code = .ok (some all))
    {k : Name} {c : Comp} (ho : OneTrack all k c) (hn : NotesInputs c) (hplain : ∀ r, r ∈ c.refs → '.' ∉ r)
    (hc : CleanProg (glicol P N (Parse.parse fe)) all) (ha : AllNew f0 all) (hu : f0.updateWithCode τ code = .ok (f1, none)) (b : Bool)
    (hb : b = true ↔ ['~', 'i', 'n', 'p', 'u', 't'] ∈ f1.index.map Prod.fst)
    (steps : List (HashOrder × List Buf)) (outs : List (List Buf)) (hne : steps ≠ []) (h : Plays f1 steps f2 outs) (own : Name → List (List Buf))
    (hown : ∀ r, r ∈ c.refs → PlaysOnItsOwn P N fe ⟨f0.samples, f0.sr, f0.bpm, f0.seed⟩ b (steps.map Prod.snd) all r (own r)) :
    ∃ (num : Name → Nat) (side : Name → List (List Buf)) (inputs : List Ins) (wet : List (List Buf)),
      (∀ r r', r ∈ c.refs → r' ∈ c.refs → num r = num r' → r = r') ∧
      (∀ r, r ∈ c.refs → OutputOf N (side r) (own r) ∧
        ∀ x, x ∈ side r → (x.length = 1 ∨ x.length = 2) ∧ ∀ b, b ∈ x → b.length = N ∧ ∀ v, v ∈ b → v.Ok f32) ∧
      OutputOf N wet outs ∧ inputs.length = steps.length ∧ FedBy ((firsts c.refs).map num) ((firsts c.refs).map side) inputs ∧
      play P N ⟨f0.samples, f0.sr, f0.bpm, f0.seed⟩ c ((toldRefs c).map (fun r => .index (num r))) inputs = .ok wet := by
  obtain ⟨start, sig, rfl, hs⟩ := c49_texts_sound_as_written_partial hx hr hfN τ code all hparse hc hu steps outs h b hb
  have hw := glicol_parserWf P N fe code all hparse
  have hne' : steps.map Prod.snd ≠ [] := by simpa using hne
  have hlead : Leads Comp.refs all b (.at k 0) .dest := .step ((Combine.one_out ho hw hc.noInput).mpr rfl) (.refl _)
  have hen : ∀ r, ∃ n, r ∈ c.refs → Chain all b r (n + 1) ∧ (Leads Comp.refs all b (.at r n) .dest → OutputOf N (sig (.at r n)) (own r) ∧
      ∀ x, x ∈ sig (.at r n) → (x.length = 1 ∨ x.length = 2) ∧ ∀ b, b ∈ x → b.length = N ∧ ∀ v, v ∈ b → v.Ok f32) := by
    intro r
    by_cases hr : r ∈ c.refs
    · obtain ⟨n, hn⟩ := Modulate.own_signal hx hxf hm hN hs hne' hw hc.noInput ha (hplain r hr) (hown r hr)
      exact ⟨n, fun _ => hn⟩
    · exact ⟨0, fun h => absurd h hr⟩
  choose en hen using hen
  have hloop : ∀ q, Flow Comp.refs all b q (.at k 0) → ¬ Leads Comp.refs all b (.at k 0) q := by
    intro q hf hl
    rcases Combine.one_leads ho hw hc.noInput hl with rfl | rfl
    · rw [flow_into hw ho.now rfl] at hf
      rcases hf with ⟨j, hj, _⟩ | ⟨s, k', l, g1, g2, _, g4⟩
      · cases hj
      · injection g4 with g4 _
        subst g4
        exact ho.unused _ _ _ _ ho.now (List.mem_singleton.mpr rfl) g1 g2
    · obtain ⟨_, _, _, h, _⟩ := source_at hf
      cases h
  obtain ⟨num, inputs, h1, h2, h3, h4⟩ := Modulate.component_hears hs hne' hw hc.noInput ha ho.now (i := 0) rfl hn hlead hloop
    (en := en) (fun r hr => ⟨hplain r hr, (hen r hr).1⟩) (before := []) (fun q => ⟨fun h => (by cases h), fun ⟨j, hj, _⟩ => by omega⟩) .nil
    (fun _ _ h => by cases h)
  rw [List.nil_append] at h2 h3
  rw [List.map_map] at h2
  rw [List.map_map, List.map_map] at h3
  refine ⟨fun r => num (.at r (en r)), fun r => sig (.at r (en r)), inputs, sig (.at k 0), ?_, ?_,
    Effect.output_one hs (fun q => Combine.one_out ho hw hc.noInput), by rw [h1, List.length_map], h3, ?_⟩
  · intro r r' g1 g2 g3
    exact List.inj_on_of_nodup_map h2 (firsts_mem.mpr g1) (firsts_mem.mpr g2) g3
  · intro r hr
    exact (hen r hr).2 (.step (.ref ho.now (i := 0) (c := c) rfl hr (.named (hplain r hr)) (hen r hr).1) hlead)
  · rw [List.map_nil, List.nil_append, List.map_map] at h4
    exact h4

/-- **C91** for a component at the end of a track (partial). Two texts, of which the second has a component `c` at the end of the only track of the first
(`AtTheEnd`), sent to two engines with the same settings, for which the components are new. The second plays what `c` alone plays (`wet`) when it hears what the first text plays
(`dry`) and of each chain that it names what this chain plays on its own (`side`); it is told the track before the chains. Missing as in `c91_source_partial`. -/
theorem c91_effect_partial (hx : ExtShape P N T) (hxf : ExtFirst P) (hm : Libm32 P.libm) (hN : 0 < N)
    (hr : CleanReach _ e0) (hr' : CleanReach _ f0) (heN : e0.N = N) (hfN : f0.N = N)
    (hset : (⟨f0.samples, f0.sr, f0.bpm, f0.seed⟩ : Env) = ⟨e0.samples, e0.sr, e0.bpm, e0.seed⟩) (τ σ : TableOrder) (code code' : Name)
    (A B : Ast Comp) (hparse : Parse.parse fe code = .ok (some A)) (hparse' : Parse.parse fe code' = .ok (some B))
    {k : Name} {comps : List Comp} {c : Comp} (he : AtTheEnd A B k comps c) (hn : NotesInputs c) (hplain : ∀ r, r ∈ c.refs → '.' ∉ r ∧ r ≠ k)
    (hc : CleanProg (glicol P N (Parse.parse fe)) A) (hc' : CleanProg (glicol P N (Parse.parse fe)) B)
    (ha : AllNew e0 A) (ha' : AllNew f0 B) (hu : e0.updateWithCode τ code = .ok (e1, none))
    (hu' : f0.updateWithCode σ code' = .ok (f1, none)) (b : Bool)
    (hb : b = true ↔ ['~', 'i', 'n', 'p', 'u', 't'] ∈ e1.index.map Prod.fst)
    (hb' : b = true ↔ ['~', 'i', 'n', 'p', 'u', 't'] ∈ f1.index.map Prod.fst)
    (hfree : FreeOf ByRole A b)
    (steps steps' : List (HashOrder × List Buf)) (outs outs' : List (List Buf)) (hne : steps ≠ [])
    (hin : steps.map Prod.snd = steps'.map Prod.snd)
    (hext : Leads Comp.refs A b (.at ['~', 'i', 'n', 'p', 'u', 't'] 0) .dest →
      ∀ x, x ∈ steps.map Prod.snd → 2 ≤ x.length ∧ ∀ b, b ∈ x.take 2 → ∀ v, v ∈ b → v.Ok f32)
    (h : Plays e1 steps e2 outs) (h' : Plays f1 steps' f2 outs') (own : Name → List (List Buf))
    (hown : ∀ r, r ∈ c.refs → PlaysOnItsOwn P N fe ⟨f0.samples, f0.sr, f0.bpm, f0.seed⟩ b (steps.map Prod.snd) B r (own r)) :
    ∃ (n : Nat) (num : Name → Nat) (dry : List (List Buf)) (side : Name → List (List Buf)) (inputs : List Ins) (wet : List (List Buf)),
      (∀ r, r ∈ c.refs → num r ≠ n) ∧ (∀ r r', r ∈ c.refs → r' ∈ c.refs → num r = num r' → r = r') ∧
      OutputOf N dry outs ∧ (∀ x, x ∈ dry → (x.length = 1 ∨ x.length = 2) ∧ ∀ b, b ∈ x → b.length = N ∧ ∀ v, v ∈ b → v.Ok f32) ∧
      (∀ r, r ∈ c.refs → OutputOf N (side r) (own r) ∧
        ∀ x, x ∈ side r → (x.length = 1 ∨ x.length = 2) ∧ ∀ b, b ∈ x → b.length = N ∧ ∀ v, v ∈ b → v.Ok f32) ∧
      OutputOf N wet outs' ∧ inputs.length = steps.length ∧
      FedBy (n :: (firsts c.refs).map num) (dry :: (firsts c.refs).map side) inputs ∧
      play P N ⟨f0.samples, f0.sr, f0.bpm, f0.seed⟩ c (.index n :: (toldRefs c).map (fun r => .index (num r))) inputs = .ok wet := by
  obtain ⟨start0, sig0, rfl, hs0⟩ := c49_texts_sound_as_written_partial hx hr heN τ code A hparse hc hu steps outs h b hb
  obtain ⟨start, sig, rfl, hs⟩ := c49_texts_sound_as_written_partial hx hr' hfN σ code' B hparse' hc' hu' steps' outs' h' b hb'
  rw [← hin] at hs
  have hwA := glicol_parserWf P N fe code A hparse
  have hw := glicol_parserWf P N fe code' B hparse'
  have hne' : steps.map Prod.snd ≠ [] := by simpa using hne
  have hpos : 0 < comps.length := List.length_pos_iff.mpr (hwA.2 _ _ he.was)
  have hi : (comps ++ [c])[comps.length]? = some c := by simp
  have hlead : Leads Comp.refs B b (.at k comps.length) .dest := .step ((Effect.out_wet he hw hc'.noInput).mpr rfl) (.refl _)
  have hmk : ∀ s, s ∈ c.refs → ¬ Means s k := fun s hs hmn => (hplain s hs).2 (Parted.means_plain hmn (hplain s hs).1).symm
  have hfk : Flow Comp.refs A b (.at k (comps.length - 1)) .dest := (Effect.out_dry he hwA hc.noInput).mpr rfl
  have same := Combine.sub_same hx hxf hm hN hw hc'.noInput hs0 hs hne' hset (Parse.sg_parse hparse) ha ha' hfree hext
    (S := fun p => p ≠ .dest ∧ Leads Comp.refs A b p .dest)
    (fun p hp => ⟨hp.1, hp.2, Combine.wet_leads he hwA hw hc.noInput hc'.noInput hp.2⟩)
    (fun q p hp hf => ⟨by (rintro rfl; obtain ⟨_, _, _, h, _⟩ := source_at hf; cases h), .step hf hp.2⟩)
    (fun p hp q => Effect.end_flow he hwA hw hc.noInput hc'.noInput hp.1 hp.2 q)
    (fun j cs i d _ hk hi => by
      obtain ⟨cs', h1, h2, -, -⟩ := Effect.comp_up he hwA hk hi
      exact ⟨cs', h1, h2⟩)
    (fun j cs i d s m _ hk hi hsr hdot hcc => Effect.chain_up he (by
      rintro rfl
      exact he.unused _ _ _ _ hk (List.mem_of_getElem? hi) hsr (.named hdot)) hcc)
    (.at k (comps.length - 1)) ⟨by simp, .step hfk (.refl _)⟩
  have ok0 := places_single hxf hm hs0 hne' (Parse.sg_parse hparse) ha hfree hext _ _ hfk (.refl _)
  have hen : ∀ r, ∃ n, r ∈ c.refs → Chain B b r (n + 1) ∧ (Leads Comp.refs B b (.at r n) .dest → OutputOf N (sig (.at r n)) (own r) ∧
      ∀ x, x ∈ sig (.at r n) → (x.length = 1 ∨ x.length = 2) ∧ ∀ b, b ∈ x → b.length = N ∧ ∀ v, v ∈ b → v.Ok f32) := by
    intro r
    by_cases hr : r ∈ c.refs
    · obtain ⟨n, hn⟩ := Modulate.own_signal hx hxf hm hN hs hne' hw hc'.noInput ha' (hplain r hr).1 (hown r hr)
      exact ⟨n, fun _ => hn⟩
    · exact ⟨0, fun h => absurd h hr⟩
  choose en hen using hen
  have hloop : ∀ q, Flow Comp.refs B b q (.at k comps.length) → ¬ Leads Comp.refs B b (.at k comps.length) q := by
    intro q hf hl
    rcases Combine.end_leads_out he hw hc'.noInput hmk hl with rfl | rfl
    · rw [flow_into hw he.now hi] at hf
      rcases hf with ⟨j, hj, h2⟩ | ⟨s, k', l, g1, g2, _, g4⟩
      · injection h2 with _ h2
        omega
      · injection g4 with g4 _
        subst g4
        exact hmk s g1 g2
    · obtain ⟨_, _, _, h, _⟩ := source_at hf
      cases h
  obtain ⟨num, inputs, h1, h2, h3, h4⟩ := Modulate.component_hears hs hne' hw hc'.noInput ha' he.now hi hn hlead hloop
    (en := en) (fun r hr => ⟨(hplain r hr).1, (hen r hr).1⟩) (before := [.at k (comps.length - 1)])
    (fun q => by
      rw [List.mem_singleton]
      constructor
      · rintro rfl
        exact ⟨comps.length - 1, by omega, rfl⟩
      · rintro ⟨j, hj, rfl⟩
        rw [hj, Nat.add_sub_cancel])
    (List.nodup_singleton _)
    (fun r hr hm => by
      rw [List.mem_singleton] at hm
      injection hm with h1 _
      exact (hplain r hr).2 h1)
  rw [List.singleton_append, List.map_cons, List.map_map] at h2 h3
  rw [List.map_cons, List.map_map] at h3
  rw [List.nodup_cons] at h2
  refine ⟨num (.at k (comps.length - 1)), fun r => num (.at r (en r)), sig0 (.at k (comps.length - 1)), fun r => sig (.at r (en r)), inputs,
    sig (.at k comps.length), ?_, ?_, Effect.output_one hs0 (fun q => Effect.out_dry he hwA hc.noInput), ?_, ?_,
    Effect.output_one hs (fun q => Effect.out_wet he hw hc'.noInput), by rw [h1, List.length_map], ?_, ?_⟩
  · intro r hr hnum
    exact h2.1 (List.mem_map.mpr ⟨r, firsts_mem.mpr hr, hnum⟩)
  · intro r r' g1 g2 g3
    exact List.inj_on_of_nodup_map h2.2 (firsts_mem.mpr g1) (firsts_mem.mpr g2) g3
  · intro x hx
    obtain ⟨s1, s2⟩ := hs0.shape _ (.step hfk (.refl _)) x hx
    exact ⟨s1, fun b hb => ⟨s2 b hb, ok0 x hx b hb⟩⟩
  · intro r hr
    exact (hen r hr).2 (.step (.ref he.now (i := comps.length) (c := c) hi hr (.named (hplain r hr).1) (hen r hr).1) hlead)
  · rw [same.1]
    exact h3
  · rw [List.map_singleton, List.singleton_append, List.map_cons, List.map_map] at h4
    exact h4

def squText : Name := c!"~a: imp 22050 >> mul 3\n~m: ~a >> add 2\no: squ ~m"

def squProg : Ast Comp :=
  [(c!"~a", [.imp (.num (.fin 22050)), .mul (.num (.fin 3))]), (c!"~m", [.get c!"~a", .add (.num (.fin 2))]), (c!"o", [.squ (.ref c!"~m")])]

def cutText : Name := c!"~a: imp 22050 >> mul 3\n~m: ~a >> add 2\no: ~a >> add 1 >> rhpf ~m 1.0"

def cutProg : Ast Comp :=
  [(c!"~a", [.imp (.num (.fin 22050)), .mul (.num (.fin 3))]), (c!"~m", [.get c!"~a", .add (.num (.fin 2))]),
   (c!"o", [.get c!"~a", .add (.num (.fin 1)), .rhpf (.ref c!"~m") (.fin 1)])]

theorem squ_one : OneTrack squProg c!"o" (.squ (.ref c!"~m")) := by
  refine ⟨by simp [squProg], by decide, ?_, ?_⟩
  · exact fun j cs h => (by decide : ∀ e ∈ squProg, '~' ∉ e.1 → e.1 = c!"o") (j, cs) h
  · intro j cs d s h1 h2 h3 hm
    have := (by decide : ∀ e ∈ squProg, ∀ c ∈ e.2, ∀ r ∈ c.refs, '.' ∉ r ∧ r ≠ c!"o") (j, cs) h1 d h2 s h3
    exact this.2 (Parted.means_plain hm this.1).symm

theorem cut_end : AtTheEnd leftProg cutProg c!"o" [.get c!"~a", .add (.num (.fin 1))] (.rhpf (.ref c!"~m") (.fin 1)) := by
  obtain ⟨h1, -, -, h4, h5, h6⟩ := both_end
  refine ⟨h1, by simp [cutProg], ?_, h4, h5, h6⟩
  intro j cs hj
  simp [leftProg, cutProg, hj]

/-- `~m` is heard as it is in every program that has its two chains, and besides them only a track `o`. -/
theorem m_heard {all : Ast Comp} {cs : List Comp}
    (h : all = [(c!"~a", [.imp (.num (.fin 22050)), .mul (.num (.fin 3))]), (c!"~m", [.get c!"~a", .add (.num (.fin 2))]), (c!"o", cs)]) :
    HeardAs rightProg all c!"g" c!"~m" := by
  obtain ⟨h1, h2, h3, h4, _, h6, _⟩ := both_heard
  subst h
  refine ⟨h1, h2, h3, h4, ?_, h6, ?_⟩
  · intro j cs h hj
    simp only [rightProg, List.mem_cons, Prod.mk.injEq, List.not_mem_nil, or_false] at h ⊢
    tauto
  · intro k comps hk hn j cs c s h1 h2 h3 hm
    have := (by decide : ∀ e ∈ rightProg, ∀ c ∈ e.2, ∀ r ∈ c.refs, '.' ∉ r ∧ (r = c!"~a" ∨ r = c!"~m")) (j, cs) h1 c h2 s h3
    obtain rfl := Parted.means_plain hm this.1
    rcases this.2 with rfl | rfl
    all_goals
      simp [rightProg] at hk hn
      exact hn hk

/-- What `~m` plays on its own. -/
theorem m_own (fe : Name → Option Fl) {all : Ast Comp} (h : HeardAs rightProg all c!"g" c!"~m") :
    PlaysOnItsOwn notePlat 2 fe ⟨[], (Engine.new (glicol notePlat 2 (parse fe)) 2).sr, (Engine.new (glicol notePlat 2 (parse fe)) 2).bpm,
      (Engine.new (glicol notePlat 2 (parse fe)) 2).seed⟩ true (List.replicate 2 []) all c!"~m" (List.replicate 2 [[.fin 5, .fin 2], [.fin 5, .fin 2]]) := by
  have p2 : parse fe rightText = .ok (some rightProg) := by kernel_rfl
  have hwise : Wise ByRole rightProg true := side_wise (fun e he => .inr he) (by decide) (by decide) (by decide)
  obtain ⟨e1, e2, h1, h2, h3⟩ : ∃ e1 e2, (Engine.new (glicol notePlat 2 (parse fe)) 2).updateWithCode .ident rightText = .ok (e1, none) ∧
    Plays e1 (List.replicate 2 (.ident, [])) e2 (List.replicate 2 [[.fin 5, .fin 2], [.fin 5, .fin 2]]) ∧
    ['~', 'i', 'n', 'p', 'u', 't'] ∈ e1.index.map Prod.fst := Demo.playsText_spec (by kernel_rfl)
  refine ⟨_, e1, e2, .ident, rightText, c!"g", rightProg, List.replicate 2 (.ident, []), .new 2, rfl, rfl, p2, h, ⟨?_, ?_⟩,
    fun k comps _ => ⟨[], .inr ⟨rfl, fun a ha => by cases ha⟩, fun _ _ _ ho => by cases ho⟩,
    wise_free (glicol_parserWf notePlat 2 fe rightText _ p2) (by decide) hwise, h1, ⟨fun _ => h3, fun _ => rfl⟩, ?_, rfl, h2⟩
  · have hall : ∀ e ∈ rightProg, Distinct Comp.eq e.2 := by unfold Distinct; decide
    exact fun k c hm => hall (k, c) hm
  · exact show _ ∉ rightProg.map Prod.fst by decide
  · intro hl
    obtain ⟨j, comps, c, g1, g2, g3⟩ := Parted.leads_input (by decide) (Parted.plain_of hwise) hl
    exact absurd g3 ((by decide : ∀ e ∈ rightProg, ∀ c ∈ e.2, ['~', 'i', 'n', 'p', 'u', 't'] ∉ c.refs) (j, comps) g1 c g2)

/-- An oscillator whose frequency is a chain: the hypotheses of `c91_source_partial` are met. -/
example (fe : Name → Option Fl) :
    ExtShape notePlat 2 (fun _ => True) ∧ ExtFirst notePlat ∧ Libm32 notePlat.libm ∧ CleanReach _ (Engine.new (glicol notePlat 2 (parse fe)) 2) ∧
    parse fe squText = .ok (some squProg) ∧ OneTrack squProg c!"o" (.squ (.ref c!"~m")) ∧ NotesInputs (.squ (.ref c!"~m")) ∧
    (∀ r, r ∈ (Comp.squ (.ref c!"~m")).refs → '.' ∉ r) ∧ CleanProg (glicol notePlat 2 (parse fe)) squProg ∧
    AllNew (Engine.new (glicol notePlat 2 (parse fe)) 2) squProg ∧
    (∃ e1 e2 outs, (Engine.new (glicol notePlat 2 (parse fe)) 2).updateWithCode .ident squText = .ok (e1, none) ∧
      Plays e1 (List.replicate 2 (.ident, [])) e2 outs ∧ ['~', 'i', 'n', 'p', 'u', 't'] ∈ e1.index.map Prod.fst) ∧
    ∀ r, r ∈ (Comp.squ (.ref c!"~m")).refs →
      PlaysOnItsOwn notePlat 2 fe ⟨[], (Engine.new (glicol notePlat 2 (parse fe)) 2).sr, (Engine.new (glicol notePlat 2 (parse fe)) 2).bpm,
        (Engine.new (glicol notePlat 2 (parse fe)) 2).seed⟩ true (List.replicate 2 []) squProg r (List.replicate 2 [[.fin 5, .fin 2], [.fin 5, .fin 2]]) := by
  refine ⟨notePlat_meets.1, notePlat_first, notePlat_meets.2, .new 2, by kernel_rfl, squ_one, trivial, by decide, ⟨?_, ?_⟩,
    fun k comps _ => ⟨[], .inr ⟨rfl, fun a ha => by cases ha⟩, fun _ _ _ ho => by cases ho⟩, ?_, ?_⟩
  · have hall : ∀ e ∈ squProg, Distinct Comp.eq e.2 := by unfold Distinct; decide
    exact fun k c hm => hall (k, c) hm
  · exact show _ ∉ squProg.map Prod.fst by decide
  · obtain ⟨e1, e2, h⟩ : ∃ e1 e2, (Engine.new (glicol notePlat 2 (parse fe)) 2).updateWithCode .ident squText = .ok (e1, none) ∧
        Plays e1 (List.replicate 2 (.ident, [])) e2 (List.replicate 2 [[.fin 1, .fin 1], [.fin 1, .fin 1]]) ∧
        ['~', 'i', 'n', 'p', 'u', 't'] ∈ e1.index.map Prod.fst := Demo.playsText_spec (by kernel_rfl)
    exact ⟨e1, e2, _, h⟩
  · intro r hr
    obtain rfl : r = c!"~m" := List.mem_singleton.mp hr
    exact m_own fe (m_heard rfl)

/-- A filter set by a chain: the hypotheses of `c91_effect_partial` are met. -/
example (fe : Name → Option Fl) :
    ExtShape notePlat 2 (fun _ => True) ∧ ExtFirst notePlat ∧ Libm32 notePlat.libm ∧ CleanReach _ (Engine.new (glicol notePlat 2 (parse fe)) 2) ∧
    parse fe leftText = .ok (some leftProg) ∧ parse fe cutText = .ok (some cutProg) ∧
    AtTheEnd leftProg cutProg c!"o" [.get c!"~a", .add (.num (.fin 1))] (.rhpf (.ref c!"~m") (.fin 1)) ∧ NotesInputs (.rhpf (.ref c!"~m") (.fin 1)) ∧
    (∀ r, r ∈ (Comp.rhpf (.ref c!"~m") (.fin 1)).refs → '.' ∉ r ∧ r ≠ c!"o") ∧
    (∀ prog, prog = leftProg ∨ prog = cutProg → CleanProg (glicol notePlat 2 (parse fe)) prog ∧
      AllNew (Engine.new (glicol notePlat 2 (parse fe)) 2) prog) ∧
    FreeOf ByRole leftProg true ∧ ¬ Leads Comp.refs leftProg true (.at ['~', 'i', 'n', 'p', 'u', 't'] 0) .dest ∧
    (∃ e1 e2, (Engine.new (glicol notePlat 2 (parse fe)) 2).updateWithCode .ident leftText = .ok (e1, none) ∧
      Plays e1 (List.replicate 2 (.rev, [])) e2 (List.replicate 2 [[.fin 4, .fin 1], [.fin 4, .fin 1]]) ∧
      ['~', 'i', 'n', 'p', 'u', 't'] ∈ e1.index.map Prod.fst) ∧
    (∃ e1 e2 outs, (Engine.new (glicol notePlat 2 (parse fe)) 2).updateWithCode .ident cutText = .ok (e1, none) ∧
      Plays e1 (List.replicate 2 (.ident, [])) e2 outs ∧ ['~', 'i', 'n', 'p', 'u', 't'] ∈ e1.index.map Prod.fst) ∧
    ∀ r, r ∈ (Comp.rhpf (.ref c!"~m") (.fin 1)).refs →
      PlaysOnItsOwn notePlat 2 fe ⟨[], (Engine.new (glicol notePlat 2 (parse fe)) 2).sr, (Engine.new (glicol notePlat 2 (parse fe)) 2).bpm,
        (Engine.new (glicol notePlat 2 (parse fe)) 2).seed⟩ true (List.replicate 2 []) cutProg r (List.replicate 2 [[.fin 5, .fin 2], [.fin 5, .fin 2]]) := by
  have p1 : parse fe leftText = .ok (some leftProg) := by kernel_rfl
  have hwise : Wise ByRole leftProg true := side_wise (fun e he => .inl he) (by decide) (by decide) (by decide)
  refine ⟨notePlat_meets.1, notePlat_first, notePlat_meets.2, .new 2, p1, by kernel_rfl, cut_end, trivial, by decide, ?_,
    wise_free (glicol_parserWf notePlat 2 fe leftText _ p1) (by decide) hwise, ?_, Demo.playsText_spec (by kernel_rfl), ?_, ?_⟩
  · intro prog hp
    refine ⟨⟨?_, ?_⟩, fun k comps _ => ⟨[], .inr ⟨rfl, fun a ha => by cases ha⟩, fun _ _ _ ho => by cases ho⟩⟩
    · have hall : ∀ e ∈ leftProg ++ cutProg, Distinct Comp.eq e.2 := by unfold Distinct; decide
      intro k c hm
      refine hall (k, c) ?_
      rcases hp with rfl | rfl
      · exact List.mem_append_left _ hm
      · exact List.mem_append_right _ hm
    · rcases hp with rfl | rfl
      · exact show _ ∉ leftProg.map Prod.fst by decide
      · exact show _ ∉ cutProg.map Prod.fst by decide
  · intro hl
    obtain ⟨j, comps, c, g1, g2, g3⟩ := Parted.leads_input (by decide) (Parted.plain_of hwise) hl
    exact absurd g3 ((by decide : ∀ e ∈ leftProg, ∀ c ∈ e.2, ['~', 'i', 'n', 'p', 'u', 't'] ∉ c.refs) (j, comps) g1 c g2)
  · obtain ⟨e1, e2, h⟩ : ∃ e1 e2, (Engine.new (glicol notePlat 2 (parse fe)) 2).updateWithCode .ident cutText = .ok (e1, none) ∧
        Plays e1 (List.replicate 2 (.ident, [])) e2 [[[.fin 0, .fin (-4)], [.fin 0, .fin (-4)]], [[.fin 1, .fin (mkRat 1 2)], [.fin 1, .fin (mkRat 1 2)]]] ∧
        ['~', 'i', 'n', 'p', 'u', 't'] ∈ e1.index.map Prod.fst := Demo.playsText_spec (by kernel_rfl)
    exact ⟨e1, e2, _, h⟩
  · intro r hr
    obtain rfl : r = c!"~m" := List.mem_singleton.mp hr
    exact m_own fe (m_heard rfl)

end Verif.Props
