import Verif.Props.Glicol
import Verif.Spec.Samples
import Verif.Lemmas.KernelRfl

/-! # Unknown samples (C63) -/

namespace Verif.Props
open Verif Spec

variable {L : Lang}

/-- A component of an accepted program has been built, or it is equal to one of the program before. -/
theorem update_built {τ : TableOrder} {e e' : Engine L} {code : Name} {new : Ast L.Comp}
    (hp : L.parse code = .ok (some new)) (h : e.updateWithCode τ code = .ok (e', none)) :
    e'.ast = some new ∧ e'.samples = e.samples ∧ ∀ k comps c, (k, comps) ∈ new → c ∈ comps →
      (∃ x, L.make e.samples e.sr e.bpm e.seed c = .ok x) ∨
      (∃ a k' old o, e.ast = some a ∧ (k', old) ∈ a ∧ o ∈ old ∧ L.compEq o c = true) := by
  unfold Engine.updateWithCode at h
  rw [hp] at h
  simp only [bind, Except.bind] at h
  rcases updateAst_cases h with ⟨x, _, hx, _⟩ | ⟨diff, t1, gone1, t2, gone2, g3, t3, cr, hs, hcase⟩
  · cases hx
  rcases hcase with ⟨y, _, hy, _⟩ | ⟨_, ⟨g5, y, _, hy⟩ | ⟨g5, g6, _, _, _, rfl⟩⟩
  · cases hy
  · cases hy
  refine ⟨rfl, rfl, fun k comps c hk hc => ?_⟩
  obtain ⟨dk, hd, _⟩ := (diffAll_mem hs.diffEq).1 k comps hk
  obtain ⟨i, hi, hci⟩ := List.mem_iff_getElem.mp hc
  have hmem : (i, c) ∈ enumFrom 0 comps := mem_enumFrom.mpr ⟨by omega, by simp [hi, hci]⟩
  have key : ∀ {l : List (Nat × L.Comp)} {d' : Diff L}, (i, c) ∈ l →
      addNodes (L.make e.samples e.sr e.bpm e.seed) k l = .ok d' →
      ∃ x, L.make e.samples e.sr e.bpm e.seed c = .ok x := by
    intro l d' hic hadd
    have hf := (addNodes_spec hadd).2.1
    generalize d'.adds = as at hf
    clear hadd
    induction hf with
    | nil => cases hic
    | cons hab _ ih =>
      rcases List.mem_cons.mp hic with hic | hic
      · rw [← hic] at hab
        obtain ⟨_, _, refs, hm⟩ := hab
        exact ⟨_, hm⟩
      · exact ih hic
  unfold diffChain at hd
  split at hd
  · exact .inl (key hmem hd)
  · rename_i oldC hold
    rw [except_bind_ok] at hd
    obtain ⟨d', hd', _⟩ := hd
    by_cases hany : oldC.any (fun o => L.compEq o c) = true
    · obtain ⟨o, ho, hoc⟩ := List.any_eq_true.mp hany
      right
      cases ha : e.ast with
      | none => simp [ha] at hold
      | some a =>
        simp only [ha, Option.bind_some] at hold
        exact ⟨a, k, oldC, o, rfl, lookup_mem hold, ho, hoc⟩
    · exact .inl (key (List.mem_filter.mpr ⟨hmem, by simpa using hany⟩) hd')

/-- An error that is not about a reference comes from a component of the new program. -/
theorem update_stopped (hL : ParserWf L) {τ : TableOrder} {e e' : Engine L} (hr : Reachable L e) {code : Name}
    {new : Ast L.Comp} {err : EngineError} (hne : ∀ r, err ≠ .nonExistReference r) (hp : L.parse code = .ok (some new)) (h : e.updateWithCode τ code = .ok (e', some err)) :
    ∃ k comps c, (k, comps) ∈ new ∧ c ∈ comps ∧
      L.make e.samples e.sr e.bpm e.seed c = .error (.err err) := by
  have hw := hL code new hp
  unfold Engine.updateWithCode at h
  rw [hp] at h
  simp only [bind, Except.bind] at h
  have hadd : ∀ {k : Name} {l : List (Nat × L.Comp)},
      addNodes (L.make e.samples e.sr e.bpm e.seed) k l = .error (.err err) →
      ∃ i c, (i, c) ∈ l ∧ L.make e.samples e.sr e.bpm e.seed c = .error (.err err) := by
    intro k l
    induction l with
    | nil => intro h; cases h
    | cons p l ih =>
      obtain ⟨i, c⟩ := p
      intro h
      simp only [addNodes, bind, Except.bind] at h
      split at h
      · rename_i x hx
        cases h
        exact ⟨i, c, by simp, hx⟩
      · split at h
        · rename_i x hx
          cases h
          obtain ⟨j, c', h1, h2⟩ := ih hx
          exact ⟨j, c', List.mem_cons_of_mem _ h1, h2⟩
        · cases h
  rcases updateAst_cases h with ⟨x, hx, h1, _⟩ | ⟨diff, t1, gone1, t2, gone2, g3, t3, cr, hs, hcase⟩
  · cases h1
    clear h hp hw
    induction new with
    | nil => cases hx
    | cons p new ih =>
      obtain ⟨k, comps⟩ := p
      simp only [diffAll, bind, Except.bind] at hx
      split at hx
      · rename_i y hy
        cases hx
        have : ∃ i c, (i, c) ∈ enumFrom 0 comps ∧
            L.make e.samples e.sr e.bpm e.seed c = .error (.err err) := by
          unfold diffChain at hy
          split at hy
          · exact hadd hy
          · simp only [bind, Except.bind] at hy
            split at hy
            · rename_i z hz
              cases hy
              obtain ⟨i, c, h1, h2⟩ := hadd hz
              exact ⟨i, c, (List.mem_filter.mp h1).1, h2⟩
            · cases hy
        obtain ⟨i, c, h1, h2⟩ := this
        exact ⟨k, comps, c, by simp, List.mem_of_getElem? (mem_enumFrom.mp h1).2, h2⟩
      · split at hx
        · rename_i y hy
          cases hx
          obtain ⟨k', comps', c, h1, h2, h3⟩ := ih hy
          exact ⟨k', comps', c, List.mem_cons_of_mem _ h1, h2, h3⟩
        · cases hx
  · rcases hcase with ⟨y, _, hy, _⟩ | ⟨_, ⟨g5, y, h5, hy⟩ | ⟨g5, g6, _, _, hy, _⟩⟩
    · cases hy
      exact absurd rfl (hne _)
    · have f := staged_facts (inv_reachable hL hr) hw hs
      obtain ⟨refs, name, pos, hm, hlk⟩ := connectPairs_err h5
      have hk := f.newT3 _ (f.refNames _ _ _ hm)
      rw [lookup_perm (τ.perm t3) f.keysT3, lookup_none] at hlk
      exact absurd hk hlk
    · cases hy

/-- An error about a sample comes from a component of the new program. -/
theorem update_failed (hL : ParserWf L) {τ : TableOrder} {e e' : Engine L} (hr : Reachable L e) {code : Name}
    {new : Ast L.Comp} {v : Name} (hp : L.parse code = .ok (some new)) (h : e.updateWithCode τ code = .ok (e', some (.nonExistSample v))) :
    ∃ k comps c, (k, comps) ∈ new ∧ c ∈ comps ∧
      L.make e.samples e.sr e.bpm e.seed c = .error (.err (.nonExistSample v)) :=
  update_stopped hL hr (fun _ h => by cases h) hp h

/-! ### The real language -/

variable {P : Plat} {N : Nat} {parse : Name → Except Panic (Option (Ast Comp))}

theorem events_eq_samples : ∀ {a b : Events}, Events.eq a b = true →
    a.map (fun x => eventSample x.1) = b.map (fun x => eventSample x.1) := by
  intro a
  induction a with
  | nil => intro b h; cases b <;> simp_all [Events.eq, listEq]
  | cons x a ih =>
    intro b h
    cases b with
    | nil => simp [Events.eq, listEq] at h
    | cons y b =>
      simp only [Events.eq, listEq, Bool.and_eq_true] at h
      rw [List.map_cons, List.map_cons, ih h.2]
      congr 1
      obtain ⟨⟨h1, _⟩, _⟩ := h
      cases hx : x.1 <;> cases hy : y.1 <;> simp_all [EventValue.eq, eventSample]

/-- Equal components ask for the same samples. -/
theorem eq_samples {a b : Comp} (h : Comp.eq a b = true) : Spec.Comp.samples a = Spec.Comp.samples b := by
  cases a <;> cases b <;> first
    | rfl
    | (simp [Comp.eq] at h; done)
    | skip
  · simp_all [Comp.eq, Spec.Comp.samples]
  · rename_i e s e' s'
    cases s <;> cases s' <;> simp_all [Comp.eq, Spec.Comp.samples]
    · exact events_eq_samples h
    · exact events_eq_samples h.1

theorem select_cons (samples : List (Name × Sample)) (v : EventValue) (t : Fl) (es : Events) :
    selectSamples samples ((v, t) :: es) =
      (match lookup samples (eventSample v) with
      | none => .error (.err (.nonExistSample (eventSample v)))
      | some s => do
        let r ← selectSamples samples es
        .ok ((s, t) :: r)) := by
  cases v <;> rfl

theorem select_ok {samples : List (Name × Sample)} : ∀ {e : Events} {l}, selectSamples samples e = .ok l →
    ∀ s, s ∈ e.map (fun x => eventSample x.1) → ∃ v, lookup samples s = some v := by
  intro e
  induction e with
  | nil => intro l _ s hs; cases hs
  | cons x e ih =>
    intro l h s hs
    obtain ⟨v, t⟩ := x
    rw [select_cons] at h
    split at h
    · cases h
    · rename_i s' hs'
      rw [except_bind_ok] at h
      obtain ⟨r, hr, _⟩ := h
      rw [List.map_cons, List.mem_cons] at hs
      rcases hs with rfl | hs
      · exact ⟨_, hs'⟩
      · exact ih hr s hs

theorem select_err {samples : List (Name × Sample)} {v : Name} : ∀ {e : Events},
    selectSamples samples e = .error (.err (.nonExistSample v)) →
    v ∈ e.map (fun x => eventSample x.1) ∧ lookup samples v = none := by
  intro e
  induction e with
  | nil => intro h; cases h
  | cons x e ih =>
    intro h
    obtain ⟨w, t⟩ := x
    rw [select_cons] at h
    split at h
    · rename_i hn
      cases h
      exact ⟨by simp, hn⟩
    · simp only [bind, Except.bind] at h
      split at h
      · rename_i y hy
        cases h
        obtain ⟨h1, h2⟩ := ih hy
        exact ⟨List.mem_cons_of_mem _ h1, h2⟩
      · cases h

/-- What has been built has its samples. -/
theorem made_samples {samples : List (Name × Sample)} {sr : Nat} {bpm : Fl} {seed : Nat} {c : Comp} {x}
    (h : makeNode P N samples sr bpm seed c = .ok x) :
    ∀ s, s ∈ Spec.Comp.samples c → ∃ v, lookup samples s = some v := by
  intro s hs
  cases c with
  | sp sym =>
    rw [Spec.Comp.samples, List.mem_singleton] at hs
    subst hs
    cases hl : lookup samples s with
    | none => simp [makeNode, makePrim, hl, bind, Except.bind] at h
    | some v => exact ⟨v, rfl⟩
  | psampler e span =>
    cases span with
    | none => simp [makeNode, makePrim, bind, Except.bind] at h
    | some span =>
      simp only [makeNode, makePrim, except_bind_ok] at h
      obtain ⟨_, ⟨l, hl, _⟩, _⟩ := h
      exact select_ok hl s hs
  | _ => cases hs

theorem liftP_err {α : Type} (r : Except Panic α) (x : EngineError) : liftP r ≠ .error (.err x) := by
  cases r <;> simp [liftP]

/-- A component that cannot be built for want of a sample asks for it. -/
theorem failed_sample {samples : List (Name × Sample)} {sr : Nat} {bpm : Fl} {seed : Nat} {c : Comp} {v : Name}
    (h : makeNode P N samples sr bpm seed c = .error (.err (.nonExistSample v))) :
    v ∈ Spec.Comp.samples c ∧ lookup samples v = none := by
  cases c with
  | sp sym =>
    simp only [makeNode, makePrim] at h
    cases hs : lookup samples sym with
    | none =>
      simp only [hs] at h
      cases h
      exact ⟨by simp [Spec.Comp.samples], hs⟩
    | some s =>
      simp only [hs, bind, Except.bind] at h
      cases hn : Sampler.new s sr <;> simp [hn, liftP] at h
  | psampler e span =>
    cases span with
    | none => cases h
    | some span =>
      simp only [makeNode, makePrim, bind, Except.bind] at h
      cases hs : selectSamples samples e with
      | error y =>
        simp only [hs] at h
        cases h
        exact select_err hs
      | ok l => simp [hs] at h
  | points ps span l =>
    simp only [makeNode, makePrim, bind, Except.bind] at h
    cases hn : Points.new ps span l bpm sr <;> simp [hn, liftP] at h
  | patternSynth t span =>
    simp only [makeNode, makePrim, bind, Except.bind] at h
    cases hn : PatternSynth.new t sr <;> simp [hn, liftP] at h
  | apfmsgain d g =>
    simp only [makeNode, makePrim, bind, Except.bind] at h
    cases hn : Apf.new sr (d.value (.fin 0)) g <;> simp [hn, liftP] at h
  | lpf t q => cases t <;> cases h
  | delayn p => cases p <;> cases h
  | _ =>
    exfalso
    simp only [makeNode, makePrim, makeCompound, bind, Except.bind] at h
    repeat' split at h
    all_goals first
      | (simp at h; done)
      | (cases h; rename_i h'; exact liftP_err _ _ h')

/-- Every sample that the program in force asks for is registered. -/
theorem known_samples {e : Engine (glicol P N parse)} (hL : ParserWf (glicol P N parse)) (hr : Reachable _ e) :
    ∀ a, e.ast = some a → ∀ s, AsksFor a s → ∃ v, lookup e.samples s = some v := by
  induction hr with
  | new N => intro a h; cases h
  | @step e e' op hr h ih =>
    have keep : e'.ast = e.ast → e'.samples = e.samples →
        ∀ a, e'.ast = some a → ∀ s, AsksFor a s → ∃ v, lookup e'.samples s = some v := by
      intro h1 h2
      rw [h1, h2]
      exact ih
    cases op with
    | update τ code =>
      simp only [Op.apply, except_bind_ok] at h
      obtain ⟨⟨e1, r⟩, h1, h⟩ := h
      cases h
      cases r with
      | some x =>
        have := c01_failed_update_changes_nothing hL hr τ code x h1
        exact keep this.ast this.samples
      | none =>
        cases hp : (glicol P N parse).parse code with
        | error p => simp [Engine.updateWithCode, hp, bind, Except.bind] at h1
        | ok p =>
          cases p with
          | none => simp [Engine.updateWithCode, hp, bind, Except.bind] at h1
          | some new =>
            obtain ⟨g1, g2, g3⟩ := update_built hp h1
            rintro a ha s ⟨k, comps, c, hk, hc, hs⟩
            rw [g1] at ha
            cases ha
            rw [g2]
            rcases g3 k comps c hk hc with ⟨x, hx⟩ | ⟨a, k', old, o, ha, hk', ho, hoc⟩
            · exact made_samples hx s hs
            · refine ih a ha s ⟨k', old, o, hk', ho, ?_⟩
              rw [eq_samples hoc]
              exact hs
    | sendMsg m =>
      have := (onlyNodes_sendMsg h).eq
      exact keep (by rw [this]) (by rw [this])
    | setBpm v =>
      obtain ⟨h1, _⟩ := setBpm_nodes h
      exact keep (by rw [h1]) (by rw [h1])
    | setSr v => cases h; exact keep rfl rfl
    | setSeed v => cases h; exact keep rfl rfl
    | setTrackAmp v => cases h; exact keep rfl rfl
    | addSample n x =>
      cases h
      intro a ha s hs
      obtain ⟨v, hv⟩ := ih a ha s hs
      show ∃ v, lookup (insert e.samples n x) s = some v
      rw [lookup_insert]
      split
      · exact ⟨_, rfl⟩
      · exact ⟨v, hv⟩
    | nextBlock ho buf =>
      simp only [Op.apply, except_bind_ok] at h
      obtain ⟨⟨e1, r⟩, h1, h⟩ := h
      cases h
      obtain ⟨e2, g, d, h2, _, _, _, rfl⟩ := nextBlock_ok h1
      have := (onlyNodes_copyInputs h2).eq
      exact keep (show e2.ast = e.ast by rw [this]) (show e2.samples = e.samples by rw [this])
    | reset => cases h; intro a h; cases h

/-- **C63.** After every history of calls, with the real language: an update that is accepted asks only for
samples that are registered, so a program with an unknown sample never plays; and an update that is rejected
for want of a sample names a sample that the program asks for and that is not registered. -/
theorem c63_unknown_samples {fe : Name → Option Fl} {e e' : Engine (glicol P N (Parse.parse fe))}
    (hr : Reachable _ e) (τ : TableOrder) (code : Name) (new : Ast Comp) (res : Option EngineError)
    (hp : Parse.parse fe code = .ok (some new)) (h : e.updateWithCode τ code = .ok (e', res)) :
    (res = none → ∀ s, AsksFor new s → s ∈ e.samples.map Prod.fst) ∧
    (∀ v, res = some (.nonExistSample v) → AsksFor new v ∧ v ∉ e.samples.map Prod.fst) := by
  have hL := glicol_parserWf P N fe
  constructor
  · rintro rfl s hs
    have hr' : Reachable _ e' := .step (.update τ code) hr (by simp only [Op.apply, h, bind, Except.bind])
    obtain ⟨g1, g2, _⟩ := update_built hp h
    obtain ⟨v, hv⟩ := known_samples hL hr' new g1 s hs
    rw [g2] at hv
    by_contra hn
    rw [lookup_none.mpr hn] at hv
    cases hv
  · rintro v rfl
    obtain ⟨k, comps, c, hk, hc, hm⟩ := update_failed hL hr hp h
    obtain ⟨h1, h2⟩ := failed_sample hm
    exact ⟨⟨k, comps, c, hk, hc, h1⟩, lookup_none.mp h2⟩

/-- At every time the program in force asks only for registered samples. -/
theorem c63_playing_samples_known {fe : Name → Option Fl} {e : Engine (glicol P N (Parse.parse fe))}
    (hr : Reachable _ e) (a : Ast Comp) (ha : e.ast = some a) (s : Name) (hs : AsksFor a s) :
    s ∈ e.samples.map Prod.fst := by
  obtain ⟨v, hv⟩ := known_samples (glicol_parserWf P N fe) hr a ha s hs
  by_contra hn
  rw [lookup_none.mpr hn] at hv
  cases hv

/-- With the sample `\\a` registered, `sp \\a` is accepted, `sp \\b` is rejected with its name, and so is a
pattern with `\\b` in it. -/
example (P : Plat) (fe : Name → Option Fl) : ∃ e : Engine (glicol P 2 (Parse.parse fe)), Reachable _ e ∧
    e.samples.map Prod.fst = [c!"\\a"] ∧
    (e.updateWithCode .ident c!"o: imp 1 >> sp \\a").map Prod.snd = .ok none ∧
    (e.updateWithCode .ident c!"o: imp 1 >> sp \\b").map Prod.snd = .ok (some (.nonExistSample c!"\\b")) ∧
    (e.updateWithCode .ident c!"o: psampler \"\\a@0 \\b@0.5\"(1)").map Prod.snd =
      .ok (some (.nonExistSample c!"\\b")) ∧
    (∃ p, Parse.parse fe c!"o: imp 1 >> sp \\a" = .ok (some p) ∧ AsksFor p c!"\\a") := by
  refine ⟨Engine.addSample (Engine.new _ 2) c!"\\a" ⟨[.fin 1, .fin 0], 1, 44100⟩, .step (.addSample _ _) (.new 2) rfl,
    rfl, by kernel_rfl, by kernel_rfl, by kernel_rfl, [(c!"o", [.imp (.num (.fin 1)), .sp c!"\\a"])], by kernel_rfl,
    c!"o", _, .sp c!"\\a", List.mem_singleton.mpr rfl, by simp, by simp [Spec.Comp.samples]⟩

end Verif.Props
