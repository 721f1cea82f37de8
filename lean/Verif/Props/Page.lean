import Verif.Spec.Page
import Verif.Props.Unknown
import Verif.Props.RoundTrip

/-! # Samples on the page (C65) -/

namespace Verif.Props
open Verif Spec Page

variable {P : Plat} {N : Nat} {parse : Name → Except Panic (Option (Ast Comp))} {low : Char → Name}

instance : DecidablePred SymChar := fun c => by unfold SymChar Digit; infer_instance

theorem decodes_iff {b : AudioBuffer} {s : Sample} : b.sample = some s ↔ Decodes b s := by
  obtain ⟨cs, sr⟩ := b
  constructor
  · intro h
    match cs, h with
    | [l], h => cases h; exact .mono
    | [l, r], h => cases h; exact .stereo
    | [], h => cases h
    | _ :: _ :: _ :: _, h => cases h
  · rintro (_ | _) <;> rfl

theorem dashOnce_id {k : Name} (h : '-' ∉ k) : dashOnce k = k := by
  induction k with
  | nil => rfl
  | cons c k ih =>
    rw [List.mem_cons, not_or] at h
    rw [dashOnce, if_neg (Ne.symm h.1), ih h.2]

/-- Calls that do not register samples leave the samples alone. -/
theorem samples_kept {L : Lang} (hL : ParserWf L) {e e' : Engine L} (hr : Reachable L e) {op : Op L}
    (hop : match op with | .addSample .. | .reset => False | _ => True) (h : op.apply e = .ok e') :
    e'.samples = e.samples := by
  cases op with
  | update τ code =>
    simp only [Op.apply, except_bind_ok] at h
    obtain ⟨⟨e1, r⟩, h1, h⟩ := h
    cases h
    cases r with
    | some x => exact (c01_failed_update_changes_nothing hL hr τ code x h1).samples
    | none =>
      cases hp : L.parse code with
      | error p => simp [Engine.updateWithCode, hp, bind, Except.bind] at h1
      | ok p =>
        cases p with
        | none => simp [Engine.updateWithCode, hp, bind, Except.bind] at h1
        | some new => exact (update_built hp h1).2.1
  | sendMsg m =>
    have := (onlyNodes_sendMsg h).eq
    rw [this]
  | setBpm v =>
    obtain ⟨h1, _⟩ := setBpm_nodes h
    rw [h1]
  | setSr v => cases h; rfl
  | setSeed v => cases h; rfl
  | setTrackAmp v => cases h; rfl
  | addSample n x => exact hop.elim
  | nextBlock ho buf =>
    simp only [Op.apply, except_bind_ok] at h
    obtain ⟨⟨e1, r⟩, h1, h⟩ := h
    cases h
    obtain ⟨e2, g, d, h2, _, _, _, rfl⟩ := nextBlock_ok h1
    have := (onlyNodes_copyInputs h2).eq
    show e2.samples = e.samples
    rw [this]
  | reset => exact hop.elim

/-- The call of the engine that a step amounts to, if it is neither loading nor stopping. -/
def stepOp : Step → Option (Op (glicol P N parse))
  | .run τ code => some (.update τ code)
  | .bpm v => some (.setBpm v)
  | .amp v => some (.setTrackAmp v)
  | .block ho => some (.nextBlock ho [])
  | _ => none

theorem step_op {p p' : State P N parse} {s : Step} {op : Op (glicol P N parse)} (ho : stepOp s = some op)
    (h : p.step low s = .ok p') : op.apply p.engine = .ok p'.engine ∧ p'.buffers = p.buffers := by
  cases s with
  | run τ code =>
    cases ho
    simp only [State.step, except_bind_ok] at h
    obtain ⟨⟨e1, r⟩, h1, h⟩ := h
    cases h
    exact ⟨by simp only [Op.apply, h1, bind, Except.bind], rfl⟩
  | bpm v =>
    cases ho
    simp only [State.step, except_bind_ok] at h
    obtain ⟨e1, h1, h⟩ := h
    cases h
    exact ⟨h1, rfl⟩
  | amp v => cases ho; cases h; exact ⟨rfl, rfl⟩
  | block bo =>
    cases ho
    simp only [State.step, except_bind_ok] at h
    obtain ⟨⟨e1, r⟩, h1, h⟩ := h
    cases h
    exact ⟨by simp only [Op.apply, h1, bind, Except.bind], rfl⟩
  | file _ _ => cases ho
  | folder _ _ _ => cases ho
  | url _ _ => cases ho
  | builtin _ _ => cases ho
  | stop _ _ _ => cases ho

/-- A loading step lists a file and sends it to the engine under one name. -/
theorem step_load {p p' : State P N parse} {s : Step} (hA : Orderly p s) (ho : stepOp (P := P) (N := N) (parse := parse) s = none)
    (h : p.step low s = .ok p') : (∃ sr seed order, s = .stop sr seed order) ∨
    ∃ key b, p'.buffers = (p.load key ('\\' :: key) b).buffers ∧ p'.engine = (p.load key ('\\' :: key) b).engine ∧
      (s = .url key b ∨ s = .builtin key b ∨ (∃ f, s = .file f b) ∨ ∃ c f, s = .folder c f b) := by
  cases s with
  | run _ _ => cases ho
  | bpm _ => cases ho
  | amp _ => cases ho
  | block _ => cases ho
  | file f b => cases h; exact .inr ⟨_, b, rfl, rfl, .inr (.inr (.inl ⟨f, rfl⟩))⟩
  | folder c f b => cases h; exact .inr ⟨_, b, rfl, rfl, .inr (.inr (.inr ⟨c, f, rfl⟩))⟩
  | url f b => cases h; exact .inr ⟨_, b, rfl, rfl, .inl rfl⟩
  | builtin f b =>
    cases h
    exact .inr ⟨f, b, rfl, by rw [dashOnce_id hA], .inr (.inl rfl)⟩
  | stop sr seed order => exact .inl ⟨sr, seed, order, rfl⟩

theorem added {L : Lang} (e : Engine L) (n : Name) (s : L.Smp) : lookup (e.addSample n s).samples n = some s := by
  rw [Engine.addSample, lookup_insert, if_pos rfl]

theorem added_other {L : Lang} (e : Engine L) {n k : Name} (s : L.Smp) (h : n ≠ k) :
    lookup (e.addSample n s).samples k = lookup e.samples k := by
  rw [Engine.addSample, lookup_insert, if_neg h]

theorem reload_other {l : List (Name × AudioBuffer)} {k : Name} (hk : ∀ x ∈ l, '-' ∉ x.1 ∧ x.1 ≠ k) :
    ∀ e : Engine (glicol P N parse), lookup (reload e l).samples ('\\' :: k) = lookup e.samples ('\\' :: k) := by
  induction l with
  | nil => intro e; rfl
  | cons x l ih =>
    intro e
    obtain ⟨k', b⟩ := x
    have hx := hk (k', b) (by simp)
    simp only [reload]
    split
    · rfl
    · rw [ih (fun y hy => hk y (by simp [hy]))]
      rw [dashOnce_id hx.1]
      exact added_other _ _ (fun h => hx.2 (List.cons.inj h).2)

theorem reload_mem {l : List (Name × AudioBuffer)} (hn : (l.map Prod.fst).Nodup) (hd : ∀ x ∈ l, '-' ∉ x.1 ∧ ∃ s, Decodes x.2 s)
    {k : Name} {b : AudioBuffer} {s : Sample} (hkb : (k, b) ∈ l) (hs : Decodes b s) :
    ∀ e : Engine (glicol P N parse), lookup (reload e l).samples ('\\' :: k) = some s := by
  induction l with
  | nil => cases hkb
  | cons x l ih =>
    intro e
    obtain ⟨k', b'⟩ := x
    obtain ⟨h1, s', hs'⟩ := hd (k', b') (by simp)
    simp only [reload, decodes_iff.mpr hs']
    simp only [List.map_cons, List.nodup_cons] at hn
    rcases List.mem_cons.mp hkb with h | h
    · cases h
      rw [reload_other]
      · have := decodes_iff.mpr hs'
        rw [decodes_iff.mpr hs] at this
        cases this
        rw [dashOnce_id h1]
        exact added _ _ _
      · intro y hy
        refine ⟨(hd y (by simp [hy])).1, ?_⟩
        rintro rfl
        exact hn.1 (List.mem_map_of_mem hy)
    · exact ih hn.2 (fun y hy => hd y (by simp [hy])) h _

theorem reload_reach {A : Engine (glicol P N parse) → Prop} (hadd : ∀ e n s, A e → A (e.addSample n s))
    (l : List (Name × AudioBuffer)) : ∀ e, A e → A (reload e l) := by
  induction l with
  | nil => intro e h; exact h
  | cons x l ih =>
    intro e h
    simp only [reload]
    split
    · exact h
    · exact ih _ (hadd _ _ _ h)

theorem insert_nodup {β : Type} {t : List (Name × β)} {k : Name} {v : β} (h : (keys t).Nodup) : (keys (insert t k v)).Nodup := by
  unfold insert
  split
  · have : ∀ t : List (Name × β), keys (assign t k v) = keys t := by
      intro t
      induction t with
      | nil => rfl
      | cons a t ih =>
        simp only [assign]
        split
        · rfl
        · simp only [keys, List.map_cons] at ih ⊢
          rw [ih]
    rw [this]
    exact h
  · next hn =>
    have hk := lookup_none.mp hn
    simp only [keys, List.map_append, List.map_cons, List.map_nil] at *
    exact List.nodup_append.mpr ⟨h, by simp, by
      intro a ha b hb
      rw [List.mem_singleton.mp hb]
      rintro rfl
      exact hk ha⟩

/-- What holds of a new engine and is kept by the calls made holds of the engine of the page. -/
theorem page_engine {A : State P N parse → Step → Prop} {R : Engine (glicol P N parse) → Prop}
    (hnew : ∀ sr seed, R (((Engine.new (glicol P N parse) N).setSr sr).setSeed seed))
    (hadd : ∀ e n s, R e → R (e.addSample n s))
    (hop : ∀ p st op e', A p st → stepOp st = some op → R p.engine → op.apply p.engine = .ok e' → R e')
    {p : State P N parse} (h : PageReach low A p) : R p.engine := by
  have hload : ∀ (p : State P N parse) k t b, R p.engine → R (p.load k t b).engine := by
    intro p k t b h
    simp only [State.load]
    split
    · exact h
    · exact hadd _ _ _ h
  induction h with
  | init sr seed => exact hnew sr seed
  | @step p p' s _ hA hs ih =>
    cases ho : stepOp (P := P) (N := N) (parse := parse) s with
    | some op => exact hop p s op _ hA ho ih (step_op ho hs).1
    | none =>
      cases s with
      | run _ _ => cases ho
      | bpm _ => cases ho
      | amp _ => cases ho
      | block _ => cases ho
      | file f b => cases hs; exact hload _ _ _ _ ih
      | folder c f b =>
        cases hs
        exact hload p (folderKey low f (nextCount c (plain f) p.counts)) _ b ih
      | url f b => cases hs; exact hload _ _ _ _ ih
      | builtin f b => cases hs; exact hload _ _ _ _ ih
      | stop sr seed order => cases hs; exact reload_reach hadd _ _ (hnew _ _)

/-- The engine of the page is one that a user of the engine could have. -/
theorem page_reachable {A : State P N parse → Step → Prop} {p : State P N parse} (h : PageReach low A p) :
    Reachable _ p.engine :=
  page_engine (R := Reachable _) (fun sr seed => .step (.setSeed seed) (.step (.setSr sr) (.new N) rfl) rfl)
    (fun _ n s h => .step (.addSample n s) h rfl) (fun _ _ op _ _ _ h h' => .step op h h') h

theorem page_clean {p : State P N parse} (h : PageReach low Tidy p) : CleanReach _ p.engine :=
  page_engine (R := CleanReach _)
    (fun sr seed => .step (.setSeed seed) (.step (.setSr sr) (.new N) trivial rfl) trivial rfl)
    (fun _ n s h => .step (.addSample n s) h trivial rfl)
    (fun p st op _ hA ho h h' => by
      refine .step op h ?_ h'
      cases st <;> cases ho
      · exact hA.2
      · trivial
      · trivial
      · trivial) h

theorem page_orderly {p : State P N parse} (h : PageReach low Tidy p) : PageReach low Orderly p := by
  induction h with
  | init sr seed => exact .init sr seed
  | step s _ hA hs ih => exact .step s ih hA.1 hs

theorem mem_assign {β : Type} {t : List (Name × β)} {k : Name} {v : β} {x : Name × β} (h : x ∈ assign t k v) :
    x.2 = v ∨ x ∈ t := by
  induction t with
  | nil => cases h
  | cons a t ih =>
    simp only [assign] at h
    split at h
    · rcases List.mem_cons.mp h with h | h
      · exact .inl (by rw [h])
      · exact .inr (by simp [h])
    · rcases List.mem_cons.mp h with h | h
      · exact .inr (by simp [h])
      · exact (ih h).imp id (fun h => by simp [h])

theorem mem_insert {β : Type} {t : List (Name × β)} {k : Name} {v : β} {x : Name × β} (h : x ∈ insert t k v) :
    x.2 = v ∨ x ∈ t := by
  unfold insert at h
  split at h
  · exact mem_assign h
  · rcases List.mem_append.mp h with h | h
    · exact .inr h
    · exact .inl (by rw [List.mem_singleton.mp h])

theorem decodes_filled {b : AudioBuffer} {s : Sample} (hb : Filled b) (h : b.sample = some s) : SampleFilled s := by
  rcases decodes_iff.mp h with _ | _
  · exact ⟨by simp, hb _ (by simp)⟩
  · refine ⟨by simp, ?_⟩
    have := hb _ (List.mem_cons_self ..)
    simp [this]

/-- With files that are not empty, all samples registered are not empty. -/
theorem page_filled (hL : ParserWf (glicol P N parse)) {p : State P N parse} (h : PageReach low Tidy p) :
    (∀ x ∈ p.buffers, Filled x.2) ∧ ∀ n s, (n, s) ∈ p.engine.samples → SampleFilled s := by
  induction h with
  | init sr seed => exact ⟨fun x h => (by cases h), fun n s h => (by cases h)⟩
  | @step p p' st hp hA hs ih =>
    obtain ⟨ih1, ih2⟩ := ih
    have hadd : ∀ (e : Engine (glicol P N parse)) n s, SampleFilled s → (∀ n s, (n, s) ∈ e.samples → SampleFilled s) →
        ∀ n' s', (n', s') ∈ (e.addSample n s).samples → SampleFilled s' := by
      intro e n s hs he n' s' h
      rcases mem_insert h with h | h
      · cases h; exact hs
      · exact he n' s' h
    cases ho : stepOp (P := P) (N := N) (parse := parse) st with
    | some op =>
      obtain ⟨h1, h2⟩ := step_op ho hs
      have : p'.engine.samples = p.engine.samples := by
        refine samples_kept hL (page_reachable hp) ?_ h1
        cases st <;> cases ho <;> trivial
      rw [h2, this]
      exact ⟨ih1, ih2⟩
    | none =>
      rcases step_load hA.1 ho hs with ⟨sr, seed, order, rfl⟩ | ⟨key, b, h1, h2, hst⟩
      · cases hs
        refine ⟨ih1, ?_⟩
        have hmem : ∀ x ∈ order, Filled x.2 := fun x hx => ih1 x (hA.1.1.mem_iff.mp hx)
        have key : ∀ (l : List (Name × AudioBuffer)), (∀ x ∈ l, Filled x.2) → ∀ e : Engine (glicol P N parse),
            (∀ n s, (n, s) ∈ e.samples → SampleFilled s) → ∀ n s, (n, s) ∈ (reload e l).samples → SampleFilled s := by
          intro l
          induction l with
          | nil => intro _ e he; exact he
          | cons x l ihl =>
            intro hl e he
            simp only [reload]
            split
            · exact he
            · next hsome =>
              exact ihl (fun y hy => hl y (by simp [hy])) _ (hadd _ _ _ (decodes_filled (hl x (by simp)) hsome) he)
        exact key order hmem _ (fun n s h => by cases h)
      · have hb : Filled b := by
          rcases hst with rfl | rfl | ⟨f, rfl⟩ | ⟨c, f, rfl⟩ <;> exact hA.2
        rw [h1, h2]
        constructor
        · intro x hx
          rcases mem_insert hx with h | h
          · rw [h]; exact hb
          · exact ih1 x h
        · simp only [State.load]
          split
          · exact ih2
          · next hsome => exact hadd _ _ _ (decodes_filled hb hsome) ih2

theorem page_listed (hL : ParserWf (glicol P N parse)) {p : State P N parse} (h : PageReach low Orderly p) :
    (keys p.buffers).Nodup ∧ ∀ k b s, lookup p.buffers k = some b → Decodes b s →
      lookup p.engine.samples ('\\' :: k) = some s := by
  induction h with
  | init sr seed => exact ⟨List.nodup_nil, fun k b s h => by cases h⟩
  | @step p p' st hp hA hs ih =>
    obtain ⟨ih1, ih2⟩ := ih
    cases ho : stepOp (P := P) (N := N) (parse := parse) st with
    | some op =>
      obtain ⟨h1, h2⟩ := step_op ho hs
      have : p'.engine.samples = p.engine.samples := by
        refine samples_kept hL (page_reachable hp) ?_ h1
        cases st <;> cases ho <;> trivial
      rw [h2, this]
      exact ⟨ih1, ih2⟩
    | none =>
      rcases step_load hA ho hs with ⟨sr, seed, order, rfl⟩ | ⟨key, b, h1, h2, _⟩
      · cases hs
        refine ⟨ih1, fun k b s hk hbs => ?_⟩
        have hmem : ∀ x, x ∈ order ↔ x ∈ p.buffers := fun x => hA.1.mem_iff
        refine reload_mem ?_ (fun x hx => hA.2 x.1 x.2 ((hmem x).mp hx)) ((hmem _).mpr (lookup_mem hk)) hbs _
        exact (hA.1.map Prod.fst).nodup_iff.mpr ih1
      · rw [h1, h2]
        refine ⟨insert_nodup ih1, fun k b' s hk hbs => ?_⟩
        simp only [State.load, lookup_insert] at hk ⊢
        split at hk
        · next hkk =>
          cases hk
          subst hkk
          rw [decodes_iff.mpr hbs]
          exact added _ _ _
        · next hkk =>
          split
          · exact ih2 k b' s hk hbs
          · exact (added_other _ _ (fun h => hkk (List.cons.inj h).2)).trans (ih2 k b' s hk hbs)

/-- **C65 (part).** Whatever is loaded, played and stopped in whatever order: every sample that the page lists, mono or
stereo, is registered in the engine with its data under the name by which it is listed. Missing: names with a dash
and samples with more channels, once the page has been stopped (`c65_dash_counterexample`,
`c65_surround_counterexample`). -/
theorem c65_listed_partial (fe : Name → Option Fl) {p : State P N (Parse.parse fe)} (h : PageReach low Orderly p)
    (key : Name) (b : AudioBuffer) (s : Sample) (hl : lookup p.buffers key = some b) (hs : Decodes b s) :
    lookup p.engine.samples ('\\' :: key) = some s :=
  (page_listed (glicol_parserWf P N fe) h).2 key b s hl hs

/-- The text that triggers a sample once a second. -/
theorem sp_text_parses (fe : Name → Option Fl) {key : Name} (h0 : key ≠ []) (hc : ∀ c ∈ key, SymChar c) :
    Parse.parse fe (c!"o: imp 1 >> sp \\" ++ key) = .ok (some [(c!"o", [.imp (.num (.fin 1)), .sp ('\\' :: key)])]) := by
  have ho : WName c!"o" := .bare (.mk (t := []) (d := []) (by decide) (by decide) (by simp) (Or.inl rfl))
  have g : Gap [' '] := ⟨by simp, by simp [Blanks, Blank]⟩
  have bl : Blanks [' '] := by simp [Blanks, Blank]
  have bn : Blanks [] := by simp [Blanks]
  have i1 : WInt (.fin 1) ['1'] := by
    have := WInt.mk (s := []) (t := ['1']) .none ⟨by decide, by decide⟩
    rwa [show Fl.round f32 false (signed false (decimal ['1'])) = .fin 1 by decide +kernel] at this
  have himp : Writes fe (.imp (.num (.fin 1))) c!"imp 1" :=
    .num (kw := c!"imp") (g := [' ']) (t := ['1']) (f := fun v => .imp (.num v)) (by simp [numKinds]) g (.int i1)
  have hsp : Writes fe (.sp ('\\' :: key)) (c!"sp" ++ ([' '] ++ ('\\' :: key))) :=
    .sp (kw := c!"sp") (g := [' ']) (by simp) g (.slash h0 hc)
  refine c32_written_programs_parse_partial fe (p := [(c!"o", [.imp (.num (.fin 1)), .sp ('\\' :: key)])]) ?_ (by simp)
  have hline : WLine fe (c!"o", [.imp (.num (.fin 1)), .sp ('\\' :: key)]) (c!"o: imp 1 >> sp \\" ++ key) :=
    .mk (k := c!"o") (a := []) (b := [' ']) (t := c!"imp 1 >> sp \\" ++ key) ho bn bl
      (.cons (t := c!"imp 1") (j := [' ']) (d := [' ']) (u := c!"sp \\" ++ key) himp
        (.blank (a := []) (n := []) (b := [' ']) bn (Or.inl rfl) bl) bl (.one hsp))
  have := WProg.body (fe := fe) (w := []) (s := []) (t := (c!"o: imp 1 >> sp \\" ++ key) ++ []) (by simp [Spaces]) .nil
    (.last hline bn)
  simpa using this

/-- A program of one chain without references is accepted when its nodes can be built. -/
theorem accepts_chain {fe : Name → Option Fl} {e : Engine (glicol P N (Parse.parse fe))}
    (hr : CleanReach _ e) (τ : TableOrder) {code k : Name} {comps : List Comp}
    (hp : Parse.parse fe code = .ok (some [(k, comps)])) (hd : Distinct Comp.eq comps) (hk : k ≠ inputName)
    (hrefs : ∀ c ∈ comps, Comp.refs c = [])
    (hmake : ∀ c ∈ comps, ∃ x, makeNode P N e.samples e.sr e.bpm e.seed c = .ok x) :
    ∃ e', e.updateWithCode τ code = .ok (e', none) := by
  have hL := glicol_parserWf P N fe
  have hclean : CleanProg (glicol P N (Parse.parse fe)) [(k, comps)] := by
    refine ⟨?_, by simpa [inputName] using Ne.symm hk⟩
    intro k' c hk'
    cases List.mem_singleton.mp hk'
    exact hd
  have hnone : ∀ r, ¬ progRefs (glicol P N (Parse.parse fe)) [(k, comps)] r := by
    rintro r ⟨k', cs, c, hm, hc, hr⟩
    cases List.mem_singleton.mp hm
    have h : r ∈ Comp.refs c := hr
    rw [hrefs c hc] at h
    cases h
  have hbuild : ∀ k' cs c, (k', cs) ∈ ([(k, comps)] : Ast Comp) → c ∈ cs →
      ∃ x, makeNode P N e.samples e.sr e.bpm e.seed c = .ok x := by
    intro k' cs c hm hc
    simp only [List.mem_singleton, Prod.mk.injEq] at hm
    obtain ⟨rfl, rfl⟩ := hm
    exact hmake c hc
  obtain ⟨e', r, hu⟩ := c05_update_does_not_panic_partial hL (glicol_eqLaws P N _) glicol_wiringTotal hr τ code
    (some [(k, comps)]) hp (fun new hn => by cases hn; exact hclean) (by
      rintro new k' cs c q hn hm hc hq
      cases hn
      obtain ⟨x, hx⟩ := hbuild k' cs c hm hc
      have : makeNode P N e.samples e.sr e.bpm e.seed c = .error (.panic q) := hq
      rw [hx] at this
      cases this)
  have := (c07_rejects_exactly_unresolved hL (glicol_eqLaws P N _) (glicol_refLaws P N _) hr.reachable τ code
    [(k, comps)] r hp (fun r hr => (hnone r hr).elim) hbuild hu).1.mpr (fun r hr => (hnone r hr).elim)
  rw [this] at hu
  exact ⟨e', hu⟩

/-- **C65 (part).** A listed sample, mono or stereo, whose name can be written can be played by typing its name after
`sp \\`: the program is accepted, whatever was loaded, played and stopped before. -/
theorem c65_playable_partial (fe : Name → Option Fl) {p : State P N (Parse.parse fe)}
    (h : PageReach low Tidy p) (key : Name) (b : AudioBuffer) (s : Sample) (hl : lookup p.buffers key = some b)
    (hs : Decodes b s) (h0 : key ≠ []) (hc : ∀ c ∈ key, SymChar c) (τ : TableOrder) :
    ∃ e', p.engine.updateWithCode τ (c!"o: imp 1 >> sp \\" ++ key) = .ok (e', none) := by
  have hreg := c65_listed_partial fe (page_orderly h) key b s hl hs
  obtain ⟨_, hfill⟩ := page_filled (glicol_parserWf P N fe) h
  obtain ⟨f1, f2⟩ := hfill _ _ (lookup_mem hreg)
  have hmake : ∀ c ∈ [Comp.imp (.num (.fin 1)), .sp ('\\' :: key)],
      ∃ x, makeNode P N p.engine.samples p.engine.sr p.engine.bpm p.engine.seed c = .ok x := by
    intro c hcm
    simp only [List.mem_cons, List.not_mem_nil, or_false] at hcm
    rcases hcm with rfl | rfl
    · exact ⟨_, rfl⟩
    · have hnew : Sampler.new s p.engine.sr = .ok ⟨[], s, 0, p.engine.sr, []⟩ := by
        simp [Sampler.new, f1, f2]
      have hreg' : lookup (β := Sample) p.engine.samples ('\\' :: key) = some s := hreg
      exact ⟨_, by simp only [makeNode, makePrim, hreg', hnew, liftP, bind, Except.bind]; rfl⟩
  exact accepts_chain (page_clean h) τ (sp_text_parses fe h0 hc) (by simp [Distinct, Comp.eq]) (by decide)
    (by intro c hcm; simp only [List.mem_cons, List.not_mem_nil, or_false] at hcm; rcases hcm with rfl | rfl <;> rfl) hmake

/-! ### Names of files -/

theorem dropFirst_none {pat : Name} {c : Char} (hc : pat.head? = some c) : ∀ {s : Name}, c ∉ s → dropFirst pat s = s := by
  intro s
  induction s with
  | nil => intro _; rfl
  | cons d s ih =>
    intro h
    rw [List.mem_cons, not_or] at h
    obtain ⟨p, rfl⟩ : ∃ p, pat = c :: p := by
      cases pat with
      | nil => cases hc
      | cons a p => cases hc; exact ⟨p, rfl⟩
    rw [dropFirst, if_neg, ih h.2]
    simp [List.isPrefixOf, h.1]

theorem dropFirst_end {pat : Name} {c : Char} (hc : pat.head? = some c) : ∀ {s : Name}, c ∉ s → dropFirst pat (s ++ pat) = s := by
  intro s
  induction s with
  | nil =>
    intro _
    obtain ⟨p, rfl⟩ : ∃ p, pat = c :: p := by
      cases pat with
      | nil => cases hc
      | cons a p => cases hc; exact ⟨p, rfl⟩
    rw [List.nil_append, dropFirst, if_pos (by simp)]
    simp
  | cons d s ih =>
    intro h
    rw [List.mem_cons, not_or] at h
    obtain ⟨p, rfl⟩ : ∃ p, pat = c :: p := by
      cases pat with
      | nil => cases hc
      | cons a p => cases hc; exact ⟨p, rfl⟩
    rw [List.cons_append, dropFirst, if_neg, ih h.2]
    simp [List.isPrefixOf, h.1]

instance : DecidablePred FileChar := fun c => by unfold FileChar Digit; infer_instance

/-- A character that may stand in such a name is ASCII and no dot. -/
theorem fileChar_nat {c : Char} (h : FileChar c) :
    (c.toNat = 95 ∨ c.toNat = 45 ∨ c.toNat = 32 ∨ c.toNat = 35 ∨ (97 ≤ c.toNat ∧ c.toNat ≤ 122) ∨
      (65 ≤ c.toNat ∧ c.toNat ≤ 90) ∨ (48 ≤ c.toNat ∧ c.toNat ≤ 57)) := by
  rcases h with rfl | rfl | rfl | rfl | ⟨h1, h2⟩ | ⟨h1, h2⟩ | ⟨h1, h2⟩
  · decide
  · decide
  · decide
  · decide
  · exact .inr (.inr (.inr (.inr (.inl ⟨h1, h2⟩))))
  · exact .inr (.inr (.inr (.inr (.inr (.inl ⟨h1, h2⟩)))))
  · exact .inr (.inr (.inr (.inr (.inr (.inr ⟨h1, h2⟩)))))

theorem fileChar_all {c : Char} (h : FileChar c) : ∃ n < 128, c = Char.ofNat n ∧
    (lowerChar low c).flatMap plainChar = typed c ∧ '.' ∉ lowerChar low c ∧ typed c ≠ [] ∧ ∀ d ∈ typed c, SymChar d := by
  have key : ∀ m : Fin 128, let n := m.val; (n = 95 ∨ n = 45 ∨ n = 32 ∨ n = 35 ∨ (97 ≤ n ∧ n ≤ 122) ∨ (65 ≤ n ∧ n ≤ 90) ∨ (48 ≤ n ∧ n ≤ 57)) →
      (lowerChar (fun _ => []) (Char.ofNat n)).flatMap plainChar = typed (Char.ofNat n) ∧
      '.' ∉ lowerChar (fun _ => []) (Char.ofNat n) ∧ typed (Char.ofNat n) ≠ [] ∧
      ∀ d ∈ typed (Char.ofNat n), (d = '_' ∨ d = '-' ∨ ('a' ≤ d ∧ d ≤ 'z') ∨ ('A' ≤ d ∧ d ≤ 'Z') ∨ ('0' ≤ d ∧ d ≤ '9')) := by
    decide +kernel
  have hn := fileChar_nat h
  have hlt : c.toNat < 128 := by omega
  have hc : Char.ofNat c.toNat = c := Char.ofNat_toNat c
  have hlow : lowerChar low c = lowerChar (fun _ => []) c := by
    simp only [lowerChar, hlt, if_true]
  obtain ⟨k1, k2, k3, k4⟩ := key ⟨c.toNat, hlt⟩ hn
  rw [hc] at k1 k2 k3 k4
  exact ⟨c.toNat, hlt, hc.symm, by rw [hlow]; exact k1, by rw [hlow]; exact k2, k3, k4⟩

theorem fileKey_eq {base ext : Name} (h0 : ∀ c ∈ base, FileChar c) (he : lowerCase low ext = c!".wav" ∨ lowerCase low ext = c!".mp3") :
    fileKey low (base ++ ext) = base.flatMap typed := by
  have hdot : '.' ∉ lowerCase low base := by
    intro h
    obtain ⟨c, hc, hd⟩ := List.mem_flatMap.mp h
    obtain ⟨_, _, _, _, hn, _⟩ := fileChar_all (low := low) (h0 c hc)
    exact hn hd
  have hfin : (lowerCase low base).flatMap plainChar = base.flatMap typed := by
    clear hdot
    induction base with
    | nil => rfl
    | cons c base ih =>
      obtain ⟨_, _, _, hc, _⟩ := fileChar_all (low := low) (h0 c (by simp))
      simp only [lowerCase, List.flatMap_cons, List.flatMap_append] at ih ⊢
      rw [hc, ih (fun d hd => h0 d (by simp [hd]))]
  have happ : lowerCase low (base ++ ext) = lowerCase low base ++ lowerCase low ext := by simp [lowerCase]
  rw [fileKey, plain, happ]
  rcases he with he | he <;> rw [he]
  · rw [dropFirst_end (c := '.') rfl hdot, dropFirst_none (c := '.') rfl hdot, hfin]
  · have : dropFirst c!".wav" (lowerCase low base ++ c!".mp3") = lowerCase low base ++ c!".mp3" := by
      generalize lowerCase low base = l at hdot
      induction l with
      | nil => decide
      | cons d l ih =>
        rw [List.mem_cons, not_or] at hdot
        rw [List.cons_append, dropFirst, if_neg, ih hdot.2]
        simp [List.isPrefixOf, hdot.1]
    rw [this, dropFirst_end (c := '.') rfl hdot, hfin]

/-- **C65 (part).** A picked file whose name consists of letters, digits, blanks, `_`, `-` and `#` before the ending
`.wav` or `.mp3` (in any case) can be played as soon as it has been decoded, by typing its name with small letters,
underscores for blanks and dashes, and `_sharp_` for `#`. -/
theorem c65_file_partial (fe : Name → Option Fl) {p p' : State P N (Parse.parse fe)}
    (h : PageReach low Tidy p) (base ext : Name) (b : AudioBuffer) (s : Sample) (h0 : base ≠ []) (hc : ∀ c ∈ base, FileChar c)
    (he : lowerCase low ext = c!".wav" ∨ lowerCase low ext = c!".mp3") (hb : Filled b) (hs : Decodes b s)
    (hstep : p.step low (.file (base ++ ext) b) = .ok p') (τ : TableOrder) :
    lookup p'.engine.samples ('\\' :: base.flatMap typed) = some s ∧
    ∃ e', p'.engine.updateWithCode τ (c!"o: imp 1 >> sp \\" ++ base.flatMap typed) = .ok (e', none) := by
  have hr : PageReach low Tidy p' := .step (.file (base ++ ext) b) h ⟨trivial, hb⟩ hstep
  have hl : lookup p'.buffers (base.flatMap typed) = some b := by
    cases hstep
    show lookup (insert _ _ _) _ = _
    rw [lookup_insert, if_pos (fileKey_eq hc he)]
  refine ⟨c65_listed_partial fe (page_orderly hr) _ b s hl hs, c65_playable_partial fe hr _ b s hl hs ?_ ?_ τ⟩
  · obtain ⟨c, base, rfl⟩ := List.exists_cons_of_ne_nil h0
    obtain ⟨_, _, _, _, _, hne, _⟩ := fileChar_all (low := low) (hc c (by simp))
    simp [hne]
  · intro d hd
    obtain ⟨c, hcb, hd⟩ := List.mem_flatMap.mp hd
    obtain ⟨_, _, _, _, _, _, hall⟩ := fileChar_all (low := low) (hc c hcb)
    exact hall d hd

theorem fileChar_folder {c : Char} (h : FileChar c) : plainChar c = spelled c ∧ lowerCase low (spelled c) = typed c ∧ c ≠ '.' := by
  have key : ∀ m : Fin 128, let n := m.val; (n = 95 ∨ n = 45 ∨ n = 32 ∨ n = 35 ∨ (97 ≤ n ∧ n ≤ 122) ∨ (65 ≤ n ∧ n ≤ 90) ∨ (48 ≤ n ∧ n ≤ 57)) →
      plainChar (Char.ofNat n) = spelled (Char.ofNat n) ∧ lowerCase (fun _ => []) (spelled (Char.ofNat n)) = typed (Char.ofNat n) ∧
      Char.ofNat n ≠ '.' ∧ ∀ d ∈ spelled (Char.ofNat n), d.toNat < 128 := by
    decide +kernel
  have hn := fileChar_nat h
  have hlt : c.toNat < 128 := by omega
  have hc : Char.ofNat c.toNat = c := Char.ofNat_toNat c
  obtain ⟨k1, k2, k3, k4⟩ := key ⟨c.toNat, hlt⟩ hn
  rw [hc] at k1 k2 k3 k4
  refine ⟨k1, ?_, k3⟩
  rw [← k2, lowerCase, lowerCase]
  refine List.flatMap_congr fun d hd => ?_
  simp only [lowerChar, k4 d hd, if_true]

theorem plain_eq {f : Name} (h : ∀ c ∈ f, FileChar c) : plain f = f.flatMap spelled := by
  have hdot : '.' ∉ f := fun hc => (fileChar_folder (low := fun _ => []) (h _ hc)).2.2 rfl
  rw [plain, dropFirst_none (c := '.') rfl hdot, dropFirst_none (c := '.') rfl hdot]
  exact List.flatMap_congr fun d hd => (fileChar_folder (low := fun _ => []) (h d hd)).1

theorem folderKey_eq {f : Name} (h : ∀ c ∈ f, FileChar c) (n : Nat) :
    folderKey low f n = f.flatMap typed ++ '_' :: Nat.toDigits 10 n := by
  have : lowerCase low (f.flatMap spelled) = f.flatMap typed := by
    rw [lowerCase, List.flatMap_assoc]
    exact List.flatMap_congr fun d hd => (fileChar_folder (h d hd)).2.1
  rw [folderKey, plain_eq h, this]

/-- Different numbers of one folder, and different folders, give different names. -/
theorem key_inj {a b : Name} {m n : Nat} (h : a ++ '_' :: Nat.toDigits 10 m = b ++ '_' :: Nat.toDigits 10 n) : a = b ∧ m = n := by
  have hu : ∀ {x y u v : Name}, '_' ∉ u → '_' ∉ v → x ++ '_' :: u = y ++ '_' :: v → x = y ∧ u = v := by
    intro x
    induction x with
    | nil =>
      intro y u v hu hv h
      cases y with
      | nil => cases h; exact ⟨rfl, rfl⟩
      | cons c y => cases h; simp at hu
    | cons d x ih =>
      intro y u v hu hv h
      cases y with
      | nil => cases h; simp at hv
      | cons c y =>
        rw [List.cons_append, List.cons_append, List.cons.injEq] at h
        obtain ⟨rfl, h⟩ := h
        obtain ⟨rfl, rfl⟩ := ih hu hv h
        exact ⟨rfl, rfl⟩
  obtain ⟨rfl, hd⟩ := hu Nat.underscore_not_in_toDigits Nat.underscore_not_in_toDigits h
  refine ⟨rfl, ?_⟩
  have := congrArg (fun l => Nat.ofDigitChars 10 l 0) hd
  simpa only [Nat.ofDigitChars_ten_toDigits] using this

theorem nextCount_cons (call : Nat) (f g : Name) (n : Nat) (l : List (Nat × Name × Nat)) :
    nextCount call g ((call, f, n) :: l) = if f = g then n + 1 else nextCount call g l := by
  by_cases h : f = g
  · simp [nextCount, count, h]
  · simp [nextCount, count, h]

theorem folder_run (call : Nat) : ∀ {files : List (Name × AudioBuffer)} {p p' : State P N parse}
    (_ : PageRun low p (files.map fun f => .folder call f.1 f.2) p')
    (_ : ∀ f ∈ files, ∀ c ∈ f.1, FileChar c)
    (_ : ∀ f ∈ files, ∀ g ∈ files, f.1.flatMap typed = g.1.flatMap typed → f.1.flatMap spelled = g.1.flatMap spelled),
    (∀ i f, files[i]? = some f → lookup p'.buffers (folderKey low f.1 (nextCount call (plain f.1) p.counts +
      (files.take i).countP fun g => g.1.flatMap typed = f.1.flatMap typed)) = some f.2) ∧
    ∀ k, (∀ f ∈ files, ∀ n, nextCount call (plain f.1) p.counts ≤ n → k ≠ folderKey low f.1 n) →
      lookup p'.buffers k = lookup p.buffers k := by
  intro files
  induction files with
  | nil =>
    intro p p' h _ _
    cases h
    exact ⟨by simp, fun _ _ => rfl⟩
  | cons f fs ih =>
    intro p p' h hc hcase
    cases h
    rename_i p₁ hs h
    have hb : p₁.buffers = insert p.buffers (folderKey low f.1 (nextCount call (plain f.1) p.counts)) f.2 := by cases hs; rfl
    have hn : p₁.counts = (call, plain f.1, nextCount call (plain f.1) p.counts) :: p.counts := by cases hs; rfl
    obtain ⟨ih1, ih2⟩ := ih h (fun g hg => hc g (by simp [hg])) (fun g hg g' hg' => hcase g (by simp [hg]) g' (by simp [hg']))
    have hplain : ∀ g ∈ fs, (f.1.flatMap typed = g.1.flatMap typed) ↔ plain f.1 = plain g.1 := by
      intro g hg
      rw [plain_eq (hc f (by simp)), plain_eq (hc g (by simp [hg]))]
      refine ⟨hcase f (by simp) g (by simp [hg]), fun h => ?_⟩
      have := congrArg (lowerCase (fun _ => [])) h
      rw [← plain_eq (hc f (by simp)), ← plain_eq (hc g (by simp [hg]))] at this
      have h1 := folderKey_eq (low := fun _ => []) (hc f (by simp)) 0
      have h2 := folderKey_eq (low := fun _ => []) (hc g (by simp [hg])) 0
      rw [folderKey, this, ← folderKey, h2] at h1
      exact (key_inj h1).1.symm
    constructor
    · intro i g hi
      cases i with
      | zero =>
        cases hi
        rw [List.take_zero, List.countP_nil, Nat.add_zero, ih2, hb, lookup_insert, if_pos rfl]
        intro g hg n hle heq
        rw [folderKey_eq (hc f (by simp)), folderKey_eq (hc g (by simp [hg]))] at heq
        obtain ⟨ht, rfl⟩ := key_inj heq
        rw [hn, nextCount_cons, if_pos ((hplain g hg).mp ht)] at hle
        omega
      | succ i =>
        rw [List.getElem?_cons_succ] at hi
        have hg := List.mem_of_getElem? hi
        have := ih1 i g hi
        rw [hn, nextCount_cons] at this
        rw [List.take_succ_cons, List.countP_cons]
        by_cases ht : f.1.flatMap typed = g.1.flatMap typed
        · rw [if_pos ((hplain g hg).mp ht)] at this
          rw [if_pos (by simpa using ht), ← this, ← (hplain g hg).mp ht]
          congr 2
          omega
        · rw [if_neg (fun h => ht ((hplain g hg).mpr h))] at this
          rw [if_neg (by simpa using ht), Nat.add_zero, this]
    · intro k hk
      rw [ih2, hb, lookup_insert, if_neg (Ne.symm (hk f (by simp) _ (Nat.le_refl _)))]
      intro g hg n hle
      refine hk g (by simp [hg]) n ?_
      rw [hn, nextCount_cons] at hle
      split at hle
      · rename_i h
        rw [← h]
        omega
      · exact hle

theorem run_reach {A : State P N parse → Step → Prop} {p p' : State P N parse} {l : List Step} (h : PageRun low p l p') :
    PageReach low A p → (∀ q, ∀ s ∈ l, A q s) → PageReach low A p' := by
  induction h with
  | nil p => intro h _; exact h
  | cons hs _ ih => intro h hA; exact ih (.step _ h (hA _ _ (by simp)) hs) fun q s hs => hA q s (by simp [hs])

/-- **C65 (part).** All files of one call of `addSampleFolder()` can be played when they have been decoded, by the name
of their folder and a number counting from 0, provided that no two folders differ only in capitals. -/
theorem c65_folder_partial (fe : Name → Option Fl) {p p' : State P N (Parse.parse fe)}
    (h : PageReach low Tidy p) (call : Nat) (files : List (Name × AudioBuffer)) (hnew : ∀ x ∈ p.counts, x.1 ≠ call)
    (hrun : PageRun low p (files.map fun f => .folder call f.1 f.2) p')
    (hc : ∀ f ∈ files, ∀ c ∈ f.1, FileChar c) (hb : ∀ f ∈ files, Filled f.2)
    (hcase : ∀ f ∈ files, ∀ g ∈ files, f.1.flatMap typed = g.1.flatMap typed → f.1.flatMap spelled = g.1.flatMap spelled)
    (i : Nat) (folder : Name) (b : AudioBuffer) (hi : files[i]? = some (folder, b)) (s : Sample) (hs : Decodes b s)
    (τ : TableOrder) :
    lookup p'.engine.samples ('\\' :: numbered files i folder) = some s ∧
    ∃ e', p'.engine.updateWithCode τ (c!"o: imp 1 >> sp \\" ++ numbered files i folder) = .ok (e', none) := by
  have hr : PageReach low Tidy p' := by
    refine run_reach hrun h ?_
    intro q st hst
    obtain ⟨f, hf, rfl⟩ := List.mem_map.mp hst
    exact ⟨trivial, hb f hf⟩
  have h0 : nextCount call (plain folder) p.counts = 0 := by
    have : count call (plain folder) p.counts = none := by
      generalize p.counts = l at hnew
      induction l with
      | nil => rfl
      | cons x l ih =>
        obtain ⟨c, g, n⟩ := x
        have := hnew (c, g, n) (by simp)
        rw [count, if_neg (fun h => this h.1), ih (fun y hy => hnew y (by simp [hy]))]
    rw [nextCount, this]
  have hmem := List.mem_of_getElem? hi
  have hkey : folderKey low folder (nextCount call (plain folder) p.counts +
      (files.take i).countP fun g => g.1.flatMap typed = folder.flatMap typed) = numbered files i folder := by
    rw [folderKey_eq (hc _ hmem), h0, Nat.zero_add, numbered]
    congr 2
    exact Nat.toList_repr.symm
  have hl : lookup p'.buffers (numbered files i folder) = some b := by
    rw [← hkey]
    exact (folder_run call hrun hc hcase).1 i (folder, b) hi
  refine ⟨c65_listed_partial fe (page_orderly hr) _ b s hl hs, c65_playable_partial fe hr _ b s hl hs ?_ ?_ τ⟩
  · simp [numbered]
  · intro d hd
    rw [numbered] at hd
    rcases List.mem_append.mp hd with hd | hd
    · obtain ⟨c, hcb, hd⟩ := List.mem_flatMap.mp hd
      obtain ⟨_, _, _, _, _, _, hall⟩ := fileChar_all (low := low) (hc _ hmem c hcb)
      exact hall d hd
    · rcases List.mem_cons.mp hd with rfl | hd
      · exact .inl rfl
      · have : d ∈ Nat.toDigits 10 ((files.take i).countP fun g => g.1.flatMap typed = folder.flatMap typed) := by
          rw [← Nat.toList_repr]; exact hd
        have := Nat.isDigit_of_mem_toDigits (by omega) (by omega) this
        refine .inr (.inr (.inr (.inr ?_)))
        simp only [Char.isDigit, Bool.and_eq_true, decide_eq_true_eq] at this
        exact this

/-! ### The hypotheses can be met -/

/-- The page with the two built-in samples of the example. -/
theorem page_example (fe : Name → Option Fl) (low : Char → Name) : ∃ p : State P N (Parse.parse fe),
    PageReach low Tidy p ∧ lookup p.buffers c!"bd0" = some ⟨[[.fin 1], [.fin 0]], 44100⟩ ∧
    p.counts = [] := by
  refine ⟨_, .step (.stop 48000 7 [(c!"sn", ⟨[[.fin 1]], 44100⟩), (c!"bd0", ⟨[[.fin 1], [.fin 0]], 44100⟩)])
    (.step (.builtin c!"sn" ⟨[[.fin 1]], 44100⟩)
      (.step (.builtin c!"bd0" ⟨[[.fin 1], [.fin 0]], 44100⟩) (.init 44100 0)
        ⟨show '-' ∉ c!"bd0" by decide, ?_⟩ rfl) ⟨show '-' ∉ c!"sn" by decide, ?_⟩ rfl)
    ⟨⟨.swap _ _ _, ?_⟩, trivial⟩ rfl, rfl, rfl⟩
  · intro c hc; simp at hc; rcases hc with rfl | rfl <;> simp
  · intro c hc; simp at hc; subst hc; simp
  · intro k b h
    have h : (k, b) ∈ [(c!"bd0", (⟨[[.fin 1], [.fin 0]], 44100⟩ : AudioBuffer)), (c!"sn", ⟨[[.fin 1]], 44100⟩)] := h
    simp at h
    rcases h with ⟨rfl, rfl⟩ | ⟨rfl, rfl⟩
    · exact ⟨by decide, _, .stereo⟩
    · exact ⟨by decide, _, .mono⟩

/-- The built-in sample is known and can be played after the page has been stopped. -/
example (fe : Name → Option Fl) : ∃ p : State Demo.plat 1 (Parse.parse fe), PageReach low Tidy p ∧ PageReach low Orderly p ∧
    lookup p.buffers c!"bd0" = some ⟨[[.fin 1], [.fin 0]], 44100⟩ ∧
    Decodes ⟨[[.fin 1], [.fin 0]], 44100⟩ ⟨[.fin 1, .fin 0], 2, 44100⟩ ∧ ∀ c ∈ c!"bd0", SymChar c := by
  obtain ⟨p, h, hl, _⟩ := page_example (P := Demo.plat) (N := 1) fe low
  exact ⟨p, h, page_orderly h, hl, .stereo, by decide⟩

/-- A file `Kick 1#.WAV` is played as `\kick_1_sharp_`. -/
example (fe : Name → Option Fl) (τ : TableOrder) : ∃ p p' : State Demo.plat 1 (Parse.parse fe), PageReach low Tidy p ∧
    p.step low (.file c!"Kick 1#.WAV" ⟨[[.fin 1]], 44100⟩) = .ok p' ∧
    ∃ e, p'.engine.updateWithCode τ c!"o: imp 1 >> sp \\kick_1_sharp_" = .ok (e, none) := by
  obtain ⟨p, h, _⟩ := page_example (P := Demo.plat) (N := 1) fe low
  refine ⟨p, _, h, rfl, ?_⟩
  exact (c65_file_partial (P := Demo.plat) (N := 1) (low := low) fe h c!"Kick 1#" c!".WAV" ⟨[[.fin 1]], 44100⟩ _ (by decide) (by decide)
    (.inl rfl) (by intro c hc; simp at hc; subst hc; simp) .mono rfl τ).2

/-- Three files of a call with two folders: the third is the second of its folder, `\my_kit_1`. -/
example (fe : Name → Option Fl) (τ : TableOrder) : ∃ p p' : State Demo.plat 1 (Parse.parse fe), PageReach low Tidy p ∧
    PageRun low p [.folder 0 c!"My kit" ⟨[[.fin 1]], 44100⟩, .folder 0 c!"b" ⟨[[.fin 0]], 44100⟩,
      .folder 0 c!"My kit" ⟨[[.fin 0]], 48000⟩] p' ∧
    lookup p'.engine.samples c!"\\my_kit_1" = some ⟨[.fin 0], 1, 48000⟩ := by
  obtain ⟨p, h, _, hn⟩ := page_example (P := Demo.plat) (N := 1) fe low
  refine ⟨p, _, h, .cons rfl (.cons rfl (.cons rfl (.nil _))), ?_⟩
  exact (c65_folder_partial (P := Demo.plat) (N := 1) (low := low) fe h 0
    [(c!"My kit", ⟨[[.fin 1]], 44100⟩), (c!"b", ⟨[[.fin 0]], 44100⟩), (c!"My kit", ⟨[[.fin 0]], 48000⟩)]
    (by simp [hn]) (.cons rfl (.cons rfl (.cons rfl (.nil _)))) (by decide)
    (by
      intro f hf
      simp at hf
      rcases hf with rfl | rfl | rfl <;> (intro c hc; simp at hc; subst hc; simp))
    (by decide) 2 c!"My kit" ⟨[[.fin 0]], 48000⟩ rfl _ .mono τ).1

/-! ### What goes wrong -/

/-- A sample that the engine does not know cannot be played. -/
theorem not_playable (fe : Name → Option Fl) {e : Engine (glicol P N (Parse.parse fe))} (hr : Reachable _ e) (τ : TableOrder)
    {key : Name} {l : List Name} (h0 : key ≠ []) (hc : ∀ c ∈ key, SymChar c) (hl : e.samples.map Prod.fst = l)
    (hn : '\\' :: key ∉ l) :
    ∀ e', e.updateWithCode τ (c!"o: imp 1 >> sp \\" ++ key) ≠ .ok (e', none) := by
  intro e' h
  have := (c63_unknown_samples hr τ _ _ none (sp_text_parses fe h0 hc) h).1 rfl ('\\' :: key)
    ⟨_, _, .sp ('\\' :: key), List.mem_singleton.mpr rfl, by simp, by simp [Spec.Comp.samples]⟩
  exact hn (hl ▸ this)

theorem init_reachable (sr seed : Nat) : Reachable (glicol P N parse) (State.init P N parse sr seed).engine :=
  .step (.setSeed seed) (.step (.setSr sr) (.new N) rfl) rfl

/-- A sample loaded with `addSampleFiles("a-b", url)` can be played until the page is stopped, and never after: when
the samples are sent to the new engine the dash is replaced, although the sample is listed as before. -/
theorem c65_dash_counterexample (fe : Name → Option Fl) (low : Char → Name) (τ : TableOrder) :
    ∃ (b : AudioBuffer) (p₁ p₂ : State P N (Parse.parse fe)),
      (State.init P N (Parse.parse fe) 44100 0).step low (.url c!"a-b" b) = .ok p₁ ∧
      p₁.step low (.stop 44100 0 p₁.buffers) = .ok p₂ ∧
      lookup p₁.buffers c!"a-b" = some b ∧ lookup p₂.buffers c!"a-b" = some b ∧
      (∃ e, p₁.engine.updateWithCode τ c!"o: imp 1 >> sp \\a-b" = .ok (e, none)) ∧
      ∀ e, p₂.engine.updateWithCode τ c!"o: imp 1 >> sp \\a-b" ≠ .ok (e, none) := by
  refine ⟨⟨[[.fin 1]], 44100⟩, _, _, rfl, rfl, rfl, rfl, ?_, ?_⟩
  · refine c65_playable_partial (low := low) (b := ⟨[[.fin 1]], 44100⟩) fe
      (.step (.url c!"a-b" ⟨[[.fin 1]], 44100⟩) (.init 44100 0) ⟨trivial, ?_⟩ rfl) c!"a-b" _ rfl .mono (by decide) ?_ τ
    · intro c hc; simp at hc; subst hc; simp
    · decide
  · refine not_playable fe ?_ τ (key := c!"a-b") (l := [c!"\\a_b"]) (by decide) (by decide) rfl (by decide)
    exact .step (.addSample _ _) (init_reachable 44100 0) rfl

/-- A sample with three channels is listed and cannot be played; once it is listed, stopping the page loses the
samples that come after it. -/
theorem c65_surround_counterexample (fe : Name → Option Fl) (low : Char → Name) (τ : TableOrder) :
    ∃ (b b' : AudioBuffer) (p₁ p₂ p₃ : State P N (Parse.parse fe)),
      (State.init P N (Parse.parse fe) 44100 0).step low (.file c!"x.wav" b) = .ok p₁ ∧
      p₁.step low (.file c!"y.wav" b') = .ok p₂ ∧ p₂.step low (.stop 44100 0 p₂.buffers) = .ok p₃ ∧
      lookup p₂.buffers c!"x" = some b ∧ lookup p₃.buffers c!"y" = some b' ∧
      (∀ e, p₁.engine.updateWithCode τ c!"o: imp 1 >> sp \\x" ≠ .ok (e, none)) ∧
      (∃ e, p₂.engine.updateWithCode τ c!"o: imp 1 >> sp \\y" = .ok (e, none)) ∧
      ∀ e, p₃.engine.updateWithCode τ c!"o: imp 1 >> sp \\y" ≠ .ok (e, none) := by
  have hx' : fileKey low c!"x.wav" = c!"x" := rfl
  have hy' : fileKey low c!"y.wav" = c!"y" := rfl
  refine ⟨⟨[[.fin 1], [.fin 1], [.fin 1]], 44100⟩, ⟨[[.fin 1]], 44100⟩, _, _, _, rfl, rfl, rfl, rfl, rfl, ?_, ?_, ?_⟩
  · exact not_playable fe (init_reachable 44100 0) τ (key := c!"x") (l := []) (by decide) (by decide) rfl (by decide)
  · refine c65_playable_partial (low := low) (b := ⟨[[.fin 1]], 44100⟩) fe
      (.step (.file c!"y.wav" _) (.step (.file c!"x.wav" ⟨[[.fin 1], [.fin 1], [.fin 1]], 44100⟩) (.init 44100 0) ⟨trivial, ?_⟩ rfl) ⟨trivial, ?_⟩ rfl) c!"y" _ rfl .mono (by decide) ?_ τ
    · intro c hc; simp at hc; subst hc; simp
    · intro c hc; simp at hc; subst hc; simp
    · decide
  · exact not_playable fe (init_reachable 44100 0) τ (key := c!"y") (l := []) (by decide) (by decide) rfl (by decide)

/-- Of two files in the folders `Kick` and `kick` of one call, one is lost: it is listed nowhere. -/
theorem c65_case_counterexample (fe : Name → Option Fl) (low : Char → Name) :
    ∃ (b b' : AudioBuffer) (p : State P N (Parse.parse fe)), b ≠ b' ∧
      PageRun low (State.init P N (Parse.parse fe) 44100 0) [.folder 0 c!"Kick" b, .folder 0 c!"kick" b'] p ∧
      p.buffers.map Prod.snd = [b'] := by
  refine ⟨⟨[[.fin 1]], 44100⟩, ⟨[[.fin 0]], 44100⟩, _, by simp, .cons rfl (.cons rfl (.nil _)), ?_⟩
  kernel_rfl

/-- A file with a dot in its name is listed under a name that cannot be written in a program. -/
theorem c65_dot_counterexample (low : Char → Name) (τ : TableOrder) :
    ∃ (b : AudioBuffer) (p : State Demo.plat 1 (Parse.parse fun _ => none)),
      (State.init Demo.plat 1 (Parse.parse fun _ => none) 44100 0).step low (.file c!"a.b.wav" b) = .ok p ∧
      p.buffers = [(c!"a.b", b)] ∧ p.engine.updateWithCode τ c!"o: imp 1 >> sp \\a.b" = .ok (p.engine, some .parsing) := by
  refine ⟨⟨[[.fin 1]], 44100⟩, _, rfl, rfl, ?_⟩
  have : Parse.parse (fun _ => none) c!"o: imp 1 >> sp \\a.b" = .ok none := by kernel_rfl
  show (Parse.parse (fun _ => none) c!"o: imp 1 >> sp \\a.b" >>= _) = _
  rw [this]
  rfl

end Verif.Props
