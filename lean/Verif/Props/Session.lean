import Verif.Props.Whole
import Verif.Props.PageSafe
import Verif.Spec.Session
import Verif.Lemmas.SetNumber

/-!
# A session (C93)

The statement in full: as long as a player sends programs that make sense, no text is refused and no block fails, however often
the texts change and whatever the hash maps do.
-/

namespace Verif.Props
open Verif.Spec Verif.Parse

variable {P : Plat} {N : Nat} {fe : Name → Option Fl}

namespace Gig

theorem resolves_mono {a b : List Name} {r : Name} (h : ∀ x, x ∈ a → x ∈ b) (hr : Resolves a r) : Resolves b r := by
  cases hr with
  | named h1 h2 => exact .named h1 (h _ h2)
  | pattern h1 h2 h3 => exact .pattern h1 (h _ h2) h3

/-- What a session leaves alone. -/
structure Keeps {L : Lang} (e e' : Engine L) : Prop where
  samples : e'.samples = e.samples
  sr : e'.sr = e.sr
  bpm : e'.bpm = e.bpm
  N : e'.N = e.N

theorem keeps_block {L : Lang} {ho : HashOrder} {e e' : Engine L} {ins out : List (List L.Num)} (h : e.nextBlock ho ins = .ok (e', out)) : Keeps e e' := by
  obtain ⟨e1, g, dd, h1, h2, h3, rfl, rfl⟩ := nextBlock_ok h
  have hon := onlyNodes_copyInputs h1
  exact ⟨by show e1.samples = _; rw [hon.eq], by show e1.sr = _; rw [hon.eq], by show e1.bpm = _; rw [hon.eq], by show e1.N = _; rw [hon.eq]⟩

theorem keeps_text {L : Lang} {τ : TableOrder} {e e' : Engine L} {code : Name} {new : Ast L.Comp}
    (hp : L.parse code = .ok (some new)) (h : e.updateWithCode τ code = .ok (e', none)) : e'.ast = some new ∧ Keeps e e' := by
  unfold Engine.updateWithCode at h
  rw [hp] at h
  simp only [bind, Except.bind] at h
  rcases updateAst_cases h with ⟨x, _, hx, _⟩ | ⟨diff, t1, gone1, t2, gone2, g3, t3, cr, hs, hcase⟩
  · cases hx
  rcases hcase with ⟨y, _, hy, _⟩ | ⟨_, ⟨g5, y, _, hy⟩ | ⟨g5, g6, _, _, _, rfl⟩⟩
  · cases hy
  · cases hy
  exact ⟨rfl, rfl, rfl, rfl, rfl⟩

theorem insert_mem {β : Type} {t : List (Name × β)} {n m : Name} {v w : β} (h : (m, w) ∈ insert t n v) : (m, w) ∈ t ∨ w = v := by
  unfold Verif.insert at h
  split at h
  · rename_i a ha
    obtain ⟨pre, post, rfl, -, h2⟩ := lookup_split ha
    rw [h2 v] at h
    rcases List.mem_append.mp h with h | h
    · exact .inl (List.mem_append_left _ h)
    · rcases List.mem_cons.mp h with h | h
      · exact .inr (Prod.mk.inj h).2
      · exact .inl (List.mem_append_right _ (List.mem_cons_of_mem _ h))
  · rcases List.mem_append.mp h with h | h
    · exact .inl h
    · exact .inr (Prod.mk.inj (List.mem_singleton.mp h)).2

theorem insert_keys {β : Type} {t : List (Name × β)} {n : Name} {v : β} {m : Name} :
    m ∈ (insert t n v).map Prod.fst ↔ m = n ∨ m ∈ t.map Prod.fst := by
  refine lookup_isSome.symm.trans (Iff.trans ?_ (or_congr .rfl lookup_isSome))
  rw [lookup_insert]
  split
  · rename_i h
    exact ⟨fun _ => .inl h.symm, fun _ => rfl⟩
  · rename_i hne
    exact ⟨.inr, fun h => h.elim (fun h => absurd h.symm hne) id⟩

/-- A program that fits is safe for an engine with the program before. -/
theorem fits_safe {script : Bool → Name → Bool → Prop} {accepts : Bool → Name → Prop} {e : Engine (glicol P N (parse fe))} {p : Ast Comp} {t : Name}
    (hparse : parse fe t = .ok (some p)) (hf : FitsApart P.libm.checked script accepts e.sr p) (hrate : RateOk e.sr) (htempo : TempoOk e.bpm)
    (hsamples : ∀ n s, (n, s) ∈ e.samples → SampleOk s)
    (hk : ∀ q, e.ast = some q → ∀ k old comps, (k, old) ∈ q → (k, comps) ∈ p → OrderKept Comp.eq old comps) : SafeProg script e p := by
  refine ⟨⟨hf.distinct, hf.noInput⟩, ?_, ?_, hrate, htempo, hsamples, hf.settings, hf.places⟩
  · intro k comps c h1 h2 r h3
    exact glicol_refWf (P := P) (N := N) hparse r ⟨k, comps, c, h1, h2, h3⟩
  · intro k old comps h1 h2
    rcases h1 with ⟨q, h3, h4⟩ | ⟨rfl, -⟩
    · exact hk q h3 k old comps h4 h2
    · exact demo_kept comps

theorem input_available {U : P.ext.State → Prop} (hx : ExtShape P N U) {e : Engine (glicol P N (parse fe))} (he : e.N = N) {input : Bool}
    (hi : input = true → InputReach _ e) {p : Ast Comp} :
    ∀ x, x ∈ p.map Prod.fst ++ (if input then [['~', 'i', 'n', 'p', 'u', 't']] else []) → x ∈ available e p := by
  intro x h
  rcases List.mem_append.mp h with h | h
  · exact List.mem_append_left _ h
  · cases input with
    | false => cases h
    | true =>
      obtain rfl := List.mem_singleton.mp h
      obtain ⟨h1, i, d, h2, -⟩ := inputOk_reach (glicol_parserWf P N fe) (glicol_shape hx) (hi rfl) he
      refine List.mem_append_right _ (List.mem_filter.mpr ⟨lookup_isSome.mp (by rw [show ['~', 'i', 'n', 'p', 'u', 't'] = inputName from rfl, h2]; rfl), ?_⟩)
      cases ha : e.ast with
      | none => rfl
      | some a =>
        have h3 := h1 a ha
        simpa [keys, inputName] using h3

theorem available_only {e : Engine (glicol P N (parse fe))} (hr : CleanReach (glicol P N (parse fe)) e) {p : Ast Comp} :
    ∀ x, x ∈ available e p → x ∈ p.map Prod.fst ++ [['~', 'i', 'n', 'p', 'u', 't']] := by
  intro x h
  rcases List.mem_append.mp h with h | h
  · exact List.mem_append_left _ h
  · obtain ⟨h1, h2⟩ := List.mem_filter.mp h
    refine List.mem_append_right _ (List.mem_singleton.mpr ((mirrors_clean (glicol_parserWf P N fe) (glicol_eqLaws P N _) hr).onlyInput x h1 ?_))
    unfold oldKeys
    cases ha : e.ast with
    | none => simp
    | some a => simpa [ha] using h2

/-- A message that sets numbers and texts does not fail. -/
theorem msg_total {script : Bool → Name → Bool → Prop} {e : Engine (glicol P N (parse fe))} (hr : ReachBy _ (SafeCall script) e) {s : Name}
    (hs : SetsValues e.ast s) : ∃ e1, e.sendMsg s = .ok e1 := by
  have hL := glicol_parserWf P N fe
  have hst : ∀ ks, ReachBy (glicol P N (parse fe)) (SteadyOn ks) e := by
    intro ks
    clear hs
    induction hr with
    | new N => exact .new N
    | @step e e1 op _ hA happ ih =>
      refine .step op ih ?_ happ
      cases op with
      | update τ code => exact fun p hp => ⟨(hA p hp).clean, fun k comps old _ h1 h2 => (hA p hp).kept k old comps h2 h1⟩
      | _ => trivial
  have hadd : ∀ cmd, cmd ∈ commandsOf s → ∀ k pos m, parseCommand (glicol P N (parse fe)) cmd = some (k, pos, m) →
      (k ≠ inputName ∧ k ∉ oldKeys e) ∨ ∃ a comps c, e.ast = some a ∧ (k, comps) ∈ a ∧ comps[pos]? = some c ∧
        ((∃ par x, Settable c ∧ m = .setToNumber par x) ∨ ∃ par t, Textable c ∧ m = .setToSymbol par t) := by
    intro cmd hcmd k pos m hp
    obtain ⟨cmds, h1, h2⟩ := splits_commandsOf s
    have hmem := h2 cmd hcmd
    unfold parseCommand at hp
    split at hp
    · rename_i chain cpos ppos value rest hsp
      rw [hsp] at hmem
      simp only [Option.some.injEq, Prod.mk.injEq] at hp
      obtain ⟨rfl, rfl, rfl⟩ := hp
      rcases hs cmds h1 _ _ _ _ _ hmem _ _ position_spec position_spec with ⟨g1, g2⟩ | ⟨a, comps, c, g1, g2, g3, g4⟩
      · refine .inl ⟨g1, ?_⟩
        unfold oldKeys
        cases ha : e.ast with
        | none => simp
        | some a => exact g2 a ha
      refine .inr ⟨a, comps, c, g1, g2, g3, ?_⟩
      rcases g4 with ⟨x, g5, g4, -⟩ | ⟨g5, g4⟩
      · have g5 : (glicol P N (parse fe)).parseNum value = some x := g5
        refine .inl ⟨(parseUInt 255 ppos).getD 0, x, g4, ?_⟩
        unfold valueMsg
        rw [g5]
      · have g5 : (glicol P N (parse fe)).parseNum value = none := g5
        refine .inr ⟨(parseUInt 255 ppos).getD 0, value, g4, ?_⟩
        unfold valueMsg
        rw [g5]
    · cases hp
  show ∃ e1, (commandsOf s).foldlM Engine.command e = .ok e1
  cases ha : e.ast with
  | none =>
    refine commands_total (a := []) _ ⟨fun k comps i c h => (nomatch h), fun k _ hi => no_others hL (steady_clean (hst [])) (by simp [oldKeys, ha]) hi⟩
      (fun cmd hcmd k pos m hp => ?_)
    rcases hadd cmd hcmd k pos m hp with ⟨g1, -⟩ | ⟨a, comps, c, g1, -⟩
    · exact .inl ⟨g1, by simp⟩
    · rw [ha] at g1
      cases g1
  | some a =>
    refine commands_total (a := a) _ (tuned_reach hL (hst (a.map Prod.fst)) ha (fun _ h => h)) (fun cmd hcmd k pos m hp => ?_)
    rcases hadd cmd hcmd k pos m hp with ⟨g1, g2⟩ | ⟨a', comps, c, g1, g⟩
    · simp only [oldKeys, ha] at g2
      exact .inl ⟨g1, g2⟩
    · rw [ha] at g1
      cases g1
      exact .inr ⟨comps, c, g⟩

/-- Such a message is safe. -/
theorem msg_safe {script : Bool → Name → Bool → Prop} {e : Engine (glicol P N (parse fe))} (hr : ReachBy _ (SafeCall script) e) {s : Name}
    (hs : SetsValues e.ast s) : SafeMsg script e s := by
  intro cmds h1 chain p q v rest h2 pos par m h3 h4 h5 a comps c h6 h7 h8
  rcases hs cmds h1 chain p q v rest h2 pos par h3 h4 with ⟨-, g1⟩ | ⟨a', comps', c', g1, g2, g3, g4⟩
  · exact absurd (List.mem_map.mpr ⟨_, h7, rfl⟩) (g1 a h6)
  have g1 := h6.symm.trans g1
  cases g1
  have hI := inv_reachable (glicol_parserWf P N fe) (reachBy_reachable hr)
  obtain rfl : comps = comps' := Option.some.inj ((lookup_of_mem (hI.ast a h6).names h7).symm.trans (lookup_of_mem (hI.ast a h6).names g2))
  have g3 := h8.symm.trans g3
  cases g3
  cases h5 with
  | number h =>
    have h : parseF32 v = some _ := h
    rcases g4 with ⟨x, g5, -, g6⟩ | ⟨g5, -⟩
    · rw [h] at g5
      cases g5
      exact g6
    · rw [h] at g5
      cases g5
  | symbol h =>
    have h : parseF32 v = none := h
    rcases g4 with ⟨x, g5, -⟩ | ⟨-, g4⟩
    · rw [h] at g5
      cases g5
    · show SafeText script c par v
      cases c <;> first
        | exact g4.elim
        | trivial

theorem input_text {e e1 : Engine (glicol P N (parse fe))} {p : Ast Comp} {t : Name} {τ : TableOrder} (hparse : parse fe t = .ok (some p))
    (hn : ['~', 'i', 'n', 'p', 'u', 't'] ∉ p.map Prod.fst) (hu : e.updateWithCode τ t = .ok (e1, none)) (hi : InputReach _ e) : InputReach _ e1 :=
  .step (.update τ t) hi (by
    intro q hq
    have hq : parse fe t = .ok (some q) := hq
    rw [hparse] at hq
    cases hq
    exact hn) (by simp only [Op.apply, hu]; rfl)

end Gig

variable {U : P.ext.State → Prop} {e : Engine (glicol P N (Parse.parse fe))}

/-- **C93** (partial), with what the rest of the session can rely on. -/
theorem Gig.runs (hN : 1 ≤ N) (hm : ∀ a b, Within (-1) 1 (P.libm.noise a b)) (hsin : SinBounded P.libm)
    {script : Bool → Name → Bool → Prop} {isMeta : P.ext.State → Bool} {T : Bool → P.ext.State → Prop}
    (hT : ScriptsBehave P N script isMeta T) (hx : ExtShape P N U) 
    {accepts : Bool → Name → Prop} (hacc : ∀ sr m code, accepts m code → ∃ s, P.ext.new m code sr = .ok s)
    {unread : Name → Prop} (hun : ∀ t, unread t → parse fe t = .ok none) (acts rest : List PlayerAct)
    (hr : ReachBy _ (SafeCall script) e) (he : e.N = N) {sr : Nat} (hrate : RateOk sr) (her : e.sr = sr) (htempo : TempoOk e.bpm) (hsamples : ∀ n s, (n, s) ∈ e.samples → SampleOk s)
    {input : Bool} (hi : input = true → InputReach _ e) {names : List Name} (hnames : ∀ n, n ∈ names ↔ n ∈ e.samples.map Prod.fst)
    (hg : GoodSession fe N unread (Fits P.libm.checked script accepts)
      (Wrong P.libm.checked script accepts) sr input e.ast names (acts ++ rest)) :
    ∃ e' outs input' names', Session e acts e' outs ∧ ReachBy _ (SafeCall script) e' ∧ e'.N = N ∧ RateOk e'.sr ∧ TempoOk e'.bpm ∧
      (∀ n s, (n, s) ∈ e'.samples → SampleOk s) ∧ (input' = true → InputReach _ e') ∧ (∀ n, n ∈ names' ↔ n ∈ e'.samples.map Prod.fst) ∧
      GoodSession fe N unread (Fits P.libm.checked script accepts)
      (Wrong P.libm.checked script accepts) e'.sr input' e'.ast names' rest := by
  have hL := glicol_parserWf P N fe
  induction acts generalizing e names sr input with
  | nil => exact ⟨e, [], input, names, .nil e, hr, he, by rwa [her], htempo, hsamples, hi, hnames, by rwa [her]⟩
  | cons a acts ih =>
    cases a with
    | block ho ins =>
      cases hg with
      | block hin hg =>
        obtain ⟨e1, outs1, h1⟩ := Whole.plays hN hm hsin hT hx [(ho, ins)] hr he (fun s h => by
          obtain rfl := List.mem_singleton.mp h
          exact hin.imp id fun h => ⟨hi h.1, h.2⟩)
        obtain ⟨out, h1⟩ : ∃ out, e.nextBlock ho ins = .ok (e1, out) := by
          cases h1 with
          | cons h h' => cases h'; exact ⟨_, h⟩
        have hk := Gig.keeps_block h1
        have happ : (Op.nextBlock ho ins : Op (glicol P N (parse fe))).apply e = .ok e1 := by simp only [Op.apply, h1, bind, Except.bind]
        obtain ⟨e2, outs, input', names', h2, h3⟩ := ih (.step (.nextBlock ho ins) hr trivial happ) (hk.N.trans he) hrate (hk.sr.trans her) (by rw [hk.bpm]; exact htempo)
          (by rw [hk.samples]; exact hsamples) (fun h => .step (.nextBlock ho ins) (hi h) trivial happ)
          (by rw [hk.samples]; exact hnames) (by rw [(nextBlock_same h1).1]; exact hg)
        exact ⟨e2, out :: outs, input', names', .block h1 h2, h3⟩
    | tempo v =>
      cases hg with
      | tempo hv hg =>
        obtain ⟨e1, h1⟩ := PagePlay.setBpm_total e v
        have hr1 : ReachBy _ (SafeCall script) e1 := .step (.setBpm v) hr hv h1
        have h1' := h1
        simp only [Engine.setBpm, except_bind_ok] at h1'
        obtain ⟨s, -, h1'⟩ := h1'
        cases h1'
        obtain ⟨e2, outs, input', names', h2, h3⟩ := ih hr1 he hrate her hv hsamples (fun h => .step (.setBpm v) (hi h) trivial h1) hnames hg
        exact ⟨e2, outs, input', names', .tempo h1 h2, h3⟩
    | sample n s =>
      cases hg with
      | sample hv hg =>
        have hr1 : ReachBy _ (SafeCall script) (e.addSample n s) := .step (.addSample n s) hr trivial rfl
        obtain ⟨e2, outs, input', names', h2, h3⟩ := ih hr1 he hrate her htempo (fun m w h => by
            rcases Gig.insert_mem h with h | rfl
            · exact hsamples m w h
            · exact hv) (fun h => .step (.addSample n s) (hi h) trivial rfl) (names := n :: names) (fun m => by
            rw [List.mem_cons, hnames m]
            exact Gig.insert_keys.symm) hg
        exact ⟨e2, outs, input', names', .sample h2, h3⟩
    | text τ t =>
      cases hg with
      | text hw hd hf hord hg =>
        rename_i p
        subst her
        have hparse : parse fe t = .ok (some p) := c32_written_programs_parse_partial fe hw hd
        have hs := Gig.fits_safe hparse hf.toFitsApart hrate htempo hsamples hord
        obtain ⟨e1, -, -, hu, -⟩ := c92_written_programs_are_heard_partial hN hm hsin hT hx hr he τ hw hd hs (hacc _) hf.builds
          (fun s h => (hnames s).mp (hf.samples s h))
          (fun k comps c h1 h2 r h3 => Gig.resolves_mono (Gig.input_available hx he hi) (hf.refs k comps c h1 h2 r h3)) [] (fun _ h => (nomatch h))
        obtain ⟨hast, hk⟩ := Gig.keeps_text (L := glicol P N (parse fe)) hparse hu
        have hr1 : ReachBy _ (SafeCall script) e1 := .step (.update τ t) hr (by
          intro q hq
          rw [hparse] at hq
          cases hq
          exact hs) (by simp only [Op.apply, hu]; rfl)
        obtain ⟨e2, outs, input', names', h2, h3⟩ := ih hr1 (hk.N.trans he) hrate hk.sr (by rw [hk.bpm]; exact htempo) (by rw [hk.samples]; exact hsamples)
          (fun h => Gig.input_text hparse hf.noInput hu (hi h)) (by rw [hk.samples]; exact hnames) (by rw [hast]; exact hg)
        exact ⟨e2, outs, input', names', .text hu h2, h3⟩
    | rate v =>
      cases hg with
      | rate hv hg =>
        obtain ⟨e2, outs, input', names', h2, h3⟩ := ih (e := e.setSr v) (.step (.setSr v) hr trivial rfl) he hv rfl htempo hsamples
          (fun h => .step (.setSr v) (hi h) trivial rfl) hnames hg
        exact ⟨e2, outs, input', names', .rate h2, h3⟩
    | seed v =>
      cases hg with
      | seed hg =>
        obtain ⟨e2, outs, input', names', h2, h3⟩ := ih (e := e.setSeed v) (.step (.setSeed v) hr trivial rfl) he hrate her htempo hsamples
          (fun h => .step (.setSeed v) (hi h) trivial rfl) hnames hg
        exact ⟨e2, outs, input', names', .seed h2, h3⟩
    | volume v =>
      cases hg with
      | volume hg =>
        obtain ⟨e2, outs, input', names', h2, h3⟩ := ih (e := e.setTrackAmp v) (.step (.setTrackAmp v) hr trivial rfl) he hrate her htempo hsamples
          (fun h => .step (.setTrackAmp v) (hi h) trivial rfl) hnames hg
        exact ⟨e2, outs, input', names', .volume h2, h3⟩
    | typo τ t =>
      cases hg with
      | typo ht hg =>
        obtain ⟨e2, outs, input', names', h2, h3⟩ := ih hr he hrate her htempo hsamples hi hnames hg
        refine ⟨e2, outs, input', names', .typo ?_ h2, h3⟩
        have h0 : (glicol P N (parse fe)).parse t = .ok none := hun t ht
        unfold Engine.updateWithCode
        rw [h0]
        rfl
    | wrong τ t =>
      cases hg with
      | wrong hw hd hf hord hg =>
        rename_i p
        subst her
        have hparse : parse fe t = .ok (some p) := c32_written_programs_parse_partial fe hw hd
        have hs := Gig.fits_safe hparse hf.toFitsApart hrate htempo hsamples hord
        obtain ⟨e1, r, hu⟩ := Whole.update_total hr τ hparse hs (hacc _) hf.builds
        have hc63 := c63_unknown_samples (reachBy_reachable hr) τ t p r hparse hu
        cases r with
        | none =>
          have hsmp := hc63.1 rfl
          rcases hf.unknown with ⟨k, comps, c, x, h1, h2, h3, h4⟩ | ⟨x, h1, h2⟩
          · obtain ⟨e1', r', hu', hans, -⟩ := Whole.answered hr τ hparse hs (hacc _) hf.builds hsmp
            cases hu.symm.trans hu'
            exact absurd (Gig.resolves_mono (Gig.available_only (Whole.safe_clean hr)) (hans.mp rfl x ⟨k, comps, c, h1, h2, h3⟩)) h4
          · exact absurd ((hnames x).mpr (hsmp x h1)) h2
        | some x =>
          have hx' : ∃ n, x = .nonExistReference n ∨ x = .nonExistSample n := by
            by_cases hne : ∃ n, x = .nonExistReference n
            · exact hne.imp fun _ h => .inl h
            · obtain ⟨k, comps, c, -, -, hmk⟩ := update_stopped hL (reachBy_reachable hr) (fun n h => hne ⟨n, h⟩) hparse hu
              exact (Whole.make_err hmk).imp fun _ h => .inr h
          have hsame := c01_failed_update_changes_nothing hL (reachBy_reachable hr) τ t _ hu
          have happ : (Op.update τ t : Op (glicol P N (parse fe))).apply e = .ok e1 := by simp only [Op.apply, hu]; rfl
          have hr1 : ReachBy _ (SafeCall script) e1 := .step (.update τ t) hr (by
            intro q hq
            rw [hparse] at hq
            cases hq
            exact hs) happ
          obtain ⟨e2, outs, input', names', h2, h3⟩ := ih hr1 (hsame.N.trans he) hrate hsame.sr (by rw [hsame.bpm]; exact htempo) (by rw [hsame.samples]; exact hsamples)
            (fun h => .step (.update τ t) (hi h) (by
              intro q hq
              have hq : parse fe t = .ok (some q) := hq
              rw [hparse] at hq
              cases hq
              exact hf.noInput) happ) (by rw [hsame.samples]; exact hnames) (by rw [hsame.ast]; exact hg)
          obtain ⟨n, rfl | rfl⟩ := hx'
          · exact ⟨e2, outs, input', names', .wrong (.inl hu) hsame h2, h3⟩
          · exact ⟨e2, outs, input', names', .wrong (.inr hu) hsame h2, h3⟩
    | msg s =>
      cases hg with
      | msg hs hg =>
        obtain ⟨e1, h1⟩ := Gig.msg_total hr hs
        have hon := (onlyNodes_sendMsg h1).eq
        have hk : Gig.Keeps e e1 := ⟨by rw [hon], by rw [hon], by rw [hon], by rw [hon]⟩
        obtain ⟨e2, outs, input', names', h2, h3⟩ := ih (.step (.sendMsg s) hr (Gig.msg_safe hr hs) h1) (hk.N.trans he) hrate (hk.sr.trans her)
          (by rw [hk.bpm]; exact htempo) (by rw [hk.samples]; exact hsamples) (fun h => .step (.sendMsg s) (hi h) trivial h1)
          (by rw [hk.samples]; exact hnames) (by rw [show e1.ast = e.ast by rw [hon]]; exact hg)
        exact ⟨e2, outs, input', names', .msg h1 h2, h3⟩
    | reset =>
      cases hg with
      | reset hg =>
        obtain ⟨e2, outs, input', names', h2, h3⟩ := ih (e := e.reset) (input := false) (names := []) (.step .reset hr trivial rfl) he hrate her
          (show TempoOk (.fin 120) from ⟨120, rfl, by norm_num, by norm_num⟩) (fun _ _ h => (nomatch h)) (fun h => (nomatch h)) (fun _ => .rfl) hg
        exact ⟨e2, outs, input', names', .reset h2, h3⟩

/-- **C93** (partial). Take an engine after any calls allowed by `SafeCall`, with a usual sample rate and tempo and samples that can be
played, and a good session: texts, blocks, tempos, samples, sample rates, seeds and volumes in any order, where every text writes a program that fits and in which the components
kept from the program before have kept their order. Then the session runs: every text is accepted and every block is rendered.
Texts that cannot be read or refer to chains or samples that are not there may come in between; they are refused without any effect. So may
messages that set components of the program in force or name chains that are not there (`SetsValues`).
Resets may come in between too. The programs may use `~input`, and blocks may have an input, as long as the engine was never reset (`input`).
Missing: programs that do not fit but play nevertheless; messages that set
numbers of `delayn`, `apfmsgain` or `arrange`, or texts of scripts, `msgsynth` or patterns of notes (for these see C37). -/
theorem c93_sessions_run_partial (hN : 1 ≤ N) (hm : ∀ a b, Within (-1) 1 (P.libm.noise a b)) (hsin : SinBounded P.libm)
    {script : Bool → Name → Bool → Prop} {isMeta : P.ext.State → Bool} {T : Bool → P.ext.State → Prop}
    (hT : ScriptsBehave P N script isMeta T) (hx : ExtShape P N U) (hrate : RateOk e.sr) (htempo : TempoOk e.bpm)
    (hsamples : ∀ n s, (n, s) ∈ e.samples → SampleOk s)
    {accepts : Bool → Name → Prop} (hacc : ∀ sr m code, accepts m code → ∃ s, P.ext.new m code sr = .ok s)
    {unread : Name → Prop} (hun : ∀ t, unread t → parse fe t = .ok none)
    (hr : ReachBy _ (SafeCall script) e) (he : e.N = N) {input : Bool} (hi : input = true → InputReach _ e)
    (acts : List PlayerAct)
    (hg : GoodSession fe N unread (Fits P.libm.checked script accepts)
      (Wrong P.libm.checked script accepts) e.sr input e.ast (e.samples.map Prod.fst) acts) :
    ∃ e' outs, Session e acts e' outs := by
  obtain ⟨e', outs, _, _, h, -⟩ := Gig.runs hN hm hsin hT hx hacc hun acts [] hr he hrate rfl htempo hsamples hi (fun _ => .rfl) (by rwa [List.append_nil])
  exact ⟨e', outs, h⟩

/-- **C93** (partial), what is heard: in a good session the blocks after every text are those that this text calls for (`Sounds`), whatever
was played before it. -/
theorem c93_sessions_are_heard_partial (hN : 1 ≤ N) (hm : ∀ a b, Within (-1) 1 (P.libm.noise a b)) (hsin : SinBounded P.libm)
    {script : Bool → Name → Bool → Prop} {isMeta : P.ext.State → Bool} {T : Bool → P.ext.State → Prop}
    (hT : ScriptsBehave P N script isMeta T) (hx : ExtShape P N U) (hrate : RateOk e.sr) (htempo : TempoOk e.bpm)
    (hsamples : ∀ n s, (n, s) ∈ e.samples → SampleOk s)
    {accepts : Bool → Name → Prop} (hacc : ∀ sr m code, accepts m code → ∃ s, P.ext.new m code sr = .ok s)
    {unread : Name → Prop} (hun : ∀ t, unread t → parse fe t = .ok none)
    (hr : ReachBy _ (SafeCall script) e) (he : e.N = N) {input : Bool} (hi : input = true → InputReach _ e)
    (before : List PlayerAct) (τ : TableOrder) (t : Name) (steps : List (HashOrder × List Buf)) (after : List PlayerAct)
    (hg : GoodSession fe N unread (Fits P.libm.checked script accepts)
      (Wrong P.libm.checked script accepts) e.sr input e.ast (e.samples.map Prod.fst)
      (before ++ .text τ t :: (steps.map (fun s => .block s.1 s.2) ++ after))) :
    ∃ p e0 e1 e2 e3 outs0 outs outs3, WProg fe p t ∧ Session e before e0 outs0 ∧ e0.updateWithCode τ t = .ok (e1, none) ∧
      Plays e1 steps e2 outs ∧ Session e2 after e3 outs3 ∧ outs.length = steps.length ∧
      ∀ b : Bool, (b = true ↔ ['~', 'i', 'n', 'p', 'u', 't'] ∈ e1.index.map Prod.fst) →
        ∃ start sig, outs = sig .dest ∧ Sounds e0 e1 p b (steps.map Prod.snd) start sig := by
  have hL := glicol_parserWf P N fe
  obtain ⟨e0, outs0, input', names, h0, hr0, he0, her, heb, hes, hi0, hnm, hg0⟩ := Gig.runs hN hm hsin hT hx hacc hun before _ hr he hrate rfl htempo hsamples hi (fun _ => .rfl) hg
  cases hg0 with
  | text hw hd hf hord hg1 =>
    rename_i p
    have hparse : parse fe t = .ok (some p) := c32_written_programs_parse_partial fe hw hd
    have hs := Gig.fits_safe hparse hf.toFitsApart her heb hes hord
    have hins : ∀ {steps : List (HashOrder × List Buf)} {q}, GoodSession fe N unread (Fits P.libm.checked script accepts)
      (Wrong P.libm.checked script accepts) e0.sr input' q names
        (steps.map (fun s => .block s.1 s.2) ++ after) →
        (∀ s, s ∈ steps → s.2 = [] ∨ (input' = true ∧ ∃ l r : Buf, s.2 = [l, r] ∧ l.length = N ∧ r.length = N)) ∧
        GoodSession fe N unread (Fits P.libm.checked script accepts)
      (Wrong P.libm.checked script accepts) e0.sr input' q names after := by
      intro steps
      induction steps with
      | nil => exact fun h => ⟨fun _ h => (nomatch h), h⟩
      | cons s steps ih =>
        intro q h
        cases h with
        | block h0 h =>
          obtain ⟨h1, h2⟩ := ih h
          exact ⟨fun x hx => by
            rcases List.mem_cons.mp hx with rfl | hx
            · exact h0
            · exact h1 x hx, h2⟩
    obtain ⟨hin, hafter⟩ := hins hg1
    obtain ⟨e1, e2, outs, hu, hp, hl, hsound⟩ := c92_written_programs_are_heard_partial hN hm hsin hT hx hr0 he0 τ hw hd hs (hacc _) hf.builds
      (fun s h => (hnm s).mp (hf.samples s h))
      (fun k comps c h1 h2 r h3 => Gig.resolves_mono (Gig.input_available hx he0 hi0) (hf.refs k comps c h1 h2 r h3)) steps
      (fun s h => (hin s h).imp id fun h => ⟨hi0 h.1, h.2⟩)
    obtain ⟨hast, hk⟩ := Gig.keeps_text (L := glicol P N (parse fe)) hparse hu
    have hr1 : ReachBy _ (SafeCall script) e1 := .step (.update τ t) hr0 (by
      intro q hq
      rw [hparse] at hq
      cases hq
      exact hs) (by simp only [Op.apply, hu]; rfl)
    have hend : ∀ {steps : List (HashOrder × List Buf)} {a b : Engine (glicol P N (parse fe))} {o}, Plays a steps b o →
        ReachBy _ (SafeCall script) a → (input' = true → InputReach _ a) →
        ReachBy _ (SafeCall script) b ∧ (input' = true → InputReach _ b) ∧ b.ast = a.ast ∧ Gig.Keeps a b := by
      intro steps
      induction steps with
      | nil => intro a b o h hr hi; cases h; exact ⟨hr, hi, rfl, rfl, rfl, rfl, rfl⟩
      | cons s steps ih =>
        intro a b o h hr hi
        obtain ⟨ho, ins⟩ := s
        cases h with
        | cons h1 h2 =>
          rename_i a1 out outs
          have k1 := Gig.keeps_block h1
          have happ : (Op.nextBlock ho ins : Op (glicol P N (parse fe))).apply a = .ok a1 := by simp only [Op.apply, h1, bind, Except.bind]
          obtain ⟨g1, g1', g2, g3⟩ := ih h2 (.step (.nextBlock ho ins) hr trivial happ) (fun h => .step (.nextBlock ho ins) (hi h) trivial happ)
          exact ⟨g1, g1', g2.trans (nextBlock_same h1).1, g3.samples.trans k1.samples, g3.sr.trans k1.sr, g3.bpm.trans k1.bpm, g3.N.trans k1.N⟩
    obtain ⟨k1, ki, k2, k3⟩ := hend hp hr1 (fun h => Gig.input_text hparse hf.noInput hu (hi0 h))
    have ks : e2.samples = e0.samples := k3.samples.trans hk.samples
    obtain ⟨e3, outs3, _, _, g, -⟩ := Gig.runs hN hm hsin hT hx hacc hun after [] k1 (k3.N.trans (hk.N.trans he0)) her
      (k3.sr.trans hk.sr) (by rw [k3.bpm, hk.bpm]; exact heb) (by rw [ks]; exact hes) ki (names := names) (by rw [ks]; exact hnm) (by
        rw [k2, hast, List.append_nil]
        exact hafter)
    exact ⟨p, e0, e1, e2, e3, outs0, outs, outs3, hw, h0, hu, hp, g, hl, hsound⟩

/-! ### An example -/

theorem tone_fits {sr : Nat} {input : Bool} : Fits playPlat.libm.checked (SafeScript Demo.fasteval) (fun _ _ => False) sr input [] [(c!"o", [.sin (.num (.fin 440))])] := by
  have hm : ∀ k comps, (k, comps) ∈ [(c!"o", [Comp.sin (.num (.fin 440))])] → k = c!"o" ∧ comps = [.sin (.num (.fin 440))] := by
    intro k comps h
    simpa using h
  refine ⟨⟨?_, by decide, ?_, ?_, ?_⟩, ?_, ?_⟩
  · intro k comps h
    obtain ⟨rfl, rfl⟩ := hm k comps h
    exact List.pairwise_singleton _ _
  · intro k comps c h1 h2
    obtain ⟨rfl, rfl⟩ := hm k comps h1
    obtain rfl := List.mem_singleton.mp h2
    trivial
  · intro k comps i c h1 h2
    obtain ⟨rfl, rfl⟩ := hm k comps h1
    obtain rfl := List.mem_singleton.mp (List.mem_of_getElem? h2)
    exact ⟨fun _ _ => trivial, .inr fun _ r h => by cases h⟩
  · intro k comps c h1 h2
    obtain ⟨rfl, rfl⟩ := hm k comps h1
    obtain rfl := List.mem_singleton.mp h2
    trivial
  · rintro s ⟨k, comps, c, h1, h2, h3⟩
    obtain ⟨rfl, rfl⟩ := hm k comps h1
    obtain rfl := List.mem_singleton.mp h2
    cases h3
  · intro k comps c h1 h2 r h3
    obtain ⟨rfl, rfl⟩ := hm k comps h1
    obtain rfl := List.mem_singleton.mp h2
    cases h3

theorem _root_.Verif.Spec.Fits.mono {checked : Bool} {script : Bool → Name → Bool → Prop} {accepts : Bool → Name → Prop} {sr : Nat} {input : Bool} {a b : List Name}
    {p : Ast Comp} (h : Fits checked script accepts sr input a p) (hab : ∀ n, n ∈ a → n ∈ b) : Fits checked script accepts sr input b p :=
  { h with samples := fun s hs => hab s (h.samples s hs) }

theorem tremolo_fits : Fits playPlat.libm.checked (SafeScript Demo.fasteval) (fun _ _ => False) 44100 true [] tremoloProg := by
  have hmem : ∀ k comps, (k, comps) ∈ tremoloProg → (k = c!"o" ∧ comps = [.sin (.num (.fin 440)), .mul (.ref c!"~a")]) ∨
      (k = c!"~a" ∧ comps = [.sin (.num (.fin 440))]) := by
    intro k comps h
    simpa [tremoloProg] using h
  have hcomp : ∀ k comps c, (k, comps) ∈ tremoloProg → c ∈ comps → c = .sin (.num (.fin 440)) ∨ c = .mul (.ref c!"~a") := by
    intro k comps c h1 h2
    rcases hmem k comps h1 with ⟨-, rfl⟩ | ⟨-, rfl⟩
    · simpa using h2
    · exact .inl (List.mem_singleton.mp h2)
  refine ⟨⟨?_, by decide, ?_, ?_, ?_⟩, ?_, ?_⟩
  · have hall : ∀ e ∈ tremoloProg, Distinct Comp.eq e.2 := by unfold Distinct; decide
    exact fun k c hm => hall (k, c) hm
  · intro k comps c h1 h2
    rcases hcomp k comps c h1 h2 with rfl | rfl <;> trivial
  · intro k comps i c h1 h2
    rcases hmem k comps h1 with ⟨rfl, rfl⟩ | ⟨rfl, rfl⟩
    · rcases hcomp _ _ c h1 (List.mem_of_getElem? h2) with rfl | rfl
      · exact ⟨fun _ _ => trivial, .inr fun _ r h => by cases h⟩
      · refine ⟨fun _ _ => trivial, .inr fun _ r h => ?_⟩
        obtain rfl := List.mem_singleton.mp h
        refine ⟨by decide, fun base hb => ?_⟩
        have : '.' ∈ c!"~a" := by rw [hb]; simp
        exact absurd this (by decide)
    · obtain rfl := List.mem_singleton.mp (List.mem_of_getElem? h2)
      exact ⟨fun _ _ => trivial, .inr fun _ r h => by cases h⟩
  · intro k comps c h1 h2
    rcases hcomp k comps c h1 h2 with rfl | rfl <;> trivial
  · rintro s ⟨k, comps, c, h1, h2, h3⟩
    rcases hcomp k comps c h1 h2 with rfl | rfl <;> cases h3
  · intro k comps c h1 h2 r h3
    rcases hcomp k comps c h1 h2 with rfl | rfl
    · cases h3
    · obtain rfl := List.mem_singleton.mp h3
      exact .named (by decide) (by decide)

/-- `o: sin 440 >> mul r` fits, apart from what `r` is. -/
theorem modulated_apart {sr : Nat} {r : Name} (hr : r ≠ c!"o") (hdot : '.' ∉ r) :
    FitsApart playPlat.libm.checked (SafeScript Demo.fasteval) (fun _ _ => False) sr [(c!"o", [.sin (.num (.fin 440)), .mul (.ref r)])] := by
  have hmem : ∀ k comps, (k, comps) ∈ [(c!"o", [Comp.sin (.num (.fin 440)), .mul (.ref r)])] →
      k = c!"o" ∧ comps = [.sin (.num (.fin 440)), .mul (.ref r)] := by
    intro k comps h
    simpa using h
  have hcomp : ∀ k comps c, (k, comps) ∈ [(c!"o", [Comp.sin (.num (.fin 440)), .mul (.ref r)])] → c ∈ comps →
      c = .sin (.num (.fin 440)) ∨ c = .mul (.ref r) := by
    intro k comps c h1 h2
    obtain ⟨-, rfl⟩ := hmem k comps h1
    simpa using h2
  refine ⟨?_, by simp, ?_, ?_, ?_⟩
  · intro k comps h
    obtain ⟨rfl, rfl⟩ := hmem k comps h
    simp [Distinct, Comp.eq]
  · intro k comps c h1 h2
    rcases hcomp k comps c h1 h2 with rfl | rfl <;> trivial
  · intro k comps i c h1 h2
    obtain ⟨rfl, rfl⟩ := hmem k comps h1
    rcases hcomp _ _ c h1 (List.mem_of_getElem? h2) with rfl | rfl
    · exact ⟨fun _ _ => trivial, .inr fun _ r h => by cases h⟩
    · refine ⟨fun _ _ => trivial, .inr fun _ x h => ?_⟩
      obtain rfl := List.mem_singleton.mp h
      refine ⟨hr, fun base hb => ?_⟩
      exact absurd (show '.' ∈ x by rw [hb]; simp) hdot
  · intro k comps c h1 h2
    rcases hcomp k comps c h1 h2 with rfl | rfl <;> trivial

/-- A program that uses the input: `o: sin 440 >> mul ~input`. -/
example : Fits playPlat.libm.checked (SafeScript Demo.fasteval) (fun _ _ => False) 44100 true [] [(c!"o", [.sin (.num (.fin 440)), .mul (.ref c!"~input")])] := by
  refine ⟨modulated_apart (by decide) (by decide), fun s ⟨k, comps, c, h1, h2, h3⟩ => ?_, fun k comps c h1 h2 r h3 => ?_⟩
  · cases List.mem_singleton.mp h1
    have h2 : c = .sin (.num (.fin 440)) ∨ c = .mul (.ref c!"~input") := by simpa using h2
    rcases h2 with rfl | rfl <;> cases h3
  cases List.mem_singleton.mp h1
  have h2 : c = .sin (.num (.fin 440)) ∨ c = .mul (.ref c!"~input") := by simpa using h2
  rcases h2 with rfl | rfl
  · cases h3
  · obtain rfl := List.mem_singleton.mp h3
    exact .named (by decide) (by decide)

/-- `o: sin 440 >> mul ~a` without `~a` is wrong. -/
theorem lost_wrong {sr : Nat} {names : List Name} : Wrong playPlat.libm.checked (SafeScript Demo.fasteval) (fun _ _ => False) sr names
    [(c!"o", [.sin (.num (.fin 440)), .mul (.ref c!"~a")])] := by
  refine ⟨modulated_apart (by decide) (by decide), .inl ⟨_, _, _, c!"~a", List.mem_singleton.mpr rfl, List.mem_cons_of_mem _ (List.mem_singleton.mpr rfl),
    List.mem_singleton.mpr rfl, fun h => ?_⟩⟩
  generalize hx : c!"~a" = x at h
  cases h with
  | named h1 h2 => subst hx; revert h2; decide
  | pattern h1 h2 h3 => exact absurd (show '.' ∈ c!"~a" by rw [hx]; simp) (by decide)

/-- `o: imp 1 >> sp \\b` is wrong when only the sample `\\a` is registered. -/
example : Wrong playPlat.libm.checked (SafeScript Demo.fasteval) (fun _ _ => False) 44100 [c!"\\a"]
    [(c!"o", [.imp (.num (.fin 1)), .sp c!"\\b"])] := by
  have hmem : ∀ k comps, (k, comps) ∈ [(c!"o", [Comp.imp (.num (.fin 1)), .sp c!"\\b"])] →
      k = c!"o" ∧ comps = [.imp (.num (.fin 1)), .sp c!"\\b"] := by
    intro k comps h
    simpa using h
  have hcomp : ∀ k comps c, (k, comps) ∈ [(c!"o", [Comp.imp (.num (.fin 1)), .sp c!"\\b"])] → c ∈ comps →
      c = .imp (.num (.fin 1)) ∨ c = .sp c!"\\b" := by
    intro k comps c h1 h2
    obtain ⟨-, rfl⟩ := hmem k comps h1
    simpa using h2
  refine ⟨⟨?_, by simp, ?_, ?_, ?_⟩, .inr ⟨c!"\\b", ⟨_, _, .sp c!"\\b", List.mem_singleton.mpr rfl, by simp, by simp [Spec.Comp.samples]⟩, by decide⟩⟩
  · intro k comps h
    obtain ⟨rfl, rfl⟩ := hmem k comps h
    simp [Distinct, Comp.eq]
  · intro k comps c h1 h2
    rcases hcomp k comps c h1 h2 with rfl | rfl
    · exact ⟨1, rfl, by norm_num, by norm_num⟩
    · trivial
  · intro k comps i c h1 h2
    obtain ⟨rfl, rfl⟩ := hmem k comps h1
    rcases hcomp _ _ c h1 (List.mem_of_getElem? h2) with rfl | rfl
    · exact ⟨fun _ _ => trivial, .inr fun _ r h => by cases h⟩
    · exact ⟨fun _ _ => trivial, .inr fun _ r h => by cases h⟩
  · intro k comps c h1 h2
    rcases hcomp k comps c h1 h2 with rfl | rfl <;> trivial

theorem lost_text (fe : Name → Option Fl) : WProg fe [(c!"o", [.sin (.num (.fin 440)), .mul (.ref c!"~a")])] c!"o: sin 440 >> mul ~a" := by
  have ha : WRef c!"~a" := .mk (Or.inl rfl) (.mk (t := []) (d := []) (by decide) (by decide) (by simp) (Or.inl rfl))
  have ho : WName c!"o" := .bare (.mk (t := []) (d := []) (by decide) (by decide) (by simp) (Or.inl rfl))
  have bl : Blanks [' '] := by simp [Blanks, Blank]
  have bn : Blanks [] := by simp [Blanks]
  have hmul : Writes fe (.mul (.ref c!"~a")) c!"mul ~a" :=
    .arg (kw := c!"mul") (g := [' ']) (f := .mul) (by simp [argKinds]) ⟨by simp, bl⟩ (.ref (.ref ha))
  exact .body (w := []) (s := []) (t := c!"o: sin 440 >> mul ~a") (by simp [Spaces]) .nil
    (.last (t := c!"o: sin 440 >> mul ~a") (b := [])
      (.mk (k := c!"o") (a := []) (b := [' ']) (t := c!"sin 440 >> mul ~a") ho bn bl
        (.cons (t := c!"sin 440") (j := c!" ") (d := [' ']) (u := c!"mul ~a") (writes_sine fe) (.blank (a := [' ']) (n := []) (b := []) bl (Or.inl rfl) bn) bl (.one hmul))) bn)

/-- A message that sets the frequency of the tone, one that names a chain that is not there, and one that sets a text. -/
theorem tone_msg : SetsValues (some [(c!"o", [.sin (.num (.fin 440))])]) c!"o,0,0,220; x,7,0,1; o,0,1,a" := by
  intro cmds h1 chain p q v rest h2 pos par h3 h4
  rw [splits_eq h1] at h2
  have h2 : chain :: p :: q :: v :: rest ∈ [[c!"o", ['0'], ['0'], c!"220"], [c!"x", ['7'], ['0'], ['1']], [c!"o", ['0'], ['1'], ['a']]] := h2
  rcases List.mem_cons.mp h2 with h2 | h2
  · cases h2
    obtain rfl := (position_eq h3).trans (show _ = 0 by decide)
    obtain rfl := (position_eq h4).trans (show _ = 0 by decide)
    exact .inr ⟨_, _, _, rfl, List.mem_singleton.mpr rfl, rfl, .inl ⟨.fin 220, by kernel_rfl, trivial, trivial⟩⟩
  rcases List.mem_cons.mp h2 with h2 | h2
  · cases h2
    exact .inl ⟨by decide, fun prog h => by cases h; decide⟩
  · cases List.mem_singleton.mp h2
    obtain rfl := (position_eq h3).trans (show _ = 0 by decide)
    exact .inr ⟨_, _, _, rfl, List.mem_singleton.mpr rfl, rfl, .inr ⟨by kernel_rfl, trivial⟩⟩

/-- A session of four texts and four blocks, the second with an input: a tone, a message, a tremolo of this tone at another tempo, a mistyped text, one
that refers to a chain that is not there, the tone again at another sample rate, and the tone after a reset. The other hypotheses are
met as shown for C92. -/
example (fe : Name → Option Fl) (τ : TableOrder) (ho : HashOrder) :
    GoodSession fe 2 (fun t => parse fe t = .ok none) (Fits playPlat.libm.checked (SafeScript Demo.fasteval) (fun _ _ => False))
      (Wrong playPlat.libm.checked (SafeScript Demo.fasteval) (fun _ _ => False)) 44100 true none []
      [.text τ c!"// a tone\no : sin 440;\n", .block ho [], .msg c!"o,0,0,220; x,7,0,1; o,0,1,a", .tempo (.fin 90), .text τ c!"o: sin 440\n  >> mul ~a\n~a: sin 440", .block ho [[.fin 0, .fin 1], [.fin 1, .nz]],
        .sample c!"kick" ⟨[.fin 1, .fin 0], 1, 44100⟩,
        .typo τ c!"o: sinn 440", .wrong τ c!"o: sin 440 >> mul ~a", .rate 48000, .seed 7, .volume (.fin 2), .text τ c!"// a tone\no : sin 440;\n",
        .reset, .block ho [], .text τ c!"// a tone\no : sin 440;\n", .block ho []] := by
  refine .text (tone_text fe) (by decide) tone_fits (fun q h => (nomatch h)) (.block (.inl rfl) (.msg tone_msg (.tempo ⟨90, rfl, by norm_num, by norm_num⟩
    (.text (tremolo_text fe) (by decide) tremolo_fits ?_ (.block (.inr ⟨rfl, _, _, rfl, rfl, rfl⟩) (.sample ⟨⟨by simp, by decide, by decide, by decide⟩, ?_⟩
    (.typo (by kernel_rfl) (.wrong (lost_text fe) (by decide) lost_wrong ?_
    (.rate ⟨by decide, by decide⟩ (.seed (.volume (.text (tone_text fe) (by decide) (tone_fits.mono (by simp)) ?_ (.reset (.block (.inl rfl) (.text (tone_text fe) (by decide) tone_fits (fun q h => (nomatch h)) (.block (.inl rfl) .nil))))))))))))))))
  · rintro q ⟨⟩ k old comps h1 h2
    have h1 : k = c!"o" ∧ old = [Comp.sin (.num (.fin 440))] := by simpa using h1
    obtain ⟨rfl, rfl⟩ := h1
    have h2 : comps = [.sin (.num (.fin 440)), .mul (.ref c!"~a")] := by simpa [tremoloProg] using h2
    subst h2
    exact .cons (by decide) .nil
  · intro x hx
    rcases List.mem_cons.mp hx with rfl | hx
    · exact sg_one
    · obtain rfl := List.mem_singleton.mp hx
      exact sg_zero
  · rintro q ⟨⟩ k old comps h1 h2
    have h2 : k = c!"o" ∧ comps = [.sin (.num (.fin 440)), .mul (.ref c!"~a")] := by simpa using h2
    obtain ⟨rfl, rfl⟩ := h2
    have h1 : old = [.sin (.num (.fin 440)), .mul (.ref c!"~a")] := by simpa [tremoloProg] using h1
    subst h1
    unfold OrderKept
    decide
  · rintro q ⟨⟩ k old comps h1 h2
    have h2 : k = c!"o" ∧ comps = [Comp.sin (.num (.fin 440))] := by simpa using h2
    obtain ⟨rfl, rfl⟩ := h2
    have h1 : old = [.sin (.num (.fin 440)), .mul (.ref c!"~a")] := by simpa [tremoloProg] using h1
    subst h1
    exact .cons (by decide) .nil

end Verif.Props
