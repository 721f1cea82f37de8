import Verif.Spec.Tracks
import Verif.Props.Part
import Verif.Props.Unheard

/-!
# Tracks

C88: the sound of a program is the sum of its tracks, each played alone.
-/

namespace Verif.Props
open Verif.Spec Verif.Parse Verif.Part

variable {P : Plat} {N : Nat}

/-- `outs` is what the track `track` of the program `all` plays alone: some engine with the given settings, in whose program none of its
components is, gets a text that is `all` without the other tracks (`Solo`), and plays `outs` with the given input. -/
def PlaysAlone (P : Plat) (N : Nat) (fe : Name → Option Fl) (env : Env) (b : Bool) (exts : List (List Buf)) (all : Ast Comp) (track : Name)
    (outs : List (List Buf)) : Prop :=
  ∃ (f0 f1 f2 : Engine (glicol P N (Parse.parse fe))) (σ : TableOrder) (code : Name) (solo : Ast Comp) (steps : List (HashOrder × List Buf)),
    CleanReach _ f0 ∧ f0.N = N ∧ (⟨f0.samples, f0.sr, f0.bpm, f0.seed⟩ : Env) = env ∧
    Parse.parse fe code = .ok (some solo) ∧ Solo solo all track ∧ CleanProg (glicol P N (Parse.parse fe)) solo ∧
    AllNew f0 solo ∧ FreeOf ByRole solo b ∧ f0.updateWithCode σ code = .ok (f1, none) ∧
    (b = true ↔ ['~', 'i', 'n', 'p', 'u', 't'] ∈ f1.index.map Prod.fst) ∧ steps.map Prod.snd = exts ∧ Plays f1 steps f2 outs

/-! ### Helpers -/

theorem add_again {x v : Fl} (hx : x ≠ .nz) (hv : v.Ok f32) : x +. (.fin 0 +. v) = x +. v ∧ x +. v ≠ .nz := by
  have hr : ∀ y : ℚ, Fl.round f32 false y ≠ .nz := by
    intro y
    unfold Fl.round
    split
    · simp
    · split
      · simp
      · split <;> simp
  refine ⟨?_, ?_⟩
  · cases v with
    | nan => rfl
    | inf s => rfl
    | nz =>
      have : (Fl.fin 0 +. .nz) = .fin 0 := by kernel_rfl
      rw [this]
      cases x with
      | nz => exact absurd rfl hx
      | _ => rfl
    | fin q => rw [zero_add_fin hv]
  · cases x with
    | nz => exact absurd rfl hx
    | nan => simp [Fl.add]
    | inf s => cases v <;> simp [Fl.add]; split <;> simp
    | fin q => cases v <;> simp [Fl.add, hr]

theorem foldl_again {vs : List Fl} (hv : ∀ v, v ∈ vs → v.Ok f32) : ∀ x, x ≠ Fl.nz →
    (vs.map (.fin 0 +. ·)).foldl (· +. ·) x = vs.foldl (· +. ·) x := by
  induction vs with
  | nil => intro _ _; rfl
  | cons v vs ih =>
    intro x hx
    obtain ⟨h1, h2⟩ := add_again hx (hv v List.mem_cons_self)
    rw [List.map_cons, List.foldl_cons, List.foldl_cons, h1]
    exact ih (fun w hw => hv w (List.mem_cons_of_mem _ hw)) _ h2

/-- Sums added to nothing once more. -/
theorem flSum_again {vs : List Fl} (hv : ∀ v, v ∈ vs → v.Ok f32) : flSum (vs.map (.fin 0 +. ·)) = flSum vs :=
  foldl_again hv _ (by simp)

section
variable {parse parse' : Name → Except Panic (Option (Ast Comp))} {e0 e1 : Engine (glicol P N parse)} {f0 f1 : Engine (glicol P N parse')}
  {all solo : Ast Comp} {b : Bool} {exts : List (List Buf)} {start start' : Place → List Buf} {sig sig' : Place → List (List Buf)}

theorem solo_out (hs : Solo solo all track) {q : Place} (h : Flow Comp.refs solo b q .dest) : Flow Comp.refs all b q .dest := by
  generalize hl : Place.dest = d at h
  cases h with
  | next _ _ => cases hl
  | @out k n hc ht =>
    refine .out ?_ ht
    generalize n + 1 = m at hc ⊢
    cases hc with
    | prog h => exact .prog (hs.kept _ _ h)
    | input hb => exact .input hb
  | ref _ _ _ _ _ => cases hl

theorem solo_leads (hs : Solo solo all track) (hw : ProgWf all) (hin : ['~', 'i', 'n', 'p', 'u', 't'] ∉ all.map Prod.fst) {p : Place}
    (h : Leads Comp.refs solo b p .dest) : Leads Comp.refs all b p .dest := by
  refine same_leads (A := solo) ?_ h (.refl _)
  intro p hp q hq
  by_cases hd : p = .dest
  · subst hd; exact solo_out hs hq
  · exact (part_flow hs.kept hs.unused hw hin hd hp q).mpr hq

/-- A track alone plays what it contributes to the sum. -/
theorem solo_plays {T : P.ext.State → Prop} (hx : ExtShape P N T) (hxf : ExtFirst P) (hm : Libm32 P.libm) (hN : 0 < N) (hw : ProgWf all)
    (hin : ['~', 'i', 'n', 'p', 'u', 't'] ∉ all.map Prod.fst) (hws : ProgWf solo)
    (h : Sounds f0 f1 solo b exts start sig) (h' : Sounds e0 e1 all b exts start' sig')
    (hset : (⟨e0.samples, e0.sr, e0.bpm, e0.seed⟩ : Env) = ⟨f0.samples, f0.sr, f0.bpm, f0.seed⟩) (hs : Solo solo all track)
    (hsg : ∀ e, e ∈ solo → ∀ c, c ∈ e.2 → c.Sg) (ha : AllNew f0 solo) (ha' : AllNew e0 solo) (hfree : FreeOf ByRole solo b)
    (hext : Leads Comp.refs solo b (.at ['~', 'i', 'n', 'p', 'u', 't'] 0) .dest →
      ∀ x, x ∈ exts → 2 ≤ x.length ∧ ∀ b, b ∈ x.take 2 → ∀ v, v ∈ b → v.Ok f32)
    {n t c s : Nat} (hc : Chain all b track (n + 1)) (htr : '~' ∉ track) (ht : t < exts.length) (hc2 : c < 2) (hsN : s < N)
    {x : List Buf} {v : Fl} (hxt : (sig' (.at track n))[t]? = some x) (hv : sideAt c s x = some v) :
    v.Ok f32 ∧ sampleAt (sig .dest) t c s = some (.fin 0 +. v) := by
  have hne : exts ≠ [] := by rintro rfl; simp at ht
  have hin' : ['~', 'i', 'n', 'p', 'u', 't'] ∉ solo.map Prod.fst := by
    intro hm
    obtain ⟨⟨k, comps⟩, h1, h2⟩ := List.mem_map.mp hm
    exact hin (List.mem_map.mpr ⟨_, hs.kept _ _ h1, h2⟩)
  have hcs : Chain solo b track (n + 1) := by
    obtain ⟨⟨k, comps⟩, h1, h2⟩ := List.mem_map.mp hs.there
    have h2 : k = track := h2
    subst h2
    have : Chain all b k comps.length := .prog (hs.kept _ _ h1)
    rw [chain_unique hw hin hc this]
    exact .prog h1
  have hf : Flow Comp.refs solo b (.at track n) .dest := .out hcs htr
  have hone : ∀ q, Flow Comp.refs solo b q .dest → q = .at track n := by
    intro q hq
    generalize hl : Place.dest = d at hq
    cases hq with
    | next _ _ => cases hl
    | @out k m hc' ht =>
      have hk : k = track := by
        generalize m + 1 = m' at hc'
        cases hc' with
        | prog h => exact hs.only _ _ h ht
        | input _ => exact absurd (by simp) ht
      subst hk
      have := chain_unique hws hin' hc' hcs
      cases this
      rfl
    | ref _ _ _ _ _ => cases hl
  have same := places_same hx hxf hm hN hw hin h h' hne hset hs.kept
    (fun p hd hp q => part_flow hs.kept hs.unused hw hin hd hp q) (fun q hq => solo_out hs hq) hsg ha ha' hfree hext _ _ hf (.refl _)
  rw [← same.1] at hxt
  have hok : v.Ok f32 := by
    obtain ⟨bf, hb1, hb2⟩ := sideAt_mem hv
    exact places_single hxf hm h hne hsg ha hfree hext _ _ hf (.refl _) x (List.mem_of_getElem? hxt) bf hb1 v hb2
  refine ⟨hok, ?_⟩
  obtain ⟨srcs, s1, s2, o, ho1, ho2, ho3⟩ := h.output _ ht
  have hsrcs : srcs = [.at track n] := by
    have hall : ∀ q, q ∈ srcs → q = .at track n := fun q hq => hone q ((s2 q).mp hq)
    have hmem : .at track n ∈ srcs := (s2 _).mpr hf
    match srcs, s1, hall, hmem with
    | [q], _, hall, _ => rw [hall q (by simp)]
    | q :: q' :: l, s1, hall, _ =>
      have h1 := hall q (by simp)
      have h2 := hall q' (by simp)
      rw [h1, h2] at s1
      simp at s1
  subst hsrcs
  obtain ⟨vs, y, v1, v2, v3⟩ := ho3 c s hc2 hsN
  cases v1 with
  | cons hab hrest =>
    cases hrest
    obtain ⟨x', hx', hv'⟩ := hab
    rw [hxt] at hx'
    cases hx'
    rw [hv] at hv'
    cases hv'
    simp only [sampleAt, ho1, Option.bind_some, v2, v3]
    rfl

end

/-- **C88** (partial). A program plays in every block the sum of what its tracks (the chains without `~`) play alone, sample by sample and
on each side, added as f32 in some order of the tracks; of two tracks the order does not matter. Any number of tracks; the engines that
play the tracks alone may have any past without the components of the program and any iteration orders of their maps.
Missing: feedback, references to several chains at once (as `~a..`), sums of more than two chains inside a track. -/
theorem c88_tracks_partial {fe : Name → Option Fl} {T : P.ext.State → Prop} (hx : ExtShape P N T) (hxf : ExtFirst P) (hm : Libm32 P.libm) (hN : 0 < N)
    {e0 e1 e2 : Engine (glicol P N (Parse.parse fe))} (hr : CleanReach _ e0) (heN : e0.N = N) (τ : TableOrder) (code : Name)
    (all : Ast Comp) (hparse : Parse.parse fe code = .ok (some all)) (hc : CleanProg (glicol P N (Parse.parse fe)) all)
    (ha : AllNew e0 all) (hu : e0.updateWithCode τ code = .ok (e1, none)) (b : Bool)
    (hb : b = true ↔ ['~', 'i', 'n', 'p', 'u', 't'] ∈ e1.index.map Prod.fst)
    (steps : List (HashOrder × List Buf)) (outs : List (List Buf))
    (hext : Leads Comp.refs all b (.at ['~', 'i', 'n', 'p', 'u', 't'] 0) .dest →
      ∀ x, x ∈ steps.map Prod.snd → 2 ≤ x.length ∧ ∀ b, b ∈ x.take 2 → ∀ v, v ∈ b → v.Ok f32)
    (h : Plays e1 steps e2 outs) (alone : Name → List (List Buf))
    (halone : ∀ k comps, (k, comps) ∈ all → '~' ∉ k →
      PlaysAlone P N fe ⟨e0.samples, e0.sr, e0.bpm, e0.seed⟩ b (steps.map Prod.snd) all k (alone k)) :
    outs.length = steps.length ∧ ∀ t, t < steps.length → ∃ order : List Name,
      order.Perm ((all.map Prod.fst).filter (fun k => !decide ('~' ∈ k))) ∧
      (order.length ≤ 2 → order = (all.map Prod.fst).filter (fun k => !decide ('~' ∈ k))) ∧
      ∀ c s, c < 2 → s < N → ∃ vs, List.Forall₂ (fun k v => sampleAt (alone k) t c s = some v) order vs ∧
        sampleAt outs t c s = some (flSum vs) := by
  obtain ⟨start, sig, rfl, hs⟩ := c49_texts_sound_as_written_partial hx hr heN τ code all hparse hc hu steps outs h b hb
  have hw := glicol_parserWf P N fe code all hparse
  have hl := hs.length .dest (.refl _)
  rw [List.length_map] at hl
  refine ⟨hl, ?_⟩
  intro t ht
  have ht' : t < (steps.map Prod.snd).length := by rw [List.length_map]; exact ht
  obtain ⟨srcs, s1, s2, o, ho1, ho2, ho3⟩ := hs.output t ht'
  let nm : Place → Name := fun q => match q with | .at k _ => k | _ => []
  have hsrc : ∀ q, q ∈ srcs → ∃ k n comps, q = .at k n ∧ (k, comps) ∈ all ∧ '~' ∉ k ∧ Chain all b k (n + 1) := by
    intro q hq
    have hf := (s2 q).mp hq
    generalize hl : Place.dest = d at hf
    cases hf with
    | next _ _ => cases hl
    | @out k n hc ht =>
      have hc0 := hc
      generalize n + 1 = m at hc
      cases hc with
      | prog h => exact ⟨k, n, _, rfl, h, ht, hc0⟩
      | input _ => exact absurd (by simp) ht
    | ref _ _ _ _ _ => cases hl
  have hnd : (srcs.map nm).Nodup := by
    refine List.Nodup.map_on ?_ s1
    intro q hq q' hq' he
    obtain ⟨k, n, _, rfl, _, _, c1⟩ := hsrc q hq
    obtain ⟨k', n', _, rfl, _, _, c2⟩ := hsrc q' hq'
    have he : k = k' := he
    subst he
    have := chain_unique hw hc.noInput c1 c2
    cases this
    rfl
  have hperm : (srcs.map nm).Perm ((all.map Prod.fst).filter (fun k => !decide ('~' ∈ k))) := by
    refine (List.perm_ext_iff_of_nodup hnd (hw.1.filter _)).mpr ?_
    intro k
    rw [List.mem_map, List.mem_filter]
    constructor
    · rintro ⟨q, hq, rfl⟩
      obtain ⟨k, n, comps, rfl, h1, h2, _⟩ := hsrc q hq
      exact ⟨List.mem_map.mpr ⟨_, h1, rfl⟩, by simpa [nm] using h2⟩
    · rintro ⟨h1, h2⟩
      obtain ⟨⟨k', comps⟩, h3, rfl⟩ := List.mem_map.mp h1
      have hne := hw.2 _ _ h3
      have h2 : '~' ∉ k' := by simpa using h2
      refine ⟨.at k' (comps.length - 1), (s2 _).mpr (.out ?_ h2), rfl⟩
      have : 0 < comps.length := List.length_pos_iff.mpr hne
      rw [Nat.sub_add_cancel this]
      exact .prog h3
  -- what each track contributes
  have key : ∀ c s, c < 2 → s < N → ∀ q x v, q ∈ srcs → (sig q)[t]? = some x → sideAt c s x = some v →
      v.Ok f32 ∧ sampleAt (alone (nm q)) t c s = some (.fin 0 +. v) := by
    intro c s hc2 hsN q x v hq hxt hv
    obtain ⟨k, n, comps, rfl, h1, h2, h3⟩ := hsrc q hq
    obtain ⟨f0, f1, f2, σ, code', solo, steps', g1, g2, g3, g4, g5, g6, g7, g8, g9, g10, g11, g12⟩ := halone k comps h1 h2
    obtain ⟨start', sig', he, hs'⟩ := c49_texts_sound_as_written_partial hx g1 g2 σ code' solo g4 g6 g9 steps' _ g12 b g10
    rw [g11] at hs'
    show v.Ok f32 ∧ sampleAt (alone k) t c s = _
    rw [he]
    refine solo_plays hx hxf hm hN hw hc.noInput (glicol_parserWf P N fe code' solo g4) hs' hs g3.symm g5 (Parse.sg_parse g4) g7
      (fun k comps hk => ha k comps (g5.kept _ _ hk)) g8 ?_ h3 h2 ht' hc2 hsN hxt hv
    intro hlead
    exact hext (solo_leads g5 hw hc.noInput hlead)
  let val : Nat → Nat → Name → Fl := fun c s k => (sampleAt (alone k) t c s).getD (.fin 0)
  have sums : ∀ c s, c < 2 → s < N → ∃ vs, vs = (srcs.map nm).map (val c s) ∧ (∀ v, v ∈ vs → v.Ok f32) ∧
      (∀ k, k ∈ srcs.map nm → sampleAt (alone k) t c s = some (val c s k)) ∧ sampleAt (sig .dest) t c s = some (flSum vs) := by
    intro c s hc2 hsN
    obtain ⟨vs, y, v1, v2, v3⟩ := ho3 c s hc2 hsN
    have hok : ∀ v, v ∈ vs → v.Ok f32 := by
      intro v hv
      obtain ⟨q, hq, x, hxt, hxv⟩ := forall₂_left (List.Forall₂.flip v1) v hv
      exact (key c s hc2 hsN q x v hq hxt hxv).1
    have he : vs.map (.fin 0 +. ·) = (srcs.map nm).map (val c s) := by
      rw [List.map_map]
      have := forall₂_map (R := fun q w => ∃ x v, (sig q)[t]? = some x ∧ sideAt c s x = some v ∧ w = .fin 0 +. v) (val c s ∘ nm)
        (l := srcs) (m := vs.map (.fin 0 +. ·)) ?_ ?_
      · exact this
      · rw [List.forall₂_map_right_iff]
        exact v1.imp (fun q v ⟨x, h1, h2⟩ => ⟨x, v, h1, h2, rfl⟩)
      · rintro q w hq ⟨x, v, h1, h2, rfl⟩
        simp only [val, Function.comp, (key c s hc2 hsN q x v hq h1 h2).2, Option.getD_some]
    refine ⟨_, rfl, ?_, ?_, ?_⟩
    · rw [← he]
      intro v hv
      obtain ⟨w, hw, rfl⟩ := List.mem_map.mp hv
      exact Fl.add_ok _ _
    · intro k hk
      obtain ⟨q, hq, rfl⟩ := List.mem_map.mp hk
      obtain ⟨v, hv, x, hxt, hxv⟩ := forall₂_left v1 q hq
      simp only [val, (key c s hc2 hsN q x v hq hxt hxv).2, Option.getD_some]
    · rw [← he, flSum_again hok]
      simp only [sampleAt, ho1, Option.bind_some, v2, v3]
  by_cases htwo : (srcs.map nm).length ≤ 2
  · refine ⟨_, .refl _, fun _ => rfl, ?_⟩
    intro c s hc2 hsN
    obtain ⟨vs, rfl, h1, h2, h3⟩ := sums c s hc2 hsN
    refine ⟨((all.map Prod.fst).filter (fun k => !decide ('~' ∈ k))).map (val c s), ?_, ?_⟩
    · rw [List.forall₂_map_right_iff, List.forall₂_same]
      exact fun k hk => h2 k (hperm.mem_iff.mpr hk)
    · rw [h3, flSum_two (hperm.map (val c s)) (by rw [List.length_map]; exact htwo) h1]
  · refine ⟨srcs.map nm, hperm, fun h => absurd h htwo, ?_⟩
    intro c s hc2 hsN
    obtain ⟨vs, rfl, _, h2, h3⟩ := sums c s hc2 hsN
    refine ⟨_, ?_, h3⟩
    rw [List.forall₂_map_right_iff, List.forall₂_same]
    exact h2

/-! ### Examples -/

def bandText : Name := c!"~a: imp 22050 >> mul 3\no: ~a >> add 1\np: constsig 4 >> mul ~a"

def bandProg : Ast Comp :=
  [(c!"~a", [.imp (.num (.fin 22050)), .mul (.num (.fin 3))]), (c!"o", [.get c!"~a", .add (.num (.fin 1))]),
   (c!"p", [.constsig (.fin 4), .mul (.ref c!"~a")])]

def soloTextO : Name := c!"~a: imp 22050 >> mul 3\no: ~a >> add 1"

def soloTextP : Name := c!"~a: imp 22050 >> mul 3\np: constsig 4 >> mul ~a"

def soloO : Ast Comp := [(c!"~a", [.imp (.num (.fin 22050)), .mul (.num (.fin 3))]), (c!"o", [.get c!"~a", .add (.num (.fin 1))])]

def soloP : Ast Comp := [(c!"~a", [.imp (.num (.fin 22050)), .mul (.num (.fin 3))]), (c!"p", [.constsig (.fin 4), .mul (.ref c!"~a")])]

theorem solo_of {solo : Ast Comp} {track : Name} (h1 : ∀ e, e ∈ solo → e ∈ bandProg) (h2 : track ∈ solo.map Prod.fst)
    (h3 : ∀ e, e ∈ solo → '~' ∉ e.1 → e.1 = track) (h4 : ∀ e, e ∈ solo → ∀ c, c ∈ e.2 → ∀ r, r ∈ c.refs → r = c!"~a")
    (h5 : ∀ e, e ∈ bandProg → e.1 = c!"~a" → e ∈ solo) : Solo solo bandProg track := by
  refine ⟨fun k comps h => h1 _ h, h2, fun k comps h => h3 _ h, ?_⟩
  intro k comps hk hn j cs c r hj hc hr hm
  have := h4 (j, cs) hj c hc r hr
  subst this
  exact hn (h5 _ hk (Parted.means_plain hm (by decide)))

theorem soloO_sub : ∀ e, e ∈ soloO → e ∈ bandProg := by
  intro e he
  simp only [soloO, bandProg, List.mem_cons, List.not_mem_nil, or_false] at he ⊢
  tauto

theorem soloO_solo : Solo soloO bandProg c!"o" :=
  solo_of soloO_sub (by decide) (by decide) (by decide)
    (fun e he h => by
      simp only [soloO, bandProg, List.mem_cons, List.not_mem_nil, or_false] at he ⊢
      rcases he with rfl | rfl | rfl
      · simp
      · exact absurd h (by decide)
      · exact absurd h (by decide))

theorem soloP_sub : ∀ e, e ∈ soloP → e ∈ bandProg := by
  intro e he
  simp only [soloP, bandProg, List.mem_cons, List.not_mem_nil, or_false] at he ⊢
  tauto

theorem soloP_solo : Solo soloP bandProg c!"p" :=
  solo_of soloP_sub (by decide) (by decide) (by decide)
    (fun e he h => by
      simp only [soloP, bandProg, List.mem_cons, List.not_mem_nil, or_false] at he ⊢
      rcases he with rfl | rfl | rfl
      · simp
      · exact absurd h (by decide)
      · exact absurd h (by decide))

theorem band_wise {prog : Ast Comp} (h : ∀ e, e ∈ prog → e ∈ bandProg) (ha : c!"~a" ∈ prog.map Prod.fst)
    (hl : (prog.filter (fun e => !decide ('~' ∈ e.1))).length ≤ 2) : Wise ByRole prog true := by
  refine ⟨⟨fun k => if k = c!"~a" then 0 else 1, ?_⟩, ?_, hl⟩
  · intro k comps c r h1 h2 h3
    have := (by decide : ∀ e ∈ bandProg, ∀ c ∈ e.2, ∀ r ∈ c.refs, '.' ∉ r ∧ r = c!"~a" ∧ e.1 ≠ c!"~a") (k, comps) (h _ h1) c h2 r h3
    obtain ⟨a1, rfl, a3⟩ := this
    exact ⟨a1, .inl ha, by
      show (if _ then 0 else 1) < (if _ then 0 else 1)
      rw [if_pos rfl, if_neg a3]
      exact Nat.one_pos⟩
  · intro k comps i c h1 h2
    have h1 := h _ h1
    simp only [bandProg, List.mem_cons, Prod.mk.injEq, List.not_mem_nil, or_false] at h1
    rcases h1 with ⟨rfl, rfl⟩ | ⟨rfl, rfl⟩ | ⟨rfl, rfl⟩ <;>
      rcases i with _ | _ | i <;> simp at h2 <;> subst h2 <;> first | trivial | (show _ ≤ 1; decide)

/-- What each track plays alone, in new engines. -/
theorem band_alone (fe : Name → Option Fl) :
    PlaysAlone notePlat 2 fe ⟨[], 44100, .fin 120, 42⟩ true [[], []] bandProg c!"o" (List.replicate 2 [[.fin 4, .fin 1], [.fin 4, .fin 1]]) ∧
    PlaysAlone notePlat 2 fe ⟨[], 44100, .fin 120, 42⟩ true [[], []] bandProg c!"p" (List.replicate 2 [[.fin 12, .fin 0], [.fin 12, .fin 0]]) := by
  have hn : ∀ prog, AllNew (Engine.new (glicol notePlat 2 (parse fe)) 2) prog :=
    fun prog k comps _ => ⟨[], .inr ⟨rfl, fun a ha => by cases ha⟩, fun _ _ _ ho => by cases ho⟩
  have p1 : parse fe soloTextO = .ok (some soloO) := by kernel_rfl
  have p2 : parse fe soloTextP = .ok (some soloP) := by kernel_rfl
  constructor
  · obtain ⟨e1, e2, h1, h2, h3⟩ := Demo.playsText_spec (P := notePlat) (N := 2) (parse := parse fe) (code := soloTextO)
      (steps := List.replicate 2 (.rev, [])) (outs := List.replicate 2 [[.fin 4, .fin 1], [.fin 4, .fin 1]]) (by kernel_rfl)
    refine ⟨_, e1, e2, .ident, _, soloO, _, .new 2, rfl, rfl, p1, soloO_solo, ⟨?_, show _ ∉ soloO.map Prod.fst by decide⟩, hn _,
      wise_free (glicol_parserWf notePlat 2 fe soloTextO _ p1) (by decide) (band_wise soloO_sub (by decide) (by decide)), h1, by simp [h3], rfl, h2⟩
    have hall : ∀ e ∈ soloO, Distinct Comp.eq e.2 := by unfold Distinct; decide
    exact fun k c hm => hall (k, c) hm
  · obtain ⟨e1, e2, h1, h2, h3⟩ := Demo.playsText_spec (P := notePlat) (N := 2) (parse := parse fe)
      (code := soloTextP)
      (steps := List.replicate 2 (.ident, [])) (outs := List.replicate 2 [[.fin 12, .fin 0], [.fin 12, .fin 0]]) (by kernel_rfl)
    refine ⟨_, e1, e2, .ident, _, soloP, _, .new 2, rfl, rfl, p2, soloP_solo, ⟨?_, show _ ∉ soloP.map Prod.fst by decide⟩, hn _,
      wise_free (glicol_parserWf notePlat 2 fe soloTextP _ p2) (by decide) (band_wise soloP_sub (by decide) (by decide)), h1, by simp [h3], rfl, h2⟩
    have hall : ∀ e ∈ soloP, Distinct Comp.eq e.2 := by unfold Distinct; decide
    exact fun k c hm => hall (k, c) hm

/-- Two tracks, together and alone: the hypotheses of `c88_tracks_partial` are met. -/
example (fe : Name → Option Fl) :
    ExtShape notePlat 2 (fun _ => True) ∧ ExtFirst notePlat ∧ Libm32 notePlat.libm ∧ CleanReach _ (Engine.new (glicol notePlat 2 (parse fe)) 2) ∧
    parse fe bandText = .ok (some bandProg) ∧ CleanProg (glicol notePlat 2 (parse fe)) bandProg ∧
    AllNew (Engine.new (glicol notePlat 2 (parse fe)) 2) bandProg ∧
    ¬ Leads Comp.refs bandProg true (.at ['~', 'i', 'n', 'p', 'u', 't'] 0) .dest ∧
    (∃ e1 e2, (Engine.new (glicol notePlat 2 (parse fe)) 2).updateWithCode .ident bandText = .ok (e1, none) ∧
      Plays e1 (List.replicate 2 (.rev, [])) e2 (List.replicate 2 [[.fin 16, .fin 1], [.fin 16, .fin 1]]) ∧
      ['~', 'i', 'n', 'p', 'u', 't'] ∈ e1.index.map Prod.fst) ∧
    ∀ k comps, (k, comps) ∈ bandProg → '~' ∉ k → PlaysAlone notePlat 2 fe ⟨[], 44100, .fin 120, 42⟩ true [[], []] bandProg k
      (if k = c!"o" then List.replicate 2 [[.fin 4, .fin 1], [.fin 4, .fin 1]] else List.replicate 2 [[.fin 12, .fin 0], [.fin 12, .fin 0]]) := by
  refine ⟨notePlat_meets.1, notePlat_first, notePlat_meets.2, .new 2, by kernel_rfl, ⟨?_, show _ ∉ bandProg.map Prod.fst by decide⟩,
    fun k comps _ => ⟨[], .inr ⟨rfl, fun a ha => by cases ha⟩, fun _ _ _ ho => by cases ho⟩, ?_, Demo.playsText_spec (by kernel_rfl), ?_⟩
  · have hall : ∀ e ∈ bandProg, Distinct Comp.eq e.2 := by unfold Distinct; decide
    exact fun k c hm => hall (k, c) hm
  · intro hl
    obtain ⟨j, comps, c, h1, h2, h3⟩ := Parted.leads_input (by decide) (Parted.plain_of (band_wise (fun _ h => h) (by decide) (by decide))) hl
    exact (by decide : ∀ e ∈ bandProg, ∀ c ∈ e.2, ['~', 'i', 'n', 'p', 'u', 't'] ∉ c.refs) (j, comps) h1 c h2 h3
  · intro k comps hk ht
    simp only [bandProg, List.mem_cons, Prod.mk.injEq, List.not_mem_nil, or_false] at hk
    rcases hk with ⟨rfl, rfl⟩ | ⟨rfl, rfl⟩ | ⟨rfl, rfl⟩
    · exact absurd (by decide) ht
    · exact (band_alone fe).1
    · exact (band_alone fe).2

end Verif.Props
