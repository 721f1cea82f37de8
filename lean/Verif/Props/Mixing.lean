import Verif.Props.Combine

/-!
# Chains mixed

C90 for `mix`: it plays the sum of what the chains play on their own.
-/

namespace Verif.Props
open Verif.Spec Verif.Parse Verif.Double Verif.Part

variable {P : Plat} {N : Nat}

/-- `outs` is what the chain `r` of the program `all` plays on its own: some engine with the given settings, in whose program none of its
components is, gets a text in which `r` is heard as it is (`HeardAs`), and plays `outs` with the given input. -/
def PlaysOnItsOwn (P : Plat) (N : Nat) (fe : Name → Option Fl) (env : Env) (b : Bool) (exts : List (List Buf)) (all : Ast Comp) (r : Name)
    (outs : List (List Buf)) : Prop :=
  ∃ (f0 f1 f2 : Engine (glicol P N (Parse.parse fe))) (σ : TableOrder) (code g : Name) (solo : Ast Comp) (steps : List (HashOrder × List Buf)),
    CleanReach _ f0 ∧ f0.N = N ∧ (⟨f0.samples, f0.sr, f0.bpm, f0.seed⟩ : Env) = env ∧
    Parse.parse fe code = .ok (some solo) ∧ HeardAs solo all g r ∧ CleanProg (glicol P N (Parse.parse fe)) solo ∧
    AllNew f0 solo ∧ FreeOf ByRole solo b ∧ f0.updateWithCode σ code = .ok (f1, none) ∧
    (b = true ↔ ['~', 'i', 'n', 'p', 'u', 't'] ∈ f1.index.map Prod.fst) ∧
    (Leads Comp.refs solo b (.at ['~', 'i', 'n', 'p', 'u', 't'] 0) .dest →
      ∀ x, x ∈ exts → 2 ≤ x.length ∧ ∀ b, b ∈ x.take 2 → ∀ v, v ∈ b → v.Ok f32) ∧
    steps.map Prod.snd = exts ∧ Plays f1 steps f2 outs

namespace Combine

theorem sum2_msgs : ∀ (msgs : List (Msg Fl)), sendMsgs (P := P) (.prim .sum2) msgs = .ok (.prim .sum2)
  | [] => rfl
  | g :: msgs => by
    have : msgG P (.prim .sum2) g = .ok (.prim .sum2) := by cases g <;> rfl
    simp only [sendMsgs, this]
    exact sum2_msgs msgs

/-- `mix` is not told anything. -/
theorem mix_told (env : Env) (names : List Name) (msgs : List (Msg Fl)) (ins : List Ins) :
    play P N env (.mix names) msgs ins = play P N env (.mix names) [] ins := by
  have hmk : makeNode P N env.samples env.sr env.bpm env.seed (.mix names) = .ok (fresh N 2 (.prim .sum2), names) := rfl
  have h1 : sendMsgs (fresh N 2 (GNode.prim (P := P) .sum2)).node msgs = .ok (.prim .sum2) := sum2_msgs msgs
  have h2 : sendMsgs (fresh N 2 (GNode.prim (P := P) .sum2)).node [] = .ok (.prim .sum2) := rfl
  simp only [play, hmk, h1, h2]

theorem mapM_forall₂ {α β : Type} {f : α → Option β} : ∀ {l : List α} {m : List β}, l.mapM f = some m → List.Forall₂ (fun a b => f a = some b) l m
  | [], m, h => by cases h; exact .nil
  | a :: l, m, h => by
    rw [List.mapM_cons] at h
    obtain ⟨y, hy, h⟩ := Option.bind_eq_some_iff.mp h
    obtain ⟨ys, hys, h⟩ := Option.bind_eq_some_iff.mp h
    cases h
    exact .cons hy (mapM_forall₂ hys)

theorem foldl_nz {vs : List Fl} (hv : ∀ v, v ∈ vs → v.Ok f32) : ∀ x, x ≠ Fl.nz → x.Ok f32 →
    vs.foldl (· +. ·) x ≠ .nz ∧ (vs.foldl (· +. ·) x).Ok f32 := by
  induction vs with
  | nil => exact fun x h1 h2 => ⟨h1, h2⟩
  | cons v vs ih =>
    intro x h1 _
    exact ih (fun w hw => hv w (List.mem_cons_of_mem _ hw)) _ (add_again h1 (hv v List.mem_cons_self)).2 (Fl.add_ok _ _)

/-- A sum added to nothing. -/
theorem zero_flSum {vs : List Fl} (hv : ∀ v, v ∈ vs → v.Ok f32) : Fl.fin 0 +. flSum vs = flSum vs := by
  obtain ⟨h1, h2⟩ := foldl_nz hv (.fin 0) (by simp) Fl.zero_ok
  unfold flSum
  generalize vs.foldl (· +. ·) (Fl.fin 0) = x at h1 h2
  cases x with
  | nan => rfl
  | inf s => rfl
  | nz => exact absurd rfl h1
  | fin q => rw [zero_add_fin h2]

section
variable {parse : Name → Except Panic (Option (Ast Comp))} {e0 e1 : Engine (glicol P N parse)}
  {all : Ast Comp} {b : Bool} {exts : List (List Buf)} {start : Place → List Buf} {sig : Place → List (List Buf)}

/-- `mix` plays the sum of the signals of its sources. -/
theorem mix_sounds (h : Sounds e0 e1 all b exts start sig) (hw : ProgWf all)
    (hin : ['~', 'i', 'n', 'p', 'u', 't'] ∉ all.map Prod.fst) {k : Name} {names : List Name}
    (ho : OneTrack all k (.mix names)) (ha : AllNew e0 all) :
    ∀ t, t < exts.length → ∃ srcs : List Place, srcs.Nodup ∧ (∀ q, q ∈ srcs ↔ Flow Comp.refs all b q (.at k 0)) ∧
      ∀ c s, c < 2 → s < N → ∃ vs, List.Forall₂ (fun q v => ∃ x, (sig q)[t]? = some x ∧ sideAt c s x = some v) srcs vs ∧
        ((sig (.at k 0))[t]?).bind (sideAt c s) = some (flSum vs) := by
  have hlead : Leads Comp.refs all b (.at k 0) .dest := .step ((one_out ho hw hin).mpr rfl) (.refl _)
  obtain ⟨old, o1, o2⟩ := ha k _ ho.now
  obtain ⟨refs, qs, nums, left, inputs, _, _, _, _, _, h6, h7, h8, _⟩ :=
    h.component k _ 0 _ old ho.now rfl hlead o1 (o2 _ (by simp))
  have hloop : ∀ q, Flow Comp.refs all b q (.at k 0) → ¬ Leads Comp.refs all b (.at k 0) q := by
    intro q hf hl
    rcases one_leads ho hw hin hl with rfl | rfl
    · rw [flow_into hw ho.now rfl] at hf
      rcases hf with ⟨j, hj, _⟩ | ⟨s, k', l, g1, g2, _, g4⟩
      · cases hj
      · injection g4 with g4 _
        subst g4
        exact ho.unused _ _ _ _ ho.now (List.mem_singleton.mpr rfl) g1 g2
    · obtain ⟨_, _, _, h, _⟩ := source_at hf
      cases h
  -- what comes in
  have hears : ∀ (t : Nat) inp, inputs[t]? = some inp → ∃ srcs : List Place, srcs.Nodup ∧ (∀ q, q ∈ srcs ↔ Flow Comp.refs all b q (.at k 0)) ∧
      List.Forall₂ (fun (x : Nat × List Buf) q => (sig q)[t]? = some x.2) inp srcs := by
    intro t inp ht
    obtain ⟨srcs, s1, s0, s3⟩ := h7 t inp ht
    have s2 : ∀ q, q ∈ srcs ↔ Flow Comp.refs all b q (.at k 0) := fun q => by
      rw [s0]
      refine ⟨fun h => h.1, fun h => ⟨h, ?_⟩⟩
      rintro rfl
      exact hloop _ h (.refl _)
    refine ⟨srcs, s1, s2, ?_⟩
    have s4 : ∀ q, q ∈ srcs → ¬ Leads Comp.refs all b (.at k 0) q := fun q hq => hloop q ((s2 q).mp hq)
    clear s1 s2 s0 ht
    induction s3 with
    | nil => exact .nil
    | cons hd _ ih =>
      refine .cons ?_ (ih (fun q hq => s4 q (List.mem_cons_of_mem _ hq)))
      rcases hd.2 with h | ⟨h, _⟩
      · exact h
      · exact absurd h (s4 _ List.mem_cons_self)
  have hmix : ∀ i, i ∈ inputs → MixIn N i := by
    intro i hi e he
    obtain ⟨t, ht⟩ := List.mem_iff_getElem?.mp hi
    obtain ⟨srcs, _, s2, s3⟩ := hears t i ht
    obtain ⟨q, hq, hqx⟩ := forall₂_left s3 e he
    exact h.shape q (.step ((s2 q).mp hq) hlead) _ (List.mem_of_getElem? hqx)
  obtain ⟨outs, m1, m2, m3⟩ := c28_mix P N ⟨e0.samples, e0.sr, e0.bpm, e0.seed⟩ names inputs hmix
  rw [mix_told] at h8
  have houts : sig (.at k 0) = outs := Except.ok.inj (Eq.trans (Eq.symm h8) m1)
  intro t ht
  have hti : inputs[t]? = some inputs[t] := List.getElem?_eq_getElem (by omega)
  obtain ⟨srcs, s1, s2, s3⟩ := hears t _ hti
  refine ⟨srcs, s1, s2, ?_⟩
  intro c s hc hs
  obtain ⟨o, y, vs, g1, g2, g3, g4⟩ := m3 t _ c s hti hc hs
  refine ⟨vs, ?_, ?_⟩
  · replace g3 := mapM_forall₂ g3
    clear g4 s1 s2 hti
    generalize inputs[t] = inp at s3 g3
    clear g1 g2
    induction s3 generalizing vs with
    | nil => cases g3; exact .nil
    | cons hd _ ih =>
      cases g3 with
      | cons hv g3 => exact .cons ⟨_, hd, hv⟩ (ih _ g3)
  · have hl : o.length = 1 ∨ o.length = 2 := (h.shape _ hlead o (houts ▸ List.mem_of_getElem? g1)).1
    rw [houts, g1, Option.bind_some, sideAt_of hl g2, g4]

end

end Combine

/-- **C90** for `mix` (partial). A text whose only track is `mix` of some references, also of references to several chains at once
(`~a..`), is sent to an engine for which its components are new. What it plays is, in every block, the f32 sum of what the chains that are meant play on
their own (`PlaysOnItsOwn`), in some order, each once; of at most two chains the order does not matter (C42). Missing: feedback,
references to several chains at once by other components, sums of more than two chains inside the chains, components kept from an earlier text, `~input`. -/
theorem c90_mix_partial {fe : Name → Option Fl} {T : P.ext.State → Prop} (hx : ExtShape P N T) (hxf : ExtFirst P) (hm : Libm32 P.libm) (hN : 0 < N)
    {e0 e1 e2 : Engine (glicol P N (Parse.parse fe))} (hr : CleanReach _ e0) (heN : e0.N = N) (τ : TableOrder) (code : Name)
    (all : Ast Comp) (hparse : Parse.parse fe code = .ok (some all)) (hc : CleanProg (glicol P N (Parse.parse fe)) all)
    (ha : AllNew e0 all) {k : Name} {names : List Name} (ho : OneTrack all k (.mix names))
    (hni : ∀ s, s ∈ names → ¬ Means s ['~', 'i', 'n', 'p', 'u', 't'])
    (hdot : ∀ j, j ∈ all.map Prod.fst → '.' ∉ j)
    (hu : e0.updateWithCode τ code = .ok (e1, none)) (b : Bool)
    (hb : b = true ↔ ['~', 'i', 'n', 'p', 'u', 't'] ∈ e1.index.map Prod.fst)
    (steps : List (HashOrder × List Buf)) (outs : List (List Buf))
    (h : Plays e1 steps e2 outs) (own : Name → List (List Buf))
    (hown : ∀ r, r ∈ all.map Prod.fst → (∃ s, s ∈ names ∧ Means s r) →
      PlaysOnItsOwn P N fe ⟨e0.samples, e0.sr, e0.bpm, e0.seed⟩ b (steps.map Prod.snd) all r (own r)) :
    outs.length = steps.length ∧ ∀ t, t < steps.length → ∃ order : List Name, order.Nodup ∧
      (∀ r, r ∈ order ↔ r ∈ all.map Prod.fst ∧ ∃ s, s ∈ names ∧ Means s r) ∧
      ∀ c s, c < 2 → s < N → ∃ vs, List.Forall₂ (fun r v => sampleAt (own r) t c s = some v) order vs ∧
        sampleAt outs t c s = some (flSum vs) := by
  obtain ⟨start, sig, rfl, hs⟩ := c49_texts_sound_as_written_partial hx hr heN τ code all hparse hc hu steps outs h b hb
  have hw := glicol_parserWf P N fe code all hparse
  have hl := hs.length .dest (.refl _)
  rw [List.length_map] at hl
  refine ⟨hl, ?_⟩
  intro t ht
  have ht' : t < (steps.map Prod.snd).length := by rw [List.length_map]; exact ht
  have hne' : steps.map Prod.snd ≠ [] := by
    intro h0
    rw [h0] at ht'
    exact absurd ht' (Nat.not_lt_zero _)
  have hlead : Leads Comp.refs all b (.at k 0) .dest := .step ((Combine.one_out ho hw hc.noInput).mpr rfl) (.refl _)
  have out := Effect.output_one hs (fun q => Combine.one_out ho hw hc.noInput)
  obtain ⟨srcs, s1, s2, s3⟩ := Combine.mix_sounds hs hw hc.noInput ho ha t ht'
  let nm : Place → Name := fun q => match q with | .at k _ => k | _ => []
  have hsrc : ∀ q, q ∈ srcs → ∃ r n, q = .at r n ∧ r ∈ all.map Prod.fst ∧ (∃ s, s ∈ names ∧ Means s r) ∧ Chain all b r (n + 1) := by
    intro q hq
    have hf := (s2 q).mp hq
    rw [flow_into hw ho.now rfl] at hf
    rcases hf with ⟨j, hj, _⟩ | ⟨s, r, n, g1, g2, g3, rfl⟩
    · cases hj
    · have g1 : s ∈ names := g1
      refine ⟨r, n, rfl, ?_, ⟨s, g1, g2⟩, g3⟩
      generalize n + 1 = m at g3
      cases g3 with
      | prog hk => exact List.mem_map.mpr ⟨_, hk, rfl⟩
      | input _ => exact absurd g2 (hni s g1)
  have hnd : (srcs.map nm).Nodup := by
    refine List.Nodup.map_on ?_ s1
    intro q hq q' hq' he
    obtain ⟨k, n, rfl, _, _, c1⟩ := hsrc q hq
    obtain ⟨k', n', rfl, _, _, c2⟩ := hsrc q' hq'
    have he : k = k' := he
    subst he
    have := chain_unique hw hc.noInput c1 c2
    cases this
    rfl
  refine ⟨srcs.map nm, hnd, ?_, ?_⟩
  · intro r
    rw [List.mem_map]
    constructor
    · rintro ⟨q, hq, rfl⟩
      obtain ⟨r, n, rfl, h1, h2, _⟩ := hsrc q hq
      exact ⟨h1, h2⟩
    · rintro ⟨h1, s, hsn, hm⟩
      obtain ⟨⟨r', rs⟩, h3, rfl⟩ := List.mem_map.mp h1
      have : 0 < rs.length := List.length_pos_iff.mpr (hw.2 _ _ h3)
      refine ⟨.at r' (rs.length - 1), (s2 _).mpr ?_, rfl⟩
      rw [flow_into hw ho.now rfl]
      exact .inr ⟨s, r', rs.length - 1, hsn, hm, by rw [Nat.sub_add_cancel this]; exact .prog h3, rfl⟩
  -- what each chain contributes
  have key : ∀ c s, c < 2 → s < N → ∀ q x v, q ∈ srcs → (sig q)[t]? = some x → sideAt c s x = some v →
      v.Ok f32 ∧ sampleAt (own (nm q)) t c s = some (.fin 0 +. v) := by
    intro c s hc2 hsN q x v hq hxt hv
    obtain ⟨r, n, rfl, h1, h2, h3⟩ := hsrc q hq
    obtain ⟨f0, f1, f2, σ, code', g, solo, steps', g1, g2, g3, g4, g5, g6, g7, g8, g9, g10, g13, g11, g12⟩ := hown r h1 h2
    obtain ⟨start', sig', he, hs'⟩ := c49_texts_sound_as_written_partial hx g1 g2 σ code' solo g4 g6 g9 steps' _ g12 b g10
    rw [g11] at hs'
    have hw' := glicol_parserWf P N fe code' solo g4
    have hrd := hdot r h1
    obtain ⟨n', hch'⟩ := Combine.heard_end (b := b) g5 hw'
    have hch := Combine.heard_chain g5 (Combine.heard_ne g5 hrd) hch'
    cases chain_unique hw hc.noInput h3 hch
    have hlr : Leads Comp.refs all b (.at r n) .dest := .step ((s2 _).mp hq) hlead
    obtain ⟨dup, ok⟩ := Combine.heard_same hx hxf hm hN g5 hrd hw' g6.noInput hw hc.noInput hch' hlr hs' hs hne' g3.symm
      (Parse.sg_parse g4) g7 ha g8 g13
    have out' := Effect.output_one hs' (fun q => Combine.heard_out g5 hw' g6.noInput)
    have hlen' := hs'.length .dest (.refl _)
    obtain ⟨o, w, w1, w2, w3⟩ := Combine.heard_sample dup out' (t := t) (ch := c) (s := s) (by omega) hc2 hsN
    rw [hxt] at w1
    cases w1
    rw [hv] at w2
    cases w2
    obtain ⟨bf, b1, b2⟩ := sideAt_mem hv
    refine ⟨(ok x (List.mem_of_getElem? hxt) bf b1).2 v b2, ?_⟩
    show sampleAt (own r) t c s = _
    rw [he]
    exact w3
  intro c s hc2 hsN
  obtain ⟨vs, v1, v2⟩ := s3 c s hc2 hsN
  have hok : ∀ v, v ∈ vs → v.Ok f32 := by
    intro v hv
    obtain ⟨q, hq, x, hxt, hxv⟩ := forall₂_left (List.Forall₂.flip v1) v hv
    exact (key c s hc2 hsN q x v hq hxt hxv).1
  refine ⟨vs.map (.fin 0 +. ·), ?_, ?_⟩
  · rw [List.forall₂_map_left_iff, List.forall₂_map_right_iff]
    replace key := key c s hc2 hsN
    clear s1 s2 s3 hsrc hnd v2 hok
    induction v1 with
    | nil => exact .nil
    | cons hd _ ih =>
      obtain ⟨x, h1, h2⟩ := hd
      exact .cons (key _ x _ List.mem_cons_self h1 h2).2 (ih (fun q x v hq => key q x v (List.mem_cons_of_mem _ hq)))
  · obtain ⟨z, z1, z2⟩ := out.2 t c s (by omega) hc2 hsN
    rw [v2] at z1
    cases z1
    rw [z2, flSum_again hok, Combine.zero_flSum hok]

def mixText : Name := c!"~a: imp 22050 >> mul 3\n~m: ~a >> add 2\no: mix ~a ~m.."

def mixProg : Ast Comp :=
  [(c!"~a", [.imp (.num (.fin 22050)), .mul (.num (.fin 3))]), (c!"~m", [.get c!"~a", .add (.num (.fin 2))]),
   (c!"o", [.mix [c!"~a", c!"~m.."]])]

/-- The names that `~m..` means begin with `~m`. -/
theorem means_m {k : Name} (h : Means c!"~m.." k) : c!"~m" <+: k := by
  generalize hr : c!"~m.." = r at h
  cases h with
  | named hd => subst hr; exact absurd hd (by decide)
  | @pattern p k h1 h2 =>
    have : p = c!"~m" := by
      have h3 : c!"~m" ++ ['.', '.'] = p ++ ['.', '.'] := hr
      exact (List.append_cancel_right h3).symm
    exact this ▸ h2

theorem mix_one : OneTrack mixProg c!"o" (.mix [c!"~a", c!"~m.."]) := by
  refine ⟨by simp [mixProg], by decide, ?_, ?_⟩
  · exact fun j cs h => (by decide : ∀ e ∈ mixProg, '~' ∉ e.1 → e.1 = c!"o") (j, cs) h
  · intro j cs d s h1 h2 h3 hm
    rcases (by decide : ∀ e ∈ mixProg, ∀ c ∈ e.2, ∀ r ∈ c.refs, r = c!"~m.." ∨ ('.' ∉ r ∧ r ≠ c!"o")) (j, cs) h1 d h2 s h3 with rfl | this
    · exact absurd (means_m hm) (by decide)
    · exact this.2 (Parted.means_plain hm this.1).symm

/-- A chain heard as it is in `balanceProg` is heard as it is in `mixProg`: they differ in the track alone. -/
theorem mix_heard {solo : Ast Comp} {r : Name} (hg : c!"o" ∉ solo.map Prod.fst) (h : HeardAs solo balanceProg c!"g" r)
    (hp : ∀ e ∈ solo, ∀ c ∈ e.2, ∀ r ∈ c.refs, '.' ∉ r ∧ r ≠ c!"o") : HeardAs solo mixProg c!"g" r := by
  obtain ⟨h1, h2, h3, h4, h5, h6, h7⟩ := h
  refine ⟨h1, h2, h3, h4, ?_, h6, ?_⟩
  · intro j cs hj hne
    have := h5 j cs hj hne
    have hjo : j ≠ c!"o" := fun he => hg (he ▸ List.mem_map.mpr ⟨_, hj, rfl⟩)
    simp only [mixProg, balanceProg, List.mem_cons, Prod.mk.injEq, List.not_mem_nil, or_false] at this ⊢
    tauto
  · intro k comps hk hn j cs c s g1 g2 g3 hm
    have hs := hp (j, cs) g1 c g2 s g3
    obtain rfl := Parted.means_plain hm hs.1
    refine h7 k comps ?_ hn j cs c k g1 g2 g3 hm
    simp only [mixProg, balanceProg, List.mem_cons, Prod.mk.injEq, List.not_mem_nil, or_false] at hk ⊢
    tauto

/-- Two chains mixed, one of them meant by a pattern: the hypotheses of `c90_mix_partial` are met. -/
example (fe : Name → Option Fl) :
    ExtShape notePlat 2 (fun _ => True) ∧ ExtFirst notePlat ∧ Libm32 notePlat.libm ∧ CleanReach _ (Engine.new (glicol notePlat 2 (parse fe)) 2) ∧
    parse fe mixText = .ok (some mixProg) ∧ CleanProg (glicol notePlat 2 (parse fe)) mixProg ∧
    AllNew (Engine.new (glicol notePlat 2 (parse fe)) 2) mixProg ∧ OneTrack mixProg c!"o" (.mix [c!"~a", c!"~m.."]) ∧
    (∀ s, s ∈ [c!"~a", c!"~m.."] → ¬ Means s ['~', 'i', 'n', 'p', 'u', 't']) ∧ (∀ j, j ∈ mixProg.map Prod.fst → '.' ∉ j) ∧
    (∃ e1 e2, (Engine.new (glicol notePlat 2 (parse fe)) 2).updateWithCode .ident mixText = .ok (e1, none) ∧
      Plays e1 (List.replicate 2 (.ident, [])) e2 (List.replicate 2 [[.fin 8, .fin 2], [.fin 8, .fin 2]]) ∧
      ['~', 'i', 'n', 'p', 'u', 't'] ∈ e1.index.map Prod.fst) ∧
    Means c!"~a" c!"~a" ∧ Means c!"~m.." c!"~m" ∧
    ∀ r, r ∈ mixProg.map Prod.fst → (∃ s, s ∈ [c!"~a", c!"~m.."] ∧ Means s r) →
      PlaysOnItsOwn notePlat 2 fe ⟨[], (Engine.new (glicol notePlat 2 (parse fe)) 2).sr, (Engine.new (glicol notePlat 2 (parse fe)) 2).bpm,
        (Engine.new (glicol notePlat 2 (parse fe)) 2).seed⟩ true (List.replicate 2 []) mixProg r
        (if r = c!"~a" then List.replicate 2 [[.fin 3, .fin 0], [.fin 3, .fin 0]] else List.replicate 2 [[.fin 5, .fin 2], [.fin 5, .fin 2]]) := by
  have p1 : parse fe aloneText = .ok (some aloneProg) := by kernel_rfl
  have p2 : parse fe rightText = .ok (some rightProg) := by kernel_rfl
  have hnew : ∀ prog, AllNew (Engine.new (glicol notePlat 2 (parse fe)) 2) prog :=
    fun prog k comps _ => ⟨[], .inr ⟨rfl, fun a ha => by cases ha⟩, fun _ _ _ ho => by cases ho⟩
  have hclean : ∀ prog, prog = aloneProg ∨ prog = rightProg ∨ prog = mixProg → CleanProg (glicol notePlat 2 (parse fe)) prog := by
    intro prog hp
    refine ⟨?_, ?_⟩
    · have hall : ∀ e ∈ aloneProg ++ rightProg ++ mixProg, Distinct Comp.eq e.2 := by unfold Distinct; decide
      intro k c hm
      refine hall (k, c) ?_
      rcases hp with rfl | rfl | rfl
      · exact List.mem_append_left _ (List.mem_append_left _ hm)
      · exact List.mem_append_left _ (List.mem_append_right _ hm)
      · exact List.mem_append_right _ hm
    · rcases hp with rfl | rfl | rfl
      · exact show _ ∉ aloneProg.map Prod.fst by decide
      · exact show _ ∉ rightProg.map Prod.fst by decide
      · exact show _ ∉ mixProg.map Prod.fst by decide
  have hwise : ∀ prog, prog = aloneProg ∨ prog = rightProg → Wise ByRole prog true := by
    rintro prog (rfl | rfl)
    · exact alone_wise
    · exact side_wise (fun e he => .inr he) (by decide) (by decide) (by decide)
  have hin : ∀ prog, prog = aloneProg ∨ prog = rightProg → ¬ Leads Comp.refs prog true (.at ['~', 'i', 'n', 'p', 'u', 't'] 0) .dest := by
    intro prog hp
    have hin : ['~', 'i', 'n', 'p', 'u', 't'] ∉ prog.map Prod.fst := by rcases hp with rfl | rfl <;> decide
    intro hl
    obtain ⟨j, comps, c, h1, h2, h3⟩ := Parted.leads_input hin (Parted.plain_of (hwise prog hp)) hl
    have : (j, comps) ∈ aloneProg ++ rightProg := by
      rcases hp with rfl | rfl
      · exact List.mem_append_left _ h1
      · exact List.mem_append_right _ h1
    exact (by decide : ∀ e ∈ aloneProg ++ rightProg, ∀ c ∈ e.2, ['~', 'i', 'n', 'p', 'u', 't'] ∉ c.refs) (j, comps) this c h2 h3
  have hmm : Means c!"~m.." c!"~m" := .pattern (base := c!"~m") (by decide) (by decide)
  refine ⟨notePlat_meets.1, notePlat_first, notePlat_meets.2, .new 2, by kernel_rfl, hclean _ (.inr (.inr rfl)), hnew _, mix_one, ?_, by decide,
    Demo.playsText_spec (by kernel_rfl), .named (by decide), hmm, ?_⟩
  · intro s hs hm
    rcases List.mem_pair.mp hs with rfl | rfl
    · exact absurd (Parted.means_plain hm (by decide)) (by decide)
    · exact absurd (means_m hm) (by decide)
  · intro r hr ⟨s, hs, hm⟩
    have : r = c!"~a" ∨ r = c!"~m" := by
      have : r = c!"~a" ∨ r = c!"~m" ∨ r = c!"o" := by simpa [mixProg] using hr
      rcases this with h | h | rfl
      · exact .inl h
      · exact .inr h
      · rcases List.mem_pair.mp hs with rfl | rfl
        · exact absurd (Parted.means_plain hm (by decide)) (by decide)
        · exact absurd (means_m hm) (by decide)
    rcases this with rfl | rfl
    · obtain ⟨e1, e2, h1, h2, h3⟩ : ∃ e1 e2, (Engine.new (glicol notePlat 2 (parse fe)) 2).updateWithCode .ident aloneText = .ok (e1, none) ∧
          Plays e1 (List.replicate 2 (.rev, [])) e2 (List.replicate 2 [[.fin 3, .fin 0], [.fin 3, .fin 0]]) ∧
          ['~', 'i', 'n', 'p', 'u', 't'] ∈ e1.index.map Prod.fst := Demo.playsText_spec (by kernel_rfl)
      exact ⟨_, e1, e2, .ident, aloneText, c!"g", aloneProg, List.replicate 2 (.rev, []), .new 2, rfl, rfl, p1,
        mix_heard (by decide) balance_left (by decide), hclean _ (.inl rfl), hnew _,
        wise_free (glicol_parserWf notePlat 2 fe aloneText _ p1) (by decide) (hwise _ (.inl rfl)), h1, ⟨fun _ => h3, fun _ => rfl⟩,
        fun h => absurd h (hin _ (.inl rfl)), rfl, h2⟩
    · obtain ⟨e1, e2, h1, h2, h3⟩ : ∃ e1 e2, (Engine.new (glicol notePlat 2 (parse fe)) 2).updateWithCode .ident rightText = .ok (e1, none) ∧
          Plays e1 (List.replicate 2 (.ident, [])) e2 (List.replicate 2 [[.fin 5, .fin 2], [.fin 5, .fin 2]]) ∧
          ['~', 'i', 'n', 'p', 'u', 't'] ∈ e1.index.map Prod.fst := Demo.playsText_spec (by kernel_rfl)
      exact ⟨_, e1, e2, .ident, rightText, c!"g", rightProg, List.replicate 2 (.ident, []), .new 2, rfl, rfl, p2,
        mix_heard (by decide) balance_right (by decide), hclean _ (.inr (.inl rfl)), hnew _,
        wise_free (glicol_parserWf notePlat 2 fe rightText _ p2) (by decide) (hwise _ (.inr rfl)), h1, ⟨fun _ => h3, fun _ => rfl⟩,
        fun h => absurd h (hin _ (.inr rfl)), rfl, h2⟩

end Verif.Props
