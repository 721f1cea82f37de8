import Verif.Lemmas.StreamSound
import Verif.Lemmas.SingleMake
import Verif.Spec.TextBlocks
import Mathlib.Data.Finset.Card

/-!
# Where a block ends cannot be heard

C34: programs whose nodes treat their inputs sample by sample sound the same in whatever blocks they are rendered.
-/

namespace Verif.Props
open Verif.Spec Verif.Parse

variable {P : Plat} {N M : Nat} {parse parse' : Name → Except Panic (Option (Ast Comp))}
  {e0 e1 : Engine (glicol P N parse)} {f0 f1 : Engine (glicol P M parse')} {new : Ast Comp} {b : Bool}
  {exts exts' : List (List Buf)} {start start' : Place → List Buf} {sig sig' : Place → List (List Buf)}

/-! ### Helpers -/

theorem leads_trans {p q r : Place} (h1 : Leads Comp.refs new b p q) (h2 : Leads Comp.refs new b q r) :
    Leads Comp.refs new b p r := by
  induction h1 with
  | refl => exact h2
  | step hf _ ih => exact .step hf (ih h2)

/-- All places of a program. -/
def allPlaces (new : Ast Comp) : List Place :=
  .dest :: .at ['~', 'i', 'n', 'p', 'u', 't'] 0 ::
    new.flatMap (fun kc => (List.range kc.2.length).map (Place.at kc.1))

theorem at_places {k : Name} {comps : List Comp} {i : Nat} (hk : (k, comps) ∈ new) (hi : i < comps.length) :
    Place.at k i ∈ allPlaces new := by
  unfold allPlaces
  refine List.mem_cons_of_mem _ (List.mem_cons_of_mem _ (List.mem_flatMap.mpr ⟨_, hk, ?_⟩))
  exact List.mem_map.mpr ⟨i, List.mem_range.mpr hi, rfl⟩

theorem chain_places {k : Name} {n i : Nat} (h : Chain new b k n) (hi : i < n) : Place.at k i ∈ allPlaces new := by
  cases h with
  | prog hk => exact at_places hk hi
  | input _ =>
    have : i = 0 := by omega
    subst this
    simp [allPlaces]

theorem flow_places {q p : Place} (h : Flow Comp.refs new b q p) : p ∈ allPlaces new := by
  cases h with
  | next hc hi => exact chain_places hc hi
  | out _ _ => simp [allPlaces]
  | ref hk hi _ _ _ => exact at_places hk (List.getElem?_eq_some_iff.mp hi).1

open Classical in
/-- Without feedback the places can be ranked. -/
theorem rank_exists (hf : ∀ q p, Flow Comp.refs new b q p → Leads Comp.refs new b p .dest → ¬ Leads Comp.refs new b p q) :
    ∃ rank : Place → Nat, ∀ q p, Flow Comp.refs new b q p → Leads Comp.refs new b p .dest → rank q < rank p := by
  refine ⟨fun p => ((allPlaces new).toFinset.filter (fun x => Leads Comp.refs new b x p)).card, ?_⟩
  intro q p h hd
  refine Finset.card_lt_card ?_
  rw [Finset.ssubset_iff_of_subset]
  · refine ⟨p, ?_, ?_⟩
    · simp only [Finset.mem_filter, List.mem_toFinset]
      exact ⟨flow_places h, .refl _⟩
    · simp only [Finset.mem_filter, not_and]
      exact fun _ => hf q p h hd
  · intro x hx
    simp only [Finset.mem_filter] at hx ⊢
    exact ⟨hx.1, leads_trans hx.2 (.step h (.refl _))⟩

/-- The signal of a component consists of f32 numbers if those of its sources do. -/
theorem component_single (hm : Libm32 P.libm) (h : Sounds e0 e1 new b exts start sig) (hne : exts ≠ [])
    {k : Name} {comps : List Comp} {i : Nat} {c : Comp} (hk : (k, comps) ∈ new) (hi : comps[i]? = some c) (hc : c.Sg)
    (hp : ∃ r, makePrim P.libm e0.samples e0.sr e0.bpm e0.seed c = some r)
    (hlead : Leads Comp.refs new b (.at k i) .dest) {old : List Comp} (hold : IsOld e0 k old)
    (hnew : ∀ o, o ∈ old → Comp.eq o c = false)
    (hloop : ∀ q, Flow Comp.refs new b q (.at k i) → ¬ Leads Comp.refs new b (.at k i) q)
    (hok : ∀ q, Flow Comp.refs new b q (.at k i) → ∀ o, o ∈ sig q → SgBufs o) :
    ∀ o, o ∈ sig (.at k i) → SgBufs o := by
  obtain ⟨refs, qs, srcs, left, inputs, _, _, _, _, _, r6, r7, r8, _⟩ := h.component k comps i c old hk hi hlead hold hnew
  obtain ⟨Q, _, q2, num, _, q4⟩ := run_inputs h r6 hne hloop r7
  obtain ⟨_, hfed⟩ := q4 Q (.refl _)
  refine sg_play hm hc hp wiring_isWiring ?_ r8
  intro inp hinp e he
  obtain ⟨t, ht⟩ := List.mem_iff_getElem?.mp hinp
  obtain ⟨bufs, h1, h2⟩ := hfed t inp ht
  have he2 : e.2 ∈ bufs := (List.of_mem_zip (h2.mem_iff.mp he)).2
  obtain ⟨s, hs, hso⟩ := forall₂_left (List.Forall₂.flip h1) _ he2
  obtain ⟨q, hq, rfl⟩ := List.mem_map.mp hs
  exact hok q ((q2 q).mp hq) _ (List.mem_of_getElem? hso)

/-- Drums and synths only emit f32 numbers. -/
theorem drum_single {env : Env} {c : Comp} (hd : DrumOk c) {l : List Nat} {ins : List Ins} {outs : List (List Buf)}
    (hi : (∀ i, i ∈ ins → i.length ≠ 1) ∨ ∃ k xs, List.Forall₂ (LeftIs k) ins xs ∧ Sized N xs)
    (h : play P N env c (l.map .index) ins = .ok outs) : ∀ o, o ∈ outs → SgBufs o := by
  obtain ⟨K, k1, k2, k3, k4, k5⟩ := drum_playsSig P c hd
  have h := drum_opens (drum_not_prim hd P.libm env.samples env.sr env.bpm env.seed).1 (k1 N) k4 k5 h
  rcases hi with hi | ⟨k, xs, hF, hx⟩
  · rw [unfed_run (k3 N l) ins hi] at h
    cases h
    intro o ho
    obtain ⟨_, _, rfl⟩ := List.mem_map.mp ho
    intro b hb x hx
    rw [List.eq_of_mem_replicate hb] at hx
    rw [List.eq_of_mem_replicate hx]
    exact sg_zero
  · cases hF with
    | nil => cases h; intro o ho; cases ho
    | @cons inp x ins xs hL hF =>
      have hk : l[0]? = some k := by
        obtain ⟨main, rfl, hmain⟩ := hL
        simp only [runBlocks] at h
        split at h
        · cases h
        · rename_i n1 o1 h1
          obtain ⟨c1, o2, hp, _⟩ := reState_back h1
          have hne := k3 N l
          have ho := k5 N l
          generalize K N l = C at hp hne ho
          subst ho
          unfold procCompound at hp
          split at hp
          · exact absurd (by assumption) hne
          · unfold Compound.feed at hp
            simp only [except_bind_ok] at hp
            obtain ⟨m1, hm1, _⟩ := hp
            unfold inputAt at hm1
            split at hm1
            · cases hm1
            · rename_i j hj
              rw [hj]
              by_cases hjk : k = j
              · rw [hjk]
              · have : ((k == j) : Bool) = false := by simpa using hjk
                simp [this] at hm1
          · rename_i hno
            exact absurd rfl (hno _)
      obtain ⟨G, _, hG⟩ := k2
      rw [hG N l k _ _ _ hk (.cons hL hF) hx h]
      intro o ho
      simp only [onBothSides, List.mem_map] at ho
      obtain ⟨y, _, rfl⟩ := ho
      intro b hb x hx
      simp only [List.mem_cons, List.not_mem_nil, or_false, or_self] at hb
      subst hb
      obtain ⟨v, _, rfl⟩ := List.mem_map.mp hx
      exact sg_add _ _

/-- The signal of a drum or synth consists of f32 numbers. -/
theorem drum_component (h : Sounds e0 e1 new b exts start sig) (hne : exts ≠ [])
    {k : Name} {comps : List Comp} {i : Nat} {c : Comp} (hk : (k, comps) ∈ new) (hi : comps[i]? = some c) (hd : DrumOk c)
    (hlead : Leads Comp.refs new b (.at k i) .dest) {old : List Comp} (hold : IsOld e0 k old)
    (hnew : ∀ o, o ∈ old → Comp.eq o c = false)
    (hloop : ∀ q, Flow Comp.refs new b q (.at k i) → ¬ Leads Comp.refs new b (.at k i) q) :
    ∀ o, o ∈ sig (.at k i) → SgBufs o := by
  obtain ⟨refs, qs, srcs, left, inputs, _, _, _, _, _, r6, r7, r8, r9⟩ := h.component k comps i c old hk hi hlead hold hnew
  obtain ⟨Q, _, q2, num, _, q4⟩ := run_inputs h r6 hne hloop r7
  obtain ⟨_, hfed⟩ := q4 Q (.refl _)
  refine drum_single hd ?_ (r9 (drum_not_prim hd P.libm e0.samples e0.sr e0.bpm e0.seed).2)
  by_cases hQ : Q.length = 1
  · obtain ⟨q, rfl⟩ := List.length_eq_one_iff.mp hQ
    refine .inr ⟨num q, ?_⟩
    have hlq : Leads Comp.refs new b q .dest := .step ((q2 q).mp (by simp)) hlead
    have hat : ∀ (t : Nat) inp, inputs[t]? = some inp → ∃ x, LeftIs (num q) inp x ∧ x.length = N := by
      intro t inp ht
      obtain ⟨bufs, h1, h2⟩ := hfed t inp ht
      simp only [List.map_cons, List.map_nil] at h1 h2
      cases h1 with
      | cons h1 h3 =>
        cases h3
        rename_i o
        obtain ⟨hl, hs⟩ := h.shape q hlq o (List.mem_of_getElem? h1)
        have hp : 0 < o.length := by omega
        exact ⟨o[0], ⟨o, List.perm_singleton.mp h2, List.getElem?_eq_getElem hp⟩, hs _ (List.getElem_mem hp)⟩
    clear hfed r6 r7 r8 r9 hne q4
    induction inputs with
    | nil => exact ⟨[], .nil, fun x hx => (by cases hx)⟩
    | cons inp inputs ih =>
      obtain ⟨x, h1, h2⟩ := hat 0 inp rfl
      obtain ⟨xs, h3, h4⟩ := ih (fun t inp ht => hat (t + 1) inp ht)
      refine ⟨x :: xs, .cons h1 h3, ?_⟩
      intro y hy
      rcases List.mem_cons.mp hy with rfl | hy
      · exact h2
      · exact h4 y hy
  · left
    intro inp hinp
    obtain ⟨t, ht⟩ := List.mem_iff_getElem?.mp hinp
    obtain ⟨bufs, h1, h2⟩ := hfed t inp ht
    have := h2.length_eq
    have h3 := h1.length_eq
    rw [List.length_map] at h3
    rw [List.length_zip, List.length_map, ← h3, Nat.min_self] at this
    omega

theorem input_signal (h : Sounds e0 e1 new b exts start sig)
    (hl : Leads Comp.refs new b (.at ['~', 'i', 'n', 'p', 'u', 't'] 0) .dest) (h2 : ∀ x, x ∈ exts → 2 ≤ x.length) :
    sig (.at ['~', 'i', 'n', 'p', 'u', 't'] 0) = exts.map (List.take 2) := by
  have hlen := h.length _ hl
  apply List.ext_getElem?
  intro t
  by_cases ht : t < exts.length
  · have he := List.getElem?_eq_getElem ht
    rw [h.input hl t _ he (h2 _ (List.getElem_mem ht)), List.getElem?_map, he]
    rfl
  · rw [List.getElem?_eq_none (by omega), List.getElem?_eq_none (by simp; omega)]

/-- Formulas only emit f32 numbers. -/
theorem eval_component (hst : ExtStream P) (h : Sounds e0 e1 new b exts start sig)
    {k : Name} {comps : List Comp} {i : Nat} {code : Name} (hk : (k, comps) ∈ new) (hi : comps[i]? = some (.eval code))
    (hlead : Leads Comp.refs new b (.at k i) .dest) {old : List Comp} (hold : IsOld e0 k old)
    (hnew : ∀ o, o ∈ old → Comp.eq o (.eval code) = false) : ∀ o, o ∈ sig (.at k i) → SgBufs o := by
  obtain ⟨_, _, _, _, _, _, _, _, _, _, _, _, _, r9⟩ := h.component k comps i _ old hk hi hlead hold hnew
  exact eval_single hst (r9 trivial)

/-- All signals that reach the output are the same in both runs. -/
theorem places_agree (hst : HasFormula new → ExtStream P) (hm : Libm32 P.libm) (hN : 0 < N) (hM : 0 < M) (hw : ProgWf new)
    (hin : ['~', 'i', 'n', 'p', 'u', 't'] ∉ new.map Prod.fst)
    (h : Sounds e0 e1 new b exts start sig) (h' : Sounds f0 f1 new b exts' start' sig') (hne : exts ≠ []) (hne' : exts' ≠ [])
    (hset : (⟨f0.samples, f0.sr, f0.bpm, f0.seed⟩ : Env) = ⟨e0.samples, e0.sr, e0.bpm, e0.seed⟩)
    (hsg : ∀ e, e ∈ new → ∀ c, c ∈ e.2 → c.Sg) (ha : AllNew e0 new) (ha' : AllNew f0 new)
    (hfree : FreeOfBlocks e0.samples new b)
    (hext : Leads Comp.refs new b (.at ['~', 'i', 'n', 'p', 'u', 't'] 0) .dest → SameInput N M exts exts') :
    ∀ q p, Flow Comp.refs new b q p → Leads Comp.refs new b p .dest →
      SameAt N M sig sig' q ∧ (∀ o, o ∈ sig q → SgBufs o) ∧ ∀ o, o ∈ sig' q → SgBufs o := by
  obtain ⟨rank, hrank⟩ := rank_exists hfree.forward
  have key : ∀ (n : Nat) q p, rank q < n → Flow Comp.refs new b q p → Leads Comp.refs new b p .dest →
      SameAt N M sig sig' q ∧ (∀ o, o ∈ sig q → SgBufs o) ∧ ∀ o, o ∈ sig' q → SgBufs o := by
    intro n
    induction n with
    | zero => intro q p h; omega
    | succ n ih =>
      intro q p hn hf hd
      have hlead : Leads Comp.refs new b q .dest := .step hf hd
      have hcomp : ∀ k comps i, (k, comps) ∈ new → i < comps.length → q = .at k i →
          SameAt N M sig sig' q ∧ (∀ o, o ∈ sig q → SgBufs o) ∧ ∀ o, o ∈ sig' q → SgBufs o := by
        rintro k comps i hk hi rfl
        have hci := List.getElem?_eq_getElem hi
        obtain ⟨old, ho1, ho2⟩ := ha k comps hk
        obtain ⟨old', ho1', ho2'⟩ := ha' k comps hk
        have hmem : comps[i] ∈ comps := List.getElem_mem hi
        have hsrc : ∀ q, Flow Comp.refs new b q (.at k i) →
            SameAt N M sig sig' q ∧ (∀ o, o ∈ sig q → SgBufs o) ∧ ∀ o, o ∈ sig' q → SgBufs o := by
          intro q hq
          have := hrank q _ hq hlead
          exact ih q _ (by omega) hq hlead
        have hloop : ∀ q, Flow Comp.refs new b q (.at k i) → ¬ Leads Comp.refs new b (.at k i) q :=
          fun q hq => hfree.forward q _ hq hlead
        have hparts := hfree.parts k comps i _ hk hci hlead
        obtain ⟨_, _, _, _, inputs, _, _, _, _, _, r6, r7, _, _⟩ :=
          h.component k comps i _ old hk hci hlead ho1 (ho2 _ hmem)
        obtain ⟨Q, q1, q2, _⟩ := run_inputs h r6 hne hloop r7
        have hbf := hparts Q q1 q2
        refine ⟨component_agree hst hN hM hw hin h h' hne hne' hset hk hci hlead ho1 (ho2 _ hmem) ho1' (ho2' _ hmem) hparts
          (hfree.refs k comps _ hk hmem) hloop (fun q hq => (hsrc q hq).2.1) (fun q hq => (hsrc q hq).2.2)
          (fun q hq => (hsrc q hq).1), ?_, ?_⟩
        · rcases hbf with ⟨code, hc⟩ | hbf
          · rw [hc] at hci
            exact eval_component (hst ⟨k, comps, code, hk, List.mem_of_getElem? hci⟩) h hk hci hlead ho1 (hc ▸ ho2 _ hmem)
          rcases blockFree_class hbf P.libm e0.sr e0.bpm e0.seed with hp | hd
          · exact component_single hm h hne hk hci (hsg _ hk _ hmem) hp hlead ho1 (ho2 _ hmem) hloop (fun q hq => (hsrc q hq).2.1)
          · exact drum_component h hne hk hci hd hlead ho1 (ho2 _ hmem) hloop
        · have hse : f0.samples = e0.samples := congrArg Env.samples hset
          rcases hbf with ⟨code, hc⟩ | hbf
          · rw [hc] at hci
            exact eval_component (hst ⟨k, comps, code, hk, List.mem_of_getElem? hci⟩) h' hk hci hlead ho1' (hc ▸ ho2' _ hmem)
          rcases blockFree_class hbf P.libm f0.sr f0.bpm f0.seed with hp | hd
          · exact component_single hm h' hne' hk hci (hsg _ hk _ hmem) (by rw [hse]; exact hp) hlead ho1'
              (ho2' _ hmem) hloop (fun q hq => (hsrc q hq).2.2)
          · exact drum_component h' hne' hk hci hd hlead ho1' (ho2' _ hmem) hloop
      have hinput : q = .at ['~', 'i', 'n', 'p', 'u', 't'] 0 →
          SameAt N M sig sig' q ∧ (∀ o, o ∈ sig q → SgBufs o) ∧ ∀ o, o ∈ sig' q → SgBufs o := by
        rintro rfl
        have hi := hext hlead
        rw [input_signal h hlead (fun x hx => (hi.left x hx).1), input_signal h' hlead (fun x hx => (hi.right x hx).1),
          SameAt, input_signal h hlead (fun x hx => (hi.left x hx).1), input_signal h' hlead (fun x hx => (hi.right x hx).1)]
        refine ⟨⟨hi.same, 2, .inr rfl, ?_, ?_⟩, ?_, ?_⟩
        · intro o ho
          obtain ⟨x, hx, rfl⟩ := List.mem_map.mp ho
          have := (hi.left x hx).1
          simp; omega
        · intro o ho
          obtain ⟨x, hx, rfl⟩ := List.mem_map.mp ho
          have := (hi.right x hx).1
          simp; omega
        · intro o ho
          obtain ⟨x, hx, rfl⟩ := List.mem_map.mp ho
          exact (hi.left x hx).2
        · intro o ho
          obtain ⟨x, hx, rfl⟩ := List.mem_map.mp ho
          exact (hi.right x hx).2
      have hchain : ∀ k m i, Chain new b k m → i < m → q = .at k i →
          SameAt N M sig sig' q ∧ (∀ o, o ∈ sig q → SgBufs o) ∧ ∀ o, o ∈ sig' q → SgBufs o := by
        intro k m i hc hi hq
        cases hc with
        | prog hk => exact hcomp k _ i hk hi hq
        | input _ =>
          have : i = 0 := by omega
          subst this
          exact hinput hq
      cases hf with
      | next hc hi => exact hchain _ _ _ hc (by omega) rfl
      | out hc _ => exact hchain _ _ _ hc (by omega) rfl
      | ref _ _ _ _ hc => exact hchain _ _ _ hc (by omega) rfl
  intro q p hf hd
  exact key (rank q + 1) q p (Nat.lt_succ_self _) hf hd

/-- Chains that refer only to earlier ones by name. -/
theorem rank_leads {rank : Name → Nat} (hin : ['~', 'i', 'n', 'p', 'u', 't'] ∉ new.map Prod.fst)
    (hr : ∀ k comps c r, (k, comps) ∈ new → c ∈ comps → r ∈ c.refs → '.' ∉ r ∧
      (r ∈ new.map Prod.fst ∨ (b = true ∧ r = ['~', 'i', 'n', 'p', 'u', 't'])) ∧ rank r < rank k)
    {p q : Place} (h : Leads Comp.refs new b p q) : q = p ∨ q = .dest ∨ ∃ k i k' i', p = .at k i ∧ q = .at k' i' ∧
      (rank k < rank k' ∨ (k = k' ∧ i < i')) := by
  induction h with
  | refl => exact .inl rfl
  | @step p q r hf hl ih =>
    have hd : ∀ {r}, Leads Comp.refs new b .dest r → r = .dest := by
      intro r h
      generalize hx : Place.dest = x at h
      cases h with
      | refl => rfl
      | step hf _ => subst hx; cases hf
    cases hf with
    | @next k n i hc hi =>
      rcases ih with rfl | rfl | ⟨k1, i1, k', i', h1, rfl, h2⟩
      · exact .inr (.inr ⟨k, i, k, i + 1, rfl, rfl, .inr ⟨rfl, by omega⟩⟩)
      · exact .inr (.inl rfl)
      · cases h1
        refine .inr (.inr ⟨k, i, k', i', rfl, rfl, ?_⟩)
        rcases h2 with h2 | ⟨h2, h3⟩
        · exact .inl h2
        · exact .inr ⟨h2, by omega⟩
    | out hc _ => exact .inr (.inl (hd hl))
    | @ref k k' r' comps c i n hk hi hrc hm hc =>
      obtain ⟨hdot, _, hlt⟩ := hr k comps c r' hk (List.mem_of_getElem? hi) hrc
      have hk' : k' = r' := by
        cases hm with
        | named _ => rfl
        | pattern => exact absurd (by simp) hdot
      subst hk'
      rcases ih with rfl | rfl | ⟨k1, i1, k2, i2, h1, rfl, h2⟩
      · exact .inr (.inr ⟨_, _, _, _, rfl, rfl, .inl hlt⟩)
      · exact .inr (.inl rfl)
      · cases h1
        refine .inr (.inr ⟨_, _, _, _, rfl, rfl, .inl ?_⟩)
        rcases h2 with h2 | ⟨rfl, _⟩
        · omega
        · exact hlt

/-- The condition on the text suffices. -/
theorem wise_free {R : Comp → Nat → Prop} (hw : ProgWf new)
    (hin : ['~', 'i', 'n', 'p', 'u', 't'] ∉ new.map Prod.fst) (h : Wise R new b) : FreeOf R new b := by
  obtain ⟨rank, hr⟩ := h.order
  have hchain : ∀ r, (r ∈ new.map Prod.fst ∨ (b = true ∧ r = ['~', 'i', 'n', 'p', 'u', 't'])) → ∃ n, Chain new b r (n + 1) := by
    rintro r (hr | ⟨hb, rfl⟩)
    · obtain ⟨⟨k, comps⟩, hk, rfl⟩ := List.mem_map.mp hr
      have hne : comps ≠ [] := hw.2 k comps hk
      obtain ⟨n, hn⟩ : ∃ n, comps.length = n + 1 := ⟨comps.length - 1, by have := List.length_pos_iff.mpr hne; omega⟩
      exact ⟨n, hn ▸ .prog hk⟩
    · exact ⟨0, .input hb⟩
  refine ⟨?_, ?_, ?_, ?_⟩
  · intro q p hf _ hl
    have h1 := rank_leads hin hr (.step hf (.refl p))
    have h2 := rank_leads hin hr hl
    cases hf with
    | @next k n i _ _ =>
      rcases h2 with h2 | h2 | ⟨k1, i1, k2, i2, h3, h4, h2⟩
      · simp at h2
      · cases h2
      · cases h3; cases h4
        rcases h2 with h2 | ⟨_, h2⟩ <;> omega
    | out _ _ =>
      rcases h2 with h2 | h2 | ⟨k1, i1, k2, i2, h3, h4, h2⟩
      · cases h2
      · cases h2
      · cases h3
    | @ref k k' r' comps c i n hk hi hrc hm hc =>
      obtain ⟨hdot, _, hlt⟩ := hr k comps c r' hk (List.mem_of_getElem? hi) hrc
      have hk' : k' = r' := by
        cases hm with
        | named _ => rfl
        | pattern => exact absurd (by simp) hdot
      subst hk'
      rcases h2 with h2 | h2 | ⟨k1, i1, k2, i2, h3, h4, h2⟩
      · cases h2; omega
      · cases h2
      · cases h3; cases h4
        rcases h2 with h2 | ⟨rfl, h2⟩ <;> omega
  · intro k comps i c hk hi _ Q hnd hQ
    have hp := h.parts k comps i c hk hi
    have hmem := List.mem_of_getElem? hi
    -- the sources, listed
    have hex : ∀ r, ∃ n, r ∈ c.refs → Chain new b r (n + 1) := by
      intro r
      by_cases hrc : r ∈ c.refs
      · obtain ⟨n, hn⟩ := hchain r (hr k comps c r hk hmem hrc).2.1
        exact ⟨n, fun _ => hn⟩
      · exact ⟨0, fun h => absurd h hrc⟩
    obtain ⟨last, hlast⟩ := Classical.axiomOfChoice hex
    have hperm : Q.Perm ((if i = 0 then [] else [Place.at k (i - 1)]) ++ c.refs.dedup.map (fun r => .at r (last r))) := by
      refine (List.perm_ext_iff_of_nodup hnd ?_).mpr ?_
      · refine List.nodup_append.mpr ⟨?_, ?_, ?_⟩
        · split <;> simp
        · refine List.Nodup.map ?_ (List.nodup_dedup _)
          intro x y hxy
          cases hxy
          rfl
        · intro x hx y hy hxy
          subst hxy
          split at hx
          · cases hx
          · obtain ⟨r, hr1, hr2⟩ := List.mem_map.mp hy
            rw [List.mem_singleton.mp hx] at hr2
            obtain ⟨rfl, _⟩ := Place.at.inj hr2
            have := (hr _ comps c _ hk hmem (List.mem_dedup.mp hr1)).2.2
            omega
      · intro q
        rw [hQ, flow_into hw hk hi]
        simp only [List.mem_append, List.mem_map, List.mem_dedup]
        constructor
        · rintro (⟨j, rfl, rfl⟩ | ⟨r, k', n, h1, h2, h3, rfl⟩)
          · left; simp
          · right
            obtain ⟨hdot, _, _⟩ := hr k comps c r hk hmem h1
            have hk' : k' = r := by
              cases h2 with
              | named _ => rfl
              | pattern => exact absurd (by simp) hdot
            subst hk'
            refine ⟨k', h1, ?_⟩
            have := chain_unique hw hin h3 (hlast k' h1)
            congr 1
            omega
        · rintro (hq | ⟨r, h1, rfl⟩)
          · left
            split at hq
            · cases hq
            · exact ⟨i - 1, by omega, List.mem_singleton.mp hq⟩
          · exact .inr ⟨r, r, _, h1, .named (hr k comps c r hk hmem h1).1, hlast r h1, rfl⟩
    rw [hperm.length_eq, List.length_append, List.length_map]
    have : (if i = 0 then ([] : List Place) else [Place.at k (i - 1)]).length = if i = 0 then 0 else 1 := by split <;> rfl
    rw [this]
    exact hp
  · intro k comps c hk hc _ r hrc
    exact (hr k comps c r hk hc hrc).1
  · intro Q hnd hQ
    refine Nat.le_trans ?_ h.output
    have hsub : ∀ q, q ∈ Q → q ∈ (new.filter (fun e => !decide ('~' ∈ e.1))).map (fun e => Place.at e.1 (e.2.length - 1)) := by
      intro q hq
      have := hQ q hq
      cases this with
      | @out k n hc ht =>
        generalize hn : n + 1 = m at hc
        cases hc with
        | @prog _ comps hk =>
          refine List.mem_map.mpr ⟨(k, comps), List.mem_filter.mpr ⟨hk, by simpa using ht⟩, ?_⟩
          congr 1
          simp only; omega
        | input _ => exact absurd (by simp) ht
    have := (List.subperm_of_subset hnd hsub).length_le
    rwa [List.length_map] at this

theorem sampleWise_free {samples : List (Name × Sample)} (hw : ProgWf new)
    (hin : ['~', 'i', 'n', 'p', 'u', 't'] ∉ new.map Prod.fst) (h : SampleWise samples new b) : FreeOfBlocks samples new b :=
  wise_free hw hin h

/-! ### C34 -/

/-- **C34** (partial). A component that treats its inputs sample by sample (`StreamFree`: this includes formulas) produces the same stream when the same
inputs arrive in blocks of `N` and of `M` samples — whatever the numbers of the nodes it hears, and in whatever order the map of
its inputs is iterated. The inputs are given by their signals `sigs` (blocks of `N` samples) and `sigs'` (blocks of `M`), which
are the same streams; `sel` says which of them the component is told about, in order. Missing: the components for which it is
false (see the counterexamples). -/
theorem c34_components_partial (hN : 0 < N) (hM : 0 < M) {env : Env} {c : Comp} {sel chans : List Nat}
    (hst : (∃ code, c = .eval code) → ExtStream P) (hf : StreamFree env.samples c chans.length) (hs : ∀ j, j ∈ sel → j < chans.length) (hw : ∀ c, c ∈ chans → c = 1 ∨ c = 2)
    {nums nums' : List Nat} (hn : nums.Nodup) (hn' : nums'.Nodup) (hl : nums.length = chans.length)
    (hl' : nums'.length = chans.length) {sigs sigs' : List (List (List Buf))} (hsig : List.Forall₂ (Signal32 N) chans sigs)
    (hsig' : List.Forall₂ (Signal32 M) chans sigs')
    (ha : List.Forall₂ (fun s s' => Agree (stream N s) (stream M s')) sigs sigs') {inputs inputs' : List Ins}
    (hfed : FedBy nums sigs inputs) (hfed' : FedBy nums' sigs' inputs') {outs outs' : List (List Buf)}
    (h : play P N env c ((sel.map (fun j => nums.getD j 0)).map .index) inputs = .ok outs)
    (h' : play P M env c ((sel.map (fun j => nums'.getD j 0)).map .index) inputs' = .ok outs') :
    Agree (stream N outs) (stream M outs') :=
  (play_agree hN hM hst hf hs hw hn hn' hl hl' hsig hsig' ha hfed hfed' (fun g hg => by
      obtain ⟨_, _, rfl⟩ := List.mem_map.mp hg; trivial) (fun g hg => by
      obtain ⟨_, _, rfl⟩ := List.mem_map.mp hg; trivial) (fun _ => rfl) (fun _ => rfl) h h').1

/-- **C34** (partial). A program that cannot be heard to be rendered in blocks (`FreeOfBlocks`), with new components, sounds the
same with blocks of `N` and of `M` samples: the output streams are equal as far as both go. -/
theorem c34_programs_partial (hst : HasFormula new → ExtStream P) (hm : Libm32 P.libm) (hN : 0 < N) (hM : 0 < M) (hw : ProgWf new)
    (hin : ['~', 'i', 'n', 'p', 'u', 't'] ∉ new.map Prod.fst)
    (h : Sounds e0 e1 new b exts start sig) (h' : Sounds f0 f1 new b exts' start' sig')
    (hset : (⟨f0.samples, f0.sr, f0.bpm, f0.seed⟩ : Env) = ⟨e0.samples, e0.sr, e0.bpm, e0.seed⟩)
    (hsg : ∀ e, e ∈ new → ∀ c, c ∈ e.2 → c.Sg) (ha : AllNew e0 new) (ha' : AllNew f0 new)
    (hfree : FreeOfBlocks e0.samples new b)
    (hext : Leads Comp.refs new b (.at ['~', 'i', 'n', 'p', 'u', 't'] 0) .dest → SameInput N M exts exts') :
    Agree (stream N (sig .dest)) (stream M (sig' .dest)) := by
  by_cases hne : exts = []
  · subst hne
    have := List.length_eq_zero_iff.mp (h.length .dest (.refl _))
    rw [this]
    intro t x y hx
    cases hx
  · by_cases hne' : exts' = []
    · subst hne'
      have := List.length_eq_zero_iff.mp (h'.length .dest (.refl _))
      rw [this]
      intro t x y _ hy
      cases hy
    · have key := places_agree hst hm hN hM hw hin h h' hne hne' hset hsg ha ha' hfree hext
      exact output_agree hN hM h h' (fun q hq => (key q _ hq (.refl _)).2.1) hfree.output (fun q hq => (key q _ hq (.refl _)).1.1)

/-- **C34** (partial). The same text, sent to two engines with the same settings, one rendering blocks of `N` samples and the
other blocks of `M`, sounds the same: the output streams are equal as far as both go, whatever the iteration orders of the
maps (`τ`, `σ`, and those in `steps`) in either engine. The text must be one that cannot be heard to be rendered in blocks
(`FreeOfBlocks`; `SampleWise` is a condition on the text that suffices); its components are new to both engines. Formulas (`eval`)
are allowed: `hst` holds of them (`scripts_stream`). Missing: the
components and the feedback for which it is false (see the counterexamples), sums of more
than two chains, components kept from an earlier text. -/
theorem c34_texts_partial {fe : Name → Option Fl} {T : P.ext.State → Prop} (hx : ExtShape P N T) (hx' : ExtShape P M T)
    (hm : Libm32 P.libm) (hN : 0 < N) (hM : 0 < M)
    {e0 e1 e2 : Engine (glicol P N (Parse.parse fe))} {f0 f1 f2 : Engine (glicol P M (Parse.parse fe))}
    (hr : CleanReach _ e0) (hr' : CleanReach _ f0) (heN : e0.N = N) (hfM : f0.N = M)
    (hset : (⟨f0.samples, f0.sr, f0.bpm, f0.seed⟩ : Env) = ⟨e0.samples, e0.sr, e0.bpm, e0.seed⟩) (τ σ : TableOrder) (code : Name)
    (new : Ast Comp) (hparse : Parse.parse fe code = .ok (some new)) (hc : CleanProg (glicol P N (Parse.parse fe)) new)
    (hst : HasFormula new → ExtStream P) (ha : AllNew e0 new) (ha' : AllNew f0 new) (hu : e0.updateWithCode τ code = .ok (e1, none))
    (hu' : f0.updateWithCode σ code = .ok (f1, none)) (b : Bool)
    (hb : b = true ↔ ['~', 'i', 'n', 'p', 'u', 't'] ∈ e1.index.map Prod.fst)
    (hb' : b = true ↔ ['~', 'i', 'n', 'p', 'u', 't'] ∈ f1.index.map Prod.fst)
    (hfree : FreeOfBlocks e0.samples new b)
    (steps steps' : List (HashOrder × List Buf)) (outs outs' : List (List Buf))
    (hext : Leads Comp.refs new b (.at ['~', 'i', 'n', 'p', 'u', 't'] 0) .dest →
      SameInput N M (steps.map Prod.snd) (steps'.map Prod.snd))
    (h : Plays e1 steps e2 outs) (h' : Plays f1 steps' f2 outs') :
    Agree (stream N outs) (stream M outs') := by
  obtain ⟨start, sig, rfl, hs⟩ := c49_texts_sound_as_written_partial hx hr heN τ code new hparse hc hu steps outs h b hb
  obtain ⟨start', sig', rfl, hs'⟩ := c49_texts_sound_as_written_partial hx' hr' hfM σ code new hparse
    ⟨hc.distinct, hc.noInput⟩ hu' steps' outs' h' b hb'
  exact c34_programs_partial hst hm hN hM (glicol_parserWf P N fe code new hparse) hc.noInput hs hs' hset (Parse.sg_parse hparse)
    ha ha' hfree hext

end Verif.Props

/-! ### Examples -/

namespace Verif.Props
open Verif.Spec Verif.Parse

-- The drums and synths are covered, however many inputs they have.
example : BlockFree [] (.bd (.num (Fl.lit f32 (3 / 10)))) 1 ∧ BlockFree [] (.sn (.num (Fl.lit f32 (3 / 10)))) 0 ∧
    BlockFree [] (.sawsynth (Fl.lit f32 (1 / 100)) (Fl.lit f32 (1 / 10))) 1 := by
  have t : ∀ q : ℚ, (Fl.lt (.fin (2 ^ 20)) (Fl.lit f32 q)) = false → TimeOk (Fl.lit f32 q) := fun q h => h
  exact ⟨t _ (by decide +kernel), t _ (by decide +kernel), t _ (by decide +kernel), t _ (by decide +kernel)⟩

/-- `mul ~a`, with its two inputs at different nodes, in another order, and in blocks of one and of two samples. -/
example : BlockFree [] (.mul (.ref c!"~a")) 2 ∧ List.Forall₂ (Signal32 1) [1, 1] [[[[.fin 2]], [[.fin 3]]], [[[.fin 5]], [[.fin 7]]]] ∧
    List.Forall₂ (Signal32 2) [1, 1] [[[[.fin 2, .fin 3]]], [[[.fin 5, .fin 7]]]] ∧
    List.Forall₂ (fun s s' => Agree (stream 1 s) (stream 2 s')) [[[[.fin 2]], [[.fin 3]]], [[[.fin 5]], [[.fin 7]]]]
      [[[[.fin 2, .fin 3]]], [[[.fin 5, .fin 7]]]] ∧
    FedBy [4, 9] [[[[.fin 2]], [[.fin 3]]], [[[.fin 5]], [[.fin 7]]]]
      [[(4, [[.fin 2]]), (9, [[.fin 5]])], [(9, [[.fin 7]]), (4, [[.fin 3]])]] ∧
    FedBy [6, 1] [[[[.fin 2, .fin 3]]], [[[.fin 5, .fin 7]]]] [[(1, [[.fin 5, .fin 7]]), (6, [[.fin 2, .fin 3]])]] ∧
    play Demo.plat 1 ⟨[], 44100, .fin 120, 0⟩ (.mul (.ref c!"~a")) (([0, 1].map (fun j => [4, 9].getD j 0)).map .index)
      [[(4, [[.fin 2]]), (9, [[.fin 5]])], [(9, [[.fin 7]]), (4, [[.fin 3]])]] =
      .ok [[[.fin 10], [.fin 10]], [[.fin 21], [.fin 21]]] ∧
    play Demo.plat 2 ⟨[], 44100, .fin 120, 0⟩ (.mul (.ref c!"~a")) (([0, 1].map (fun j => [6, 1].getD j 0)).map .index)
      [[(1, [[.fin 5, .fin 7]]), (6, [[.fin 2, .fin 3]])]] = .ok [[[.fin 10, .fin 21], [.fin 10, .fin 21]]] := by
  have ok : ∀ q : Rat, (q = 2 ∨ q = 3 ∨ q = 5 ∨ q = 7) → (Fl.fin q).Ok f32 := by
    rintro q (rfl | rfl | rfl | rfl)
    · exact (show Fl.lit f32 2 = .fin 2 by decide +kernel) ▸ sg_lit 2
    · exact (show Fl.lit f32 3 = .fin 3 by decide +kernel) ▸ sg_lit 3
    · exact (show Fl.lit f32 5 = .fin 5 by decide +kernel) ▸ sg_lit 5
    · exact (show Fl.lit f32 7 = .fin 7 by decide +kernel) ▸ sg_lit 7
  have same : ∀ a b : List (List Fl), a = b → Agree a b := by
    rintro a _ rfl t x y hx hy
    rw [hx] at hy
    exact Option.some.inj hy
  refine ⟨trivial, ?_, ?_, ?_, ?_, ?_, by kernel_rfl, by kernel_rfl⟩
  · refine .cons ?_ (.cons ?_ .nil) <;> (simp only [Signal32]; simp [ok])
  · refine .cons ?_ (.cons ?_ .nil) <;> (simp only [Signal32]; simp [ok])
  · exact .cons (same _ _ (by decide)) (.cons (same _ _ (by decide)) .nil)
  · rintro (_ | _ | t) inp h
    · cases h; exact ⟨[_, _], .cons rfl (.cons rfl .nil), .refl _⟩
    · cases h; exact ⟨[_, _], .cons rfl (.cons rfl .nil), .swap ..⟩
    · cases h
  · rintro (_ | t) inp h
    · cases h; exact ⟨[_, _], .cons rfl (.cons rfl .nil), .swap ..⟩
    · cases h

/-- A text with a pulse, a delay and a reference, and its program. -/
def streamText : Name := c!"~a: constsig 2\no: imp 22050 >> delayn 1 >> mul ~a"

def streamProg : Ast Comp :=
  [(c!"~a", [.constsig (.fin 2)]), (c!"o", [.imp (.num (.fin 22050)), .delayn (.nat 1), .mul (.ref c!"~a")])]

theorem streamText_parses (fe : Name → Option Fl) : parse fe streamText = .ok (some streamProg) := by kernel_rfl

theorem streamProg_clean (P : Plat) (N : Nat) (fe : Name → Option Fl) : CleanProg (glicol P N (parse fe)) streamProg := by
  refine ⟨?_, show _ ∉ streamProg.map Prod.fst by decide⟩
  have hall : ∀ e ∈ streamProg, Distinct Comp.eq e.2 := by unfold Distinct; decide
  exact fun k c hm => hall (k, c) hm

theorem streamProg_sampleWise (b : Bool) : SampleWise [] streamProg b := by
  refine ⟨⟨fun k => if k = c!"o" then 1 else 0, ?_⟩, ?_, by decide⟩
  · have : ∀ e ∈ streamProg, ∀ c ∈ e.2, ∀ r ∈ c.refs, '.' ∉ r ∧ r ∈ streamProg.map Prod.fst ∧
        (if r = c!"o" then 1 else 0) < (if e.1 = c!"o" then 1 else 0) := by decide
    intro k comps c r hk hc hr
    have := this (k, comps) hk c hc r hr
    exact ⟨this.1, .inl this.2.1, this.2.2⟩
  · intro k comps i c hk hi
    simp only [streamProg, List.mem_cons, Prod.mk.injEq, List.not_mem_nil, or_false] at hk
    have hm := List.mem_of_getElem? hi
    rcases hk with ⟨rfl, rfl⟩ | ⟨rfl, rfl⟩ <;> simp only [List.mem_cons, List.not_mem_nil, or_false] at hm
    · subst hm; exact .inr trivial
    · rcases hm with rfl | rfl | rfl <;> exact .inr trivial

/-- The text in new engines with blocks of one and of two samples: the hypotheses of `c34_texts_partial` are met, and both play
0, 2, 0, 2. -/
theorem streamText_meets (fe : Name → Option Fl) :
    ExtShape Demo.plat 1 (fun _ => True) ∧ ExtShape Demo.plat 2 (fun _ => True) ∧ Libm32 Demo.plat.libm ∧
    CleanReach _ (Engine.new (glicol Demo.plat 1 (parse fe)) 1) ∧ CleanReach _ (Engine.new (glicol Demo.plat 2 (parse fe)) 2) ∧
    parse fe streamText = .ok (some streamProg) ∧ CleanProg (glicol Demo.plat 1 (parse fe)) streamProg ∧
    AllNew (Engine.new (glicol Demo.plat 1 (parse fe)) 1) streamProg ∧
    AllNew (Engine.new (glicol Demo.plat 2 (parse fe)) 2) streamProg ∧ FreeOfBlocks [] streamProg true ∧
    (∃ e1 e2, (Engine.new (glicol Demo.plat 1 (parse fe)) 1).updateWithCode .ident streamText = .ok (e1, none) ∧
      Plays e1 (List.replicate 4 (.ident, [])) e2 [[[.fin 0], [.fin 0]], [[.fin 2], [.fin 2]], [[.fin 0], [.fin 0]],
        [[.fin 2], [.fin 2]]] ∧ ['~', 'i', 'n', 'p', 'u', 't'] ∈ e1.index.map Prod.fst) ∧
    (∃ e1 e2, (Engine.new (glicol Demo.plat 2 (parse fe)) 2).updateWithCode .ident streamText = .ok (e1, none) ∧
      Plays e1 (List.replicate 2 (.rev, [])) e2 [[[.fin 0, .fin 2], [.fin 0, .fin 2]], [[.fin 0, .fin 2], [.fin 0, .fin 2]]] ∧
      ['~', 'i', 'n', 'p', 'u', 't'] ∈ e1.index.map Prod.fst) := by
  have hx : ∀ N, ExtShape Demo.plat N (fun _ => True) := by
    intro N
    refine ⟨fun _ _ _ _ _ => trivial, fun _ _ _ _ _ _ => trivial, ?_⟩
    intro s o ins b s' b' _ _ hb h
    cases h
    exact ⟨trivial, rfl, hb⟩
  have hnew : ∀ N, AllNew (Engine.new (glicol Demo.plat N (parse fe)) N) streamProg :=
    fun N k comps _ => ⟨[], .inr ⟨rfl, fun a ha => by cases ha⟩, fun _ _ _ ho => by cases ho⟩
  refine ⟨hx 1, hx 2, ⟨fun _ => sg_zero, fun _ _ => sg_zero⟩, .new 1, .new 2, streamText_parses fe,
    streamProg_clean .., hnew 1, hnew 2,
    sampleWise_free (glicol_parserWf Demo.plat 1 fe streamText _ (streamText_parses fe)) (by decide) (streamProg_sampleWise true), ?_, ?_⟩
  · exact Demo.playsText_spec (by kernel_rfl)
  · exact Demo.playsText_spec (by kernel_rfl)

example (fe : Name → Option Fl) : type_of% (streamText_meets fe) := streamText_meets fe

/-- The same program meets the hypotheses of `c34_programs_partial`: it sounds in both engines as written. -/
example (fe : Name → Option Fl) : Libm32 Demo.plat.libm ∧ ProgWf streamProg ∧
    ['~', 'i', 'n', 'p', 'u', 't'] ∉ streamProg.map Prod.fst ∧ (∀ e, e ∈ streamProg → ∀ c, c ∈ e.2 → c.Sg) ∧
    FreeOfBlocks [] streamProg true ∧
    (∃ (e1 : Engine (glicol Demo.plat 1 (parse fe))) (start : Place → List Buf) (sig : Place → List (List Buf)),
      Sounds (Engine.new (glicol Demo.plat 1 (parse fe)) 1) e1 streamProg true [[], [], [], []] start sig) ∧
    ∃ (e1 : Engine (glicol Demo.plat 2 (parse fe))) (start : Place → List Buf) (sig : Place → List (List Buf)),
      Sounds (Engine.new (glicol Demo.plat 2 (parse fe)) 2) e1 streamProg true [[], []] start sig := by
  obtain ⟨x1, x2, hm, r1, r2, hp, hc, _, _, hfree, ⟨e1, e2, u1, p1, i1⟩, f1, f2, u2, p2, i2⟩ := streamText_meets fe
  obtain ⟨start, sig, _, hs⟩ := c49_texts_sound_as_written_partial x1 r1 rfl .ident streamText _ hp hc u1 _ _ p1 true
    (iff_of_true rfl i1)
  obtain ⟨start', sig', _, hs'⟩ := c49_texts_sound_as_written_partial x2 r2 rfl .ident streamText _ hp ⟨hc.distinct, hc.noInput⟩ u2
    _ _ p2 true (iff_of_true rfl i2)
  exact ⟨hm, glicol_parserWf Demo.plat 1 fe streamText _ hp, hc.noInput, Parse.sg_parse hp, hfree, ⟨_, _, _, hs⟩, _, _, _, hs'⟩

/-- A platform with scripted nodes. -/
def formulaPlat : Plat := ⟨Demo.plat.libm, .ident, scripts Spec.Demo.fasteval Spec.Demo.rhai⟩

/-- A text with a formula that adds up what it hears. -/
def formulaText : Name := c!"o: imp 22050 >> eval ` x:=x+in;x ` >> add 1"

def formulaProg : Ast Comp := [(c!"o", [.imp (.num (.fin 22050)), .eval c!"x:=x+in;x", .add (.num (.fin 1))])]

/-- The text with a formula in blocks of one and of two samples: the hypotheses of `c34_texts_partial` are met, and both play
2, 2, 3, 3. -/
theorem formulaText_meets (fe : Name → Option Fl) :
    ExtShape formulaPlat 1 (fun _ => True) ∧ ExtShape formulaPlat 2 (fun _ => True) ∧ Libm32 formulaPlat.libm ∧ ExtStream formulaPlat ∧
    HasFormula formulaProg ∧
    parse fe formulaText = .ok (some formulaProg) ∧ CleanProg (glicol formulaPlat 1 (parse fe)) formulaProg ∧
    AllNew (Engine.new (glicol formulaPlat 1 (parse fe)) 1) formulaProg ∧
    AllNew (Engine.new (glicol formulaPlat 2 (parse fe)) 2) formulaProg ∧ FreeOfBlocks [] formulaProg true ∧
    (∃ e1 e2, (Engine.new (glicol formulaPlat 1 (parse fe)) 1).updateWithCode .ident formulaText = .ok (e1, none) ∧
      Plays e1 (List.replicate 4 (.ident, [])) e2 [[[.fin 2], [.fin 2]], [[.fin 2], [.fin 2]], [[.fin 3], [.fin 3]],
        [[.fin 3], [.fin 3]]] ∧ ['~', 'i', 'n', 'p', 'u', 't'] ∈ e1.index.map Prod.fst) ∧
    (∃ e1 e2, (Engine.new (glicol formulaPlat 2 (parse fe)) 2).updateWithCode .ident formulaText = .ok (e1, none) ∧
      Plays e1 (List.replicate 2 (.rev, [])) e2 [[[.fin 2, .fin 2], [.fin 2, .fin 2]], [[.fin 3, .fin 3], [.fin 3, .fin 3]]] ∧
      ['~', 'i', 'n', 'p', 'u', 't'] ∈ e1.index.map Prod.fst) := by
  have hnew : ∀ N, AllNew (Engine.new (glicol formulaPlat N (parse fe)) N) formulaProg :=
    fun N k comps _ => ⟨[], .inr ⟨rfl, fun a ha => by cases ha⟩, fun _ _ _ ho => by cases ho⟩
  have hp : parse fe formulaText = .ok (some formulaProg) := by kernel_rfl
  refine ⟨Script.scripts_shape, Script.scripts_shape, ⟨fun _ => sg_zero, fun _ _ => sg_zero⟩, scripts_stream,
    ⟨_, _, _, List.mem_cons_self, List.mem_cons_of_mem _ List.mem_cons_self⟩, hp, ⟨?_, show _ ∉ formulaProg.map Prod.fst by decide⟩,
    hnew 1, hnew 2, sampleWise_free (glicol_parserWf formulaPlat 1 fe formulaText _ hp) (by decide) ⟨⟨fun _ => 0, ?_⟩, ?_, by decide⟩,
    Demo.playsText_spec (by kernel_rfl), Demo.playsText_spec (by kernel_rfl)⟩
  · have hall : ∀ e ∈ formulaProg, Distinct Comp.eq e.2 := by unfold Distinct; decide
    exact fun k c hm => hall (k, c) hm
  · intro k comps c r hk hc hr
    have : ∀ e ∈ formulaProg, ∀ c ∈ e.2, c.refs = [] := by decide
    rw [this _ hk c hc] at hr
    cases hr
  · intro k comps i c hk hi
    cases List.mem_singleton.mp hk
    have hm := List.mem_of_getElem? hi
    simp only [List.mem_cons, List.not_mem_nil, or_false] at hm
    rcases hm with rfl | rfl | rfl
    · exact .inr trivial
    · exact .inl ⟨_, rfl⟩
    · exact .inr trivial

example (fe : Name → Option Fl) : type_of% (formulaText_meets fe) := formulaText_meets fe

/-! ### Counterexamples -/

/-- C34, counterexample: the script of a `meta` is evaluated once per block: one that returns the number of evaluations before it. -/
theorem c34_meta_counterexample (env : Env) :
    play formulaPlat 1 env (.metaScript c!"count") [] [[], []] = .ok [[[.fin 0]], [[.fin 1]]] ∧
    play formulaPlat 2 env (.metaScript c!"count") [] [[]] = .ok [[[.fin 0, .fin 0]]] := by
  constructor <;> kernel_rfl

/-- C34, counterexample: feedback. In `~a: constsig 1 >> add ~b; ~b: ~a >> mul 1; o: ~a` what `~b` plays reaches `~a` one
block later: in blocks of one sample the output is 1, 2, in blocks of two it is 1, 1. -/
theorem c34_feedback_counterexample (fe : Name → Option Fl) :
    (∃ e1 e2, (Engine.new (glicol Demo.plat 1 (parse fe)) 1).updateWithCode .ident
        c!"~a: constsig 1 >> add ~b\n~b: ~a >> mul 1\no: ~a" = .ok (e1, none) ∧
      Plays e1 (List.replicate 2 (.ident, [])) e2 [[[.fin 1], [.fin 1]], [[.fin 2], [.fin 2]]]) ∧
    ∃ e1 e2, (Engine.new (glicol Demo.plat 2 (parse fe)) 2).updateWithCode .ident
        c!"~a: constsig 1 >> add ~b\n~b: ~a >> mul 1\no: ~a" = .ok (e1, none) ∧
      Plays e1 [(.ident, [])] e2 [[[.fin 1, .fin 1], [.fin 1, .fin 1]]] := by
  constructor
  · obtain ⟨e1, e2, h1, h2, _⟩ := Demo.playsText_spec (P := Demo.plat) (N := 1) (parse := parse fe)
      (code := c!"~a: constsig 1 >> add ~b\n~b: ~a >> mul 1\no: ~a") (steps := List.replicate 2 (.ident, []))
      (outs := [[[.fin 1], [.fin 1]], [[.fin 2], [.fin 2]]]) (by kernel_rfl)
    exact ⟨e1, e2, h1, h2⟩
  · obtain ⟨e1, e2, h1, h2, _⟩ := Demo.playsText_spec (P := Demo.plat) (N := 2) (parse := parse fe)
      (code := c!"~a: constsig 1 >> add ~b\n~b: ~a >> mul 1\no: ~a") (steps := [(.ident, [])])
      (outs := [[[.fin 1, .fin 1], [.fin 1, .fin 1]]]) (by kernel_rfl)
    exact ⟨e1, e2, h1, h2⟩

/-- Library functions of a platform: the sine is 0, the cosine is 1 at 0 and 0 elsewhere, the random numbers alternate. -/
def waveLibm : Libm := ⟨fun _ => .fin 0, fun x => if x = .fin 0 then .fin 1 else .fin 0, fun _ => .fin 0, fun _ _ => .fin 0,
  fun _ => .fin 0, fun _ k => if k % 2 = 0 then .fin (-1) else .fin 0, false⟩

/-- C34, counterexample: `choose` draws one number per block. -/
theorem c34_choose_counterexample (ho : HashOrder) (ext : Ext) (env : Env) :
    play ⟨waveLibm, ho, ext⟩ 1 env (.choose [.fin 60, .fin 72]) [] [[], []] = .ok [[[.fin 60], [.fin 0]], [[.fin 72], [.fin 0]]] ∧
    play ⟨waveLibm, ho, ext⟩ 2 env (.choose [.fin 60, .fin 72]) [] [[]] = .ok [[[.fin 60, .fin 60], [.fin 0, .fin 0]]] := by
  constructor <;> kernel_rfl

/-- C34, counterexample: a filter with a reference takes its cutoff from the first sample of a block. -/
theorem c34_rhpf_counterexample (ho : HashOrder) (ext : Ext) (env : Env) :
    play ⟨waveLibm, ho, ext⟩ 1 env (.rhpf (.ref c!"~a") (.fin 1)) [.index 1, .index 2]
      [[(1, [[.fin 1]]), (2, [[.fin 0]])], [(1, [[.fin 1]]), (2, [[.fin 100]])]] = .ok [[[.fin 0]], [[.fin (-1)]]] ∧
    play ⟨waveLibm, ho, ext⟩ 2 env (.rhpf (.ref c!"~a") (.fin 1)) [.index 1, .index 2]
      [[(1, [[.fin 1, .fin 1]]), (2, [[.fin 0, .fin 100]])]] = .ok [[[.fin 0, .fin (-2)]]] := by
  constructor <;> kernel_rfl

end Verif.Props
