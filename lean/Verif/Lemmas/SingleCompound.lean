import Verif.Lemmas.SingleMake
import Verif.Lemmas.Shape

/-! Drums, synths and the reverb play f32 numbers (helpers). -/

namespace Verif
open Spec

/-- Everything in a node is an f32 number. -/
def DataSg (d : NodeData Prim Buf) : Prop := d.node.Sg ∧ SgBufs d.buffers

/-- Everything in a patch is an f32 number. -/
def PatchSg (g : Patch) : Prop := All (fun _ => DataSg) g

theorem fresh_sg {N ch : Nat} {n : Prim} (h : n.Sg) : DataSg (fresh N ch n) := ⟨h, SgBufs.replicate _ _⟩

theorem patchSg_new {N : Nat} : PatchSg (Patch.new N) :=
  all_addNode (J := DataSg) (all_addNode (J := DataSg)
    (fun i d h => by simp [Graph.empty, Graph.node?] at h) (fresh_sg trivial)) (fresh_sg trivial)

theorem patchSg_nodes {N : Nat} : ∀ {l : List (Nat × Prim)} {g : Patch}, (∀ x, x ∈ l → x.2.Sg) → PatchSg g →
    PatchSg (Patch.nodes N g l) := by
  intro l
  induction l with
  | nil => intro g _ h; exact h
  | cons a l ih =>
    intro g hl h
    rw [List.forall_mem_cons] at hl
    exact ih hl.2 (all_addNode (J := DataSg) h (fresh_sg hl.1))

theorem patchSg_connect {m : Libm} {g g' : Patch} {a b : Nat} (hg : PatchSg g)
    (h : Patch.connect m g a b = .ok g') : PatchSg g' := by
  unfold Patch.connect at h
  rw [except_bind_ok] at h
  obtain ⟨g1, h1, h2⟩ := h
  obtain ⟨rfl, _, _⟩ := addEdge_ok h1
  refine all_modify (J := DataSg) (g := { g with edges := (a, b) :: g.edges }) ?_ hg h2
  intro d d' hd hf
  rw [except_bind_ok] at hf
  obtain ⟨n, hn, hf⟩ := hf
  cases hf
  exact ⟨sg_wire (g := .index a) trivial hd.1 hn, hd.2⟩

theorem patchSg_chain {m : Libm} {l : List Nat} : ∀ {g g' : Patch}, PatchSg g →
    Patch.chain m g l = .ok g' → PatchSg g' := by
  induction l with
  | nil => intro g g' hg h; cases h; exact hg
  | cons a l ih =>
    intro g g' hg h
    cases l with
    | nil => cases h; exact hg
    | cons b l =>
      simp only [Patch.chain, except_bind_ok] at h
      obtain ⟨g1, h1, h2⟩ := h
      exact ih (patchSg_connect hg h1) h2

theorem patchSg_chains {m : Libm} {l : List (List Nat)} : ∀ {g g' : Patch}, PatchSg g →
    Patch.chains m g l = .ok g' → PatchSg g' := by
  induction l with
  | nil => intro g g' hg h; cases h; exact hg
  | cons a l ih =>
    intro g g' hg h
    simp only [Patch.chains, except_bind_ok] at h
    obtain ⟨g1, h1, h2⟩ := h
    exact ih (patchSg_chain hg h1) h2

theorem plateNodes_sg {m : Libm} {mix : Fl} {l : List (Nat × Prim)} (h : plateNodes m mix = .ok l) : ∀ x, x ∈ l → x.2.Sg := by
  unfold plateNodes at h
  simp only [except_bind_ok] at h
  obtain ⟨a4, ⟨f4, _, e4⟩, a5, ⟨f5, _, e5⟩, a6, ⟨f6, _, e6⟩, a7, ⟨f7, _, e7⟩, a9, ⟨f9, _, e9⟩, a18, ⟨f18, _, e18⟩, a19, ⟨f19, _, e19⟩,
    a20, ⟨f20, _, e20⟩, a25, ⟨f25, _, e25⟩, a30, ⟨f30, _, e30⟩, a31, ⟨f31, _, e31⟩, a32, ⟨f32, _, e32⟩, h⟩ := h
  cases e4; cases e5; cases e6; cases e7; cases e9; cases e18; cases e19; cases e20; cases e25; cases e30; cases e31; cases e32
  cases h
  simp only [List.forall_mem_cons]
  repeat' apply And.intro
  all_goals first
    | trivial
    | exact ring_zero _
    | (intro r hr; rw [List.eq_of_mem_replicate hr]; exact ring_zero _)
    | (intro x hx; cases hx)

theorem makeCompound_sg {N : Nat} {m : Libm} {c : Comp} {k : Compound}
    (h : makeCompound m N c = some (.ok k)) : PatchSg k.graph := by
  have synth : ∀ {w a d}, newSynth m N w a d = .ok k → PatchSg k.graph := by
    intro w a d h
    simp only [newSynth, except_bind_ok] at h
    obtain ⟨g1, h1, g2, h2, g3, h3, h⟩ := h
    cases h
    exact patchSg_chain (all_addNode (J := DataSg) (patchSg_chain (all_addNode
      (J := DataSg) (patchSg_chain (patchSg_nodes (by simp only [List.forall_mem_cons]; exact ⟨trivial, trivial, trivial, fun x hx => by cases hx⟩)
        patchSg_new) h1) (by exact fresh_sg trivial)) h2) (by exact fresh_sg trivial)) h3
  cases c with
  | bd p =>
    simp only [makeCompound, Option.some.injEq, newBd, except_bind_ok] at h
    obtain ⟨g1, h1, h⟩ := h
    cases h
    exact patchSg_chains (patchSg_nodes (by
      simp only [List.forall_mem_cons]
      exact ⟨trivial, trivial, trivial, trivial, trivial, trivial, trivial, fun x hx => by cases hx⟩) patchSg_new) h1
  | hh p =>
    simp only [makeCompound, Option.some.injEq, newHh, except_bind_ok] at h
    obtain ⟨g1, h1, g2, h2, h⟩ := h
    cases h
    exact patchSg_chain (all_addNode (J := DataSg)
      (patchSg_chain (patchSg_nodes (by
        simp only [List.forall_mem_cons]
        exact ⟨trivial, trivial, trivial, trivial, fun x hx => by cases hx⟩) patchSg_new) h1) (by exact fresh_sg trivial)) h2
  | sn p =>
    simp only [makeCompound, Option.some.injEq, newSn, except_bind_ok] at h
    obtain ⟨g1, h1, h⟩ := h
    cases h
    exact patchSg_chains (patchSg_nodes (by
      simp only [List.forall_mem_cons]
      exact ⟨trivial, trivial, trivial, trivial, trivial, trivial, trivial, trivial, trivial, trivial, trivial, fun x hx => by cases hx⟩)
      patchSg_new) h1
  | sawsynth a d => exact synth (Option.some.inj h)
  | squsynth a d => exact synth (Option.some.inj h)
  | trisynth a d => exact synth (Option.some.inj h)
  | plate mix =>
    have h := Option.some.inj h
    unfold newPlate at h
    rw [except_bind_ok] at h
    obtain ⟨l, hl, h⟩ := h
    rw [except_bind_ok] at h
    obtain ⟨g, h1, h⟩ := h
    cases h
    exact patchSg_chains (patchSg_nodes (plateNodes_sg hl) patchSg_new) h1
  | _ => cases h

theorem procCompound_sg {m : Libm} (hm : Libm32 m) {ho : HashOrder} {c c' : Compound} {ins : Ins}
    {out o : List Buf} (hc : PatchSg c.graph) (hi : SgIns ins) (hout : SgBufs out)
    (h : procCompound m ho c ins out = .ok (c', o)) : PatchSg c'.graph ∧ SgBufs o := by
  have feed : c.feed m ho ins out = .ok (c', o) → PatchSg c'.graph ∧ SgBufs o := by
    intro h
    unfold Compound.feed at h
    simp only [except_bind_ok] at h
    obtain ⟨main, k1, x, k2, g, k3, ⟨g2, y⟩, k4, l, k5, r, k6, o', k7, h⟩ := h
    cases h
    have hx := sg_chan (sg_inputAt hi k1) k2
    have hg : PatchSg g := by
      refine all_modify (J := DataSg) ?_ hc k3
      intro d d' hd hf
      split at hf
      · cases hf
      · rename_i b rest hb
        cases hf
        refine ⟨hd.1, ?_⟩
        have hd2 := hd.2
        rw [hb] at hd2
        exact SgBufs.cons.mpr ⟨hx, (SgBufs.cons.mp hd2).2⟩
    unfold Patch.nextBlock at k4
    rw [except_bind_ok] at k4
    obtain ⟨g3, k8, k4⟩ := k4
    have hg3 : PatchSg g3 := (process_inv (J := fun _ => DataSg) (R := fun _ _ => True)
      (fun _ => trivial) (fun _ _ _ _ _ => trivial) (by
        intro i d ins n' b' h1 h2 h3
        refine ⟨sg_procPrim hm h1.1 ?_ h1.2 h3, trivial⟩
        intro e he
        obtain ⟨dk, h4, h5⟩ := h2.2 e.1 e.2 he
        rw [← h5]
        exact h4.2) hg k8).1
    split at k4
    · cases k4
    · rename_i d hd
      cases k4
      have := (hg3 _ _ hd).2
      refine ⟨hg3, ?_⟩
      unfold setStereo at k7
      split at k7
      · cases k7
        have h2 := (SgBufs.cons.mp (SgBufs.cons.mp hout).2).2
        exact SgBufs.cons.mpr ⟨sg_chan this k5, SgBufs.cons.mpr ⟨sg_chan this k6, h2⟩⟩
      · cases k7
  unfold procCompound at h
  split at h
  · exact feed h
  · exact feed h
  · cases h
    exact ⟨hc, hout⟩

theorem sg_sendCompound {P : Plat} {n' : GNode P} : ∀ {ms : List (Msg Fl)} {c : Compound}, PatchSg c.graph → (∀ g, g ∈ ms → IsWiring g) →
    sendMsgs (.compound c : GNode P) ms = .ok n' → ∃ k, n' = .compound k ∧ PatchSg k.graph
  | [], c, hc, _, h => by cases h; exact ⟨_, rfl, hc⟩
  | g :: ms, c, hc, hg, h => by
    rw [List.forall_mem_cons] at hg
    unfold sendMsgs at h
    split at h
    · cases h
    · rename_i n1 h1
      simp only [msgG, compoundMsg_wiring hg.1] at h1
      cases hr : orderMsg (c.kind == .plate) c.order g with
      | error e => rw [hr] at h1; cases h1
      | ok o =>
        rw [hr] at h1
        cases h1
        exact sg_sendCompound (c := { c with order := o }) hc hg.2 h

theorem sg_runCompound {P : Plat} (hm : Libm32 P.libm) : ∀ {ins : List Ins} {c : Compound} {out : List Buf} {outs : List (List Buf)},
    PatchSg c.graph → SgBufs out → (∀ i, i ∈ ins → SgIns i) → runBlocks (procG P) (.compound c) out ins = .ok outs →
    ∀ o, o ∈ outs → SgBufs o
  | [], n, out, outs, _, _, _, h => by cases h; intro o ho; cases ho
  | i :: ins, n, out, outs, hn, ho, hi, h => by
    rw [List.forall_mem_cons] at hi
    unfold runBlocks at h
    split at h
    · cases h
    · rename_i n' out' h1
      obtain ⟨k, rfl, h2⟩ := reState_out (f := GNode.compound) h1
      obtain ⟨k1, k2⟩ := procCompound_sg hm hn hi.1 ho h2
      split at h
      · cases h
      · rename_i r hr
        cases h
        exact List.forall_mem_cons.mpr ⟨k2, sg_runCompound hm k1 k2 hi.2 hr⟩

theorem sg_sendScript {P : Plat} {T : P.ext.State → Prop} (hT : ∀ s p t s', T s → P.ext.set s p t = .ok s' → T s') :
    ∀ {msgs : List (Msg Fl)} {o : List Nat} {s : P.ext.State} {n : GNode P}, T s →
    sendMsgs (.script o s) msgs = .ok n → ∃ o' s', n = .script o' s' ∧ T s'
  | [], _, _, _, hs, h => by cases h; exact ⟨_, _, rfl, hs⟩
  | g :: msgs, o, s, n, hs, h => by
    unfold sendMsgs at h
    split at h
    · cases h
    · rename_i n1 h1
      have hscr : ∃ o' s', n1 = .script o' s' ∧ T s' := by
        unfold msgG at h1
        dsimp only at h1
        split at h1
        · rename_i p t
          cases h2 : P.ext.set s p t with
          | error e => rw [h2] at h1; cases h1
          | ok s' => rw [h2] at h1; cases h1; exact ⟨_, _, rfl, hT _ _ _ _ hs h2⟩
        · cases h2 : orderMsg true o g with
          | error e => rw [h2] at h1; cases h1
          | ok o' => rw [h2] at h1; cases h1; exact ⟨_, _, rfl, hs⟩
      obtain ⟨o', s', rfl, hs'⟩ := hscr
      exact sg_sendScript hT hs' h

theorem sg_runScript {P : Plat} {T : P.ext.State → Prop}
    (hT : ∀ s o ins out s' out', T s → (∀ e, e ∈ ins → ∀ b, b ∈ e.2 → ∀ x, x ∈ b → x.Ok f32) → (∀ b, b ∈ out → ∀ x, x ∈ b → x.Ok f32) →
      P.ext.proc s o ins out = .ok (s', out') → T s' ∧ ∀ b, b ∈ out' → ∀ x, x ∈ b → x.Ok f32) :
    ∀ {ins : List Ins} {o : List Nat} {s : P.ext.State} {out : List Buf} {outs : List (List Buf)}, T s → SgBufs out →
      (∀ i, i ∈ ins → SgIns i) → runBlocks (procG P) (.script o s) out ins = .ok outs → ∀ o, o ∈ outs → SgBufs o
  | [], _, _, _, _, _, _, _, h => by cases h; intro o ho; cases ho
  | i :: ins, o, s, out, outs, hs, hb, hi, h => by
    unfold runBlocks at h
    split at h
    · cases h
    · rename_i n' out' h1
      unfold procG reState at h1
      dsimp only at h1
      split at h1
      · cases h1
      · rename_i s' o' h2
        cases h1
        obtain ⟨hs', hb'⟩ := hT _ _ _ _ _ _ hs (hi i List.mem_cons_self) hb h2
        have hb' : SgBufs out' := hb'
        split at h
        · cases h
        · rename_i r hr
          cases h
          exact List.forall_mem_cons.mpr ⟨hb', sg_runScript hT hs' hb' (fun x hx => hi x (List.mem_cons_of_mem _ hx)) hr⟩

/-- A component plays f32 numbers. -/
theorem sg_play_any {P : Plat} (hf : ExtFirst P) (hm : Libm32 P.libm) {N : Nat} {env : Env} {c : Comp} {msgs : List (Msg Fl)} {ins : List Ins}
    {outs : List (List Buf)} (hc : c.Sg)
    (hg : ∀ g, g ∈ msgs → IsWiring g) (hi : ∀ i, i ∈ ins → SgIns i) (h : play P N env c msgs ins = .ok outs) :
    ∀ o, o ∈ outs → SgBufs o := by
  cases hp : makePrim P.libm env.samples env.sr env.bpm env.seed c with
  | some r => exact sg_play hm hc ⟨r, hp⟩ hg hi h
  | none =>
    have h0 := h
    unfold play makeNode at h
    rw [hp] at h
    cases hk : makeCompound P.libm N c with
    | none =>
      rw [hk] at h
      have hscript : ∀ {isMeta : Bool} {code : Name}, (match liftP (P.ext.new isMeta code env.sr) with
            | .error e => (.error e : Except Stop (NodeData (GNode P) Buf × List Name))
            | .ok s => .ok (fresh N 1 (.script [] s), [])) = makeNode P N env.samples env.sr env.bpm env.seed c →
          ∀ o, o ∈ outs → SgBufs o := by
        intro isMeta code he
        obtain ⟨T, hT1, hT2, hT3⟩ := hf.single
        cases hs : P.ext.new isMeta code env.sr with
        | error e =>
          rw [hs] at he
          unfold play at h0
          rw [← he] at h0
          cases h0
        | ok s =>
          rw [hs] at he
          unfold play at h0
          rw [← he] at h0
          simp only [liftP] at h0
          split at h0
          · cases h0
          · rename_i n1 h1
            obtain ⟨o', s', rfl, hs'⟩ := sg_sendScript hT2 (hT1 _ _ _ _ hs) h1
            split at h0
            · cases h0
            · rename_i r h2
              cases h0
              exact sg_runScript hT3 hs' (SgBufs.replicate _ _) hi h2
      cases c <;> first | (cases h; done) | (cases hp; done) | skip
      case eval code => exact hscript (isMeta := false) (code := code) (by
        show _ = (liftP (P.ext.new false code env.sr) >>= fun s => _)
        cases liftP (P.ext.new false code env.sr) <;> rfl)
      case metaScript code => exact hscript (isMeta := true) (code := code) (by
        show _ = (liftP (P.ext.new true code env.sr) >>= fun s => _)
        cases liftP (P.ext.new true code env.sr) <;> rfl)
    | some r =>
      rw [hk] at h
      cases r with
      | error e => cases h
      | ok k =>
        simp only [liftP, bind, Except.bind] at h
        split at h
        · cases h
        · rename_i n' h1
          obtain ⟨k', rfl, hk'⟩ := sg_sendCompound (makeCompound_sg hk) hg h1
          split at h
          · cases h
          · rename_i r' h2
            cases h
            exact sg_runCompound hm hk' (SgBufs.replicate _ _) hi h2

end Verif
