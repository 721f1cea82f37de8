import Verif.Lemmas.SafeNodes

/-! Processing a block does not change the list of inputs of a node (helpers for C37). -/

namespace Verif
open Spec Props

theorem runM_holds {σ ι ο : Type} {I : σ → Prop} {f : σ → ι → Except Panic (σ × ο)}
    (h : ∀ s x r, I s → f s x = .ok r → I r.1) {s : σ} (hs : I s) {xs : List ι} {r : σ × List ο}
    (hr : runM f s xs = .ok r) : I r.1 := by
  induction xs generalizing s r with
  | nil => cases hr; exact hs
  | cons x xs ih =>
    simp only [runM] at hr
    split at hr
    · cases hr
    · rename_i q hq
      split at hr
      · cases hr
      · rename_i w hw
        cases hr
        have := ih (h s x q hs hq) hw
        exact this

theorem run_holds {σ ι ο : Type} {I : σ → Prop} {f : σ → ι → σ × ο}
    (h : ∀ s x, I s → I (f s x).1) {s : σ} (hs : I s) (xs : List ι) : I (run f s xs).1 := by
  induction xs generalizing s with
  | nil => exact hs
  | cons x xs ih => exact ih (h s x hs)

/-- What stays the same about a node. -/
def Prim.like (a b : Prim) : Prop :=
  a.keepsOrder = b.keepsOrder ∧ a.order = b.order ∧ a.fits = b.fits ∧ a.twoSided = b.twoSided ∧
    a.takes = b.takes

theorem Prim.like.refl (a : Prim) : a.like a := ⟨rfl, rfl, rfl, rfl, rfl⟩

/-- Opens a block function that returned normally. -/
macro "open_block" h:ident : tactic =>
  `(tactic| ((try simp only [bind, Except.bind] at $h:ident)
             repeat' split at $h:ident
             all_goals first
               | (cases $h:ident; done)
               | (cases $h:ident; exact rfl)
               | (cases $h:ident; exact ⟨rfl, rfl⟩)))

section
variable {m : Libm} {ins : Ins} {out o : List Buf}

theorem constSig_order {s s' : ConstSig} (h : procConstSig s out = .ok (s', o)) : s'.order = s.order := by
  unfold procConstSig at h; open_block h
theorem imp_order {s s' : Impulse} (h : procImp s out = .ok (s', o)) : s'.order = s.order := by
  unfold procImp at h; open_block h
theorem delayn_order {s s' : DelayN} (h : procDelayN s ins out = .ok (s', o)) : s'.order = s.order := by
  unfold procDelayN at h; open_block h
theorem delayms_order {s s' : DelayMs} (h : procDelayMs s ins out = .ok (s', o)) : s'.order = s.order := by
  unfold procDelayMs at h; open_block h
theorem osc_order {w : Wave} {s s' : Osc} (h : procOsc w s ins out = .ok (s', o)) : s'.order = s.order := by
  unfold procOsc at h; open_block h
theorem sin_order {s s' : Osc} (h : procSin m s ins out = .ok (s', o)) : s'.order = s.order := by
  unfold procSin at h; open_block h
theorem envperc_order {s s' : EnvPerc} (h : procEnvPerc s ins out = .ok (s', o)) : s'.order = s.order := by
  unfold procEnvPerc at h; open_block h
theorem adsr_order {s s' : Adsr} (h : procAdsr s ins out = .ok (s', o)) : s'.order = s.order := by
  unfold procAdsr at h; open_block h
theorem onepole_order {s s' : OnePole} (h : procOnePole m s ins out = .ok (s', o)) : s'.order = s.order := by
  unfold procOnePole at h; open_block h
theorem rhpf_order {s s' : Rhpf} (h : procRhpf m s ins out = .ok (s', o)) : s'.order = s.order := by
  unfold procRhpf at h; open_block h
theorem rlpf_order {s s' : Rlpf} (h : procRlpf m s ins out = .ok (s', o)) : s'.order = s.order := by
  unfold procRlpf at h; open_block h
theorem apf_order {s s' : Apf} (h : procApf s ins out = .ok (s', o)) : s'.order = s.order := by
  unfold procApf at h; open_block h
theorem seq_order {s s' : Sequencer} (h : procSeq m s ins out = .ok (s', o)) : s'.order = s.order := by
  unfold procSeq at h; open_block h
theorem arrange_order {s s' : Arrange} (h : procArrange s ins out = .ok (s', o)) :
    s'.order = s.order ∧ s'.events = s.events := by
  unfold procArrange at h; open_block h
theorem choose_order {s s' : Choose} (h : procChoose m s out = .ok (s', o)) : s'.order = s.order := by
  unfold procChoose at h; open_block h
theorem points_order {s s' : Points} (h : procPoints m s out = .ok (s', o)) : s'.order = s.order := by
  unfold procPoints at h; open_block h

theorem sampler_order {s s' : Sampler} (h : procSampler s ins out = .ok (s', o)) : s'.order = s.order := by
  unfold procSampler at h
  simp only [bind, Except.bind] at h
  split at h
  · split at h
    · split at h
      · cases h
      · split at h
        · cases h
        · rename_i r hr
          cases h
          refine runM_holds (I := fun x : Sampler => x.order = s.order) ?_ rfl hr
          intro a x r ha hx
          simp only [samplerStep, bind, Except.bind] at hx
          split at hx
          · cases hx
          · cases hx; exact ha
    · cases h; rfl
  · cases h

theorem psRun_order {n : Nat} {p : PSampler} {r : PSampler × List (Fl × Fl)} (h : psRun n p = .ok r) :
    r.1.order = p.order := by
  induction n generalizing p r with
  | zero => cases h; rfl
  | succ n ih =>
    simp only [psRun, bind, Except.bind] at h
    split at h
    · cases h
    · split at h
      · cases h
      · split at h
        · cases h; rfl
        · split at h
          · cases h
          · rename_i q hq
            cases h
            exact (ih hq : _ = _)

theorem psampler_order {s s' : PSampler} (h : procPSampler s out = .ok (s', o)) : s'.order = s.order := by
  unfold procPSampler at h
  simp only [bind, Except.bind] at h
  split at h
  · split at h
    · cases h
    · rename_i r hr
      cases h
      exact psRun_order hr
  · cases h

theorem msgSynth_order {s s' : MsgSynth} (h : procMsgSynth m s out = .ok (s', o)) : s'.order = s.order := by
  unfold procMsgSynth at h
  split at h
  · cases h
  · cases h
    exact run_holds (I := fun x : MsgSynth => x.order = s.order) (fun _ _ hx => hx) rfl _

theorem patSynth_order {s s' : PatternSynth} (h : procPatSynth m s ins out = .ok (s', o)) : s'.order = s.order := by
  unfold procPatSynth at h
  simp only [bind, Except.bind] at h
  split at h
  · split at h
    · cases h
    · split at h
      · cases h
      · rename_i r hr
        cases h
        refine runM_holds (I := fun x : PatternSynth => x.order = s.order) ?_ rfl hr
        intro a x r ha hx
        simp only [patSynthStep, bind, Except.bind] at hx
        split at hx
        · cases hx
        · cases hx; exact ha
  · cases h; rfl

theorem sameNode_node {n n' : Prim} {r : Except Panic (List Buf)} (h : sameNode n r = .ok (n', o)) : n' = n := by
  cases r with
  | error e => cases h
  | ok b => cases h; rfl

theorem reState_node {σ : Type} {f : σ → Prim} {n' : Prim} {r : Except Panic (σ × List Buf)}
    (h : reState f r = .ok (n', o)) : ∃ s', r = .ok (s', o) ∧ n' = f s' := by
  cases r with
  | error e => cases h
  | ok b => cases h; exact ⟨_, rfl, rfl⟩

/-- Processing a block changes neither the kind of a node nor its list of inputs. -/
theorem procPrim_like {n n' : Prim} (h : procPrim m n ins out = .ok (n', o)) : n'.like n := by
  cases n with
  | pass => cases h; exact .refl _
  | sum => cases h; exact .refl _
  | noise s => cases h; exact ⟨rfl, rfl, rfl, rfl, rfl⟩
  | sum2 => cases sameNode_node h; exact .refl _
  | mul a => cases sameNode_node h; exact .refl _
  | add a => cases sameNode_node h; exact .refl _
  | speed a => cases sameNode_node h; exact .refl _
  | pan a => cases sameNode_node h; exact .refl _
  | balance o => cases sameNode_node h; exact .refl _
  | constSig c => obtain ⟨s, hs, rfl⟩ := reState_node h; exact ⟨rfl, constSig_order hs, rfl, rfl, rfl⟩
  | imp i => obtain ⟨s, hs, rfl⟩ := reState_node h; exact ⟨rfl, imp_order hs, rfl, rfl, rfl⟩
  | delayn d => obtain ⟨s, hs, rfl⟩ := reState_node h; exact ⟨rfl, delayn_order hs, rfl, rfl, rfl⟩
  | delayms d => obtain ⟨s, hs, rfl⟩ := reState_node h; exact ⟨rfl, delayms_order hs, rfl, rfl, rfl⟩
  | osc w o => obtain ⟨s, hs, rfl⟩ := reState_node h; exact ⟨rfl, osc_order hs, rfl, rfl, rfl⟩
  | sin o => obtain ⟨s, hs, rfl⟩ := reState_node h; exact ⟨rfl, sin_order hs, rfl, rfl, rfl⟩
  | envperc e => obtain ⟨s, hs, rfl⟩ := reState_node h; exact ⟨rfl, envperc_order hs, rfl, rfl, rfl⟩
  | adsr e => obtain ⟨s, hs, rfl⟩ := reState_node h; exact ⟨rfl, adsr_order hs, rfl, rfl, rfl⟩
  | onepole f => obtain ⟨s, hs, rfl⟩ := reState_node h; exact ⟨rfl, onepole_order hs, rfl, rfl, rfl⟩
  | rhpf f => obtain ⟨s, hs, rfl⟩ := reState_node h; exact ⟨rfl, rhpf_order hs, rfl, rfl, rfl⟩
  | rlpf f => obtain ⟨s, hs, rfl⟩ := reState_node h; exact ⟨rfl, rlpf_order hs, rfl, rfl, rfl⟩
  | apf f => obtain ⟨s, hs, rfl⟩ := reState_node h; exact ⟨rfl, apf_order hs, rfl, rfl, rfl⟩
  | seq s => obtain ⟨s, hs, rfl⟩ := reState_node h; exact ⟨rfl, seq_order hs, rfl, rfl, rfl⟩
  | arrange a =>
    obtain ⟨s, hs, rfl⟩ := reState_node h
    obtain ⟨h1, h2⟩ := arrange_order hs
    exact ⟨rfl, h1, by funext k; simp only [Prim.fits, h2], rfl, rfl⟩
  | choose c => obtain ⟨s, hs, rfl⟩ := reState_node h; exact ⟨rfl, choose_order hs, rfl, rfl, rfl⟩
  | points p => obtain ⟨s, hs, rfl⟩ := reState_node h; exact ⟨rfl, points_order hs, rfl, rfl, rfl⟩
  | sampler s => obtain ⟨s, hs, rfl⟩ := reState_node h; exact ⟨rfl, sampler_order hs, rfl, rfl, rfl⟩
  | psampler p => obtain ⟨s, hs, rfl⟩ := reState_node h; exact ⟨rfl, psampler_order hs, rfl, rfl, rfl⟩
  | msgSynth s => obtain ⟨s, hs, rfl⟩ := reState_node h; exact ⟨rfl, msgSynth_order hs, rfl, rfl, rfl⟩
  | patSynth s => obtain ⟨s, hs, rfl⟩ := reState_node h; exact ⟨rfl, patSynth_order hs, rfl, rfl, rfl⟩

end

/-! ### Messages -/

/-- A message about the wiring changes nothing but the list of inputs; safety does not depend on it. -/
theorem msgPrim_safe {m : Libm} {n n' : Prim} {g : Msg Fl} (hg : IsWiring g) (h : msgPrim m n g = .ok n') :
    (n.Safe m → n'.Safe m) ∧ n'.fits = n.fits ∧ n'.twoSided = n.twoSided ∧
      n'.takes = n.takes := by
  have key : ∀ {α : Type} {f : List Nat → α} {b : Bool} {o : List Nat} {c : α → Prim},
      c <$> (do let o ← orderMsg b o g; .ok (f o)) = Except.ok n' → ∃ o', n' = c (f o') := by
    intro α f b o c h
    generalize orderMsg b o g = x at h
    cases x with
    | error e => cases h
    | ok o' => cases h; exact ⟨o', rfl⟩
  have key' : ∀ {b : Bool} {o : List Nat} {c : List Nat → Prim},
      c <$> orderMsg b o g = Except.ok n' → ∃ o', n' = c o' := by
    intro b o c h
    generalize orderMsg b o g = x at h
    cases x with
    | error e => cases h
    | ok o' => cases h; exact ⟨o', rfl⟩
  cases g with
  | setToNumber p v => exact absurd hg (by simp [IsWiring])
  | setToSymbol p v => exact absurd hg (by simp [IsWiring])
  | setBPM v => exact absurd hg (by simp [IsWiring])
  | index i =>
    cases n <;> first
      | (cases h; exact ⟨id, rfl, rfl, rfl⟩)
      | (obtain ⟨o', rfl⟩ := key h; exact ⟨id, rfl, rfl, rfl⟩)
      | (obtain ⟨o', rfl⟩ := key' h; exact ⟨id, rfl, rfl, rfl⟩)
  | indexOrder p i =>
    cases n <;> first
      | (cases h; exact ⟨id, rfl, rfl, rfl⟩)
      | (obtain ⟨o', rfl⟩ := key h; exact ⟨id, rfl, rfl, rfl⟩)
      | (obtain ⟨o', rfl⟩ := key' h; exact ⟨id, rfl, rfl, rfl⟩)
  | resetOrder =>
    cases n <;> first
      | (cases h; exact ⟨id, rfl, rfl, rfl⟩)
      | (obtain ⟨o', rfl⟩ := key h; exact ⟨id, rfl, rfl, rfl⟩)
      | (obtain ⟨o', rfl⟩ := key' h; exact ⟨id, rfl, rfl, rfl⟩)

/-- A change of tempo changes nothing but the tempo. -/
theorem msgPrim_bpm {m : Libm} {n n' : Prim} {v : Fl} (h : msgPrim m n (.setBPM v) = .ok n') :
    n'.like n ∧ (TempoOk v → n.Safe m → n'.Safe m) := by
  cases n <;> first
    | (cases h; exact ⟨.refl _, fun _ => id⟩)
    | (cases h; exact ⟨⟨rfl, rfl, rfl, rfl, rfl⟩, fun _ => id⟩)
    | skip
  · cases h
    exact ⟨⟨rfl, rfl, rfl, rfl, rfl⟩, fun hv hs => ⟨hs.1, hv, hs.2.2⟩⟩
  · cases h
    refine ⟨⟨rfl, rfl, rfl, rfl, rfl⟩, fun hv hs => ?_⟩
    simp only [Prim.Safe] at hs ⊢
    split
    · rename_i hl
      rw [if_pos hl] at hs
      exact ⟨hs.1, hv, hs.2.2⟩
    · rename_i hl
      rw [if_neg hl] at hs
      exact hs

theorem ring_new_wf {n : Nat} (h : n ≠ 0) : Ring.Wf ⟨List.replicate n (.fin 0), 0⟩ := by
  unfold Ring.Wf
  simp only [List.length_replicate]
  omega

theorem ring_from_wf {l : List Fl} {b : Ring} (h : Ring.from' l = .ok b) : b.Wf := by
  unfold Ring.from' at h
  split at h
  · cases h
  · rename_i hl
    cases h
    exact List.length_pos_iff.mpr hl

theorem setFirst_wf {r b : Ring} {k : Nat} (hb : r.setFirst k = .ok b) : b.Wf := by
  unfold Ring.setFirst at hb
  split at hb
  · cases hb
  · cases hb
    exact Nat.mod_lt _ (by omega)

theorem msgEvent_order {s s' : MsgSynth} {t : Name} (h : msgEvent s t = .ok s') : s'.order = s.order := by
  unfold msgEvent at h
  split at h
  · simp only [except_bind_ok] at h
    obtain ⟨_, _, _, _, h⟩ := h
    cases h
    rfl
  · cases h; rfl

/-- A number or a text that a node can take changes none of this. -/
theorem msgPrim_user {m : Libm} {n n' : Prim} {g : Msg Fl} (hg : IsUser g) (ht : n.takes g)
    (h : msgPrim m n g = .ok n') : n'.like n ∧ (n.Safe m → n'.Safe m) := by
  have key : ∀ {α : Type} {f : List Nat → α} {b : Bool} {o : List Nat} {c : α → Prim},
      c <$> (do let o ← orderMsg b o g; .ok (f o)) = Except.ok n' → n' = c (f o) := by
    intro α f b o c h
    cases g with
    | setToNumber p v => cases h; rfl
    | setToSymbol p v => cases h; rfl
    | _ => exact hg.elim
  have key' : ∀ {b : Bool} {o : List Nat} {c : List Nat → Prim},
      c <$> orderMsg b o g = Except.ok n' → n' = c o := by
    intro b o c h
    cases g with
    | setToNumber p v => cases h; rfl
    | setToSymbol p v => cases h; rfl
    | _ => exact hg.elim
  cases n with
  | pass => cases h; exact ⟨.refl _, id⟩
  | sum => cases h; exact ⟨.refl _, id⟩
  | sum2 => cases h; exact ⟨.refl _, id⟩
  | balance o => cases key' h; exact ⟨.refl _, id⟩
  | seq s =>
    simp only [msgPrim, Sequencer.msg] at h
    split at h
    · exact hg.elim
    · cases key h; exact ⟨.refl _, id⟩
  | choose c => cases key h; exact ⟨.refl _, id⟩
  | sampler s => cases key h; exact ⟨.refl _, id⟩
  | psampler p => cases key h; exact ⟨.refl _, id⟩
  | mul a =>
    simp only [msgPrim, Arith.msg] at h
    split at h
    · cases h; exact ⟨⟨rfl, rfl, rfl, rfl, rfl⟩, id⟩
    · cases key h; exact ⟨.refl _, id⟩
  | add a =>
    simp only [msgPrim, Arith.msg] at h
    split at h
    · cases h; exact ⟨⟨rfl, rfl, rfl, rfl, rfl⟩, id⟩
    · cases key h; exact ⟨.refl _, id⟩
  | speed a =>
    simp only [msgPrim, Arith.msg] at h
    split at h
    · cases h; exact ⟨⟨rfl, rfl, rfl, rfl, rfl⟩, id⟩
    · cases key h; exact ⟨.refl _, id⟩
  | pan a =>
    simp only [msgPrim, panMsg] at h
    split at h
    · cases h; exact ⟨⟨rfl, rfl, rfl, rfl, rfl⟩, id⟩
    · cases key h; exact ⟨.refl _, id⟩
  | constSig c =>
    simp only [msgPrim, ConstSig.msg] at h
    split at h
    · cases h; exact ⟨⟨rfl, rfl, rfl, rfl, rfl⟩, id⟩
    · exact hg.elim
    · cases key h; exact ⟨.refl _, id⟩
  | imp i =>
    simp only [msgPrim, Impulse.msg] at h
    split at h
    · cases h
      refine ⟨⟨rfl, rfl, rfl, rfl, rfl⟩, fun hs => ⟨?_, hs.2⟩⟩
      obtain ⟨q, rfl, q0, q1⟩ := ht rfl
      refine period_ne hs.2 q0 (q1.trans ?_)
      exact_mod_cast hs.2.1
    · cases key h; exact ⟨.refl _, id⟩
  | noise s =>
    simp only [msgPrim, Noise.msg] at h
    split at h
    · cases h; exact ⟨⟨rfl, rfl, rfl, rfl, rfl⟩, id⟩
    · cases key h; exact ⟨.refl _, id⟩
  | delayn d =>
    simp only [msgPrim, DelayN.msg] at h
    split at h
    · obtain ⟨a, k, rfl⟩ := map_ok h
      rw [except_bind_ok] at k
      obtain ⟨b, hb, k⟩ := k
      cases k
      exact ⟨⟨rfl, rfl, rfl, rfl, rfl⟩, fun _ => ring_from_wf hb⟩
    · cases key h; exact ⟨.refl _, id⟩
  | delayms d =>
    simp only [msgPrim, DelayMs.msg] at h
    split at h
    · cases h
      refine ⟨⟨rfl, rfl, rfl, rfl, rfl⟩, fun _ r hr => ?_⟩
      dsimp only at hr
      split at hr
      · cases hr
      · rename_i hn
        obtain ⟨_, _, rfl⟩ := List.mem_map.mp hr
        exact ring_new_wf hn
    · cases key h; exact ⟨.refl _, id⟩
  | osc w o =>
    simp only [msgPrim, Osc.msg] at h
    split at h
    · cases h; exact ⟨⟨rfl, rfl, rfl, rfl, rfl⟩, id⟩
    · cases key h; exact ⟨.refl _, id⟩
  | sin o =>
    simp only [msgPrim, Osc.msg] at h
    split at h
    · cases h; exact ⟨⟨rfl, rfl, rfl, rfl, rfl⟩, id⟩
    · cases key h; exact ⟨.refl _, id⟩
  | envperc e =>
    simp only [msgPrim, EnvPerc.msg] at h
    split at h
    · cases h
      exact ⟨⟨rfl, rfl, rfl, rfl, rfl⟩, fun hs => ⟨hs.rate, sec_le hs.rate (ht (Nat.zero_le 1)), hs.decay⟩⟩
    · cases h
      exact ⟨⟨rfl, rfl, rfl, rfl, rfl⟩, fun hs => ⟨hs.rate, hs.attack, sec_le hs.rate (ht (Nat.le_refl 1))⟩⟩
    · cases key h; exact ⟨.refl _, id⟩
  | adsr e =>
    simp only [msgPrim, Adsr.msg] at h
    split at h
    · cases h
      exact ⟨⟨rfl, rfl, rfl, rfl, rfl⟩, fun hs => ⟨hs.rate, sec_le hs.rate (ht (Nat.zero_le 1)), hs.decay⟩⟩
    · cases h
      exact ⟨⟨rfl, rfl, rfl, rfl, rfl⟩, fun hs => ⟨hs.rate, hs.attack, sec_le hs.rate (ht (Nat.le_refl 1))⟩⟩
    · cases h; exact ⟨⟨rfl, rfl, rfl, rfl, rfl⟩, id⟩
    · cases h; exact ⟨⟨rfl, rfl, rfl, rfl, rfl⟩, id⟩
    · cases key h; exact ⟨.refl _, id⟩
  | onepole f =>
    simp only [msgPrim, OnePole.msg] at h
    split at h
    · cases h; exact ⟨⟨rfl, rfl, rfl, rfl, rfl⟩, id⟩
    · cases key h; exact ⟨.refl _, id⟩
  | rhpf f =>
    simp only [msgPrim, Rhpf.msg] at h
    split at h
    · cases h; exact ⟨⟨rfl, rfl, rfl, rfl, rfl⟩, id⟩
    · cases h; exact ⟨⟨rfl, rfl, rfl, rfl, rfl⟩, id⟩
    · cases key h; exact ⟨.refl _, id⟩
  | rlpf f =>
    simp only [msgPrim, Rlpf.msg] at h
    split at h
    · cases h; exact ⟨⟨rfl, rfl, rfl, rfl, rfl⟩, id⟩
    · cases h; exact ⟨⟨rfl, rfl, rfl, rfl, rfl⟩, id⟩
    · cases key h; exact ⟨.refl _, id⟩
  | apf f =>
    simp only [msgPrim, Apf.msg] at h
    split at h
    · obtain ⟨a, k, rfl⟩ := map_ok h
      simp only [except_bind_ok] at k
      obtain ⟨bx, hx, by', hy, k⟩ := k
      cases k
      exact ⟨⟨rfl, rfl, rfl, rfl, rfl⟩, fun hs => ⟨setFirst_wf hx, setFirst_wf hy⟩⟩
    · cases h; exact ⟨⟨rfl, rfl, rfl, rfl, rfl⟩, id⟩
    · cases key h; exact ⟨.refl _, id⟩
  | arrange a =>
    simp only [msgPrim, Arrange.msg] at h
    split at h
    · exact ht.elim
    · cases key h; exact ⟨.refl _, id⟩
  | points p =>
    simp only [msgPrim, Points.msg] at h
    split at h
    · cases h
      refine ⟨⟨rfl, rfl, rfl, rfl, rfl⟩, fun hs => ?_⟩
      simp only [Prim.Safe] at hs ⊢
      split
      · rename_i hl
        rw [if_pos hl] at hs
        exact ⟨ht rfl, hs.2⟩
      · rename_i hl
        rw [if_neg hl] at hs
        exact hs
    · exact hg.elim
    · cases key h; exact ⟨.refl _, id⟩
  | msgSynth s =>
    simp only [msgPrim, MsgSynth.msg] at h
    split at h
    · cases h; exact ⟨⟨rfl, rfl, rfl, rfl, rfl⟩, id⟩
    · cases h; exact ⟨⟨rfl, rfl, rfl, rfl, rfl⟩, id⟩
    · obtain ⟨a, k, rfl⟩ := map_ok h
      exact ⟨⟨rfl, msgEvent_order k, rfl, rfl, rfl⟩, id⟩
    · cases key h; exact ⟨.refl _, id⟩
  | patSynth s =>
    simp only [msgPrim, PatternSynth.msg] at h
    split at h
    · obtain ⟨a, k, rfl⟩ := map_ok h
      rw [except_bind_ok] at k
      obtain ⟨ev, _, k⟩ := k
      cases k
      exact ⟨⟨rfl, rfl, rfl, rfl, rfl⟩, id⟩
    · cases key h; exact ⟨.refl _, id⟩

end Verif
