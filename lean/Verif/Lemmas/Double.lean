import Verif.Make
import Verif.Spec.Nodes
import Verif.Spec.Stream

/-! A signal with one channel and the same signal on two channels (helpers). -/

namespace Verif.Double
open Verif Spec

/-- The second is the first, or has its only channel twice. -/
def Dup (o o' : List Buf) : Prop := o' = o ∨ ∃ b, o = [b] ∧ o' = [b, b]

def DupIns (ins ins' : Ins) : Prop := List.Forall₂ (fun e e' => e.1 = e'.1 ∧ Dup e.2 e'.2) ins ins'

theorem chan_dup {o o' : List Buf} (h : Dup o o') : chan o' 0 = chan o 0 := by
  rcases h with rfl | ⟨b, rfl, rfl⟩ <;> rfl

theorem right_dup {o o' : List Buf} (h : Dup o o') {m : Buf} (hm : chan o 0 = .ok m) : rightOf o' m = rightOf o m := by
  rcases h with rfl | ⟨b, rfl, rfl⟩
  · rfl
  · cases hm; rfl

theorem inputAt_dup {ins ins' : Ins} (h : DupIns ins ins') (order : List Nat) (k : Nat) :
    (∃ e, inputAt ins order k = .error e ∧ inputAt ins' order k = .error e) ∨
    ∃ o o', inputAt ins order k = .ok o ∧ inputAt ins' order k = .ok o' ∧ Dup o o' := by
  unfold inputAt
  cases order[k]? with
  | none => exact .inl ⟨_, rfl, rfl⟩
  | some i =>
    induction h with
    | nil => exact .inl ⟨_, rfl, rfl⟩
    | @cons e e' _ _ he _ ih =>
      simp only [List.find?_cons, ← he.1]
      by_cases hb : (e.1 == i) = true
      · simp only [hb]; exact .inr ⟨_, _, rfl, rfl, he.2⟩
      · simp only [Bool.not_eq_true] at hb
        simp only [hb]
        exact ih

/-- Reading the left channel of an input. -/
theorem left_dup {ins ins' : Ins} (h : DupIns ins ins') (order : List Nat) (k : Nat) :
    (inputAt ins' order k >>= fun x => chan x 0) = (inputAt ins order k >>= fun x => chan x 0) := by
  rcases inputAt_dup h order k with ⟨e, h1, h2⟩ | ⟨o, o', h1, h2, hd⟩
  · rw [h1, h2]
  · rw [h1, h2]; exact chan_dup hd

theorem firstHeard_dup {ins ins' : Ins} (h : DupIns ins ins') (order : List Nat) : firstHeard order ins' = firstHeard order ins := by
  have he : ins'.isEmpty = ins.isEmpty := by cases h <;> rfl
  unfold firstHeard
  rw [he]
  rcases inputAt_dup h order 0 with ⟨e, h1, h2⟩ | ⟨o, o', h1, h2, hd⟩
  · rw [h1, h2]
  · rw [h1, h2]; dsimp only; rw [chan_dup hd]

theorem applyOp_dup {ins ins' : Ins} (h : DupIns ins ins') (op : Fl → Fl → Fl) (order : List Nat) (v : Fl) (out : List Buf) :
    applyOp op order v ins' out = applyOp op order v ins out := by
  unfold applyOp
  cases out with
  | nil => rfl
  | cons b rest =>
    cases h with
    | nil => rfl
    | @cons e e' l l' he hl =>
      cases hl with
      | nil =>
        dsimp only
        rw [chan_dup he.2]
        cases hm : chan e.2 0 with
        | error _ => rfl
        | ok m =>
          show Except.ok _ = Except.ok _
          rw [right_dup he.2 hm]
      | @cons e2 e2' l2 l2' he2 hl2 =>
        have hd : DupIns (e :: e2 :: l2) (e' :: e2' :: l2') := .cons he (.cons he2 hl2)
        cases hl2 with
        | cons _ _ => rfl
        | nil =>
          dsimp only
          rcases inputAt_dup hd order 0 with ⟨x, h1, h2⟩ | ⟨o, o', h1, h2, hd1⟩
          · rw [h1, h2]; rfl
          · rw [h1, h2]
            rcases inputAt_dup hd order 1 with ⟨x, h3, h4⟩ | ⟨p, p', h3, h4, hd2⟩
            · rw [h3, h4]; rfl
            · rw [h3, h4]
              simp only [bind, Except.bind, chan_dup hd1, chan_dup hd2]
              cases hm : chan o 0 with
              | error _ => rfl
              | ok m =>
                cases hr : chan p 0 with
                | error _ => rfl
                | ok r =>
                  simp only [right_dup hd1 hm, right_dup hd2 hr]

theorem sum2Chan_dup {ins ins' : Ins} (h : DupIns ins ins') {ch : Nat} (hc : ch < 2) (b : Buf) : sum2Chan ins' ch b = sum2Chan ins ch b := by
  unfold sum2Chan
  generalize silent b = acc
  induction h generalizing acc with
  | nil => rfl
  | @cons e e' _ _ he _ ih =>
    simp only [List.foldlM_cons]
    rcases he.2 with h | ⟨x, h1, h2⟩
    · rw [h]
      exact congrArg _ (funext fun a => ih a)
    · rw [h1, h2]
      match ch, hc with
      | 0, _ => exact ih _
      | 1, _ => exact ih _

theorem procSum2_dup {ins ins' : Ins} (h : DupIns ins ins') {out : List Buf} (ho : out.length = 2) : procSum2 ins' out = procSum2 ins out := by
  match out, ho with
  | [a, b], _ =>
    unfold procSum2
    simp only [sum2From, sum2Chan_dup h (show 0 < 2 by omega), sum2Chan_dup h (show 0 + 1 < 2 by omega)]

theorem procPass_dup {ins ins' : Ins} (h : DupIns ins ins') {out : List Buf} (ho : out.length = 2) : procPass ins' out = procPass ins out := by
  match out, ho with
  | [a, b], _ =>
    cases h with
    | nil => rfl
    | @cons e e' _ _ he _ =>
      unfold procPass
      dsimp only
      rcases he.2 with h | ⟨x, h1, h2⟩
      · rw [h]
      · rw [h1, h2]; rfl

/-- The nodes that hear a signal with one channel as one with two equal channels. -/
def Same : GNode P → Nat → Prop
  | .prim .pass, n | .prim .sum2, n => n = 2
  | .prim (.delayn _), _ | .prim (.delayms _), _ | .prim .sum, _ => False
  | _, _ => True

section
variable {ins ins' : Ins} (h : DupIns ins ins')
include h

theorem procPan_dup (m : Libm) (a : Arith) (out : List Buf) : procPan m a ins' out = procPan m a ins out := by
  have h0 := inputAt_dup h a.order 0
  have h1 := inputAt_dup h a.order 1
  have key : (do
      let ref ← inputAt ins' a.order 1
      let main ← inputAt ins' a.order 0
      let r ← chan ref 0
      let x ← chan main 0
      setStereo out (List.zipWith (fun p v => (panSample m p v).1) r x) (List.zipWith (fun p v => (panSample m p v).2) r x)) = (do
      let ref ← inputAt ins a.order 1
      let main ← inputAt ins a.order 0
      let r ← chan ref 0
      let x ← chan main 0
      setStereo out (List.zipWith (fun p v => (panSample m p v).1) r x) (List.zipWith (fun p v => (panSample m p v).2) r x)) := by
    rcases h1 with ⟨x, h1, h2⟩ | ⟨o, o', h1, h2, hd1⟩
    · rw [h1, h2]; rfl
    · rcases h0 with ⟨x, h3, h4⟩ | ⟨p, p', h3, h4, hd2⟩
      · rw [h1, h2, h3, h4]; rfl
      · rw [h1, h2, h3, h4]
        simp only [bind, Except.bind, chan_dup hd1, chan_dup hd2]
  unfold procPan
  cases h with
  | nil => exact key
  | cons he hl =>
    cases hl with
    | nil => dsimp only; rw [chan_dup he.2]
    | cons _ _ => exact key

theorem procBalance_dup (order : List Nat) (out : List Buf) : procBalance order ins' out = procBalance order ins out := by
  have h0 := inputAt_dup h order 0
  have h1 := inputAt_dup h order 1
  unfold procBalance
  cases h with
  | nil => rfl
  | cons he hl =>
    cases hl with
    | nil => rfl
    | cons _ hl =>
      cases hl with
      | cons _ _ => rfl
      | nil =>
        dsimp only
        rcases h0 with ⟨x, h1, h2⟩ | ⟨o, o', h3, h4, hd1⟩
        · rw [h1, h2]; rfl
        · rcases h1 with ⟨x, h1, h2⟩ | ⟨p, p', h1, h2, hd2⟩
          · rw [h1, h2, h3, h4]; rfl
          · rw [h1, h2, h3, h4]
            simp only [bind, Except.bind, chan_dup hd1, chan_dup hd2]

theorem procOsc_dup (w : Wave) (o : Osc) (out : List Buf) : procOsc w o ins' out = procOsc w o ins out := by
  have h0 := inputAt_dup h o.order 0
  unfold procOsc
  cases h with
  | nil => rfl
  | cons he hl =>
    cases hl with
    | cons _ _ => rfl
    | nil =>
      cases out with
      | nil => rfl
      | cons b rest =>
        dsimp only [modInput]
        cases ho : o.order with
        | nil => simp only [bind, Except.bind, chan_dup he.2]
        | cons a l =>
          rw [ho] at h0
          rcases h0 with ⟨x, h1, h2⟩ | ⟨o, o', h3, h4, hd1⟩
          · simp only [h1, h2]
          · simp only [h3, h4, bind, Except.bind, chan_dup hd1]

theorem procSin_dup (m : Libm) (o : Osc) (out : List Buf) : procSin m o ins' out = procSin m o ins out := by
  have h0 := inputAt_dup h o.order 0
  unfold procSin
  cases h with
  | nil => rfl
  | cons he hl =>
    cases hl with
    | cons _ _ => rfl
    | nil =>
      dsimp only [modInput]
      cases ho : o.order with
      | nil => simp only [bind, Except.bind, chan_dup he.2]
      | cons a l =>
        rw [ho] at h0
        rcases h0 with ⟨x, h1, h2⟩ | ⟨o, o', h3, h4, hd1⟩
        · simp only [h1, h2]
        · simp only [h3, h4, bind, Except.bind, chan_dup hd1]

theorem procEnvPerc_dup (e : EnvPerc) (out : List Buf) : procEnvPerc e ins' out = procEnvPerc e ins out := by
  have h0 := inputAt_dup h e.order 0
  unfold procEnvPerc
  cases h with
  | nil => rfl
  | cons he hl =>
    cases hl with
    | cons _ _ => rfl
    | nil =>
      dsimp only
      rcases h0 with ⟨x, h1, h2⟩ | ⟨o, o', h3, h4, hd1⟩
      · simp only [h1, h2]
      · simp only [h3, h4, bind, Except.bind, chan_dup hd1]

theorem procAdsr_dup (e : Adsr) (out : List Buf) : procAdsr e ins' out = procAdsr e ins out := by
  have h0 := inputAt_dup h e.order 0
  unfold procAdsr
  cases h with
  | nil => rfl
  | cons he hl =>
    cases hl with
    | cons _ _ => rfl
    | nil =>
      dsimp only
      rcases h0 with ⟨x, h1, h2⟩ | ⟨o, o', h3, h4, hd1⟩
      · simp only [h1, h2]
      · simp only [h3, h4, bind, Except.bind, chan_dup hd1]

theorem procOnePole_dup (m : Libm) (f : OnePole) (out : List Buf) : procOnePole m f ins' out = procOnePole m f ins out := by
  have h0 := inputAt_dup h f.order 0
  have h1 := inputAt_dup h f.order 1
  unfold procOnePole
  cases h with
  | nil => rfl
  | cons he hl =>
    cases hl with
    | nil => dsimp only; simp only [chan_dup he.2]
    | cons _ hl =>
      cases hl with
      | cons _ _ => rfl
      | nil =>
        dsimp only
        rcases h0 with ⟨x, h1, h2⟩ | ⟨o, o', h3, h4, hd1⟩
        · rw [h1, h2]; rfl
        · rcases h1 with ⟨x, h1, h2⟩ | ⟨p, p', h1, h2, hd2⟩
          · rw [h1, h2, h3, h4]; rfl
          · rw [h1, h2, h3, h4]
            simp only [bind, Except.bind, chan_dup hd1, chan_dup hd2]

theorem procRhpf_dup (m : Libm) (f : Rhpf) (out : List Buf) : procRhpf m f ins' out = procRhpf m f ins out := by
  have h0 := inputAt_dup h f.order 0
  have h1 := inputAt_dup h f.order 1
  unfold procRhpf
  cases h with
  | nil => rfl
  | cons he hl =>
    cases hl with
    | nil => dsimp only; simp only [chan_dup he.2]
    | cons _ hl =>
      cases hl with
      | cons _ _ => rfl
      | nil =>
        dsimp only
        rcases h0 with ⟨x, h1, h2⟩ | ⟨o, o', h3, h4, hd1⟩
        · rw [h1, h2]; rfl
        · rcases h1 with ⟨x, h1, h2⟩ | ⟨p, p', h1, h2, hd2⟩
          · rw [h1, h2, h3, h4]; rfl
          · rw [h1, h2, h3, h4]
            simp only [bind, Except.bind, chan_dup hd1, chan_dup hd2]

theorem procRlpf_dup (m : Libm) (f : Rlpf) (out : List Buf) : procRlpf m f ins' out = procRlpf m f ins out := by
  have h0 := inputAt_dup h f.order 0
  have h1 := inputAt_dup h f.order 1
  unfold procRlpf
  cases h with
  | nil => rfl
  | cons he hl =>
    cases hl with
    | nil => dsimp only; simp only [chan_dup he.2]
    | cons _ hl =>
      cases hl with
      | cons _ _ => rfl
      | nil =>
        dsimp only
        rcases h0 with ⟨x, h1, h2⟩ | ⟨o, o', h3, h4, hd1⟩
        · rw [h1, h2]; rfl
        · rcases h1 with ⟨x, h1, h2⟩ | ⟨p, p', h1, h2, hd2⟩
          · rw [h1, h2, h3, h4]; rfl
          · rw [h1, h2, h3, h4]
            simp only [bind, Except.bind, chan_dup hd1, chan_dup hd2]

theorem procApf_dup (f : Apf) (out : List Buf) : procApf f ins' out = procApf f ins out := by
  have h0 := inputAt_dup h f.order 0
  have h1 := inputAt_dup h f.order 1
  unfold procApf
  cases h with
  | nil => rfl
  | cons he hl =>
    cases hl with
    | nil =>
      dsimp only
      rcases h0 with ⟨x, h1, h2⟩ | ⟨o, o', h3, h4, hd1⟩
      · rw [h1, h2]
      · rw [h3, h4]
        simp only [bind, Except.bind, chan_dup hd1]
    | cons _ hl =>
      cases hl with
      | cons _ _ => rfl
      | nil =>
        dsimp only
        rcases h0 with ⟨x, h1, h2⟩ | ⟨o, o', h3, h4, hd1⟩
        · rw [h1, h2]; rfl
        · rcases h1 with ⟨x, h1, h2⟩ | ⟨p, p', h1, h2, hd2⟩
          · rw [h1, h2, h3, h4]; rfl
          · rw [h1, h2, h3, h4]
            simp only [bind, Except.bind, chan_dup hd1, chan_dup hd2]

theorem seqValue_dup (r : List (Name × Nat)) (order : List Nat) (shift idx : Nat) :
    seqValue ins' r order shift idx = seqValue ins r order shift idx := by
  funext v
  cases v with
  | nat _ => rfl
  | ref x =>
    unfold seqValue
    dsimp only
    cases lookup r x with
    | none => rfl
    | some k =>
      dsimp only
      rcases inputAt_dup h order (k + shift) with ⟨x, h1, h2⟩ | ⟨o, o', h3, h4, hd1⟩
      · rw [h1, h2]
      · rw [h3, h4]
        simp only [bind, Except.bind, chan_dup hd1]

theorem procSeq_dup (m : Libm) (s : Sequencer) (out : List Buf) : procSeq m s ins' out = procSeq m s ins out := by
  have h0 := inputAt_dup h s.order 0
  have hv := fun r order shift idx => seqValue_dup h r order shift idx
  unfold procSeq
  cases h with
  | nil => rfl
  | cons he hl =>
    dsimp only
    simp only [hv]
    rcases h0 with ⟨x, h1, h2⟩ | ⟨o, o', h3, h4, hd1⟩
    · rw [h1, h2]
    · rw [h3, h4]
      simp only [bind, Except.bind, chan_dup hd1]

theorem inputSample_dup (order : List Nat) (j i : Nat) : inputSample ins' order j i = inputSample ins order j i := by
  unfold inputSample
  rcases inputAt_dup h order j with ⟨x, h1, h2⟩ | ⟨o, o', h3, h4, hd1⟩
  · rw [h1, h2]
  · rw [h3, h4]
    simp only [bind, Except.bind, chan_dup hd1]

theorem arrRun_dup (a : Arrange) : ∀ (old : Buf) (i step : Nat), arrRun a ins' i step old = arrRun a ins i step old
  | [], _, _ => rfl
  | o :: old, i, step => by
    unfold arrRun
    simp only [inputSample_dup h, arrRun_dup a old]

theorem procArrange_dup (a : Arrange) (out : List Buf) : procArrange a ins' out = procArrange a ins out := by
  unfold procArrange
  simp only [arrRun_dup h]

theorem procSampler_dup (s : Sampler) (out : List Buf) : procSampler s ins' out = procSampler s ins out := by
  unfold procSampler
  cases h with
  | nil => rfl
  | cons he hl =>
    cases hl with
    | cons _ _ => rfl
    | nil => dsimp only; simp only [chan_dup he.2]

theorem procPatSynth_dup (m : Libm) (s : PatternSynth) (out : List Buf) : procPatSynth m s ins' out = procPatSynth m s ins out := by
  unfold procPatSynth
  cases h with
  | nil => rfl
  | cons _ _ => rfl

theorem feed_dup (m : Libm) (ho : HashOrder) (c : Compound) (out : List Buf) : c.feed m ho ins' out = c.feed m ho ins out := by
  unfold Compound.feed
  rcases inputAt_dup h c.order 0 with ⟨x, h1, h2⟩ | ⟨o, o', h3, h4, hd1⟩
  · rw [h1, h2]
  · rw [h3, h4]
    simp only [bind, Except.bind, chan_dup hd1]

theorem procCompound_dup (m : Libm) (ho : HashOrder) (c : Compound) (out : List Buf) :
    procCompound m ho c ins' out = procCompound m ho c ins out := by
  have hf := feed_dup h m ho c out
  unfold procCompound
  cases h with
  | nil => cases c.kind <;> first | exact hf | rfl
  | cons he hl =>
    cases hl with
    | cons _ _ => cases c.kind <;> first | exact hf | rfl
    | nil => cases c.kind <;> exact hf

theorem procG_dup (P : Plat) (hf : ExtFirst P) (n : GNode P) (out : List Buf) (hs : Same n out.length) : procG P n ins' out = procG P n ins out := by
  unfold procG
  cases n with
  | script o s => dsimp only; rw [hf.first s o o ins ins' out (firstHeard_dup h o).symm]
  | compound c => dsimp only; rw [procCompound_dup h]
  | prim p =>
    dsimp only
    refine congrArg _ ?_
    cases p <;> simp only [procPrim]
    case pass => rw [procPass_dup h hs]
    case sum => exact hs.elim
    case sum2 => rw [procSum2_dup h hs]
    case mul => rw [procMul, procMul, applyOp_dup h]
    case add => rw [procAdd, procAdd, applyOp_dup h]
    case pan => rw [procPan_dup h]
    case balance => rw [procBalance_dup h]
    case delayn => exact hs.elim
    case delayms => exact hs.elim
    case osc => rw [procOsc_dup h]
    case sin => rw [procSin_dup h]
    case envperc => rw [procEnvPerc_dup h]
    case adsr => rw [procAdsr_dup h]
    case onepole => rw [procOnePole_dup h]
    case rhpf => rw [procRhpf_dup h]
    case rlpf => rw [procRlpf_dup h]
    case apf => rw [procApf_dup h]
    case seq => rw [procSeq_dup h]
    case arrange => rw [procArrange_dup h]
    case sampler => rw [procSampler_dup h]
    case patSynth => rw [procPatSynth_dup h]

end

/-! ### Over several blocks -/

theorem passBufs_length (i out : List Buf) : out.length = 2 → (passBufs i out).length = 2 := by
  intro ho
  match out, ho with
  | [a, b], _ =>
    match i with
    | [] => rfl
    | [x] => rfl
    | x :: y :: r => simp [passBufs]

theorem sum2From_length {ins : Ins} : ∀ {out : List Buf} {ch : Nat} {o : List Buf}, sum2From ins ch out = .ok o → o.length = out.length
  | [], _, o, h => by cases h; rfl
  | b :: bs, ch, o, h => by
    unfold sum2From at h
    cases h1 : sum2Chan ins ch b with
    | error e => rw [h1] at h; cases h
    | ok c =>
      cases h2 : sum2From ins (ch + 1) bs with
      | error e => rw [h1, h2] at h; cases h
      | ok cs =>
        rw [h1, h2] at h
        cases h
        rw [List.length_cons, List.length_cons, sum2From_length h2]

theorem same_proc {P : Plat} {n n' : GNode P} {ins : Ins} {out out' : List Buf} (hs : Same n out.length)
    (h : procG P n ins out = .ok (n', out')) : Same n' out'.length := by
  unfold procG at h
  cases n with
  | script _ _ =>
    dsimp only at h
    unfold reState at h
    split at h
    · cases h
    · cases h; trivial
  | compound c =>
    dsimp only at h
    unfold reState at h
    split at h
    · cases h
    · cases h; trivial
  | prim p =>
    cases p <;> dsimp only [procPrim, reState, sameNode] at h
    case sum => exact hs.elim
    case delayn => exact hs.elim
    case delayms => exact hs.elim
    case pass =>
      cases h
      show (procPass ins out).length = 2
      unfold procPass
      split
      · exact hs
      · exact passBufs_length _ _ hs
    case sum2 =>
      cases h1 : procSum2 ins out with
      | error e => rw [h1] at h; cases h
      | ok o =>
        rw [h1] at h
        cases h
        exact (sum2From_length h1).trans hs
    case noise => cases h; trivial
    all_goals
      (split at h
       · cases h
       · rename_i hx
         cases h
         split at hx
         · cases hx
         · cases hx; trivial)

theorem same_msg {P : Plat} {n n' : GNode P} {k : Nat} {g : Msg Fl} (hs : Same n k) (h : msgG P n g = .ok n') : Same n' k := by
  unfold msgG at h
  cases n with
  | script o s =>
    have hscr : ∃ o' s', n' = .script o' s' := by
      dsimp only at h
      split at h
      · rename_i p t
        cases h1 : P.ext.set s p t with
        | error e => rw [h1] at h; cases h
        | ok s' => rw [h1] at h; cases h; exact ⟨_, _, rfl⟩
      · cases h1 : orderMsg true o g with
        | error e => rw [h1] at h; cases h
        | ok o' => rw [h1] at h; cases h; exact ⟨_, _, rfl⟩
    obtain ⟨o', s', rfl⟩ := hscr
    trivial
  | compound c =>
    dsimp only at h
    cases h1 : c.msg P.libm g with
    | error e => rw [h1] at h; cases h
    | ok c' => rw [h1] at h; cases h; trivial
  | prim p =>
    dsimp only at h
    cases h1 : msgPrim P.libm p g with
    | error e => rw [h1] at h; cases h
    | ok p' =>
      rw [h1] at h
      cases h
      cases p <;> dsimp only [msgPrim] at h1
      case sum => exact hs.elim
      case delayn => exact hs.elim
      case delayms => exact hs.elim
      case pass => cases h1; exact hs
      case sum2 => cases h1; exact hs
      all_goals
        simp only [Functor.map, Except.map] at h1
        split at h1
        · cases h1
        · cases h1; trivial

theorem same_msgs {P : Plat} {k : Nat} : ∀ {msgs : List (Msg Fl)} {n n' : GNode P}, Same n k → sendMsgs n msgs = .ok n' → Same n' k
  | [], n, n', hs, h => by cases h; exact hs
  | g :: msgs, n, n', hs, h => by
    unfold sendMsgs at h
    split at h
    · cases h
    · rename_i h1
      exact same_msgs (same_msg hs h1) h

theorem runBlocks_dup {P : Plat} (hf : ExtFirst P) : ∀ {ins ins' : List Ins} {n : GNode P} {out : List Buf}, List.Forall₂ DupIns ins ins' → Same n out.length →
    runBlocks (procG P) n out ins' = runBlocks (procG P) n out ins := by
  intro ins ins' n out h
  induction h generalizing n out with
  | nil => intro _; rfl
  | @cons i i' is is' hi _ ih =>
    intro hs
    unfold runBlocks
    rw [procG_dup hi P hf n out hs]
    cases h1 : procG P n i out with
    | error e => rfl
    | ok r => dsimp only; rw [ih (same_proc hs h1)]

theorem bind_ok {ε α β : Type} {a : Except ε α} {f : α → Except ε β} {r : β} (h : (a >>= f) = .ok r) : ∃ x, a = .ok x ∧ f x = .ok r := by
  cases a with
  | error e => cases h
  | ok x => exact ⟨x, rfl, h⟩

theorem same_prim {P : Plat} {m : Libm} {samples : List (Name × Sample)} {sr : Nat} {bpm : Fl} {seed : Nat} {c : Comp}
    (hc : match c with | .delayn _ | .delayms _ => False | _ => True)
    {x : Nat × Prim} (h : makePrim m samples sr bpm seed c = some (.ok x)) : Same (P := P) (.prim x.2) x.1 := by
  cases c
  case delayn => exact hc.elim
  case delayms => exact hc.elim
  case psampler e span =>
    cases span with
    | none => cases h
    | some s =>
      obtain ⟨l, _, h2⟩ := bind_ok (Option.some.inj h)
      cases h2; trivial
  case points => obtain ⟨l, _, h2⟩ := bind_ok (Option.some.inj h); cases h2; trivial
  case patternSynth => obtain ⟨l, _, h2⟩ := bind_ok (Option.some.inj h); cases h2; trivial
  case apfmsgain => obtain ⟨l, _, h2⟩ := bind_ok (Option.some.inj h); cases h2; trivial
  case sp sym =>
    dsimp only [makePrim] at h
    have h := Option.some.inj h
    split at h
    · cases h
    · obtain ⟨l, _, h2⟩ := bind_ok h
      cases h2; trivial
  case lpf cut q => cases cut <;> first | (cases h; done) | (cases h; trivial)
  all_goals first | (cases h; done) | (cases h; trivial) | (cases h; rfl)

/-- A component that hears one channel as two equal ones, as it is built. -/
theorem same_make {P : Plat} {N : Nat} {samples : List (Name × Sample)} {sr : Nat} {bpm : Fl} {seed : Nat} {c : Comp}
    (hc : match c with | .delayn _ | .delayms _ => False | _ => True)
    {d : NodeData (GNode P) Buf} {refs : List Name} (h : makeNode P N samples sr bpm seed c = .ok (d, refs)) : Same d.node d.buffers.length := by
  unfold makeNode at h
  cases hp : makePrim P.libm samples sr bpm seed c with
  | some r =>
    rw [hp] at h
    dsimp only at h
    cases r with
    | error e => cases h
    | ok x =>
      cases h
      dsimp only [fresh]
      rw [List.length_replicate]
      exact same_prim hc hp
  | none =>
    rw [hp] at h
    dsimp only at h
    split at h
    · rename_i r _
      cases r with
      | error e => cases h
      | ok k => cases h; trivial
    · split at h
      · rename_i code _
        cases hs : P.ext.new true code sr with
        | error e => rw [hs] at h; cases h
        | ok s => rw [hs] at h; cases h; trivial
      · rename_i code _
        cases hs : P.ext.new false code sr with
        | error e => rw [hs] at h; cases h
        | ok s => rw [hs] at h; cases h; trivial
      · cases h

theorem play_dup {P : Plat} (hf : ExtFirst P) {N : Nat} {env : Env} {c : Comp}
    (hc : match c with | .delayn _ | .delayms _ => False | _ => True) (msgs : List (Msg Fl))
    {ins ins' : List Ins} (h : List.Forall₂ DupIns ins ins') : play P N env c msgs ins' = play P N env c msgs ins := by
  unfold play
  split
  · rfl
  · rename_i hm
    split
    · rfl
    · rename_i hn
      rw [runBlocks_dup hf h (same_msgs (same_make hc hm) hn)]

end Verif.Double
