import Verif.Spec.Stream
import Verif.Lemmas.SetOrder
import Verif.Lemmas.StreamNodes
import Verif.Lemmas.KeepOrder
import Verif.Script

/-! What a node plays depends on its inputs by number, and with one input only on the head of its list (helpers for
C73). -/

namespace Verif
open Spec Props

section
variable {m : Libm} {ins ins' : Ins} {out o : List Buf} {l l' : List Nat}

theorem inputAt_head (h : l.head? = l'.head?) : inputAt ins l 0 = inputAt ins l' 0 := by
  unfold inputAt
  cases l <;> cases l' <;> simp_all

theorem modInput_head (h : l.head? = l'.head?) {e : Nat × List Buf} : modInput ins l e = modInput ins l' e := by
  unfold modInput
  cases l with
  | nil => cases l' with
    | nil => rfl
    | cons => cases h
  | cons a t => cases l' with
    | nil => cases h
    | cons b t' => exact inputAt_head h

/-- The events of a sequencer name no chain. -/
def plainEvents (ev : List (Fl × NatRef)) : Prop := ev.flatMap (fun x => x.2.refs) = []

theorem seqSample_plain {bar : Fl} {k : Nat} {f g : NatRef → Except Panic Fl} (hfg : ∀ n, f (.nat n) = g (.nat n)) :
    ∀ {ev : List (Fl × NatRef)} {x : Fl}, plainEvents ev → seqSample m bar k f ev x = seqSample m bar k g ev x := by
  intro ev
  induction ev with
  | nil => intro x _; rfl
  | cons e ev ih =>
    intro x h
    obtain ⟨t, v⟩ := e
    simp only [plainEvents, List.flatMap_cons, List.append_eq_nil_iff] at h
    cases v with
    | ref r => simp [NatRef.refs] at h
    | nat n => simp only [seqSample, hfg n, ih (x := x) h.2, ih h.2]

/-- The kinds of nodes that hear a single input through the head of their list. -/
def Prim.headOnly : Prim → Prop
  | .arrange _ => False
  | .seq s => plainEvents s.events
  | _ => True

/-- Opens a block function that returned normally, and closes the other one with the same equations. -/
macro "same_block" h:ident : tactic =>
  `(tactic| ((try simp only [bind, Except.bind] at $h:ident ⊢)
             repeat' split at $h:ident
             all_goals first
               | (cases $h:ident; done)
               | (cases $h:ident; simp_all; done)))

theorem psTrigger_set {p : PSampler} {l : List Nat} {k : Nat} : ∀ {es : List (Sample × Fl)},
    psTrigger { p with order := l } k es = psTrigger p k es := by
  intro es
  induction es with
  | nil => rfl
  | cons e es ih => simp only [psTrigger, ih]

theorem psRun_set {l : List Nat} : ∀ {n : Nat} {p : PSampler} {r : PSampler × List (Fl × Fl)}, psRun n p = .ok r →
    psRun n { p with order := l } = .ok ({ r.1 with order := l }, r.2) := by
  intro n
  induction n with
  | zero => intro p r h; cases h; rfl
  | succ n ih =>
    intro p r h
    simp only [psRun, except_bind_ok, psTrigger_set] at h ⊢
    obtain ⟨new, h1, ⟨b, v, o⟩, h2, h⟩ := h
    refine ⟨new, h1, (b, v, o), h2, ?_⟩
    simp only at h ⊢
    split at h
    · rename_i hb
      cases h
      rw [if_pos hb]
    · rename_i hb
      rw [if_neg hb]
      rw [except_bind_ok] at h ⊢
      obtain ⟨⟨p', y⟩, h3, h⟩ := h
      cases h
      exact ⟨_, ih h3, rfl⟩

theorem run_set {σ ι ο : Type} (g : σ → σ) {f : σ → ι → σ × ο} (h : ∀ s x, f (g s) x = (g (f s x).1, (f s x).2))
    {xs : List ι} : ∀ {s : σ}, run f (g s) xs = (g (run f s xs).1, (run f s xs).2) := by
  induction xs with
  | nil => intro s; rfl
  | cons x xs ih => intro s; simp only [run, h, ih]

theorem runM_set' {σ ι ο : Type} (g : σ → σ) {f : σ → ι → Except Panic (σ × ο)}
    (h : ∀ s x r, f s x = .ok r → f (g s) x = .ok (g r.1, r.2)) {xs : List ι} : ∀ {s : σ} {r : σ × List ο},
    runM f s xs = .ok r → runM f (g s) xs = .ok (g r.1, r.2) := by
  induction xs with
  | nil => intro s r hr; cases hr; rfl
  | cons x xs ih =>
    intro s r hr
    simp only [runM] at hr ⊢
    split at hr
    · cases hr
    · rename_i q hq
      split at hr
      · cases hr
      · rename_i w hw
        cases hr
        simp only [h _ _ _ hq, ih hw]

/-- With one input, a node plays the same with every list of inputs that has the same head. -/
theorem procPrim_head {n n' : Prim} {x : Nat × List Buf} (hh : n.order.head? = l.head?) (hn : n.headOnly)
    (h : procPrim m n [x] out = .ok (n', o)) : procPrim m (n.setOrder l) [x] out = .ok (n'.setOrder l, o) := by
  cases n with
  | pass => cases h; rfl
  | sum => cases h; rfl
  | noise s => cases h; rfl
  | sum2 => cases sameNode_node h; exact h
  | constSig c => obtain ⟨s, hs, rfl⟩ := reState_node h; exact h
  | imp i => obtain ⟨s, hs, rfl⟩ := reState_node h; exact h
  | points p => obtain ⟨s, hs, rfl⟩ := reState_node h; exact h
  | mul a =>
    simp only [procPrim, sameNode, procMul, applyOp, Prim.setOrder] at h ⊢
    same_block h
  | add a =>
    simp only [procPrim, sameNode, procAdd, applyOp, Prim.setOrder] at h ⊢
    same_block h
  | speed a =>
    simp only [procPrim, sameNode, procSpeed, Prim.setOrder] at h ⊢
    same_block h
  | pan a =>
    simp only [procPrim, sameNode, procPan, Prim.setOrder] at h ⊢
    same_block h
  | balance o =>
    simp only [procPrim, sameNode, procBalance, Prim.setOrder] at h ⊢
    same_block h
  | delayn d =>
    obtain ⟨s, hs, rfl⟩ := reState_node h
    simp only [procPrim, reState, procDelayN, Prim.setOrder] at hs ⊢
    same_block hs
  | delayms d =>
    obtain ⟨s, hs, rfl⟩ := reState_node h
    obtain ⟨i, main⟩ := x
    simp only [procPrim, reState, procDelayMs, Prim.setOrder] at hs ⊢
    by_cases h0 : main.length = 0 ∨ 2 < main.length
    · simp only [if_pos h0] at hs ⊢
      cases hs
      rfl
    · simp only [if_neg h0] at hs ⊢
      same_block hs
  | osc w d =>
    obtain ⟨s, hs, rfl⟩ := reState_node h
    simp only [procPrim, reState, procOsc, Prim.setOrder, ← modInput_head hh, Prim.order] at hs ⊢
    same_block hs
  | sin d =>
    obtain ⟨s, hs, rfl⟩ := reState_node h
    simp only [procPrim, reState, procSin, Prim.setOrder, ← modInput_head hh, Prim.order] at hs ⊢
    same_block hs
  | envperc d =>
    obtain ⟨s, hs, rfl⟩ := reState_node h
    simp only [procPrim, reState, procEnvPerc, Prim.setOrder, ← inputAt_head hh, Prim.order] at hs ⊢
    same_block hs
  | adsr d =>
    obtain ⟨s, hs, rfl⟩ := reState_node h
    simp only [procPrim, reState, procAdsr, Prim.setOrder, ← inputAt_head hh, Prim.order] at hs ⊢
    same_block hs
  | onepole d =>
    obtain ⟨s, hs, rfl⟩ := reState_node h
    simp only [procPrim, reState, procOnePole, Prim.setOrder] at hs ⊢
    same_block hs
  | rhpf d =>
    obtain ⟨s, hs, rfl⟩ := reState_node h
    simp only [procPrim, reState, procRhpf, Prim.setOrder] at hs ⊢
    same_block hs
  | rlpf d =>
    obtain ⟨s, hs, rfl⟩ := reState_node h
    have hf : rlpfStep m { d with order := l } = rlpfStep m d := rfl
    simp only [procPrim, reState, procRlpf, Prim.setOrder, hf] at hs ⊢
    same_block hs
  | apf d =>
    obtain ⟨s, hs, rfl⟩ := reState_node h
    simp only [procPrim, reState, procApf, Prim.setOrder, ← inputAt_head hh, Prim.order] at hs ⊢
    same_block hs
  | choose d =>
    obtain ⟨s, hs, rfl⟩ := reState_node h
    simp only [procPrim, reState, procChoose, Prim.setOrder] at hs ⊢
    same_block hs
  | seq s =>
    obtain ⟨s', hs, rfl⟩ := reState_node h
    have hv : ∀ {bar k sh i ord}, seqSample m bar k (seqValue [x] s.refOrder ord sh i) s.events (.fin 0) =
        seqSample m bar k seqValue0 s.events (.fin 0) := by
      intro bar k sh i ord
      exact seqSample_plain (f := seqValue [x] s.refOrder ord sh i) (g := seqValue0) (fun _ => rfl) hn
    simp only [procPrim, reState, procSeq, Prim.setOrder, ← inputAt_head hh, Prim.order, hv] at hs ⊢
    same_block hs
  | arrange a => exact hn.elim
  | sampler s =>
    obtain ⟨s', hs, rfl⟩ := reState_node h
    have hset : ∀ {r y}, runM samplerStep s y = .ok r →
        runM samplerStep { s with order := l } y = .ok ({ r.1 with order := l }, r.2) := by
      intro r y hr
      refine runM_set' (fun s => { s with order := l }) ?_ hr
      intro s x r hr
      simp only [samplerStep, except_bind_ok] at hr ⊢
      obtain ⟨q, h1, h2⟩ := hr
      cases h2
      exact ⟨q, h1, rfl⟩
    simp only [procPrim, reState, procSampler, Prim.setOrder, bind, Except.bind] at hs ⊢
    repeat' split at hs
    all_goals first
      | (cases hs; done)
      | (cases hs; rename_i hr; simp only [hset hr, *]; done)
  | psampler s =>
    obtain ⟨s', hs, rfl⟩ := reState_node h
    simp only [procPrim, reState, procPSampler, Prim.setOrder, bind, Except.bind] at hs ⊢
    repeat' split at hs
    all_goals first
      | (cases hs; done)
      | (cases hs; rename_i hr; simp only [psRun_set hr]; done)
  | msgSynth s =>
    obtain ⟨s', hs, rfl⟩ := reState_node h
    have hset : ∀ {y}, run (msgSynthStep m) { s with order := l } y =
        ({ (run (msgSynthStep m) s y).1 with order := l }, (run (msgSynthStep m) s y).2) := by
      intro y
      exact run_set (fun s : MsgSynth => { s with order := l }) (f := msgSynthStep m) (fun s x => rfl)
    simp only [procPrim, reState, procMsgSynth, Prim.setOrder] at hs ⊢
    repeat' split at hs
    all_goals first
      | (cases hs; done)
      | (cases hs; simp only [hset]; done)
  | patSynth s =>
    simp only [procPrim, reState, procPatSynth, Prim.setOrder] at h ⊢
    cases h
    rfl

/-- The kinds of nodes that do not depend on the order in which their inputs are handed to them. -/
def Prim.blind : Prim → Bool
  | .pass | .sum | .sum2 | .delayms _ => false
  | _ => true

theorem inputAt_perm (hp : ins.Perm ins') (hn : (ins.map Prod.fst).Nodup) {k : Nat} :
    inputAt ins l k = inputAt ins' l k := by
  unfold inputAt
  cases l[k]? with
  | none => rfl
  | some i =>
    have : ins.find? (fun e => e.1 == i) = ins'.find? (fun e => e.1 == i) := by
      induction hp with
      | nil => rfl
      | cons x _ ih =>
        simp only [List.find?_cons]
        rw [ih (by simpa using (List.nodup_cons.mp hn).2)]
      | swap x y t =>
        simp only [List.map_cons, List.nodup_cons, List.mem_cons, not_or] at hn
        simp only [List.find?_cons]
        cases hx : x.1 == i <;> cases hy : y.1 == i <;> simp_all
      | trans h1 _ ih1 ih2 => exact (ih1 hn).trans (ih2 ((h1.map _).nodup_iff.mp hn))
    simp only [this]

theorem arrRun_same {a : Arrange} (h : ∀ {j i}, inputSample ins a.order j i = inputSample ins' a.order j i) :
    ∀ {b : Buf} {i k : Nat}, arrRun a ins i k b = arrRun a ins' i k b := by
  intro b
  induction b with
  | nil => intro i k; rfl
  | cons x b ih => intro i k; simp only [arrRun, h, ih]

/-- What the functions that tell their inputs apart by number do with the lists of inputs. -/
theorem procPrim_perm {n : Prim} (hb : n.blind = true) (hp : ins.Perm ins') (hn : (ins.map Prod.fst).Nodup) :
    procPrim m n ins out = procPrim m n ins' out := by
  have hi := fun {l k} => inputAt_perm (l := l) (k := k) hp hn
  have ha : ∀ {a : Arrange} {b : Buf} {i k : Nat}, arrRun a ins i k b = arrRun a ins' i k b :=
    arrRun_same (fun {j i} => by unfold inputSample; rw [inputAt_perm hp hn])
  have hv : ∀ {ro l sh i}, seqValue ins ro l sh i = seqValue ins' ro l sh i := by
    intro ro l sh i
    funext v
    unfold seqValue
    simp only [inputAt_perm hp hn]
  have hlen := hp.length_eq
  match ins, ins', hlen with
  | [], [], _ => rfl
  | [x], [y], _ =>
    have : x = y := by simpa using hp
    rw [this]
  | x :: x1 :: xs, y :: y1 :: ys, hlen =>
    have hz : xs = [] ↔ ys = [] := by
      simp only [List.length_cons, Nat.add_right_cancel_iff] at hlen
      rw [← List.length_eq_zero_iff, ← List.length_eq_zero_iff, hlen]
    cases n <;> first
      | (cases hb; done)
      | rfl
      | skip
    all_goals
      (rcases xs with _ | ⟨x2, xs⟩ <;> rcases ys with _ | ⟨y2, ys⟩ <;> first
        | (simp at hz; done)
        | (simp only [procPrim, applyOp, procMul, procAdd, procPan, procBalance, procDelayN, procOsc, procSin, procEnvPerc,
            procAdsr, procOnePole, procRhpf, procRlpf, procApf, hi]; done)
        | skip)
    all_goals first
      | (simp only [procPrim, procArrange, ha]; done)
      | (simp only [procPrim, procSeq, hi, hv]; done)

/-! ### Messages -/

/-- A message that is not about the wiring leaves the list of inputs alone. -/
theorem msgPrim_quiet {n n' : Prim} {g : Msg Fl} (hg : IsUser g ∨ ∃ v, g = .setBPM v) (h : msgPrim m n g = .ok n') :
    n'.order = n.order := by
  have ho : ∀ {b : Bool} {o : List Nat}, orderMsg b o g = .ok o := by
    intro b o
    rcases hg with hg | ⟨v, rfl⟩
    · cases g <;> first | exact hg.elim | rfl
    · rfl
  cases n with
  | pass => cases h; rfl
  | sum => cases h; rfl
  | sum2 => cases h; rfl
  | balance o =>
    obtain ⟨a, k, rfl⟩ := map_ok h
    rw [ho] at k
    cases k
    rfl
  | _ =>
    obtain ⟨a, k, rfl⟩ := map_ok h
    simp only [Arith.msg, panMsg, ConstSig.msg, Impulse.msg, Noise.msg, DelayN.msg, DelayMs.msg, Osc.msg, EnvPerc.msg,
      Adsr.msg, OnePole.msg, Rhpf.msg, Rlpf.msg, Apf.msg, Sequencer.msg, Arrange.msg, Choose.msg, Points.msg,
      Sampler.msg, PSampler.msg, MsgSynth.msg, PatternSynth.msg] at k
    repeat' split at k
    all_goals first
      | (cases k; done)
      | (cases k; rfl)
      | (rw [ho] at k; cases k; rfl)
      | exact msgEvent_order k
      | (simp only [except_bind_ok] at k
         first
          | (obtain ⟨_, _, k⟩ := k; cases k; rfl)
          | (obtain ⟨_, _, _, _, k⟩ := k; cases k; rfl))

/-- A message does not change what kind of node it is. -/
theorem msgPrim_kind {n n' : Prim} {g : Msg Fl} (h : msgPrim m n g = .ok n') :
    n'.keepsOrder = n.keepsOrder ∧ (n.headOnly → n'.headOnly) ∧ n'.blind = n.blind ∧ (n = .pass → n' = .pass) := by
  cases n <;> first
    | (cases h; exact ⟨rfl, id, rfl, id⟩)
    | (obtain ⟨a, k, rfl⟩ := map_ok h
       exact ⟨rfl, id, rfl, fun h => by cases h⟩)
    | skip
  rename_i s
  obtain ⟨a, k, rfl⟩ := map_ok h
  have : a.events = s.events := by
    simp only [Sequencer.msg] at k
    split at k
    · cases k; rfl
    · rw [except_bind_ok] at k
      obtain ⟨_, _, k⟩ := k
      cases k
      rfl
  refine ⟨rfl, ?_, rfl, fun h => by cases h⟩
  simp only [Prim.headOnly, this]
  exact id

/-- Nor does playing. -/
theorem procPrim_kind {n n' : Prim} (h : procPrim m n ins out = .ok (n', o)) :
    n'.keepsOrder = n.keepsOrder ∧ (n.headOnly → n'.headOnly) ∧ n'.blind = n.blind ∧ (n = .pass → n' = .pass) := by
  cases n <;> first
    | (cases h; exact ⟨rfl, id, rfl, id⟩)
    | (cases h; exact ⟨rfl, id, rfl, fun h => by cases h⟩)
    | (cases sameNode_node h; exact ⟨rfl, id, rfl, id⟩)
    | (obtain ⟨s, _, rfl⟩ := reState_node h; exact ⟨rfl, id, rfl, fun h => by cases h⟩)
    | skip
  rename_i s
  obtain ⟨a, k, rfl⟩ := reState_node h
  have : a.events = s.events := by
    unfold procSeq at k
    open_block k
  refine ⟨rfl, ?_, rfl, fun h => by cases h⟩
  simp only [Prim.headOnly, this]
  exact id

end

/-! ### All nodes -/

variable {P : Plat}

/-- The nodes that hear a single input through the head of their list. -/
def GNode.headOnly : GNode P → Prop
  | .prim n => n.headOnly
  | .compound _ => True
  | .script .. => True

/-- The nodes that do not depend on the order in which their inputs are handed to them. -/
def GNode.blind : GNode P → Prop
  | .prim n => n.blind = true
  | _ => False

theorem procG_head (hx : ExtFirst P) {n n' : GNode P} {x : Nat × List Buf} {l : List Nat} {out o : List Buf}
    (hh : n.order.head? = l.head?) (hn : n.headOnly) (h : procG P n [x] out = .ok (n', o)) :
    procG P (n.setOrder l) [x] out = .ok (n'.setOrder l, o) := by
  cases n with
  | prim n =>
    simp only [procG, GNode.setOrder] at h ⊢
    cases hr : procPrim P.libm n [x] out with
    | error e => rw [hr] at h; cases h
    | ok r =>
      obtain ⟨n1, o1⟩ := r
      rw [hr] at h
      cases h
      rw [procPrim_head hh hn hr]
      rfl
  | compound c =>
    have hx : inputAt [x] l 0 = inputAt [x] c.order 0 := inputAt_head hh.symm
    have hf : ∀ {r}, c.feed P.libm P.ho [x] out = .ok r →
        Compound.feed P.libm P.ho { c with order := l } [x] out = .ok ({ r.1 with order := l }, r.2) := by
      intro r hr
      simp only [Compound.feed, except_bind_ok, hx] at hr ⊢
      obtain ⟨main, h1, x1, h2, g, h3, ⟨g', y⟩, h4, l1, h5, r1, h6, o1, h7, hr⟩ := hr
      cases hr
      exact ⟨main, h1, x1, h2, g, h3, (g', y), h4, l1, h5, r1, h6, o1, h7, rfl⟩
    have hc : procCompound P.libm P.ho c [x] out = c.feed P.libm P.ho [x] out := by
      unfold procCompound
      cases c.kind <;> rfl
    have hc' : procCompound P.libm P.ho { c with order := l } [x] out =
        Compound.feed P.libm P.ho { c with order := l } [x] out := by
      unfold procCompound
      cases c.kind <;> rfl
    simp only [procG, GNode.setOrder, hc, hc'] at h ⊢
    cases hr : c.feed P.libm P.ho [x] out with
    | error e => rw [hr] at h; cases h
    | ok r =>
      rw [hr] at h
      cases h
      rw [hf hr]
      rfl
  | script o' s =>
    have hf : firstHeard l [x] = firstHeard o' [x] := by
      unfold firstHeard
      rw [inputAt_head (show l.head? = o'.head? from hh.symm)]
    simp only [procG, GNode.setOrder] at h ⊢
    rw [hx.first s o' l [x] [x] out hf.symm]
    cases hr : P.ext.proc s o' [x] out with
    | error e => rw [hr] at h; cases h
    | ok r =>
      rw [hr] at h
      cases h
      rfl

theorem procG_perm {n : GNode P} {ins ins' : Ins} {out : List Buf} (hb : n.blind) (hp : ins.Perm ins')
    (hn : (ins.map Prod.fst).Nodup) : procG P n ins out = procG P n ins' out := by
  cases n with
  | prim n => simp only [procG, procPrim_perm hb hp hn]
  | compound c => exact hb.elim
  | script o s => exact hb.elim

theorem sendTag_same {m : Libm} {c c' : Compound} {k : Nat} {g : Msg Fl} (h : c.sendTag m k g = .ok c') :
    c'.order = c.order ∧ c'.kind = c.kind := by
  unfold Compound.sendTag at h
  split at h
  · cases h
  · rw [except_bind_ok] at h
    obtain ⟨_, _, h⟩ := h
    cases h
    exact ⟨rfl, rfl⟩

theorem compoundMsg_kind {m : Libm} {c c' : Compound} {g : Msg Fl} (h : c.msg m g = .ok c') : c'.kind = c.kind := by
  unfold Compound.msg at h
  split at h
  · exact (sendTag_same h).2
  · exact (sendTag_same h).2
  · exact (sendTag_same h).2
  · simp only [except_bind_ok] at h
    obtain ⟨c1, h1, c2, h2, c3, h3, h4⟩ := h
    rw [(sendTag_same h4).2, (sendTag_same h3).2, (sendTag_same h2).2, (sendTag_same h1).2]
  · rw [except_bind_ok] at h
    obtain ⟨_, _, h⟩ := h
    cases h
    rfl

theorem compoundMsg_quiet {m : Libm} {c c' : Compound} {g : Msg Fl} (hg : IsUser g ∨ ∃ v, g = .setBPM v)
    (h : c.msg m g = .ok c') : c'.order = c.order := by
  have ho : ∀ {b : Bool} {o : List Nat}, orderMsg b o g = .ok o := by
    intro b o
    rcases hg with hg | ⟨v, rfl⟩
    · cases g <;> first | exact hg.elim | rfl
    · rfl
  unfold Compound.msg at h
  split at h
  · exact (sendTag_same h).1
  · exact (sendTag_same h).1
  · exact (sendTag_same h).1
  · simp only [except_bind_ok] at h
    obtain ⟨c1, h1, c2, h2, c3, h3, h4⟩ := h
    rw [(sendTag_same h4).1, (sendTag_same h3).1, (sendTag_same h2).1, (sendTag_same h1).1]
  · rw [ho] at h
    cases h
    rfl

/-- What a node is, as far as the wiring is concerned. -/
def GNode.sameKind (n n' : GNode P) : Prop :=
  (n'.keepsOrder ↔ n.keepsOrder) ∧ (n'.empties ↔ n.empties) ∧ (n.headOnly → n'.headOnly) ∧ (n'.blind ↔ n.blind) ∧
    (n = .prim .pass → n' = .prim .pass)

theorem prim_sameKind {n n' : Prim} (h : n'.keepsOrder = n.keepsOrder ∧ (n.headOnly → n'.headOnly) ∧
    n'.blind = n.blind ∧ (n = .pass → n' = .pass)) : GNode.sameKind (P := P) (.prim n) (.prim n') := by
  refine ⟨?_, ?_, h.2.1, ?_, ?_⟩
  · simp only [GNode.keepsOrder, h.1]
  · simp only [GNode.empties, h.1]
  · simp only [GNode.blind, h.2.2.1]
  · intro hp
    cases hp
    rw [h.2.2.2 rfl]

theorem msgG_kind {n n' : GNode P} {g : Msg Fl} (h : msgG P n g = .ok n') : n.sameKind n' := by
  cases n with
  | prim n =>
    obtain ⟨a, k, rfl⟩ := map_ok h
    exact prim_sameKind (msgPrim_kind k)
  | compound c =>
    obtain ⟨a, k, rfl⟩ := map_ok h
    refine ⟨Iff.rfl, ?_, id, Iff.rfl, fun h => by cases h⟩
    simp only [GNode.empties, compoundMsg_kind k]
  | script o s =>
    simp only [msgG] at h
    split at h
    · obtain ⟨a, k, rfl⟩ := map_ok h
      exact ⟨Iff.rfl, Iff.rfl, id, Iff.rfl, fun h => by cases h⟩
    · rw [except_bind_ok] at h
      obtain ⟨_, _, h⟩ := h
      cases h
      exact ⟨Iff.rfl, Iff.rfl, id, Iff.rfl, fun h => by cases h⟩

theorem msgG_quiet {n n' : GNode P} {g : Msg Fl} (hg : IsUser g ∨ ∃ v, g = .setBPM v) (h : msgG P n g = .ok n') :
    n'.order = n.order := by
  cases n with
  | prim n =>
    obtain ⟨a, k, rfl⟩ := map_ok h
    exact msgPrim_quiet hg k
  | compound c =>
    obtain ⟨a, k, rfl⟩ := map_ok h
    exact compoundMsg_quiet hg k
  | script o s =>
    simp only [msgG] at h
    split at h
    · obtain ⟨a, k, rfl⟩ := map_ok h
      rfl
    · rw [except_bind_ok] at h
      obtain ⟨o', h1, h⟩ := h
      cases h
      rcases hg with hg | ⟨v, rfl⟩
      · cases g <;> first | exact hg.elim | (cases h1; rfl)
      · cases h1; rfl

theorem procG_kind {n n' : GNode P} {ins : Ins} {out o : List Buf} (h : procG P n ins out = .ok (n', o)) :
    n.sameKind n' ∧ n'.order = n.order := by
  cases n with
  | prim n =>
    simp only [procG] at h
    cases hr : procPrim P.libm n ins out with
    | error e => rw [hr] at h; cases h
    | ok r =>
      obtain ⟨n1, o1⟩ := r
      rw [hr] at h
      cases h
      exact ⟨prim_sameKind (procPrim_kind hr), (procPrim_like hr).2.1⟩
  | compound c =>
    simp only [procG] at h
    cases hr : procCompound P.libm P.ho c ins out with
    | error e => rw [hr] at h; cases h
    | ok r =>
      obtain ⟨n1, o1⟩ := r
      rw [hr] at h
      cases h
      have hf : ∀ {c' : Compound} {o1 : List Buf}, c.feed P.libm P.ho ins out = .ok (c', o1) →
          c'.kind = c.kind ∧ c'.order = c.order := by
        intro c' o1 hr
        simp only [Compound.feed, except_bind_ok] at hr
        obtain ⟨main, h1, x1, h2, g, h3, ⟨g', y⟩, h4, l1, h5, r1, h6, o1, h7, hr⟩ := hr
        cases hr
        exact ⟨rfl, rfl⟩
      have : n1.kind = c.kind ∧ n1.order = c.order := by
        unfold procCompound at hr
        split at hr
        · exact hf hr
        · exact hf hr
        · cases hr; exact ⟨rfl, rfl⟩
      refine ⟨⟨Iff.rfl, ?_, id, Iff.rfl, fun h => by cases h⟩, this.2⟩
      simp only [GNode.empties, this.1]
  | script o s =>
    simp only [procG] at h
    cases hr : P.ext.proc s o ins out with
    | error e => rw [hr] at h; cases h
    | ok r =>
      obtain ⟨n1, o1⟩ := r
      rw [hr] at h
      cases h
      exact ⟨⟨Iff.rfl, Iff.rfl, id, Iff.rfl, fun h => by cases h⟩, rfl⟩

end Verif
