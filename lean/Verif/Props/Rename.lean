import Verif.Spec.Rename
import Verif.Lemmas.Rename
import Verif.Lemmas.Concrete
import Verif.Props.Settings
import Mathlib.Logic.Function.Basic

/-! # Names of chains do not matter (C83) -/

namespace Verif.Props.Rename
open Verif Spec Verif.Sim Verif.Rename Verif.Spec.PagePlay
open Verif.Spec.Rename (Dotted Renaming Mentions NoPatterns SameOrder)

variable {P : Plat} {N : Nat} {parse : Name → Except Panic (Option (Ast Comp))} {ρ : Name → Name}

theorem hasDots_iff (r : Name) : hasDots r = true ↔ Dotted r := by
  induction r with
  | nil =>
    refine ⟨fun h => (by cases h), ?_⟩
    rintro ⟨a, b, h⟩
    cases a <;> cases h
  | cons c l ih =>
    have hstep : Dotted (c :: l) ↔ (c = '.' ∧ ∃ b, l = '.' :: b) ∨ Dotted l := by
      constructor
      · rintro ⟨a, b, h⟩
        cases a with
        | nil => cases h; exact .inl ⟨rfl, b, rfl⟩
        | cons x a => cases h; exact .inr ⟨a, b, rfl⟩
      · rintro (⟨rfl, b, rfl⟩ | ⟨a, b, rfl⟩)
        · exact ⟨[], b, rfl⟩
        · exact ⟨c :: a, b, rfl⟩
    rw [hstep]
    unfold hasDots
    split
    · rename_i heq
      cases heq
      exact ⟨fun _ => .inl ⟨rfl, _, rfl⟩, fun _ => rfl⟩
    · rename_i hn heq
      cases heq
      rw [ih]
      refine ⟨.inr, ?_⟩
      rintro (⟨rfl, b, rfl⟩ | h)
      · exact (hn b rfl rfl).elim
      · exact h
    · rename_i heq
      cases heq

theorem good_of (h : Renaming ρ) : Verif.Rename.Good ρ := by
  refine ⟨h.inj, ?_, ?_, h.input⟩
  · intro a
    rw [Bool.eq_iff_iff]
    simp only [hasTilde, List.contains_iff_mem]
    exact h.tilde a
  · intro a
    rw [Bool.eq_iff_iff, hasDots_iff, hasDots_iff]
    exact h.dotted a

theorem num_eq (h : Verif.Rename.Good ρ) (a b : NumRef) : NumRef.eq (Spec.Rename.num ρ a) (Spec.Rename.num ρ b) = NumRef.eq a b := by
  cases a <;> cases b <;> try rfl
  simp only [Spec.Rename.num, NumRef.eq]
  exact decide_eq_decide.mpr ⟨h.inj _ _, congrArg ρ⟩

theorem nat_eq (h : Verif.Rename.Good ρ) (a b : NatRef) : decide (Spec.Rename.nat ρ a = Spec.Rename.nat ρ b) = decide (a = b) := by
  refine decide_eq_decide.mpr ⟨fun hx => ?_, congrArg _⟩
  cases a <;> cases b <;> simp only [Spec.Rename.nat, NatRef.nat.injEq, NatRef.ref.injEq, reduceCtorEq] at hx ⊢
  · exact hx
  · exact h.inj _ _ hx

theorem listEq_map {α : Type} {eq : α → α → Bool} {f : α → α} (h : ∀ a b, eq (f a) (f b) = eq a b) :
    ∀ l m : List α, listEq eq (l.map f) (m.map f) = listEq eq l m
  | [], [] => rfl
  | [], _ :: _ => rfl
  | _ :: _, [] => rfl
  | a :: l, b :: m => by simp only [List.map_cons, listEq, h, listEq_map h l m]

theorem comp_eq (h : Verif.Rename.Good ρ) (a b : Comp) : Comp.eq (Spec.Rename.comp ρ a) (Spec.Rename.comp ρ b) = Comp.eq a b := by
  cases a with
  | delayn p => cases b <;> first | rfl | exact nat_eq h _ _ | (rename_i s _; cases s <;> rfl)
  | delayms p | imp p | tri p | squ p | saw p | onepole p | sin p | mul p | add p | pan p | bd p | sn p | hh p =>
    cases b <;> first | rfl | exact num_eq h _ _ | (rename_i s _; cases s <;> rfl)
  | seq es =>
    cases b <;> first | rfl | (rename_i s _; cases s <;> rfl) | skip
    rename_i es'
    refine listEq_map (fun x y => ?_) es es'
    simp only [nat_eq h]
  | arrange es =>
    cases b <;> first | rfl | exact listEq_map (num_eq h) es _ | (rename_i s _; cases s <;> rfl)
  | mix ns =>
    cases b <;> first | rfl | (rename_i s _; cases s <;> rfl) | skip
    rename_i ns'
    exact decide_eq_decide.mpr ⟨fun hx => List.map_injective_iff.mpr (fun a b => h.inj a b) hx, congrArg _⟩
  | lpf s q =>
    cases s <;> cases b <;> first
      | rfl
      | (rename_i s _; cases s <;> first
        | rfl
        | (simp only [Spec.Rename.comp, Comp.eq, Signal.eq]; congr 1; exact decide_eq_decide.mpr ⟨h.inj _ _, congrArg ρ⟩))
  | balance l r =>
    cases b <;> first | rfl | (rename_i s _; cases s <;> rfl) | skip
    simp only [Spec.Rename.comp, Comp.eq]
    congr 1 <;> exact decide_eq_decide.mpr ⟨h.inj _ _, congrArg ρ⟩
  | rhpf c q =>
    cases b <;> first | rfl | (rename_i s _; cases s <;> rfl) | skip
    simp only [Spec.Rename.comp, Comp.eq, num_eq h]
  | apfmsgain c q =>
    cases b <;> first | rfl | (rename_i s _; cases s <;> rfl) | skip
    simp only [Spec.Rename.comp, Comp.eq, num_eq h]
  | get r =>
    cases b <;> first | rfl | (rename_i s _; cases s <;> rfl) | skip
    exact decide_eq_decide.mpr ⟨h.inj _ _, congrArg ρ⟩
  | psampler e span =>
    cases span <;> cases b <;> first | rfl | (rename_i s _; cases s <;> rfl) | (rename_i s; cases s <;> rfl)
  | _ => cases b <;> first | rfl | (rename_i s _; cases s <;> rfl)

theorem num_refs (a : NumRef) : (Spec.Rename.num ρ a).refs = a.refs.map ρ := by cases a <;> rfl
theorem nat_refs (a : NatRef) : (Spec.Rename.nat ρ a).refs = a.refs.map ρ := by cases a <;> rfl
theorem num_value (d : Fl) (a : NumRef) : (Spec.Rename.num ρ a).value d = a.value d := by cases a <;> rfl

theorem comp_refs (c : Comp) : (Spec.Rename.comp ρ c).refs = c.refs.map ρ := by
  cases c with
  | delayn p => exact nat_refs p
  | delayms p | imp p | tri p | squ p | saw p | onepole p | sin p | mul p | add p | pan p | bd p | sn p | hh p => exact num_refs p
  | rhpf p q => exact num_refs p
  | apfmsgain p q => exact num_refs p
  | seq es =>
    simp only [Spec.Rename.comp, Comp.refs, List.flatMap_map, List.map_flatMap, nat_refs]
  | arrange es =>
    simp only [Spec.Rename.comp, Comp.refs, List.flatMap_map, List.map_flatMap, num_refs]
  | lpf s q => cases s <;> rfl
  | _ => rfl

/-- A sequencer with renamed references. -/
def seqTo (ρ : Name → Name) (s : Sequencer) : Sequencer :=
  { s with events := s.events.map (fun e => (e.1, Spec.Rename.nat ρ e.2)), refOrder := keysTo ρ s.refOrder }

/-- An arrangement with renamed references. -/
def arrTo (ρ : Name → Name) (a : Arrange) : Arrange := { a with events := a.events.map (Spec.Rename.num ρ) }

/-- The same node, up to names of references that it stores. -/
inductive NodeTo (ρ : Name → Name) : GNode P → GNode P → Prop
  | same (n : GNode P) : NodeTo ρ n n
  | seq (s : Sequencer) : NodeTo ρ (.prim (.seq s)) (.prim (.seq (seqTo ρ s)))
  | arrange (a : Arrange) : NodeTo ρ (.prim (.arrange a)) (.prim (.arrange (arrTo ρ a)))

theorem seqSample_to (m : Libm) (bar : Fl) (step : Nat) {v v' : NatRef → Except Panic Fl} (hv : ∀ x, v' (Spec.Rename.nat ρ x) = v x) :
    ∀ (es : List (Fl × NatRef)) (out : Fl), seqSample m bar step v' (es.map (fun e => (e.1, Spec.Rename.nat ρ e.2))) out = seqSample m bar step v es out
  | [], _ => rfl
  | e :: es, out => by
    simp only [List.map_cons, seqSample, hv, seqSample_to m bar step hv es]

theorem procSeq_to (h : ∀ a b, ρ a = ρ b → a = b) (m : Libm) (s : Sequencer) (ins : Ins) (out : List Buf) :
    procSeq m (seqTo ρ s) ins out = (procSeq m s ins out).map (fun x => (seqTo ρ x.1, x.2)) := by
  cases ins with
  | nil =>
    cases out with
    | nil => rfl
    | cons b rest =>
      have hf : ∀ k, seqSample m (barLength s.bpm s.sr s.speed) k seqValue0 (s.events.map (fun e => (e.1, Spec.Rename.nat ρ e.2))) (.fin 0) =
          seqSample m (barLength s.bpm s.sr s.speed) k seqValue0 s.events (.fin 0) :=
        fun k => seqSample_to m _ k (fun x => by cases x <;> rfl) _ _
      simp only [procSeq, seqTo, hf]
      generalize runM _ s.step b = r
      cases r <;> rfl
  | cons i ins =>
    simp only [procSeq, seqTo]
    cases inputAt (i :: ins) s.order 0 with
    | error e => rfl
    | ok first =>
      simp only [bind, Except.bind]
      cases chan first 0 with
      | error e => rfl
      | ok fb =>
        simp only
        cases speedOf fb with
        | error e => rfl
        | ok sp =>
          simp only
          cases out with
          | nil => rfl
          | cons b rest =>
            simp only
            have hf : ∀ shift k, seqSample m (barLength s.bpm s.sr (sp.getD s.speed)) k
                (seqValue (i :: ins) (keysTo ρ s.refOrder) s.order shift (k - s.step)) (s.events.map (fun e => (e.1, Spec.Rename.nat ρ e.2))) (.fin 0) =
                seqSample m (barLength s.bpm s.sr (sp.getD s.speed)) k
                (seqValue (i :: ins) s.refOrder s.order shift (k - s.step)) s.events (.fin 0) := by
              intro shift k
              refine seqSample_to m _ k (fun x => ?_) _ _
              cases x with
              | nat n => rfl
              | ref r =>
                simp only [Spec.Rename.nat, seqValue]
                rw [lookup_inj h]
            simp only [hf]
            split <;> rfl

theorem seqMsg_to (s : Sequencer) (g : Msg Fl) : (seqTo ρ s).msg g = (s.msg g).map (seqTo ρ) := by
  unfold Sequencer.msg
  split
  · rfl
  · show (do let o ← orderMsg true s.order g; (.ok { seqTo ρ s with order := o } : Except Panic Sequencer)) = _
    cases orderMsg true s.order g <;> rfl

theorem arrFind_to (es : List NumRef) (pos : Fl) : ∀ (n j : Nat) (c : Fl), arrFind (es.map (Spec.Rename.num ρ)) pos n j c = arrFind es pos n j c
  | 0, _, _ => rfl
  | n + 1, j, c => by
    simp only [arrFind, List.getElem?_map]
    cases es[j * 2 + 1]? with
    | none => rfl
    | some x =>
      cases x with
      | ref r => rfl
      | num bar => simp only [Option.map_some, Spec.Rename.num, arrFind_to es pos n (j + 1)]

theorem arrRun_to (a : Arrange) (ins : Ins) : ∀ (old : Buf) (i step : Nat), arrRun (arrTo ρ a) ins i step old = arrRun a ins i step old
  | [], _, _ => rfl
  | o :: old, i, step => by
    simp only [arrRun, arrTo, arrFind_to, List.length_map]
    have ih := arrRun_to a ins old
    simp only [arrTo] at ih
    simp only [ih]

theorem procArrange_to (a : Arrange) (ins : Ins) (out : List Buf) :
    procArrange (arrTo ρ a) ins out = (procArrange a ins out).map (fun x => (arrTo ρ x.1, x.2)) := by
  cases out with
  | nil => rfl
  | cons b rest =>
    simp only [procArrange]
    rw [arrRun_to]
    show (do let (s, y) ← arrRun a ins 0 a.step b; (.ok ({ arrTo ρ a with step := s }, y :: rest) : Except Panic (Arrange × List Buf))) = _
    cases arrRun a ins 0 a.step b <;> rfl

theorem arrMsg_to (a : Arrange) (g : Msg Fl) : (arrTo ρ a).msg g = (a.msg g).map (arrTo ρ) := by
  unfold Arrange.msg
  split
  · simp only [arrTo, List.length_map]
    split
    · rfl
    · simp only [Except.map, List.map_append, List.map_replicate, List.map_cons, List.map_nil, Spec.Rename.num, arrTo]
  · show (do let o ← orderMsg true a.order g; (.ok { arrTo ρ a with order := o } : Except Panic Arrange)) = _
    cases orderMsg true a.order g <;> rfl

theorem msg_to {n n' : GNode P} (g : Msg Fl) (hn : NodeTo ρ n n') : ESim (NodeTo ρ) (msgG P n g) (msgG P n' g) := by
  cases hn with
  | same =>
    cases msgG P n g with
    | error p => exact .err p
    | ok m => exact .ok (.same m)
  | seq s =>
    show ESim (NodeTo ρ) (GNode.prim <$> (Prim.seq <$> s.msg g)) (GNode.prim <$> (Prim.seq <$> (seqTo ρ s).msg g))
    rw [seqMsg_to]
    cases s.msg g with
    | error p => exact .err p
    | ok m => exact .ok (.seq m)
  | arrange a =>
    show ESim (NodeTo ρ) (GNode.prim <$> (Prim.arrange <$> a.msg g)) (GNode.prim <$> (Prim.arrange <$> (arrTo ρ a).msg g))
    rw [arrMsg_to]
    cases a.msg g with
    | error p => exact .err p
    | ok m => exact .ok (.arrange m)

theorem proc_to (h : ∀ a b, ρ a = ρ b → a = b) {n n' : GNode P} (ins : Ins) (b : List Buf) (hn : NodeTo ρ n n') :
    ESim (fun x y : GNode P × List Buf => NodeTo ρ x.1 y.1 ∧ x.2 = y.2) (procG P n ins b) (procG P n' ins b) := by
  cases hn with
  | same =>
    cases procG P n ins b with
    | error p => exact .err p
    | ok m => exact .ok ⟨.same _, rfl⟩
  | seq s =>
    show ESim _ (reState GNode.prim (reState Prim.seq (procSeq P.libm s ins b))) (reState GNode.prim (reState Prim.seq (procSeq P.libm (seqTo ρ s) ins b)))
    rw [procSeq_to h]
    cases procSeq P.libm s ins b with
    | error p => exact .err p
    | ok m => exact .ok ⟨.seq _, rfl⟩
  | arrange a =>
    show ESim _ (reState GNode.prim (reState Prim.arrange (procArrange a ins b))) (reState GNode.prim (reState Prim.arrange (procArrange (arrTo ρ a) ins b)))
    rw [procArrange_to]
    cases procArrange a ins b with
    | error p => exact .err p
    | ok m => exact .ok ⟨.arrange _, rfl⟩

theorem node_sim (h : Verif.Rename.Good ρ) : NodeSim (glicol P N parse) (NodeTo ρ) :=
  ⟨fun _ _ g hn => msg_to g hn, fun _ _ ins b hn => proc_to h.inj ins b hn, .same _, .same _⟩

theorem seqRefs_to (h : ∀ a b, ρ a = ρ b → a = b) (es : List (Fl × NatRef)) :
    seqRefs (es.map (fun e => (e.1, Spec.Rename.nat ρ e.2))) = (seqRefs es).map ρ := by
  have : ∀ (es : List (Fl × NatRef)) (acc : List Name),
      (es.map (fun e => (e.1, Spec.Rename.nat ρ e.2))).foldl (fun acc e => match e.2 with
        | .nat _ => acc
        | .ref r => if acc.contains r then acc else acc ++ [r]) (acc.map ρ) =
      (es.foldl (fun acc e => match e.2 with
        | .nat _ => acc
        | .ref r => if acc.contains r then acc else acc ++ [r]) acc).map ρ := by
    intro es
    induction es with
    | nil => exact fun _ => rfl
    | cons e es ih =>
      intro acc
      obtain ⟨t, v⟩ := e
      cases v with
      | nat n => exact ih acc
      | ref r =>
        simp only [List.map_cons, List.foldl_cons, Spec.Rename.nat]
        have hc : (acc.map ρ).contains (ρ r) = acc.contains r := by
          rw [Bool.eq_iff_iff]
          simp only [List.contains_iff_mem, List.mem_map]
          exact ⟨fun ⟨a, ha, hx⟩ => h _ _ hx ▸ ha, fun ha => ⟨r, ha, rfl⟩⟩
        rw [hc]
        split
        · exact ih acc
        · have := ih (acc ++ [r])
          rw [List.map_append] at this
          exact this
  exact this es []

theorem seqNew_to (h : ∀ a b, ρ a = ρ b → a = b) (es : List (Fl × NatRef)) (sr : Nat) (b : Fl) :
    Sequencer.new (es.map (fun e => (e.1, Spec.Rename.nat ρ e.2))) sr b = seqTo ρ (Sequencer.new es sr b) := by
  simp only [Sequencer.new, seqTo, seqRefs_to h, enumFrom_map, keysTo, List.map_map]
  rfl

theorem makeRefs_to (h : ∀ a b, ρ a = ρ b → a = b) (c : Comp) : makeRefs (Spec.Rename.comp ρ c) = (makeRefs c).map ρ := by
  cases c with
  | seq es => exact seqRefs_to h es
  | lpf s q => cases s <;> rfl
  | delayn p => exact nat_refs p
  | delayms p | imp p | tri p | squ p | saw p | onepole p | sin p | mul p | add p | pan p | bd p | sn p | hh p => exact num_refs p
  | rhpf p q => exact num_refs p
  | apfmsgain p q => exact num_refs p
  | arrange es => exact comp_refs (.arrange es)
  | _ => rfl

/-- The components whose nodes store names. -/
def Named : Comp → Prop
  | .seq _ | .arrange _ => True
  | _ => False

theorem makePrim_to {m : Libm} {smp : List (Name × Sample)} {sr : Nat} {b : Fl} {seed : Nat} {c : Comp} (hc : ¬ Named c) :
    makePrim m smp sr b seed (Spec.Rename.comp ρ c) = makePrim m smp sr b seed c := by
  cases c with
  | seq | arrange => exact absurd trivial hc
  | lpf s q => cases s <;> rfl
  | delayn p => cases p <;> rfl
  | delayms p | imp p | tri p | squ p | saw p | onepole p | sin p | mul p | add p | pan p | bd p | sn p | hh p => cases p <;> rfl
  | rhpf p q => cases p <;> rfl
  | apfmsgain p q => cases p <;> rfl
  | _ => rfl

theorem makeCompound_to {m : Libm} {N : Nat} {c : Comp} : makeCompound m N (Spec.Rename.comp ρ c) = makeCompound m N c := by
  cases c with
  | bd p | sn p | hh p => cases p <;> rfl
  | lpf s q => cases s <;> rfl
  | _ => rfl

theorem make_to (h : ∀ a b, ρ a = ρ b → a = b) (smp : List (Name × Sample)) (sr : Nat) (b : Fl) (seed : Nat) (c : Comp) :
    ESim (fun x y => DSim (NodeTo ρ) x.1 y.1 ∧ y.2 = x.2.map ρ) (makeNode P N smp sr b seed c) (makeNode P N smp sr b seed (Spec.Rename.comp ρ c)) := by
  by_cases hc : Named c
  · cases c with
    | seq es =>
      refine .ok ⟨⟨?_, rfl⟩, seqRefs_to h es⟩
      show NodeTo ρ (.prim (.seq (Sequencer.new es sr b))) (.prim (.seq (Sequencer.new (es.map (fun e => (e.1, Spec.Rename.nat ρ e.2))) sr b)))
      rw [seqNew_to h]
      exact .seq _
    | arrange es => exact .ok ⟨⟨.arrange _, rfl⟩, makeRefs_to h (.arrange es)⟩
    | _ => exact absurd hc id
  · unfold makeNode
    rw [makePrim_to hc, makeCompound_to, makeRefs_to h]
    cases hp : makePrim P.libm smp sr b seed c with
    | some r =>
      simp only
      cases r with
      | error e => exact .err e
      | ok r => exact .ok ⟨⟨.same _, rfl⟩, rfl⟩
    | none =>
      simp only
      cases hk : makeCompound P.libm N c with
      | some r =>
        cases r with
        | error e => exact .err _
        | ok r => exact .ok ⟨⟨.same _, rfl⟩, rfl⟩
      | none =>
        cases c with
        | metaScript code =>
          simp only [Spec.Rename.comp]
          generalize P.ext.new true code sr = x
          cases x with
          | error e => exact .err _
          | ok r => exact .ok ⟨⟨.same _, rfl⟩, rfl⟩
        | eval code =>
          simp only [Spec.Rename.comp]
          generalize P.ext.new false code sr = x
          cases x with
          | error e => exact .err _
          | ok r => exact .ok ⟨⟨.same _, rfl⟩, rfl⟩
        | seq | arrange => exact absurd trivial hc
        | psampler e span => cases span <;> cases hp
        | lpf s q => cases s <;> cases hp
        | delayn p => cases p <;> cases hp
        | _ => first | (cases hp; done) | (cases hk; done)

theorem send_to : ∀ (msgs : List (Msg Fl)) {n n' : GNode P}, NodeTo ρ n n' → ESim (NodeTo ρ) (sendMsgs n msgs) (sendMsgs n' msgs)
  | [], _, _, h => .ok h
  | g :: msgs, n, n', h => by
    unfold sendMsgs
    have := msg_to g h
    revert this
    generalize msgG P n g = x
    generalize msgG P n' g = y
    intro h1
    cases h1 with
    | err p => exact .err p
    | ok h1 => exact send_to msgs h1

theorem run_to (h : ∀ a b, ρ a = ρ b → a = b) : ∀ (ins : List Ins) {n n' : GNode P} (b : List Buf), NodeTo ρ n n' →
    runBlocks (procG P) n' b ins = runBlocks (procG P) n b ins
  | [], _, _, _, _ => rfl
  | i :: ins, n, n', b, hn => by
    unfold runBlocks
    have := proc_to h i b hn
    revert this
    generalize procG P n i b = x
    generalize procG P n' i b = y
    intro h1
    cases h1 with
    | err p => rfl
    | @ok u v h1 =>
      obtain ⟨u1, u2⟩ := u
      obtain ⟨v1, v2⟩ := v
      obtain ⟨h1, h2⟩ := h1
      have h2 : u2 = v2 := h2
      subst h2
      simp only [run_to h ins u2 h1]

/-- A component plays the same whatever the names it refers to. -/
theorem play_to (h : ∀ a b, ρ a = ρ b → a = b) (env : Env) (c : Comp) (msgs : List (Msg Fl)) (ins : List Ins) :
    play P N env (Spec.Rename.comp ρ c) msgs ins = play P N env c msgs ins := by
  unfold play
  have := make_to (P := P) (N := N) h env.samples env.sr env.bpm env.seed c
  revert this
  generalize makeNode P N env.samples env.sr env.bpm env.seed c = x
  generalize makeNode P N env.samples env.sr env.bpm env.seed (Spec.Rename.comp ρ c) = y
  intro h1
  cases h1 with
  | err p => rfl
  | @ok u v h1 =>
    obtain ⟨⟨u1, u2⟩, u3⟩ := u
    obtain ⟨⟨v1, v2⟩, v3⟩ := v
    obtain ⟨⟨h1, h2⟩, _⟩ := h1
    have h2 : u2 = v2 := h2
    subst h2
    simp only
    have := send_to (ρ := ρ) msgs h1
    revert this
    generalize sendMsgs u1 msgs = x
    generalize sendMsgs v1 msgs = y
    intro h3
    cases h3 with
    | err p => rfl
    | ok h3 => simp only [run_to h ins u2 h3]

theorem select_stop {smp : List (Name × Sample)} {x : EngineError} : ∀ {es : Events}, selectSamples smp es = .error (.err x) → ∃ n, x = .nonExistSample n
  | [], h => by cases h
  | (v, t) :: es, h => by
    simp only [selectSamples] at h
    split at h
    · cases h
      exact ⟨_, rfl⟩
    · cases hs : selectSamples smp es with
      | error y =>
        rw [hs] at h
        cases h
        exact select_stop hs
      | ok r =>
        rw [hs] at h
        cases h

theorem liftP_bind_err {α β : Type} {x : Except Panic α} {f : α → Except Stop β} {e : EngineError}
    (h : (liftP x >>= f) = .error (.err e)) (hf : ∀ a, f a ≠ .error (.err e)) : False := by
  cases x with
  | error p => cases h
  | ok a => exact hf a h

theorem makePrim_stop {m : Libm} {smp : List (Name × Sample)} {sr : Nat} {b : Fl} {seed : Nat} {c : Comp} {x : EngineError}
    (h : makePrim m smp sr b seed c = some (.error (.err x))) : ∃ n, x = .nonExistSample n := by
  cases c with
  | psampler e span =>
    cases span with
    | none => cases h
    | some span =>
      have h := Option.some.inj h
      cases hs : selectSamples smp e with
      | error y =>
        rw [hs] at h
        cases h
        exact select_stop hs
      | ok r =>
        rw [hs] at h
        cases h
  | sp sym =>
    have h := Option.some.inj h
    split at h
    · cases h
      exact ⟨_, rfl⟩
    · exact (liftP_bind_err h (fun a h => by cases h)).elim
  | points ps span l => exact (liftP_bind_err (Option.some.inj h) (fun a h => by cases h)).elim
  | patternSynth s l => exact (liftP_bind_err (Option.some.inj h) (fun a h => by cases h)).elim
  | apfmsgain d g => exact (liftP_bind_err (Option.some.inj h) (fun a h => by cases h)).elim
  | lpf s q => cases s <;> cases h
  | delayn p => cases p <;> cases h
  | _ => cases h

theorem make_stop {smp : List (Name × Sample)} {sr : Nat} {b : Fl} {seed : Nat} {c : Comp} {x : EngineError}
    (h : makeNode P N smp sr b seed c = .error (.err x)) : errTo ρ x = x := by
  unfold makeNode at h
  split at h
  · rename_i r hp
    cases r with
    | error y =>
      cases h
      obtain ⟨n, rfl⟩ := makePrim_stop hp
      rfl
    | ok r => cases h
  · split at h
    · exact (liftP_bind_err h (fun a h => by cases h)).elim
    · split at h
      · exact (liftP_bind_err h (fun a h => by cases h)).elim
      · exact (liftP_bind_err h (fun a h => by cases h)).elim
      · cases h

theorem good_lang (h : Verif.Rename.Good ρ) : GoodLang (glicol P N parse) ρ (Spec.Rename.comp ρ) (NodeTo ρ) :=
  ⟨comp_eq h, comp_refs, make_to h.inj, fun _ _ _ _ _ _ hx => make_stop hx,
    fun _ _ _ _ c _ _ hx r hr => (makeRefs_mem c r).mp (makeNode_refs hx ▸ hr)⟩

theorem mentions_of_mem {c : Comp} {r : Name} (h : r ∈ c.refs) : Mentions c r := by
  cases c with
  | delayn p => cases p <;> simp_all [Comp.refs, NatRef.refs, Mentions]
  | delayms p | imp p | tri p | squ p | saw p | onepole p | sin p | mul p | add p | pan p | bd p | sn p | hh p =>
    cases p <;> simp_all [Comp.refs, NumRef.refs, Mentions]
  | rhpf p q => cases p <;> simp_all [Comp.refs, NumRef.refs, Mentions]
  | apfmsgain p q => cases p <;> simp_all [Comp.refs, NumRef.refs, Mentions]
  | lpf s q => cases s <;> simp_all [Comp.refs, Mentions]
  | get x => simp_all [Comp.refs, Mentions]
  | balance x y => simpa [Comp.refs, Mentions] using h
  | mix ns => exact h
  | seq es =>
    obtain ⟨⟨t, v⟩, h1, h2⟩ := List.mem_flatMap.mp h
    cases v with
    | nat n => cases h2
    | ref q => cases List.mem_singleton.mp h2; exact ⟨t, h1⟩
  | arrange es =>
    obtain ⟨v, h1, h2⟩ := List.mem_flatMap.mp h
    cases v with
    | num n => cases h2
    | ref q => cases List.mem_singleton.mp h2; exact h1
  | _ => cases h

theorem result_answer {L : Lang} (r : Option EngineError) : Verif.Spec.Rename.Result ρ (L := L) (.answer r) (.answer (r.map (errTo ρ))) := by
  cases r with
  | none => exact .answer (fun _ h => by cases h)
  | some x =>
    cases x with
    | nonExistReference n => exact .missing n
    | parsing => exact .answer (fun _ h => by cases h)
    | nonExistSample n => exact .answer (fun _ h => by cases h)

theorem gets_to (h : Renaming ρ) {ops ops' : List (Op (glicol P N parse))} (ho : List.Forall₂ (Verif.Spec.Rename.Call ρ) ops ops') :
    ∀ {e e' : Engine (glicol P N parse)}, Renamed ρ (Spec.Rename.comp ρ) (NodeTo ρ) e e' → List.Forall₂ (Verif.Spec.Rename.Result ρ) (gets e ops) (gets e' ops') := by
  have hg := good_of h
  have hN : NodeSim (glicol P N parse) (NodeTo ρ) := node_sim hg
  have hL : GoodLang (glicol P N parse) ρ (Spec.Rename.comp ρ) (NodeTo ρ) := good_lang hg
  induction ho with
  | nil => exact fun _ => .nil
  | @cons op op' ops ops' hop _ ih =>
    intro e e' he
    cases hop with
    | @program τ τ' code code' p hτ hp hn hp' =>
      have hu := updateAst_to hg hN hL he τ τ' hτ p (fun k comps hk c hc r hr => by
        have := hn k comps hk c hc r (mentions_of_mem hr)
        rw [← hasDots_iff] at this
        exact Bool.eq_false_iff.mpr this)
      simp only [gets, Engine.updateWithCode]
      rw [show (glicol P N parse).parse code = _ from hp, show (glicol P N parse).parse code' = _ from hp']
      simp only [bind, Except.bind]
      generalize e.updateAst τ p = x at hu
      change ESim _ x (e'.updateAst τ' (Spec.Rename.prog ρ p)) at hu
      generalize e'.updateAst τ' (Spec.Rename.prog ρ p) = y at hu
      cases hu with
      | err => exact .cons .panicked .nil
      | @ok a b hab =>
        obtain ⟨a1, a2⟩ := a
        obtain ⟨b1, b2⟩ := b
        obtain ⟨h1, h2⟩ := hab
        simp only at h2
        subst h2
        exact .cons (result_answer a2) (ih h1)
    | rejected hp hp' =>
      simp only [gets, Engine.updateWithCode]
      rw [show (glicol P N parse).parse _ = _ from hp, show (glicol P N parse).parse _ = _ from hp']
      exact .cons (.answer (fun _ h => by cases h)) (ih he)
    | message h1 h2 =>
      have hu := sendMsg_to hg hN he h1 h2
      simp only [gets, Op.apply]
      generalize e.sendMsg _ = x, e'.sendMsg _ = y at hu
      cases hu with
      | err => exact .cons .panicked .nil
      | ok hab => exact ih hab
    | block ho buf =>
      have hu := nextBlock_to hg hN he ho buf
      simp only [gets]
      generalize e.nextBlock ho buf = x, e'.nextBlock ho buf = y at hu
      cases hu with
      | err => exact .cons .panicked .nil
      | @ok a b hab =>
        obtain ⟨a1, a2⟩ := a
        obtain ⟨b1, b2⟩ := b
        obtain ⟨h1, h2⟩ := hab
        simp only at h2
        subst h2
        exact .cons (.block _) (ih h1)
    | bpm v =>
      have hu := setBpm_to hN he v
      simp only [gets, Op.apply]
      generalize e.setBpm v = x, e'.setBpm v = y at hu
      cases hu with
      | err => exact .cons .panicked .nil
      | ok hab => exact ih hab
    | sr v => exact ih ⟨he.N, he.graph, he.dest, he.input, he.ast, he.index, he.backup, he.samples, he.bpm, rfl, he.seed⟩
    | seed v => exact ih ⟨he.N, he.graph, he.dest, he.input, he.ast, he.index, he.backup, he.samples, he.bpm, he.sr, rfl⟩
    | trackAmp v => exact ih ⟨he.N, he.graph, he.dest, he.input, he.ast, he.index, he.backup, he.samples, he.bpm, he.sr, he.seed⟩
    | sample name s =>
      exact ih ⟨he.N, he.graph, he.dest, he.input, he.ast, he.index, he.backup, by simp only [Engine.addSample, he.samples], he.bpm, he.sr, he.seed⟩
    | reset => exact ih (reset_to hN he)

/-- **C83**: renaming the chains of all programs and messages of a history changes nothing but the names in reports of unknown chains. -/
theorem c83_names_do_not_matter (h : Renaming ρ) (M : Nat) (ops ops' : List (Op (glicol P N parse))) (ho : List.Forall₂ (Verif.Spec.Rename.Call ρ) ops ops') :
    List.Forall₂ (Verif.Spec.Rename.Result ρ) (gets (Engine.new _ M) ops) (gets (Engine.new _ M) ops') :=
  gets_to h ho (new_to (good_of h) (node_sim (good_of h)) M)

theorem keysTo_inj (h : Renaming ρ) {s t : Table} (hst : s.map (fun p => (ρ p.1, p.2)) = t.map (fun p => (ρ p.1, p.2))) : s = t := by
  refine List.map_injective_iff.mpr (fun a b hab => ?_) hst
  simp only [Prod.mk.injEq] at hab
  exact Prod.ext (h.inj _ _ hab.1) hab.2

/-- Every iteration order has its counterpart after renaming … -/
theorem c83_order_after (h : Renaming ρ) (τ : TableOrder) : ∃ τ', SameOrder ρ τ τ' := by
  classical
  refine ⟨⟨fun t => if hx : ∃ s : Table, t = s.map (fun p => (ρ p.1, p.2)) then (τ.ord hx.choose).map (fun p => (ρ p.1, p.2)) else t, ?_⟩, ?_⟩
  · intro t
    split
    · rename_i hx
      conv => rhs; rw [hx.choose_spec]
      exact (τ.perm _).map _
    · exact .refl t
  · intro s
    have hx : ∃ s' : Table, s.map (fun p => (ρ p.1, p.2)) = s'.map (fun p => (ρ p.1, p.2)) := ⟨s, rfl⟩
    show (if hx : _ then _ else _) = _
    rw [dif_pos hx, ← keysTo_inj h hx.choose_spec]

/-- … and before it. -/
theorem c83_order_before (h : Renaming ρ) (τ' : TableOrder) : ∃ τ, SameOrder ρ τ τ' := by
  have hinv : ∀ a, Function.invFun ρ (ρ a) = a := Function.leftInverse_invFun (fun a b => h.inj a b)
  refine ⟨⟨fun t => (τ'.ord (t.map (fun p => (ρ p.1, p.2)))).map (fun p => (Function.invFun ρ p.1, p.2)), ?_⟩, ?_⟩
  · intro t
    refine ((τ'.perm _).map _).trans ?_
    rw [List.map_map]
    conv => rhs; rw [← List.map_id t]
    refine List.Perm.of_eq (List.map_congr_left (fun p _ => ?_))
    simp only [Function.comp, hinv, id]
  · intro t
    simp only [List.map_map]
    refine ((List.map_id _).symm.trans (List.map_congr_left (fun p hp => ?_)))
    obtain ⟨q, _, rfl⟩ := List.mem_map.mp ((τ'.perm _).mem_iff.mp hp)
    simp only [Function.comp, hinv, id]

/-- Two names exchanged. -/
def swap (x y : Name) (n : Name) : Name := if n = x then y else if n = y then x else n

theorem swap_renaming : Renaming (swap c!"~a" c!"~bass") := by
  have hd : ∀ n, swap c!"~a" c!"~bass" n = n ∨ (n = c!"~a" ∧ swap c!"~a" c!"~bass" n = c!"~bass") ∨ (n = c!"~bass" ∧ swap c!"~a" c!"~bass" n = c!"~a") := by
    intro n
    unfold swap
    by_cases h1 : n = c!"~a"
    · exact .inr (.inl ⟨h1, if_pos h1⟩)
    · by_cases h2 : n = c!"~bass"
      · exact .inr (.inr ⟨h2, by rw [if_neg h1, if_pos h2]⟩)
      · exact .inl (by rw [if_neg h1, if_neg h2])
  have hnd : ∀ n, n = c!"~a" ∨ n = c!"~bass" → ¬ Dotted n := by
    rintro n (rfl | rfl) <;> rw [← hasDots_iff] <;> decide
  refine ⟨?_, ?_, ?_, by decide⟩
  · intro a b hab
    simp only [swap] at hab
    split at hab <;> split at hab <;> (try split at hab) <;> (try split at hab) <;> simp_all
  · intro a
    rcases hd a with h | ⟨rfl, h⟩ | ⟨rfl, h⟩ <;> rw [h] <;> decide
  · intro a
    rcases hd a with h | ⟨h1, h⟩ | ⟨h1, h⟩
    · rw [h]
    · exact ⟨fun hx => absurd hx (hnd _ (.inr h)), fun hx => absurd hx (hnd _ (.inl h1))⟩
    · exact ⟨fun hx => absurd hx (hnd _ (.inl h)), fun hx => absurd hx (hnd _ (.inr h1))⟩

/-- A case of `c83_names_do_not_matter`: a program, a message to its chain and a program with an unknown reference, with `~a` renamed to
`~bass`. -/
example (P : Plat) (fe : Name → Option Fl) : ∃ ops ops' : List (Op (glicol P 2 (Parse.parse fe))),
    ops = [.update .ident c!"o: mul ~a\n~a: constsig 3", .sendMsg c!"~a,0,0,5", .nextBlock .ident [], .update .ident c!"o: mul ~a"] ∧
    ops' = [.update .ident c!"o: mul ~bass\n~bass: constsig 3", .sendMsg c!"~bass,0,0,5", .nextBlock .ident [], .update .ident c!"o: mul ~bass"] ∧
    List.Forall₂ (Verif.Spec.Rename.Call (swap c!"~a" c!"~bass")) ops ops' := by
  refine ⟨_, _, rfl, rfl, .cons ?_ (.cons ?_ (.cons (.block _ _) (.cons ?_ .nil)))⟩
  · refine .program (p := [(c!"o", [.mul (.ref c!"~a")]), (c!"~a", [.constsig (.fin 3)])]) (fun _ => rfl) (by kernel_rfl) ?_ (by kernel_rfl)
    intro k comps hk c hc r hr
    simp only [List.mem_cons, List.not_mem_nil, or_false, Prod.mk.injEq] at hk
    rcases hk with ⟨rfl, rfl⟩ | ⟨rfl, rfl⟩ <;> simp only [List.mem_cons, List.not_mem_nil, or_false] at hc <;> subst hc
    · cases hr
      rw [← hasDots_iff]
      decide
    · cases hr
  · refine .message (cmds := [[c!"~a", c!"0", c!"0", c!"5"]]) ⟨by decide, by decide,
      fun fs f h1 h2 => (by decide : ∀ fs ∈ ([[c!"~a", c!"0", c!"0", c!"5"]] : List (List Name)), ∀ f ∈ fs, ',' ∉ f) fs h1 f h2,
      fun fs f h1 h2 => (by decide : ∀ fs ∈ ([[c!"~a", c!"0", c!"0", c!"5"]] : List (List Name)), ∀ f ∈ fs, ';' ∉ f) fs h1 f h2⟩ ⟨by decide, by decide,
      fun fs f h1 h2 => (by decide : ∀ fs ∈ ([[c!"~bass", c!"0", c!"0", c!"5"]] : List (List Name)), ∀ f ∈ fs, ',' ∉ f) fs h1 f h2,
      fun fs f h1 h2 => (by decide : ∀ fs ∈ ([[c!"~bass", c!"0", c!"0", c!"5"]] : List (List Name)), ∀ f ∈ fs, ';' ∉ f) fs h1 f h2⟩
  · refine .program (p := [(c!"o", [.mul (.ref c!"~a")])]) (fun _ => rfl) (by kernel_rfl) ?_ (by kernel_rfl)
    intro k comps hk c hc r hr
    simp only [List.mem_cons, List.not_mem_nil, or_false, Prod.mk.injEq] at hk
    obtain ⟨rfl, rfl⟩ := hk
    simp only [List.mem_cons, List.not_mem_nil, or_false] at hc
    subst hc
    cases hr
    rw [← hasDots_iff]
    decide

/-- What is heard in a case with a message. -/
example (P : Plat) (fe : Name → Option Fl) :
    gets (Engine.new (glicol P 2 (Parse.parse fe)) 2)
      [.update .ident c!"o: constsig 2 >> mul ~bass\n~bass: constsig 3", .sendMsg c!"~bass,0,0,5", .nextBlock .ident []] =
      [.answer none, .block (List.replicate 2 [.fin 10, .fin 10])] :=
  Settings.getsFuel_spec (by kernel_rfl)

/-- References to several chains go by the beginnings of names, so the condition on them cannot be dropped: `mix ~a..` finds `~ab` and no
longer finds it when it is renamed to `~x`. -/
theorem c83_patterns_go_by_name (P : Plat) (fe : Name → Option Fl) :
    gets (Engine.new (glicol P 2 (Parse.parse fe)) 2) [.update .ident c!"o: mix ~a..\n~ab: constsig 3", .nextBlock .ident []] =
      [.answer none, .block (List.replicate 2 [.fin 3, .fin 3])] ∧
    gets (Engine.new (glicol P 2 (Parse.parse fe)) 2) [.update .ident c!"o: mix ~a..\n~x: constsig 3", .nextBlock .ident []] =
      [.answer (some (.nonExistReference c!"~a..")), .block (List.replicate 2 [.fin 0, .fin 0])] :=
  ⟨Settings.getsFuel_spec (by kernel_rfl), Settings.getsFuel_spec (by kernel_rfl)⟩

end Verif.Props.Rename
