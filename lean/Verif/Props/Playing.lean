import Verif.Lemmas.SafeG
import Verif.Lemmas.SafeScript
import Verif.Lemmas.KernelRfl
import Verif.Spec.Demo
import Verif.Props.Api

/-!
# Playing a program (C37)

The statement of C37 in full: after any calls none of which panicked, and in particular after any
accepted program, `next_block` does not panic. It is false: see the counterexamples at the end.
-/

namespace Verif.Props
open Verif Spec

variable {P : Plat} {N : Nat} {parse : Name → Except Panic (Option (Ast Comp))}

/-- Any number of blocks in a row, with the given hash orders, all render. -/
def AllRender {L : Lang} : Engine L → List HashOrder → Prop
  | _, [] => True
  | e, ho :: hos => ∃ e' out, e.nextBlock ho [] = .ok (e', out) ∧ AllRender e' hos

/-- **C37** (partial). Take any history of calls in which every program sent satisfies `SafeProg`
(settings in range, each node gets a number of inputs it can take, no chain ends in a node that refers
to its own chain, no repeated components, no reordering of kept components), every tempo set is in
`(0, 960]`, and every message to a single node satisfies `SafeMsg` (the value it sets is in range for the component it names);
of the code of scripted nodes it is assumed that it does not fail (`hT`; for the real scripts see
`c37_playing_scripts_partial`); of the standard library it is assumed that the sine
of a number is between -1 and 1 (`plate` moves a delay by a sine) and that noise is, too. Then any number of further blocks renders without
panic. Missing: the programs and messages excluded by `SafeProg` and `SafeMsg` that nevertheless play. -/
theorem c37_playing_never_panics_partial (hw : ParserWf (glicol P N parse)) (hN : 1 ≤ N)
    (hm : ∀ a b, Within (-1) 1 (P.libm.noise a b)) (hsin : SinBounded P.libm) {script : Bool → Name → Bool → Prop}
    {isMeta : P.ext.State → Bool} {T : Bool → P.ext.State → Prop} (hT : ScriptsBehave P N script isMeta T)
    {e : Engine (glicol P N parse)} (hr : ReachBy (glicol P N parse) (SafeCall script) e)
    (he : e.N = N) (hos : List HashOrder) : AllRender e hos := by
  induction hos generalizing e with
  | nil => trivial
  | cons ho hos ih =>
    obtain ⟨e', out, h⟩ := block_total hw (glicol_eqLaws P N parse) (glicol_refLaws P N parse)
      (safe_laws hN hm hsin hT) hr he ho [] rfl
    refine ⟨e', out, h, ih ?_ ?_⟩
    · refine .step (.nextBlock ho []) hr trivial ?_
      simp only [Op.apply, h, bind, Except.bind]
    · have := apply_N hw (reachBy_reachable hr) (op := .nextBlock ho []) (e' := e')
        (by simp only [Op.apply, h, bind, Except.bind])
      rw [this, he]

/-- **C37** (partial), with external input: if in addition the engine was not reset, a block with two
input channels of block length renders, too. -/
theorem c37_playing_with_input_partial (hw : ParserWf (glicol P N parse)) (hN : 1 ≤ N)
    (hm : ∀ a b, Within (-1) 1 (P.libm.noise a b)) (hsin : SinBounded P.libm) {script : Bool → Name → Bool → Prop}
    {isMeta : P.ext.State → Bool} {T : Bool → P.ext.State → Prop} (hT : ScriptsBehave P N script isMeta T)
    {U : P.ext.State → Prop} (hU : ExtShape P N U)
    {e : Engine (glicol P N parse)} (hr : ReachBy (glicol P N parse) (SafeCall script) e)
    (hi : InputReach (glicol P N parse) e) (he : e.N = N) (ho : HashOrder) (b0 b1 : List Fl)
    (h0 : b0.length = N) (h1 : b1.length = N) :
    ∃ e' out, e.nextBlock ho [b0, b1] = .ok (e', out) := by
  obtain ⟨_, i, d, a2, a3, a4⟩ := inputOk_reach hw (glicol_shape hU) hi he
  have hlen : d.buffers.length = 2 := by
    have := congrArg List.length a4
    simpa using this
  obtain ⟨x, y, hxy⟩ : ∃ x y, d.buffers = [x, y] := by
    match hd : d.buffers, hlen with
    | [x, y], _ => exact ⟨x, y, rfl⟩
  rw [hxy] at a4
  simp only [List.map_cons, List.map_nil, List.cons.injEq, and_true] at a4
  exact block_total hw (glicol_eqLaws P N parse) (glicol_refLaws P N parse)
    (safe_laws hN hm hsin hT) hr he ho [b0, b1]
    (copyInputs_two a2 a3 hxy (a4.1.trans (he.trans h0.symm)) (a4.2.trans (he.trans h1.symm)))

/-- **C37** (partial), with the two scripted nodes as they are: a formula has to be well-formed and must use only variables that
have a value (`SafeFormula`; `in` only if the node has an input); `meta` may have any code. -/
theorem c37_playing_scripts_partial {libm : Libm} {ho : HashOrder} {F : FastEval} {R : Rhai}
    (hw : ParserWf (glicol ⟨libm, ho, scripts F R⟩ N parse)) (hN : 1 ≤ N)
    (hm : ∀ a b, Within (-1) 1 (libm.noise a b)) (hsin : SinBounded libm)
    {e : Engine (glicol ⟨libm, ho, scripts F R⟩ N parse)} (hr : ReachBy _ (SafeCall (SafeScript F)) e)
    (he : e.N = N) (hos : List HashOrder) : AllRender e hos :=
  c37_playing_never_panics_partial hw hN hm hsin Script.scripts_behave hr he hos

/-! ### An example -/

/-- The platform of the example: small languages of scripts. -/
def playPlat : Plat := ⟨Demo.libm, .ident, scripts Demo.fasteval Demo.rhai⟩

/-- ```
o: saw 100 >> mul ~a >> pan 0.25
~a: imp 4 >> envperc 0.01 0.1
p: seq 60 67 >> bd 0.5 >> plate 0.3
q: constsig 1 >> eval ` x :=x+in;x` >> meta `echo`
``` -/
def demoProg : Ast Comp :=
  [(['o'], [.saw (.num (.fin 100)), .mul (.ref ['~', 'a']), .pan (.num (.fin (1 / 4)))]),
   (['~', 'a'], [.imp (.num (.fin 4)), .envperc (dec (1 / 100)) (dec (1 / 10))]),
   (['p'], [.seq [(.fin 0, .nat 60), (.fin (1 / 2), .nat 67)], .bd (.num (.fin (1 / 2))), .plate (dec (3 / 10))]),
   (['q'], [.constsig (.fin 1), .eval c!" x :=x+in;x", .metaScript c!"echo"])]

/-- Messages to the impulses, to the decay of the envelope and to the formula; the fourth command names no chain. -/
def demoMsg : Name := c!"~a,0,0,8; ~a,1,1,0.5; q,1,0,phase; r,0,0,1"

/-- The language of the examples with this single program. -/
abbrev demoLang : Lang := glicol playPlat 8 (Demo.table [(['1'], demoProg)])

theorem play_noise (a b : Nat) : Within (-1) 1 (playPlat.libm.noise a b) :=
  ⟨rfl, by show (-1 : ℚ) ≤ 0; norm_num, by show (0 : ℚ) ≤ 1; norm_num⟩

theorem demo_sin : SinBounded playPlat.libm :=
  fun _ _ => ⟨rfl, by show (-1 : ℚ) ≤ 0; norm_num, by show (0 : ℚ) ≤ 1; norm_num⟩

theorem demo_mem {k : Name} {c : List Comp} (h : (k, c) ∈ demoProg) :
    (k = ['o'] ∧ c = [.saw (.num (.fin 100)), .mul (.ref ['~', 'a']), .pan (.num (.fin (1 / 4)))]) ∨
    (k = ['~', 'a'] ∧ c = [.imp (.num (.fin 4)), .envperc (dec (1 / 100)) (dec (1 / 10))]) ∨
    (k = ['p'] ∧
      c = [.seq [(.fin 0, .nat 60), (.fin (1 / 2), .nat 67)], .bd (.num (.fin (1 / 2))), .plate (dec (3 / 10))]) ∨
    (k = ['q'] ∧ c = [.constsig (.fin 1), .eval c!" x :=x+in;x", .metaScript c!"echo"]) := by
  simpa only [demoProg, List.mem_cons, Prod.mk.injEq, List.not_mem_nil, or_false] using h

theorem demo_parse {code : Name} {p : Ast Comp} (h : demoLang.parse code = .ok (some p)) :
    p = demoProg := by
  have h : lookup [(['1'], demoProg)] code = some p := Except.ok.inj h
  have := lookup_mem h
  simp only [List.mem_singleton, Prod.mk.injEq] at this
  exact this.2

theorem demo_wf : ParserWf demoLang := by
  intro code p h
  obtain rfl := demo_parse h
  refine ⟨by decide, ?_⟩
  intro k c hc
  rcases demo_mem hc with ⟨_, rfl⟩ | ⟨_, rfl⟩ | ⟨_, rfl⟩ | ⟨_, rfl⟩ <;> exact List.cons_ne_nil _ _

theorem demo_kept (comps : List Comp) : OrderKept Comp.eq [] comps := by
  unfold OrderKept
  simp

theorem demo_time {v : Fl} (h : Fl.lt (.fin (2 ^ 20)) v = false) : TimeOk v := h

/-- The running sum needs an input. -/
theorem demo_formula : SafeFormula Demo.fasteval c!" x :=x+in;x" true := by
  refine ⟨[(c!"x", c!"x+in")], c!"x", .assign (a := c!" ") (x := c!"x") (b := c!" ") (s := c!"x+in") (by simp [BlankText])
    (by simp [VarName]) (by simp [BlankText]) ⟨by decide, by decide, rfl⟩ (.last ⟨by decide, by decide, rfl⟩), ?_, ?_⟩
  · intro m hm
    obtain ⟨v, hv⟩ := Option.ne_none_iff_exists'.mp (hm c!"x" (by simp))
    obtain ⟨w, hw⟩ := Option.ne_none_iff_exists'.mp (hm c!"in" (by simp))
    show (match m c!"x", m c!"in" with | some v, some w => some (Fl.add f64 v w) | _, _ => none) ≠ none
    rw [hv, hw]
    simp
  · intro m hm
    exact hm c!"x" (by simp)

/-- The number of the sample can be used always. -/
theorem demo_phase (input : Bool) : SafeFormula Demo.fasteval c!"phase" input := by
  refine ⟨[], c!"phase", .last ⟨by decide, by decide, rfl⟩, fun m hm => ?_⟩
  exact hm c!"phase" (by simp)

theorem demo_safe : SafeProg (SafeScript Demo.fasteval) (Engine.new demoLang 8) demoProg := by
  refine ⟨⟨?_, by decide⟩, ?_, ?_, ⟨by decide, by decide⟩, ⟨120, rfl, by norm_num, by norm_num⟩, ?_, ?_, ?_⟩
  · intro k c hc
    show c.Pairwise (fun a b => Comp.eq a b = false)
    rcases demo_mem hc with ⟨_, rfl⟩ | ⟨_, rfl⟩ | ⟨_, rfl⟩ | ⟨_, rfl⟩ <;> decide +kernel
  · intro k comps c hk hc r hr
    left
    rcases demo_mem hk with ⟨_, rfl⟩ | ⟨_, rfl⟩ | ⟨_, rfl⟩ | ⟨_, rfl⟩ <;>
      simp only [List.mem_cons, List.not_mem_nil, or_false] at hc
    · rcases hc with rfl | rfl | rfl
      · cases hr
      · simp only [Comp.refs, NumRef.refs, List.mem_singleton] at hr
        subst hr
        decide
      · cases hr
    · rcases hc with rfl | rfl <;> cases hr
    · rcases hc with rfl | rfl | rfl <;> cases hr
    · rcases hc with rfl | rfl | rfl <;> cases hr
  · intro k old comps ho _
    rcases ho with ⟨a, ha, _⟩ | ⟨rfl, _⟩
    · cases ha
    · exact demo_kept comps
  · intro n s h
    cases h
  · intro k comps c hk hc
    rcases demo_mem hk with ⟨_, rfl⟩ | ⟨_, rfl⟩ | ⟨_, rfl⟩ | ⟨_, rfl⟩ <;>
      simp only [List.mem_cons, List.not_mem_nil, or_false] at hc
    · rcases hc with rfl | rfl | rfl <;> trivial
    · rcases hc with rfl | rfl
      · exact ⟨4, rfl, by norm_num, by show (4 : ℚ) ≤ ((44100 : Nat) : ℚ); norm_num⟩
      · exact ⟨demo_time (by decide +kernel), demo_time (by decide +kernel)⟩
    · rcases hc with rfl | rfl | rfl
      · intro e he
        simp only [List.mem_cons, List.not_mem_nil, or_false] at he
        rcases he with rfl | rfl <;> exact ⟨_, rfl⟩
      · exact demo_time (by decide +kernel)
      · trivial
    · rcases hc with rfl | rfl | rfl <;> trivial
  · intro k comps i c hk hi
    rcases demo_mem hk with ⟨rfl, rfl⟩ | ⟨rfl, rfl⟩ | ⟨rfl, rfl⟩ | ⟨rfl, rfl⟩
    · match i, hi with
      | 0, hi => cases hi; exact ⟨fun m _ => trivial, .inr (fun h => by cases h)⟩
      | 1, hi => cases hi; exact ⟨fun m _ => trivial, .inr (fun h => by cases h)⟩
      | 2, hi =>
        cases hi
        exact ⟨fun m _ => Nat.le_add_right 1 m, .inr (fun _ r hr => by cases hr)⟩
    · match i, hi with
      | 0, hi => cases hi; exact ⟨fun m _ => trivial, .inl trivial⟩
      | 1, hi => cases hi; exact ⟨fun m _ => trivial, .inr (fun _ r hr => by cases hr)⟩
    · match i, hi with
      | 0, hi =>
        cases hi
        refine ⟨fun m hm => ?_, .inr (fun h => by cases h)⟩
        have : m = 0 := hm (fun r hr => by cases hr)
        subst this
        rfl
      | 1, hi => cases hi; exact ⟨fun m _ => trivial, .inr (fun _ r hr => by cases hr)⟩
      | 2, hi => cases hi; exact ⟨fun m _ => Nat.le_add_right 1 m, .inr (fun _ r hr => by cases hr)⟩
    · match i, hi with
      | 0, hi => cases hi; exact ⟨fun m _ => trivial, .inr (fun h => by cases h)⟩
      | 1, hi =>
        cases hi
        refine ⟨fun m _ => ?_, .inr (fun h => by cases h)⟩
        have : decide (1 + m ≠ 0) = true := by simp
        show SafeFormula _ _ (decide (1 + m ≠ 0))
        rw [this]
        exact demo_formula
      | 2, hi => cases hi; exact ⟨fun m _ => trivial, .inr (fun _ r hr => by cases hr)⟩

theorem demo_msg_safe {e : Engine demoLang} (ha : e.ast = some demoProg) : SafeMsg (SafeScript Demo.fasteval) e demoMsg := by
  intro cmds hs chain p q v rest hm pos par m hpos hpar hv a comps c ha' hk hc
  rw [ha] at ha'
  cases ha'
  have hcmds := splits_eq hs
  rw [show (splitOn ';' (demoMsg.filter (fun c => !decide (c.toNat ∈ whiteSpace)))).map (splitOn ',') =
    [[c!"~a", c!"0", c!"0", c!"8"], [c!"~a", c!"1", c!"1", c!"0.5"], [c!"q", c!"1", c!"0", c!"phase"], [c!"r", c!"0", c!"0", c!"1"]]
    from by kernel_rfl] at hcmds
  subst hcmds
  obtain rfl := position_eq hpos
  obtain rfl := position_eq hpar
  obtain rfl := valueMsg_eq hv
  simp only [List.mem_cons, List.not_mem_nil, or_false, List.cons.injEq] at hm
  rcases hm with ⟨rfl, rfl, rfl, rfl, -⟩ | ⟨rfl, rfl, rfl, rfl, -⟩ | ⟨rfl, rfl, rfl, rfl, -⟩ | ⟨rfl, rfl, rfl, rfl, -⟩
  · rcases demo_mem hk with ⟨h, rfl⟩ | ⟨h, rfl⟩ | ⟨h, rfl⟩ | ⟨h, rfl⟩ <;> first | exact absurd h (by decide) | cases hc
    rw [show valueMsg demoLang _ _ = .setToNumber 0 (.fin 8) from by kernel_rfl]
    exact fun _ => ⟨8, rfl, by norm_num, by norm_num⟩
  · rcases demo_mem hk with ⟨h, rfl⟩ | ⟨h, rfl⟩ | ⟨h, rfl⟩ | ⟨h, rfl⟩ <;> first | exact absurd h (by decide) | cases hc
    rw [show valueMsg demoLang _ _ = .setToNumber 1 (.fin (1 / 2)) from by kernel_rfl]
    exact fun _ => demo_time (by decide +kernel)
  · rcases demo_mem hk with ⟨h, rfl⟩ | ⟨h, rfl⟩ | ⟨h, rfl⟩ | ⟨h, rfl⟩ <;> first | exact absurd h (by decide) | cases hc
    rw [show valueMsg demoLang _ _ = .setToSymbol 0 c!"phase" from by kernel_rfl]
    exact fun _ input => demo_phase input
  · rcases demo_mem hk with ⟨h, rfl⟩ | ⟨h, rfl⟩ | ⟨h, rfl⟩ | ⟨h, rfl⟩ <;> exact absurd h (by decide)

theorem demo_update : ∃ e e' : Engine demoLang,
    (Engine.new demoLang 8).updateWithCode TableOrder.ident ['1'] = .ok (e, none) ∧ e.ast = some demoProg ∧ e.sendMsg demoMsg = .ok e' := by
  have h : (match (Engine.new demoLang 8).updateWithCode TableOrder.ident ['1'] with
    | .ok (e, none) => (match e.sendMsg demoMsg with | .ok _ => e.ast | _ => none)
    | _ => none) = some demoProg := by kernel_rfl
  split at h
  · next e he =>
    cases hm : e.sendMsg demoMsg with
    | ok e' => rw [hm] at h; exact ⟨e, e', he, h, hm⟩
    | error p => rw [hm] at h; cases h
  · cases h

/-- The hypotheses of all theorems are met by a real program, followed by a real message. -/
example : ∃ e e' : Engine demoLang,
    (Engine.new demoLang 8).updateWithCode TableOrder.ident ['1'] = .ok (e, none) ∧ e.sendMsg demoMsg = .ok e' ∧
    AllRender e' [.ident, .rev, .ident] ∧
    ∃ e'' out, e'.nextBlock .rev [List.replicate 8 (.fin 1), List.replicate 8 (.fin (-1))] =
      .ok (e'', out) := by
  obtain ⟨e, e', he, ha, he'⟩ := demo_update
  have hs : Op.apply (Engine.new demoLang 8) (.update TableOrder.ident ['1']) = .ok e := by
    simp only [Op.apply, he, bind, Except.bind]
  have hs' : Op.apply e (.sendMsg demoMsg) = .ok e' := he'
  have hr : ReachBy demoLang (SafeCall (SafeScript Demo.fasteval)) e' :=
    .step (.sendMsg demoMsg) (.step (.update TableOrder.ident ['1']) (.new 8)
      (fun p hp => by obtain rfl := demo_parse hp; exact demo_safe) hs) (demo_msg_safe ha) hs'
  have hi : InputReach demoLang e' :=
    .step (.sendMsg demoMsg) (.step (.update TableOrder.ident ['1']) (.new 8)
      (fun p hp => by obtain rfl := demo_parse hp; decide) hs) trivial hs'
  have hN : e'.N = 8 := (apply_N demo_wf (.step _ (.new 8) hs) hs').trans (apply_N demo_wf (.new 8) hs)
  exact ⟨e, e', he, he', c37_playing_scripts_partial demo_wf (by decide) play_noise demo_sin hr hN _,
    c37_playing_with_input_partial demo_wf (by decide) play_noise demo_sin Script.scripts_behave Script.scripts_shape hr hi hN .rev _ _
      rfl rfl⟩

/-! ### Programs that are accepted and then panic -/

/-- **C37 does not hold in full**: `o: pan 0.5` is accepted, and the next block panics, because `pan`
reads its first input without looking whether there is one (rs/synth/src/node/effect/pan.rs:20-41). -/
theorem c37_pan_without_input_panics (P : Plat) :
    Demo.PanicsAfter P 8 (Demo.table [(['1'], [(['o'], [.pan (.num (.fin (1 / 2)))])])])
      (Engine.new _ 8) [['1']] :=
  Demo.panics_spec (by kernel_rfl)

/-- `o: delayms 100` is accepted and panics. -/
theorem c37_delayms_without_input_panics (P : Plat) :
    Demo.PanicsAfter P 8 (Demo.table [(['1'], [(['o'], [.delayms (.num (.fin 100))])])])
      (Engine.new _ 8) [['1']] :=
  Demo.panics_spec (by kernel_rfl)

/-- `o: plate 0.1` is accepted and panics. -/
theorem c37_plate_without_input_panics (P : Plat) :
    Demo.PanicsAfter P 8 (Demo.table [(['1'], [(['o'], [.plate (dec (1 / 10))])])])
      (Engine.new _ 8) [['1']] :=
  Demo.panics_spec (by kernel_rfl)

/-- `o: imp 50000` at 44100 samples per second is accepted and panics: the period is 0. -/
theorem c37_fast_impulse_panics (P : Plat) :
    Demo.PanicsAfter P 8 (Demo.table [(['1'], [(['o'], [.imp (.num (.fin 50000))])])])
      (Engine.new _ 8) [['1']] :=
  Demo.panics_spec (by kernel_rfl)

/-- `~a: imp 1`, `o: seq ~a` is accepted and panics: the only input is taken for the speed. -/
theorem c37_seq_reference_panics (P : Plat) :
    Demo.PanicsAfter P 8 (Demo.table [(['1'], [(['~', 'a'], [.imp (.num (.fin 1))]),
      (['o'], [.seq [(.fin 0, .ref ['~', 'a'])]])])]) (Engine.new _ 8) [['1']] :=
  Demo.panics_spec (by kernel_rfl)

/-- `o: speed 1000000.0 >> seq 60` is accepted and panics: the bar is shorter than a sample. -/
theorem c37_high_speed_panics (P : Plat) :
    Demo.PanicsAfter P 8 (Demo.table [(['1'],
      [(['o'], [.speed (.fin 1000000), .seq [(.fin 0, .nat 60)]])])]) (Engine.new _ 8) [['1']] :=
  Demo.panics_spec (by kernel_rfl)

/-- `~a: arrange ~a 1`, `o: get ~a` is accepted and panics: a node does not get its own output. -/
theorem c37_self_reference_panics (P : Plat) :
    Demo.PanicsAfter P 8 (Demo.table [(['1'], [(['~', 'a'], [.arrange [.ref ['~', 'a'], .num (.fin 1)]]),
      (['o'], [.get ['~', 'a']])])]) (Engine.new _ 8) [['1']] :=
  Demo.panics_spec (by kernel_rfl)

/-- After the messages, the next block panics. -/
def PanicsAfterMsg (P : Plat) (N : Nat) (prog : Ast Comp) (msg : Name) : Prop :=
  ∃ e e' : Engine (glicol P N (Demo.table [(['1'], prog)])), Demo.Accepts P N _ (Engine.new _ N) [['1']] e ∧
    e.sendMsg msg = .ok e' ∧ ∃ p, e'.nextBlock .ident [] = .error p

theorem panicsAfterMsg_spec {P : Plat} {N : Nat} {prog : Ast Comp} {msg : Name}
    (h : ((Demo.sent P N [(['1'], prog)] [['1']] (Engine.new _ N)).map fun e =>
      match e.sendMsg msg with
      | .ok e' => (match nextBlockFuel 1000 .ident e' [] with | some (.error _) => true | _ => false)
      | .error _ => false) = some true) : PanicsAfterMsg P N prog msg := by
  obtain ⟨e, he, hf⟩ := Demo.observe (progs := [(['1'], prog)]) _ h
  cases hm : e.sendMsg msg with
  | error p => rw [hm] at hf; cases hf
  | ok e' =>
    rw [hm] at hf
    simp only at hf
    split at hf
    · next p hp => exact ⟨e, e', he, hm, p, nextBlockFuel_spec hp⟩
    · cases hf

/-- A program that plays, `o: imp 1`, panics after the message `o,0,0,50000` (rs/synth/src/node/signal/imp.rs:26-47, 53). -/
theorem c37_message_impulse_panics (P : Plat) :
    PanicsAfterMsg P 8 [(['o'], [.imp (.num (.fin 1))])] c!"o,0,0,50000" :=
  panicsAfterMsg_spec (by kernel_rfl)

/-- **C47 does not hold in full**: drums keep a list of their inputs but ignore the request to empty
it. After `~x: imp 1`, `o: bd ~x` and then `~x: imp 2`, `o: bd ~x`, the list still starts with the
removed node, and the next block panics (rs/synth/src/node/compound/bd.rs:68-77,
rs/synth/src/node/compound/mod.rs:26). -/
theorem c47_drum_reference_counterexample (P : Plat) :
    Demo.PanicsAfter P 8 (Demo.table
      [(['1'], [(['~', 'x'], [.imp (.num (.fin 1))]), (['o'], [.bd (.ref ['~', 'x'])])]),
       (['2'], [(['~', 'x'], [.imp (.num (.fin 2))]), (['o'], [.bd (.ref ['~', 'x'])])])])
      (Engine.new _ 8) [['1'], ['2']] :=
  Demo.panics_spec (by kernel_rfl)

end Verif.Props
