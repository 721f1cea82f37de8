import Verif.Props.Delay
import Verif.Lemmas.KernelRfl

/-!
# Setting parameters by message (C40)

`send_msg` with a number is expected to have the effect of writing the number in the program.
-/

namespace Verif.Props
open Spec

/-- If the message turns the one fresh node into the other, the two components play the same. -/
theorem set_of_node {P : Plat} {N : Nat} {env : Env} {c c' : Comp} {i : Nat} {v : Fl}
    {d d' : NodeData (GNode P) Buf} {r r' : List Name}
    (h1 : makeNode P N env.samples env.sr env.bpm env.seed c = .ok (d, r))
    (h2 : makeNode P N env.samples env.sr env.bpm env.seed c' = .ok (d', r'))
    (h3 : msgG P d.node (.setToNumber i v) = .ok d'.node) (h4 : d.buffers = d'.buffers)
    (ms : List (Msg Fl)) (ins : List Ins) :
    play P N env c (.setToNumber i v :: ms) ins = play P N env c' ms ins := by
  simp only [play, h1, h2, sendMsgs, h3, h4]

/-- Symbolic evaluation of the construction of a compound node and of a message to it. -/
macro "patch" : tactic => `(tactic|
  simp only [newBd, newHh, newSn, newSynth, Patch.mono, Patch.stereo, Patch.nodes, Patch.new, Patch.chains,
    Patch.chain, Patch.connect, Patch.send, Graph.addNode, Graph.empty, List.foldl, Graph.addEdge,
    Graph.modify, Graph.node?, fresh, bind, Except.bind, List.nil_append, List.cons_append,
    List.getElem?_cons_succ, List.getElem?_cons_zero, Option.join_some, msgPrim, Functor.map, Except.map,
    Arith.msg, EnvPerc.msg, Osc.msg, orderMsg, List.set_cons_succ, List.set_cons_zero, Compound.msg,
    Compound.sendTag, arith, Osc.new, EnvPerc.new, Noise.msg, Rhpf.msg, Rhpf.new, OnePole.msg, OnePole.new,
    Apf.msg, DelayMs.msg, DelayN.msg, DelayMs.new, DelayN.new])

theorem set_bd (m : Libm) (N : Nat) (d v : Fl) :
    (newBd m N d).bind (·.msg m (.setToNumber 0 v)) = newBd m N v := by patch

theorem set_sn (m : Libm) (N : Nat) (d v : Fl) :
    (newSn m N d).bind (·.msg m (.setToNumber 0 v)) = newSn m N v := by patch

theorem set_hh (m : Libm) (N : Nat) (d v : Fl) :
    (newHh m N d).bind (·.msg m (.setToNumber 0 v)) = newHh m N v := by patch

theorem set_synth_attack (m : Libm) (N : Nat) (w : Wave) (a d v : Fl) :
    (newSynth m N w a d).bind (·.msg m (.setToNumber 0 v)) = newSynth m N w v d := by patch

theorem set_synth_decay (m : Libm) (N : Nat) (w : Wave) (a d v : Fl) :
    (newSynth m N w a d).bind (·.msg m (.setToNumber 1 v)) = newSynth m N w a v := by patch

set_option maxRecDepth 100000 in
set_option maxHeartbeats 4000000 in
theorem set_plate (m : Libm) (N : Nat) (d v : Fl) :
    (newPlate m N d).bind (·.msg m (.setToNumber 0 v)) = newPlate m N v := by
  simp only [newPlate, plateNodes, bind, Except.bind]
  generalize Apf.new 44100 (dec (4771 / 1000)) (dec (3 / 4)) = a4
  cases a4 <;> dsimp only
  generalize Apf.new 44100 (dec (3595 / 1000)) (dec (3 / 4)) = a5
  cases a5 <;> dsimp only
  generalize Apf.new 44100 (dec (1272 / 100)) (dec (5 / 8)) = a6
  cases a6 <;> dsimp only
  generalize Apf.new 44100 (dec (9307 / 1000)) (dec (5 / 8)) = a7
  cases a7 <;> dsimp only
  generalize Apf.new 44100 (dec 100) (dec (7 / 10)) = a9
  cases a9 <;> dsimp only
  generalize Apf.new 44100 (dec (7596 / 1000)) (dec (1 / 2)) = a18
  cases a18 <;> dsimp only
  generalize Apf.new 44100 (dec (3578 / 100)) (dec (1 / 2)) = a19
  cases a19 <;> dsimp only
  generalize Apf.new 44100 (dec 100) (dec (1 / 2)) = a20
  cases a20 <;> dsimp only
  generalize Apf.new 44100 (dec 30) (dec (7 / 10)) = a25
  cases a25 <;> dsimp only
  generalize Apf.new 44100 (dec (62 / 10)) (dec (7 / 10)) = a30
  cases a30 <;> dsimp only
  generalize Apf.new 44100 (dec (3492 / 100)) (dec (7 / 10)) = a31
  cases a31 <;> dsimp only
  generalize Apf.new 44100 (dec (204 / 10)) (dec (7 / 10)) = a32
  cases a32 <;> dsimp only
  unfold plateChains
  patch

/-- A compound node that the message turns into the one with the new parameter. -/
theorem set_of_compound {P : Plat} {N : Nat} {env : Env} {c c' : Comp} {i : Nat} {v : Fl}
    {k k' : Except Panic Compound}
    (h1 : makePrim P.libm env.samples env.sr env.bpm env.seed c = none)
    (h2 : makePrim P.libm env.samples env.sr env.bpm env.seed c' = none)
    (h3 : makeCompound P.libm N c = some k) (h4 : makeCompound P.libm N c' = some k')
    (h5 : k.bind (·.msg P.libm (.setToNumber i v)) = k')
    (ms : List (Msg Fl)) (ins : List Ins) :
    play P N env c (.setToNumber i v :: ms) ins = play P N env c' ms ins := by
  cases k with
  | error e =>
    cases h5
    simp [play, makeNode, h1, h2, h3, h4, bind, Except.bind, liftP]
  | ok x =>
    have h6 : x.msg P.libm (.setToNumber i v) = k' := h5
    cases k' with
    | error e =>
      simp [play, makeNode, h1, h2, h3, h4, bind, Except.bind, liftP, sendMsgs, fresh, msgG, h6,
        Functor.map, Except.map]
    | ok y =>
      simp [play, makeNode, h1, h2, h3, h4, bind, Except.bind, liftP, sendMsgs, fresh, msgG, h6,
        Functor.map, Except.map]

/-- The parameters whose setting by message has the expected effect; the exceptions are treated below. -/
def SetOk (sr : Nat) (c : Comp) (i : Nat) (v : Fl) : Prop :=
  match c, i with
  | .delayn _, 0 => 1 ≤ v.toUsize
  | .delayms _, 0 => 1 ≤ (msToSamples sr v).toUsize
  | .pan _, 0 => Fl.lt v (.fin (-1)) = false ∧ Fl.lt (.fin 1) v = false
  | .apfmsgain _ _, 0 => False
  | _, _ => True

/-- C40: a number sent for a written parameter before the first block has the effect of having written it
in the program, whatever happens afterwards. Missing: `delayn` and `delayms` set to less than one sample
(`c40_delayn_panics`, `c19_set_zero_counterexample`, `c40_set_zero_counterexample`), `pan` outside of
[-1, 1] (`c40_pan_counterexample`), the delay time of `apfmsgain` (`c40_apf_counterexample`). -/
theorem c40_set_partial (P : Plat) (N : Nat) (env : Env) (c c' : Comp) (i : Nat) (v : Fl)
    (h : withParam c i v = some c') (hok : SetOk env.sr c i v) (ms : List (Msg Fl)) (ins : List Ins) :
    play P N env c (.setToNumber i v :: ms) ins = play P N env c' ms ins := by
  unfold withParam at h
  split at h
  case h_1 =>
    cases h
    simp only [SetOk] at hok
    have h0 : v.toUsize ≠ 0 := by omega
    refine set_of_node rfl rfl ?_ ?_ ms ins
    case refine_2 => rfl
    simp [fresh, msgG, msgPrim, DelayN.msg, DelayN.new, Ring.from', h0, bind, Except.bind,
      Functor.map, Except.map]
  case h_2 =>
    cases h
    simp only [SetOk] at hok
    have h0 : (msToSamples env.sr v).toUsize ≠ 0 := by omega
    refine set_of_node rfl rfl ?_ ?_ ms ins
    case refine_2 => rfl
    simp [fresh, msgG, msgPrim, DelayMs.msg, DelayMs.new, h0, Functor.map, Except.map, NumRef.value,
      Nat.max_eq_left hok]
  case h_11 =>
    cases h
    simp only [SetOk] at hok
    refine set_of_node rfl rfl ?_ ?_ ms ins
    case refine_2 => rfl
    simp [fresh, msgG, msgPrim, panMsg, clamp1, hok.1, hok.2, arith, Functor.map, Except.map, NumRef.value]
  case h_14 => cases h; exact set_of_compound rfl rfl rfl rfl (set_bd _ _ _ _) ms ins
  case h_15 => cases h; exact set_of_compound rfl rfl rfl rfl (set_sn _ _ _ _) ms ins
  case h_16 => cases h; exact set_of_compound rfl rfl rfl rfl (set_hh _ _ _ _) ms ins
  case h_17 => cases h; exact set_of_compound rfl rfl rfl rfl (set_synth_attack _ _ _ _ _ _) ms ins
  case h_18 => cases h; exact set_of_compound rfl rfl rfl rfl (set_synth_decay _ _ _ _ _ _) ms ins
  case h_19 => cases h; exact set_of_compound rfl rfl rfl rfl (set_synth_attack _ _ _ _ _ _) ms ins
  case h_20 => cases h; exact set_of_compound rfl rfl rfl rfl (set_synth_decay _ _ _ _ _ _) ms ins
  case h_21 => cases h; exact set_of_compound rfl rfl rfl rfl (set_synth_attack _ _ _ _ _ _) ms ins
  case h_22 => cases h; exact set_of_compound rfl rfl rfl rfl (set_synth_decay _ _ _ _ _ _) ms ins
  case h_26 =>
    rename_i sig q
    cases h
    cases sig
    case event => rfl
    all_goals (refine set_of_node rfl rfl ?_ ?_ ms ins <;> rfl)
  case h_30 =>
    rename_i d g
    cases h
    simp only [play, makeNode, makePrim, Apf.new, bind, Except.bind]
    cases Ring.from' _ with
    | error e => rfl
    | ok b => rfl
  case h_31 => cases h; exact set_of_compound rfl rfl rfl rfl (set_plate _ _ _ _) ms ins
  case h_39 =>
    rename_i s d
    cases h
    simp only [play, makeNode, makePrim, bind, Except.bind]
    cases PatternSynth.new s env.sr with
    | error e => rfl
    | ok b => rfl
  all_goals cases h
  all_goals first
    | exact absurd hok id
    | (refine set_of_node rfl rfl ?_ ?_ ms ins <;> rfl)

example : ∃ c c' i v, withParam c i v = some c' ∧ SetOk 44100 c i v ∧ c ≠ c' :=
  ⟨.plate (.fin 0), .plate (.fin (1 / 2)), 0, .fin (1 / 2), rfl, trivial, by decide +kernel⟩

example : ∃ c c' i v, withParam c i v = some c' ∧ SetOk 44100 c i v ∧ c ≠ c' :=
  ⟨.delayms (.num (.fin 1)), .delayms (.num (.fin 100)), 0, .fin 100, rfl,
    by show 1 ≤ (msToSamples 44100 (.fin 100)).toUsize; decide +kernel, by decide⟩

/-- C40 fails for `delayn`: setting the delay to 0, which is a legal parameter, panics. -/
theorem c40_delayn_panics (P : Plat) (N : Nat) (env : Env) (n : Nat) (ms : List (Msg Fl)) (ins : List Ins) :
    play P N env (.delayn (.nat n)) (.setToNumber 0 (.fin 0) :: ms) ins = .error (.panic .emptyRing) ∧
    play P N env (.delayn (.nat 0)) [] [] = .ok [] := by
  constructor
  · have : (Fl.fin 0).toUsize = 0 := by decide +kernel
    simp [play, makeNode, makePrim, bind, Except.bind, fresh, sendMsgs, msgG, msgPrim, DelayN.msg, Ring.from',
      this, Functor.map, Except.map]
  · rfl

/-- C40 fails for `pan`: a written position is used as it is, a position that is sent is clamped. `pan 2`
makes the left channel NaN (the root of a negative number); 2 sent to `pan 0` makes it silent. -/
theorem c40_pan_counterexample (P : Plat) (env : Env) (hs1 : P.libm.sqrt (.fin 0) = .fin 0)
    (hs2 : P.libm.sqrt (.fin (-1 / 2)) = .nan) :
    (∃ r, play P 1 env (.pan (.num (.fin 0))) [.setToNumber 0 (.fin 2), .index 0] (monoFrom 0 [[.fin 1]]) =
      .ok [[[.fin 0], r]]) ∧
    ∃ r, play P 1 env (.pan (.num (.fin 2))) [.index 0] (monoFrom 0 [[.fin 1]]) = .ok [[[.nan], r]] := by
  have h1 : play P 1 env (.pan (.num (.fin 0))) [.setToNumber 0 (.fin 2), .index 0] (monoFrom 0 [[.fin 1]]) =
      .ok [[[P.libm.sqrt (.fin 0) *. .fin 1], [P.libm.sqrt (.fin 1) *. .fin 1]]] := by kernel_rfl
  have h2 : play P 1 env (.pan (.num (.fin 2))) [.index 0] (monoFrom 0 [[.fin 1]]) =
      .ok [[[P.libm.sqrt (.fin (-1 / 2)) *. .fin 1], [P.libm.sqrt (.fin (3 / 2)) *. .fin 1]]] := by kernel_rfl
  rw [h1, h2, hs1, hs2]
  refine ⟨⟨[P.libm.sqrt (.fin 1) *. .fin 1], ?_⟩, ⟨[P.libm.sqrt (.fin (3 / 2)) *. .fin 1], rfl⟩⟩
  have : Fl.fin 0 *. .fin 1 = .fin 0 := by decide +kernel
  rw [this]

/-- C40 fails for the delay time of `apfmsgain`: at 1 kHz and without feedback, `apfmsgain 1` delays an
impulse by one sample; 1 sent to `apfmsgain 2` leaves the delay at two samples. -/
theorem c40_apf_counterexample (P : Plat) (env : Env) (hsr : env.sr = 1000) :
    (∃ r, play P 4 env (.apfmsgain (.num (.fin 2)) (.fin 0)) [.setToNumber 0 (.fin 1), .index 0]
      (monoFrom 0 [[.fin 1, .fin 0, .fin 0, .fin 0]]) = .ok [[[.fin 0, .fin 0, .fin 1, .fin 0], r]]) ∧
    ∃ r, play P 4 env (.apfmsgain (.num (.fin 1)) (.fin 0)) [.index 0]
      (monoFrom 0 [[.fin 1, .fin 0, .fin 0, .fin 0]]) = .ok [[[.fin 0, .fin 1, .fin 0, .fin 0], r]] := by
  obtain ⟨smp, sr, bpm, seed⟩ := env
  obtain rfl : sr = 1000 := hsr
  constructor
  · refine ⟨List.replicate 4 (.fin 0), ?_⟩
    kernel_rfl
  · refine ⟨List.replicate 4 (.fin 0), ?_⟩
    kernel_rfl

end Verif.Props
