import Verif.Props.Live
import Verif.Props.Delay

/-! # Nodes that start anew when their setting is changed while playing (C71) -/

namespace Verif.Props
open Spec

variable {P : Plat} {N : Nat} {env : Env} {k : Nat}

/-- The part of a live run after `a`. -/
theorem liveBlocks_split {inv : GNode P → List Buf → Prop} (a b : List (List (Msg Fl) × Ins))
    (H : ∀ s ∈ a, ∀ n out n1 n2 out2, inv n out → sendMsgs n s.1 = .ok n1 → procG P n1 s.2 out = .ok (n2, out2) → inv n2 out2)
    {n : GNode P} {out : List Buf} {os : List (List Buf)} (hi : inv n out) (h : liveBlocks P n out (a ++ b) = .ok os) :
    ∃ n' out', inv n' out' ∧ liveBlocks P n' out' b = .ok (os.drop a.length) := by
  induction a generalizing n out os with
  | nil => exact ⟨n, out, hi, h⟩
  | cons s a ih =>
    obtain ⟨ms, i⟩ := s
    simp only [List.cons_append, liveBlocks] at h
    cases h1 : sendMsgs n ms with
    | error e => rw [h1] at h; cases h
    | ok n1 =>
      rw [h1] at h
      simp only at h
      cases h2 : procG P n1 i out with
      | error e => rw [h2] at h; cases h
      | ok r =>
        rw [h2] at h
        simp only at h
        cases h3 : liveBlocks P r.1 r.2 (a ++ b) with
        | error e => rw [h3] at h; cases h
        | ok os' =>
          rw [h3] at h
          cases h
          exact ih (fun s hs => H s (by simp [hs])) (H (ms, i) (by simp) n out n1 r.1 r.2 hi h1 h2) h3

/-- A node that comes into a fixed state by the messages `ms`, and then does not use what is in its output buffers, plays from there on like one that was built in this state. -/
theorem live_restart {c c' : Comp} {d d' : NodeData (GNode P) Buf} {refs refs' : List Name} {msgs : List (Msg Fl)} {n n' : GNode P} (inv : GNode P → List Buf → Prop)
    (a b : List (List (Msg Fl) × Ins)) (ms : List (Msg Fl)) (i : Ins)
    (h1 : makeNode P N env.samples env.sr env.bpm env.seed c = .ok (d, refs)) (h2 : sendMsgs d.node msgs = .ok n)
    (h1' : makeNode P N env.samples env.sr env.bpm env.seed c' = .ok (d', refs')) (h2' : sendMsgs d'.node msgs = .ok n')
    (hi : inv n d.buffers)
    (H : ∀ s ∈ a, ∀ n out n1 n2 out2, inv n out → sendMsgs n s.1 = .ok n1 → procG P n1 s.2 out = .ok (n2, out2) → inv n2 out2)
    (Hm : ∀ m out n1, inv m out → sendMsgs m ms = .ok n1 → n1 = n')
    (Hp : ∀ m out, inv m out → procG P n' i out = procG P n' i d'.buffers)
    {outs : List (List Buf)} (h : playChanged P N env c msgs (a ++ (ms, i) :: b) = .ok outs) :
    playChanged P N env c' msgs (([], i) :: b) = .ok (outs.drop a.length) := by
  simp only [playChanged, h1, h2] at h
  cases hl : liveBlocks P n d.buffers (a ++ (ms, i) :: b) with
  | error e => rw [hl] at h; cases h
  | ok os =>
    rw [hl] at h
    cases h
    obtain ⟨m, out, hm, hb⟩ := liveBlocks_split a _ H hi hl
    simp only [playChanged, h1', h2']
    simp only [liveBlocks] at hb
    cases hs : sendMsgs m ms with
    | error e => rw [hs] at hb; cases hb
    | ok n1 =>
      cases Hm m out n1 hm hs
      rw [hs] at hb
      simp only [Hp m out hm] at hb
      simp only [liveBlocks, sendMsgs]
      rw [hb]

theorem sends_append (n : GNode P) (a b : List (Msg Fl)) :
    sendMsgs n (a ++ b) = match sendMsgs n a with | .error e => .error e | .ok n' => sendMsgs n' b := by
  induction a generalizing n with
  | nil => rfl
  | cons m a ih =>
    simp only [List.cons_append, sendMsgs]
    cases msgG P n m with
    | error e => rfl
    | ok n' => exact ih n'

/-- The state of a node after changes of which the last sets parameter 0 to `v`. -/
theorem sends_last {n n1 : GNode P} {cs : Changes} {v : Fl} (h : sendMsgs n (changeMsgs (cs ++ [(0, v)])) = .ok n1) :
    ∃ n2, sendMsgs n (changeMsgs cs) = .ok n2 ∧ msgG P n2 (.setToNumber 0 v) = .ok n1 := by
  have h' : sendMsgs n (changeMsgs cs ++ [.setToNumber 0 v]) = .ok n1 := by
    rw [← h]
    simp [changeMsgs]
  rw [sends_append] at h'
  clear h
  rename' h' => h
  cases h2 : sendMsgs n (changeMsgs cs) with
  | error e => rw [h2] at h; cases h
  | ok n2 =>
    rw [h2] at h
    refine ⟨n2, rfl, ?_⟩
    simp only [sendMsgs] at h
    cases h3 : msgG P n2 (.setToNumber 0 v) with
    | error e => rw [h3] at h; cases h
    | ok n3 => rw [h3] at h; exact h

/-! ### delayn -/

/-- The messages that change settings of `delayn`, if none panics. -/
theorem delayn_msgs {d : DelayN} {cs : Changes} {n1 : GNode P} (h : sendMsgs (P := P) (.prim (.delayn d)) (changeMsgs cs) = .ok n1) :
    ∃ d1 : DelayN, n1 = .prim (.delayn d1) ∧ d1.order = d.order := by
  induction cs generalizing d with
  | nil => cases h; exact ⟨d, rfl, rfl⟩
  | cons e cs ih =>
    obtain ⟨i, v⟩ := e
    cases i with
    | succ i => exact ih (d := d) h
    | zero =>
      simp only [changeMsgs, List.map_cons, sendMsgs, msgG, msgPrim, DelayN.msg, Ring.from'] at h
      by_cases h0 : v.toUsize = 0
      · simp [h0, bind, Except.bind, Functor.map, Except.map] at h
      · simp [h0, bind, Except.bind, Functor.map, Except.map] at h
        obtain ⟨d1, e1, e2⟩ := ih h
        exact ⟨d1, e1, e2⟩

/-- **C71 (part)**, `delayn` with a mono input: from a block before which the delay is set to `v` (at least one sample), the node plays what a new one with this delay plays from
that block on, whatever happened before: the signal in the old line is lost. -/
theorem c71_delayn_restart_partial (n : Nat) (v : Fl) (hv : 1 ≤ v.toUsize) (pre post : List (Changes × List (Fl × Fl))) (cs : Changes) (x : List (Fl × Fl))
    {outs : List (List Buf)}
    (h : playChanged P N env (.delayn (.nat n)) [.index k] (changedFrom k true (pre ++ (cs ++ [(0, v)], x) :: post)) = .ok outs) :
    playChanged P N env (.delayn (.nat v.toUsize)) [.index k] (changedFrom k true (([], x) :: post)) = .ok (outs.drop pre.length) := by
  rw [changedFrom, List.map_append, List.map_cons] at h
  have hv0 : v.toUsize ≠ 0 := by omega
  have hproc : ∀ (d : DelayN) (x : List (Fl × Fl)) (out : List Buf) (n2 : GNode P) (out2 : List Buf), out.length = 2 →
      procG P (.prim (.delayn d)) [(k, bufsOf true x)] out = .ok (n2, out2) → (∃ d2 : DelayN, n2 = .prim (.delayn d2) ∧ d2.order = d.order) ∧ out2.length = 2 := by
    intro d x out n2 out2 ho hp
    obtain ⟨a, b, rfl⟩ := List.length_eq_two.mp ho
    by_cases h0 : d.n = 0
    · simp [procG, procPrim, procDelayN, h0, passBufs, bufsOf, reState] at hp
      obtain ⟨rfl, rfl⟩ := hp
      exact ⟨⟨d, rfl, rfl⟩, by simp⟩
    · simp only [procG, procPrim, procDelayN, h0, if_false, chan_bufsOf, bind, Except.bind] at hp
      cases hr : runM Ring.push d.buf (x.map Prod.fst) with
      | error e => rw [hr] at hp; cases hp
      | ok r =>
        rw [hr] at hp
        simp [reState, bufsOf] at hp
        obtain ⟨rfl, rfl⟩ := hp
        exact ⟨⟨_, rfl, rfl⟩, rfl⟩
  have := live_restart (n := .prim (.delayn { DelayN.new n with order := [k] })) (n' := .prim (.delayn { DelayN.new v.toUsize with order := [k] }))
    (c' := .delayn (.nat v.toUsize))
    (fun m out => (∃ d : DelayN, m = .prim (.delayn d) ∧ d.order = [k]) ∧ out.length = 2)
    _ _ _ _ (delayn_make P N env n k).1 rfl (delayn_make P N env v.toUsize k).1 rfl ⟨⟨_, rfl, rfl⟩, rfl⟩
    (by
      intro s hs m out n1 n2 out2 hi hm hp
      obtain ⟨b, -, rfl⟩ := List.mem_map.mp hs
      obtain ⟨⟨d, rfl, hd⟩, ho⟩ := hi
      obtain ⟨d1, rfl, h1⟩ := delayn_msgs hm
      obtain ⟨⟨d2, rfl, h2⟩, h3⟩ := hproc d1 b.2 out n2 out2 ho hp
      exact ⟨⟨d2, rfl, by rw [h2, h1, hd]⟩, h3⟩)
    (by
      intro m out n1 hi hm
      obtain ⟨⟨d, rfl, hd⟩, ho⟩ := hi
      obtain ⟨n2, h1, h2⟩ := sends_last hm
      obtain ⟨d1, rfl, h3⟩ := delayn_msgs h1
      simp [msgG, msgPrim, DelayN.msg, Ring.from', hv0, bind, Except.bind, Functor.map, Except.map] at h2
      rw [← h2, h3, hd]
      simp [DelayN.new, hv0])
    (by
      intro m out hi
      obtain ⟨a, b, rfl⟩ := List.length_eq_two.mp hi.2
      simp [procG, procPrim, procDelayN, DelayN.new, hv0, bufsOf, fresh])
    h
  rw [List.length_map] at this
  exact this

/-! ### delayms -/

/-- The messages that change settings of `delayms` to at least one sample. -/
theorem delayms_msgs {d : DelayMs} {cs : Changes} (hd : d.buf.length = 2)
    (hc : ∀ e ∈ cs, e.1 = 0 → 1 ≤ (msToSamples d.sr e.2).toUsize) :
    ∃ d1 : DelayMs, sendMsgs (P := P) (.prim (.delayms d)) (changeMsgs cs) = .ok (.prim (.delayms d1)) ∧ d1.order = d.order ∧ d1.buf.length = 2 ∧ d1.sr = d.sr ∧
      (d.n ≠ 0 → d1.n ≠ 0) := by
  induction cs generalizing d with
  | nil => exact ⟨d, rfl, rfl, hd, rfl, id⟩
  | cons e cs ih =>
    obtain ⟨i, v⟩ := e
    cases i with
    | succ i => exact ih (d := d) hd fun e he => hc e (by simp [he])
    | zero =>
      have h0 := hc (0, v) (by simp) rfl
      simp only at h0
      obtain ⟨d1, e1, e2, e3, e4, e5⟩ := ih (d := { d with n := (msToSamples d.sr v).toUsize, buf := d.buf.map fun _ => ⟨List.replicate (msToSamples d.sr v).toUsize (.fin 0), 0⟩ })
        (by simpa using hd) fun e he => hc e (by simp [he])
      refine ⟨d1, ?_, e2, e3, e4, fun _ => e5 (by simp only; omega)⟩
      rw [← e1]
      have : (msToSamples d.sr v).toUsize ≠ 0 := by omega
      simp [changeMsgs, sendMsgs, msgG, msgPrim, DelayMs.msg, this, Functor.map, Except.map]

theorem delayMsPlain_two (r q : Ring) (a b x y : Buf) :
    delayMsPlain [r, q] [a, b] [x, y] = match runM Ring.push r x with
      | .error e => .error e
      | .ok r1 => match runM Ring.push q y with
        | .error e => .error e
        | .ok q1 => .ok ([r1.1, q1.1], [r1.2, q1.2]) := by
  simp only [delayMsPlain, bind, Except.bind]
  cases runM Ring.push r x with
  | error e => rfl
  | ok r1 =>
    cases runM Ring.push q y with
    | error e => rfl
    | ok q1 => rfl

/-- **C71 (part)**, `delayms` with a stereo input: from a block before which the delay is set to `v` (at least one sample), the node plays what a new one with this delay plays
from that block on, if all changes before it were to at least one sample (otherwise see `c71_delayms_zero_counterexample`). -/
theorem c71_delayms_restart_partial (ms v : Fl) (hv : 1 ≤ ((v /. .fin 1000) *. Fl.ofNat f32 env.sr).toUsize) (pre post : List (Changes × List (Fl × Fl))) (cs : Changes)
    (x : List (Fl × Fl)) (hpre : ∀ b ∈ pre, ∀ e ∈ b.1, e.1 = 0 → 1 ≤ ((e.2 /. .fin 1000) *. Fl.ofNat f32 env.sr).toUsize)
    (hcs : ∀ e ∈ cs, e.1 = 0 → 1 ≤ ((e.2 /. .fin 1000) *. Fl.ofNat f32 env.sr).toUsize) {outs : List (List Buf)}
    (h : playChanged P N env (.delayms (.num ms)) [.index k] (changedFrom k false (pre ++ (cs ++ [(0, v)], x) :: post)) = .ok outs) :
    playChanged P N env (.delayms (.num v)) [.index k] (changedFrom k false (([], x) :: post)) = .ok (outs.drop pre.length) := by
  rw [changedFrom, List.map_append, List.map_cons] at h
  change 1 ≤ (msToSamples env.sr v).toUsize at hv
  have hv0 : (msToSamples env.sr v).toUsize ≠ 0 := by omega
  have hproc : ∀ (d : DelayMs) (x : List (Fl × Fl)) (out : List Buf) (n2 : GNode P) (out2 : List Buf), out.length = 2 → d.buf.length = 2 → d.n ≠ 0 →
      procG P (.prim (.delayms d)) [(k, bufsOf false x)] out = .ok (n2, out2) →
        (∃ d2 : DelayMs, n2 = .prim (.delayms d2) ∧ d2.order = d.order ∧ d2.sr = d.sr ∧ d2.n = d.n ∧ d2.buf.length = 2) ∧ out2.length = 2 := by
    intro d x out n2 out2 ho hb hn hp
    obtain ⟨a, b, rfl⟩ := List.length_eq_two.mp ho
    obtain ⟨bs, sr, order, n⟩ := d
    obtain ⟨r, q, rfl⟩ := List.length_eq_two.mp hb
    simp only at hn
    simp only [procG, procPrim, procDelayMs, bufsOf, bind, Except.bind] at hp
    simp [hn, delayMsPlain_two] at hp
    cases hr : runM Ring.push r (x.map Prod.fst) with
    | error e => simp [hr, hn, reState] at hp
    | ok r1 =>
      cases hq : runM Ring.push q (x.map Prod.snd) with
      | error e => simp [hr, hq, hn, reState] at hp
      | ok q1 =>
        simp [hr, hq, hn, reState] at hp
        obtain ⟨rfl, rfl⟩ := hp
        exact ⟨⟨_, rfl, rfl, rfl, rfl, rfl⟩, rfl⟩
  have hnew : ∀ w : Fl, (DelayMs.new env.sr w 2).n ≠ 0 := by
    intro w
    simp only [DelayMs.new]
    omega
  have := live_restart (n := .prim (.delayms { DelayMs.new env.sr ms 2 with order := [k] })) (n' := .prim (.delayms { DelayMs.new env.sr v 2 with order := [k] }))
    (c' := .delayms (.num v))
    (fun m out => (∃ d : DelayMs, m = .prim (.delayms d) ∧ d.order = [k] ∧ d.buf.length = 2 ∧ d.sr = env.sr ∧ d.n ≠ 0) ∧ out.length = 2)
    _ _ _ _ (delayms_make P N env ms k).1 rfl (delayms_make P N env v k).1 rfl ⟨⟨_, rfl, rfl, rfl, rfl, hnew ms⟩, rfl⟩
    (by
      intro s hs m out n1 n2 out2 hi hm hp
      obtain ⟨b, hb, rfl⟩ := List.mem_map.mp hs
      obtain ⟨⟨d, rfl, i1, i2, i3, i4⟩, ho⟩ := hi
      obtain ⟨d1, e1, e2, e3, e4, e5⟩ := delayms_msgs (P := P) (cs := b.1) i2 (by rw [i3]; exact hpre b hb)
      rw [e1] at hm
      cases hm
      obtain ⟨⟨d2, rfl, g1, g2, g3, g4⟩, ho2⟩ := hproc d1 b.2 out n2 out2 ho e3 (e5 i4) hp
      exact ⟨⟨d2, rfl, by rw [g1, e2, i1], g4, by rw [g2, e4, i3], by rw [g3]; exact e5 i4⟩, ho2⟩)
    (by
      intro m out n1 hi hm
      obtain ⟨⟨d, rfl, i1, i2, i3, i4⟩, ho⟩ := hi
      obtain ⟨n2, h1, h2⟩ := sends_last hm
      obtain ⟨d1, e1, e2, e3, e4, e5⟩ := delayms_msgs (P := P) (cs := cs) i2 (by rw [i3]; exact hcs)
      rw [e1] at h1
      cases h1
      obtain ⟨bs, sr, order, n⟩ := d1
      obtain ⟨r, q, rfl⟩ := List.length_eq_two.mp e3
      simp only at e2 e4
      have : sr = env.sr := by rw [e4, i3]
      subst this
      simp [msgG, msgPrim, DelayMs.msg, hv0, Functor.map, Except.map] at h2
      rw [← h2, e2, i1]
      have hmax : max (msToSamples env.sr v).toUsize 1 = (msToSamples env.sr v).toUsize := by omega
      simp [DelayMs.new, hmax, List.replicate])
    (by
      intro m out hi
      obtain ⟨a, b, rfl⟩ := List.length_eq_two.mp hi.2
      have := hnew v
      simp only [procG, procPrim, procDelayMs, bufsOf, fresh]
      simp [DelayMs.new, delayMsPlain, List.replicate])
    h
  rw [List.length_map] at this
  exact this

/-- C71 fails for `delayms` when the delay was set to 0: the lines are thrown away and do not come back. At 1000 samples a second, the delay of 1 ms is set to 0 and later to
1 ms again; from then on the node repeats the last block that it played, instead of its input delayed by a sample. -/
theorem c71_delayms_zero_counterexample (P : Plat) :
    playChanged P 2 ⟨[], 1000, .fin 120, 0⟩ (.delayms (.num (.fin 1))) [.index 7]
      (changedFrom 7 false [([], [(.fin 1, .fin 1), (.fin 2, .fin 2)]), ([(0, .fin 0)], [(.fin 3, .fin 3), (.fin 4, .fin 4)]),
        ([(0, .fin 1)], [(.fin 5, .fin 5), (.fin 6, .fin 6)]), ([], [(.fin 7, .fin 7), (.fin 8, .fin 8)])]) =
      .ok [[[.fin 0, .fin 1], [.fin 0, .fin 1]], [[.fin 3, .fin 4], [.fin 0, .fin 1]], [[.fin 3, .fin 4], [.fin 0, .fin 1]], [[.fin 3, .fin 4], [.fin 0, .fin 1]]] ∧
    playChanged P 2 ⟨[], 1000, .fin 120, 0⟩ (.delayms (.num (.fin 1))) [.index 7]
      (changedFrom 7 false [([], [(.fin 5, .fin 5), (.fin 6, .fin 6)]), ([], [(.fin 7, .fin 7), (.fin 8, .fin 8)])]) =
      .ok [[[.fin 0, .fin 5], [.fin 0, .fin 5]], [[.fin 6, .fin 7], [.fin 6, .fin 7]]] := by
  constructor <;> kernel_rfl

/-! ### noise -/

theorem noise_make (P : Plat) (N : Nat) (env : Env) (s : Nat) :
    makeNode P N env.samples env.sr env.bpm env.seed (.noise s) = .ok (fresh N 1 (.prim (.noise ⟨s, 0, []⟩)), []) := rfl

theorem noise_msgs (s : Noise) (cs : Changes) :
    ∃ s1 : Noise, sendMsgs (P := P) (.prim (.noise s)) (changeMsgs cs) = .ok (.prim (.noise s1)) ∧ s1.order = s.order := by
  induction cs generalizing s with
  | nil => exact ⟨s, rfl, rfl⟩
  | cons e cs ih =>
    obtain ⟨i, v⟩ := e
    cases i with
    | succ i => exact ih s
    | zero =>
      obtain ⟨s1, e1, e2⟩ := ih { s with seed := v.toUsize, drawn := 0 }
      exact ⟨s1, e1, e2⟩

theorem run_const {σ : Type} (f : σ → Fl → σ × Fl) (hf : ∀ s x y, f s x = f s y) (s : σ) {a b : Buf} (h : a.length = b.length) : run f s a = run f s b := by
  induction a generalizing s b with
  | nil =>
    cases b with
    | nil => rfl
    | cons => cases h
  | cons x a ih =>
    cases b with
    | nil => cases h
    | cons y b =>
      simp only [run, hf s x y]
      rw [ih _ (by simpa using h)]

/-- **C71 (part)**, `noise`: from a block before which the seed is set to `v`, the node plays what a new one with this seed plays. -/
theorem c71_noise_restart_partial (s : Nat) (v : Fl) (pre post : List Changes) (cs : Changes) {outs : List (List Buf)}
    (h : playChanged P N env (.noise s) [] (changedSource (pre ++ (cs ++ [(0, v)]) :: post)) = .ok outs) :
    playChanged P N env (.noise v.toUsize) [] (changedSource ([] :: post)) = .ok (outs.drop pre.length) := by
  rw [changedSource, List.map_append, List.map_cons] at h
  have := live_restart (n := .prim (.noise ⟨s, 0, []⟩)) (n' := .prim (.noise ⟨v.toUsize, 0, []⟩)) (c' := .noise v.toUsize)
    (fun m out => (∃ d : Noise, m = .prim (.noise d) ∧ d.order = []) ∧ ∃ b, out = [b] ∧ b.length = N)
    _ _ _ _ (noise_make P N env s) rfl (noise_make P N env v.toUsize) rfl ⟨⟨_, rfl, rfl⟩, ⟨List.replicate N (.fin 0), rfl, by simp⟩⟩
    (by
      intro st hs m out n1 n2 out2 hi hm hp
      obtain ⟨b, -, rfl⟩ := List.mem_map.mp hs
      obtain ⟨⟨d, rfl, hd⟩, c, rfl, hl⟩ := hi
      obtain ⟨d1, e1, e2⟩ := noise_msgs (P := P) d b
      rw [e1] at hm
      cases hm
      simp [procG, procPrim, procNoise, noiseBufs, reState] at hp
      obtain ⟨rfl, rfl⟩ := hp
      exact ⟨⟨_, rfl, by rw [e2, hd]⟩, _, rfl, by rw [run_length, hl]⟩)
    (by
      intro m out n1 hi hm
      obtain ⟨⟨d, rfl, hd⟩, ho⟩ := hi
      obtain ⟨n2, h1, h2⟩ := sends_last hm
      obtain ⟨d1, e1, e2⟩ := noise_msgs (P := P) d cs
      rw [e1] at h1
      cases h1
      simp [msgG, msgPrim, Noise.msg, Functor.map, Except.map] at h2
      rw [← h2, e2, hd])
    (by
      intro m out hi
      obtain ⟨-, b, rfl, hl⟩ := hi
      have : run (noiseStep P.libm v.toUsize) 0 b = run (noiseStep P.libm v.toUsize) 0 (List.replicate N (.fin 0)) :=
        run_const _ (fun _ _ _ => rfl) _ (by simp [hl])
      simp [procG, procPrim, procNoise, noiseBufs, fresh, List.replicate, this])
    h
  rw [List.length_map] at this
  exact this

/-! ### Examples -/

/-- A delay of 3 samples is changed to 1 sample before the second block. -/
example : playChanged Demo.plat 2 ⟨[], 1000, .fin 120, 0⟩ (.delayn (.nat 3)) [.index 7]
      (changedFrom 7 true ([([], [(.fin 1, .fin 0), (.fin 2, .fin 0)])] ++ ([(1, .fin 9)] ++ [(0, .fin 1)], [(.fin 3, .fin 0), (.fin 4, .fin 0)]) :: [])) =
      .ok [[[.fin 0, .fin 0], [.fin 0, .fin 0]], [[.fin 0, .fin 3], [.fin 0, .fin 3]]] ∧ 1 ≤ (Fl.fin 1).toUsize := by
  constructor
  · kernel_rfl
  · decide +kernel

/-- A delay of 2 ms is changed to 1 ms, one sample, before the second block. -/
example : playChanged Demo.plat 2 ⟨[], 1000, .fin 120, 0⟩ (.delayms (.num (.fin 2))) [.index 7]
      (changedFrom 7 false ([([], [(.fin 1, .fin 5), (.fin 2, .fin 6)])] ++ ([(0, .fin 3)] ++ [(0, .fin 1)], [(.fin 3, .fin 7), (.fin 4, .fin 8)]) :: [])) =
      .ok [[[.fin 0, .fin 0], [.fin 0, .fin 0]], [[.fin 0, .fin 3], [.fin 0, .fin 7]]] ∧
    1 ≤ ((Fl.fin 1 /. .fin 1000) *. Fl.ofNat f32 1000).toUsize ∧ 1 ≤ ((Fl.fin 3 /. .fin 1000) *. Fl.ofNat f32 1000).toUsize := by
  refine ⟨by kernel_rfl, by decide +kernel, by decide +kernel⟩

example : playChanged Demo.plat 1 ⟨[], 1000, .fin 120, 0⟩ (.noise 3) [] (changedSource ([[]] ++ ([] ++ [(0, .fin 5)]) :: [[]])) =
    .ok [[[Fl.conv f32 (Demo.libm.noise 3 0)]], [[Fl.conv f32 (Demo.libm.noise 5 0)]], [[Fl.conv f32 (Demo.libm.noise 5 1)]]] := by kernel_rfl

end Verif.Props
