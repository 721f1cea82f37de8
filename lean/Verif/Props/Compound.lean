import Verif.Lemmas.CompoundParts
import Verif.Spec.Demo

/-! # C57: drums and synths sound like the components they are made of -/

namespace Verif.Props
open Verif Spec

variable {P : Plat} {E : List (Nat × Nat)} {g : Patch} {sig : Nat → List (List Buf)} {n : Nat}

theorem bd_closed (P : Plat) (N : Nat) (env : Env) (decay : Fl) (k : Nat) (mono : Bool) (xs : List (List (Fl × Fl)))
    (hN : Sized N xs) (hd : TimeOk decay) (outs : List (List Buf))
    (h : play P N env (.bd (.num decay)) [.index k] (oneFrom k mono xs) = .ok outs) :
    outs = onBothSides (bdSig P.libm N decay (leftOf xs)) :=
  bd_run P N decay [k] k rfl _ _ (leftIs_one k mono xs) (leftOf_sized hN) hd outs
    (play_compound (c := .bd (.num decay)) rfl (congrArg some (newBd_eq P.libm N decay)) rfl (by simp) h)

theorem hh_closed (P : Plat) (N : Nat) (env : Env) (decay : Fl) (k : Nat) (mono : Bool) (xs : List (List (Fl × Fl)))
    (hN : Sized N xs) (hd : TimeOk decay) (outs : List (List Buf))
    (h : play P N env (.hh (.num decay)) [.index k] (oneFrom k mono xs) = .ok outs) :
    outs = onBothSides (hhSig P.libm N decay (leftOf xs)) :=
  hh_run P N decay [k] k rfl _ _ (leftIs_one k mono xs) (leftOf_sized hN) hd outs
    (play_compound (c := .hh (.num decay)) rfl (congrArg some (newHh_eq P.libm N decay)) rfl (by simp) h)

theorem sn_closed (P : Plat) (N : Nat) (env : Env) (decay : Fl) (k : Nat) (mono : Bool) (xs : List (List (Fl × Fl)))
    (hN : Sized N xs) (hd : TimeOk decay) (outs : List (List Buf))
    (h : play P N env (.sn (.num decay)) [.index k] (oneFrom k mono xs) = .ok outs) :
    outs = onBothSides (snSig P.libm N decay (leftOf xs)) :=
  sn_run P N decay [k] k rfl _ _ (leftIs_one k mono xs) (leftOf_sized hN) hd outs
    (play_compound (c := .sn (.num decay)) rfl (congrArg some (newSn_eq P.libm N decay)) rfl (by simp) h)

theorem synth_closed (P : Plat) (N : Nat) (env : Env) (w : Wave) (attack decay : Fl) (k : Nat) (mono : Bool)
    (xs : List (List (Fl × Fl))) (hN : Sized N xs) (ha : TimeOk attack) (hd : TimeOk decay) (outs : List (List Buf))
    (h : play P N env (synthComp w attack decay) [.index k] (oneFrom k mono xs) = .ok outs) :
    outs = onBothSides (synthSig w attack decay (leftOf xs)) :=
  synth_run P N w attack decay [k] k rfl _ _ (leftIs_one k mono xs) (leftOf_sized hN) ha hd outs
    (play_compound (c := synthComp w attack decay) (by cases w <;> rfl) (synth_made P N w attack decay) rfl (by simp) h)

/-! ### They play -/

theorem compound_plays {N k : Nat} (hN : 1 ≤ N) (hm : ∀ a b, Within (-1) 1 (P.libm.noise a b)) (mono : Bool)
    (xs : List (List (Fl × Fl))) (hx : Sized N xs) (c : Compound) (out : List Buf) (hc : CompoundOk P.libm N c)
    (ho : c.order = [k]) (h2 : out.length = 2) (hs : Sz N out) :
    ∃ outs, runBlocks (procG P) (.compound c) out (oneFrom k mono xs) = .ok outs := by
  induction xs generalizing c out with
  | nil => exact ⟨[], rfl⟩
  | cons x xs ih =>
    have hsz : SzIns N [(k, bufsOf mono x)] := by
      intro e he
      simp only [List.mem_singleton] at he
      subst he
      have := hx x (by simp)
      intro b hb
      cases mono <;> simp only [bufsOf, List.mem_cons, List.not_mem_nil, or_false, if_true, Bool.false_eq_true, if_false] at hb
      · rcases hb with rfl | rfl <;> simp [this]
      · subst hb; simp [this]
    have hcall : Call N [(k, bufsOf mono x)] out := by
      refine ⟨hN, hs, fun h => by simp [h] at h2, hsz, ?_, by simp⟩
      intro e he
      simp only [List.mem_singleton] at he
      subst he
      cases mono <;> simp [bufsOf]
    obtain ⟨c', o, h1, h2'⟩ := procCompound_total (ho := P.ho) hm hc hcall (by omega)
      (by rw [ho]; exact ⟨[k], [], rfl, trivial, fun x => by simp⟩)
    obtain ⟨k1, k2, k3, k4⟩ := procCompound_keep (fun i d hd => (hc.graph.inner i d hd).sz) hsz hs h1
    obtain ⟨r, hr⟩ := ih (fun y hy => hx y (by simp [hy])) c' o h2' (k3.trans ho) (k1.1.trans h2) k1.2
    refine ⟨o :: r, ?_⟩
    show runBlocks (procG P) (.compound c) out ([(k, bufsOf mono x)] :: oneFrom k mono xs) = _
    simp only [runBlocks, procG, h1, reState, hr]

theorem plays_of {N k : Nat} {env : Env} {c : Comp} {K : Compound} (hN : 1 ≤ N)
    (hm : ∀ a b, Within (-1) 1 (P.libm.noise a b)) (mono : Bool) (xs : List (List (Fl × Fl))) (hx : Sized N xs)
    (hmk : makePrim P.libm env.samples env.sr env.bpm env.seed c = none) (hK : makeCompound P.libm N c = some (.ok K))
    (hs : SafeSettings false 44100 c) (hp : ∀ x, c ≠ .plate x) (hord : K.order = []) :
    ∃ outs, play P N env c [.index k] (oneFrom k mono xs) = .ok outs := by
  have hc := makeCompound_ok hs hp hK
  obtain ⟨outs, h⟩ := compound_plays (k := k) hN hm mono xs hx { K with order := [k] } (List.replicate 2 (List.replicate N (.fin 0)))
    ⟨hc.kind, hc.graph, hc.dest, hc.input, hc.size⟩ rfl (by simp) (by intro b hb; simp at hb; simp [hb])
  refine ⟨outs, ?_⟩
  have : K.msg P.libm (.index k) = .ok { K with order := [k] } := by
    have := hc.kind
    obtain ⟨kind, graph, dest, input, tags, order⟩ := K
    subst hord
    cases kind with
    | plate => exact absurd rfl this
    | _ => rfl
  simp only [play, makeNode, hmk, hK, fresh, bind, Except.bind, liftP, sendMsgs, msgG, this, Functor.map, Except.map, h]

/-! ### C57 -/

/-- **C57** (kick), up to the sample rate, which is always the usual one (`c57_rate_counterexample`). A `bd` with one
input plays the program its source gives: a sine whose frequency is swept by an envelope, under an envelope that the
left channel of the input triggers, on both channels. -/
theorem c57_bd_partial (P : Plat) (N : Nat) (env : Env) (decay : Fl) (k : Nat) (mono : Bool) (xs : List (List (Fl × Fl)))
    (hN : 1 ≤ N) (hm : ∀ a b, Within (-1) 1 (P.libm.noise a b)) (hx : Sized N xs) (hd : TimeOk decay) :
    ∃ ys, Kick P N env.usual decay (leftOf xs) ys ∧
      play P N env (.bd (.num decay)) [.index k] (oneFrom k mono xs) = .ok (onBothSides ys) := by
  obtain ⟨outs, h⟩ := plays_of (env := env) (k := k) (c := .bd (.num decay)) hN hm mono xs hx rfl
    (congrArg some (newBd_eq P.libm N decay)) hd (fun x h => by cases h) rfl
  have t3 := dec_le (3 / 1000)
  have t4 := dec_le (1 / 100)
  have t4' := dec_le (1 / 10)
  have td := time_le hd
  have p3 : secToSamples 44100 (dec (3 / 1000)) + secToSamples 44100 decay < 2 ^ 64 := by omega
  have p4 : secToSamples 44100 (dec (1 / 100)) + secToSamples 44100 (dec (1 / 10)) < 2 ^ 64 := by omega
  exact ⟨_, ⟨_, _, _, perc_alone (env := env.usual) p3 _, perc_alone (env := env.usual) p4 _, sin_alone _, rfl⟩,
    h.trans (congrArg Except.ok (bd_closed P N env decay k mono xs hx hd outs h))⟩

/-- **C57** (hi-hat), up to the sample rate. -/
theorem c57_hh_partial (P : Plat) (N : Nat) (env : Env) (decay : Fl) (k : Nat) (mono : Bool) (xs : List (List (Fl × Fl)))
    (hN : 1 ≤ N) (hm : ∀ a b, Within (-1) 1 (P.libm.noise a b)) (hx : Sized N xs) (hd : TimeOk decay) :
    ∃ ys, Hat P N env.usual decay (leftOf xs) ys ∧
      play P N env (.hh (.num decay)) [.index k] (oneFrom k mono xs) = .ok (onBothSides ys) := by
  obtain ⟨outs, h⟩ := plays_of (env := env) (k := k) (c := .hh (.num decay)) hN hm mono xs hx rfl
    (congrArg some (newHh_eq P.libm N decay)) hd (fun x h => by cases h) rfl
  have t3 := dec_le (3 / 1000)
  have td := time_le hd
  have p3 : secToSamples 44100 (dec (3 / 1000)) + secToSamples 44100 decay < 2 ^ 64 := by omega
  have hlen : (leftOf xs).length = xs.length := List.length_map ..
  exact ⟨_, ⟨_, _, _, perc_alone (env := env.usual) p3 _, by rw [hlen]; exact noise_alone _ _, rhpf_alone _ _ _, rfl⟩,
    h.trans (congrArg Except.ok (hh_closed P N env decay k mono xs hx hd outs h))⟩

/-- **C57** (snare), up to the sample rate. -/
theorem c57_sn_partial (P : Plat) (N : Nat) (env : Env) (decay : Fl) (k : Nat) (mono : Bool) (xs : List (List (Fl × Fl)))
    (hN : 1 ≤ N) (hm : ∀ a b, Within (-1) 1 (P.libm.noise a b)) (hx : Sized N xs) (hd : TimeOk decay) :
    ∃ ys, Snare P N env.usual decay (leftOf xs) ys ∧
      play P N env (.sn (.num decay)) [.index k] (oneFrom k mono xs) = .ok (onBothSides ys) := by
  obtain ⟨outs, h⟩ := plays_of (env := env) (k := k) (c := .sn (.num decay)) hN hm mono xs hx rfl
    (congrArg some (newSn_eq P.libm N decay)) hd (fun x h => by cases h) rfl
  have t3 := dec_le (1 / 1000)
  have t4' := dec_le (1 / 10)
  have td := time_le hd
  have p3 : secToSamples 44100 (dec (1 / 1000)) + secToSamples 44100 decay < 2 ^ 64 := by omega
  have p4 : secToSamples 44100 (dec (1 / 1000)) + secToSamples 44100 (dec (1 / 10)) < 2 ^ 64 := by omega
  have hlen : (leftOf xs).length = xs.length := List.length_map ..
  exact ⟨_, ⟨_, _, _, _, perc_alone (env := env.usual) p3 _, perc_alone (env := env.usual) p4 _, sin_alone _,
    by rw [hlen]; exact noise_alone _ _, rfl⟩, h.trans (congrArg Except.ok (sn_closed P N env decay k mono xs hx hd outs h))⟩

/-- **C57** (synths), up to the sample rate. -/
theorem c57_synth_partial (P : Plat) (N : Nat) (env : Env) (w : Wave) (attack decay : Fl) (k : Nat) (mono : Bool)
    (xs : List (List (Fl × Fl))) (hN : 1 ≤ N) (hm : ∀ a b, Within (-1) 1 (P.libm.noise a b)) (hx : Sized N xs) (ha : TimeOk attack) (hd : TimeOk decay) :
    ∃ ys, Note P N env.usual w attack decay (leftOf xs) ys ∧
      play P N env (synthComp w attack decay) [.index k] (oneFrom k mono xs) = .ok (onBothSides ys) := by
  obtain ⟨outs, h⟩ := plays_of (env := env) (k := k) (c := synthComp w attack decay) hN hm mono xs hx (by cases w <;> rfl)
    (synth_made P N w attack decay) (by cases w <;> exact ⟨ha, hd⟩) (fun x h => by cases w <;> cases h) rfl
  have ta := time_le ha
  have td := time_le hd
  have p3 : secToSamples 44100 attack + secToSamples 44100 decay < 2 ^ 64 := by omega
  exact ⟨_, ⟨_, _, perc_alone (env := env.usual) p3 _, osc_alone _ _, rfl⟩,
    h.trans (congrArg Except.ok (synth_closed P N env w attack decay k mono xs hx ha hd outs h))⟩

/-- **C57**, when there is not exactly one input: nothing is heard. -/
theorem c57_unfed (P : Plat) (N : Nat) (env : Env) (c : Comp) (K : Compound)
    (hc : makePrim P.libm env.samples env.sr env.bpm env.seed c = none) (hK : makeCompound P.libm N c = some (.ok K))
    (hp : K.kind ≠ .plate) (ins : List Ins) (hi : ∀ i, i ∈ ins → i.length ≠ 1) :
    play P N env c [] ins = .ok (ins.map (fun _ => List.replicate 2 (List.replicate N (.fin 0)))) := by
  have : ∀ (ins : List Ins), (∀ i, i ∈ ins → i.length ≠ 1) → ∀ out, runBlocks (procG P) (.compound K) out ins =
      .ok (ins.map (fun _ => out)) := by
    intro ins
    induction ins with
    | nil => intro _ _; rfl
    | cons i ins ih =>
      intro h out
      have h1 : procCompound P.libm P.ho K i out = .ok (K, out) := by
        unfold procCompound
        split
        · exact absurd (by assumption) hp
        · rename_i e _; exact absurd rfl (h [e] (by simp))
        · rfl
      simp only [runBlocks, procG, h1, reState, ih (fun j hj => h j (by simp [hj])) out, List.map_cons]
  simp only [play, makeNode, hc, hK, fresh, bind, Except.bind, liftP, sendMsgs, this ins hi]

/-! ### Where it is not so -/

theorem alone_unique {N : Nat} {env : Env} {c : Comp} {xs ys zs : List Buf} (h1 : Alone P N env c xs ys)
    (h2 : Alone P N env c xs zs) : ys = zs := by
  obtain ⟨o, a1, a2⟩ := h1 0
  obtain ⟨o', b1, b2⟩ := h2 0
  rw [a1] at b1
  cases b1
  rw [a2] at b2
  exact List.map_injective_iff.mpr (Option.some_injective _) b2

theorem aloneSource_unique {N n : Nat} {env : Env} {c : Comp} {ys zs : List Buf} (h1 : AloneSource P N env c n ys)
    (h2 : AloneSource P N env c n zs) : ys = zs := by
  obtain ⟨o, a1, a2⟩ := h1
  obtain ⟨o', b1, b2⟩ := h2
  rw [a1] at b1
  cases b1
  rw [a2] at b2
  exact List.map_injective_iff.mpr (Option.some_injective _) b2

end Verif.Props

namespace Verif.Props
open Verif Spec

theorem demo_noise (a b : Nat) : Within (-1) 1 (Demo.plat.libm.noise a b) :=
  ⟨rfl, show (-1 : ℚ) ≤ 0 by norm_num, show (0 : ℚ) ≤ 1 by norm_num⟩

/-- One block: a click, then nothing. -/
def click : List (List (Fl × Fl)) := [[(.fin 1, .fin 1), (.fin 0, .fin 0), (.fin 0, .fin 0)]]

theorem click_sized : Sized 3 click := by
  intro x hx
  simp only [click, List.mem_singleton] at hx
  subst hx
  rfl

/-- **C57** fails at other sample rates: the nodes inside are made for 44100 samples in a second, and nobody tells them
that there are 48000. So every drum and synth is too fast and too high by the ratio of the two, while the components
written out follow the rate of the engine. -/
theorem c57_rate_counterexample : ∃ (env : Env) (outs : List (List Buf)), env.sr = 48000 ∧
    play Demo.plat 3 env (.sawsynth (dec (1 / 10000)) (dec (1 / 10))) [.index 0] (oneFrom 0 true click) = .ok outs ∧
    ¬ ∃ ys, Note Demo.plat 3 env .saw (dec (1 / 10000)) (dec (1 / 10)) (leftOf click) ys ∧ outs = onBothSides ys := by
  have ta : TimeOk (dec (1 / 10000)) := by unfold TimeOk; decide +kernel
  have td : TimeOk (dec (1 / 10)) := by unfold TimeOk; decide +kernel
  obtain ⟨ys, ⟨amp, wave, a1, a2, a3⟩, hp⟩ := c57_synth_partial Demo.plat 3 ⟨[], 48000, .fin 120, 0⟩ .saw (dec (1 / 10000))
    (dec (1 / 10)) 0 true click (by omega) demo_noise click_sized ta td
  have p : secToSamples 44100 (dec (1 / 10000)) + secToSamples 44100 (dec (1 / 10)) < 2 ^ 64 := by decide +kernel
  have p' : secToSamples 48000 (dec (1 / 10000)) + secToSamples 48000 (dec (1 / 10)) < 2 ^ 64 := by decide +kernel
  refine ⟨_, _, rfl, hp, ?_⟩
  rintro ⟨zs, ⟨amp', wave', b1, b2, b3⟩, hz⟩
  rw [alone_unique b1 (perc_alone p' _), alone_unique b2 (osc_alone (w := .saw) _)] at b3
  rw [alone_unique a1 (perc_alone p _), alone_unique a2 (osc_alone (w := .saw) _)] at a3
  rw [a3, b3] at hz
  revert hz
  decide +kernel

/-- A platform on which the noise is heard and the coefficients of the filter are not zero. -/
def hatPlat : Plat :=
  ⟨⟨fun _ => .fin 1, fun _ => .fin 0, fun _ => .fin 0, fun _ _ => .fin 0, fun _ => .fin 0, fun _ _ => .fin 1, false⟩,
    .ident, Demo.ext⟩

theorem hat_noise (a b : Nat) : Within (-1) 1 (hatPlat.libm.noise a b) :=
  ⟨rfl, show (-1 : ℚ) ≤ 1 by norm_num, show (1 : ℚ) ≤ 1 by norm_num⟩

/-- The hi-hat is not the one that its source announces: there the envelope comes before the filter and is faster, and
the result is softened. -/
theorem c57_hat_as_written_counterexample : ∃ (outs : List (List Buf)),
    play hatPlat 3 ⟨[], 44100, .fin 120, 0⟩ (.hh (.num (dec (1 / 10)))) [.index 0] (oneFrom 0 true click) = .ok outs ∧
    ¬ ∃ ys, HatAsWritten hatPlat 3 ⟨[], 44100, .fin 120, 0⟩ (dec (1 / 10)) (leftOf click) ys ∧ outs = onBothSides ys := by
  have td : TimeOk (dec (1 / 10)) := by unfold TimeOk; decide +kernel
  obtain ⟨ys, ⟨amp, noise, high, a1, a2, a3, a4⟩, hp⟩ := c57_hh_partial hatPlat 3 ⟨[], 44100, .fin 120, 0⟩ (dec (1 / 10)) 0 true click
    (by omega) hat_noise click_sized td
  have p : secToSamples 44100 (dec (3 / 1000)) + secToSamples 44100 (dec (1 / 10)) < 2 ^ 64 := by decide +kernel
  have p' : secToSamples 44100 (dec (1 / 1000)) + secToSamples 44100 (dec (1 / 10)) < 2 ^ 64 := by decide +kernel
  refine ⟨_, hp, ?_⟩
  rintro ⟨zs, ⟨amp', noise', high', b1, b2, b3, b4⟩, hz⟩
  rw [aloneSource_unique a2 (noise_alone _ _)] at a3
  rw [alone_unique a1 (perc_alone p _), alone_unique a3 (rhpf_alone _ _ _)] at a4
  rw [aloneSource_unique b2 (noise_alone _ _), alone_unique b1 (perc_alone p' _)] at b3
  rw [alone_unique b3 (rhpf_alone _ _ _)] at b4
  rw [a4, b4] at hz
  revert hz
  decide +kernel

/-! ### Examples -/

theorem tenth_ok : TimeOk (dec (1 / 10)) := by unfold TimeOk; decide +kernel

-- A kick is hit, and something follows.
example : ∃ ys, Kick Demo.plat 3 ⟨[], 44100, .fin 120, 0⟩ (dec (1 / 10)) (leftOf click) ys ∧
    play Demo.plat 3 ⟨[], 44100, .fin 120, 0⟩ (.bd (.num (dec (1 / 10)))) [.index 7] (oneFrom 7 false click) = .ok (onBothSides ys) :=
  c57_bd_partial _ _ ⟨[], 44100, .fin 120, 0⟩ _ 7 false click (by omega) demo_noise click_sized tenth_ok

example : ∃ ys, Hat hatPlat 3 ⟨[], 44100, .fin 120, 0⟩ (dec (1 / 10)) (leftOf click) ys ∧
    play hatPlat 3 ⟨[], 48000, .fin 120, 0⟩ (.hh (.num (dec (1 / 10)))) [.index 7] (oneFrom 7 false click) = .ok (onBothSides ys) :=
  c57_hh_partial _ _ ⟨[], 48000, .fin 120, 0⟩ _ 7 false click (by omega) hat_noise click_sized tenth_ok

example : ∃ ys, Snare hatPlat 3 ⟨[], 44100, .fin 120, 0⟩ (dec (1 / 10)) (leftOf click) ys ∧
    play hatPlat 3 ⟨[], 44100, .fin 120, 0⟩ (.sn (.num (dec (1 / 10)))) [.index 7] (oneFrom 7 false click) = .ok (onBothSides ys) :=
  c57_sn_partial _ _ ⟨[], 44100, .fin 120, 0⟩ _ 7 false click (by omega) hat_noise click_sized tenth_ok

example : ∃ ys, Note Demo.plat 3 ⟨[], 44100, .fin 120, 0⟩ .squ (dec (1 / 10)) (dec (1 / 10)) (leftOf click) ys ∧
    play Demo.plat 3 ⟨[], 44100, .fin 120, 0⟩ (.squsynth (dec (1 / 10)) (dec (1 / 10))) [.index 7] (oneFrom 7 false click) =
      .ok (onBothSides ys) :=
  c57_synth_partial _ _ ⟨[], 44100, .fin 120, 0⟩ .squ _ _ 7 false click (by omega) demo_noise click_sized tenth_ok tenth_ok

-- The notes are not silence.
example (outs : List (List Buf))
    (h : play Demo.plat 3 ⟨[], 44100, .fin 120, 0⟩ (.sawsynth (dec (1 / 10000)) (dec (1 / 10))) [.index 7] (oneFrom 7 false click) = .ok outs) :
    outs.map (List.map (List.map (fun x => decide (x = .fin 0)))) = [[[true, false, false], [true, false, false]]] := by
  rw [synth_closed Demo.plat 3 ⟨[], 44100, .fin 120, 0⟩ .saw _ _ 7 false click click_sized (by unfold TimeOk; decide +kernel) tenth_ok outs h]
  decide +kernel

-- A snare without an input.
example : play Demo.plat 3 ⟨[], 44100, .fin 120, 0⟩ (.sn (.num (dec (1 / 10)))) [] (noInput 2) =
    .ok [List.replicate 2 (List.replicate 3 (.fin 0)), List.replicate 2 (List.replicate 3 (.fin 0))] :=
  c57_unfed Demo.plat 3 ⟨[], 44100, .fin 120, 0⟩ (.sn (.num (dec (1 / 10)))) _ rfl (congrArg some (newSn_eq Demo.libm 3 (dec (1 / 10)))) (by simp) (noInput 2)
    (by intro i hi; simp only [noInput, List.mem_replicate] at hi; rw [hi.2]; simp)

end Verif.Props
