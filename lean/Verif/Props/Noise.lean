import Verif.Lemmas.Count
import Verif.Lemmas.Inputs

/-! # Noise and balance (C51, C52) -/

namespace Verif.Props
open Spec

theorem noise_make (P : Plat) (N : Nat) (env : Env) (s : Nat) :
    makeNode P N env.samples env.sr env.bpm env.seed (.noise s) =
      .ok (fresh N 1 (.prim (.noise ⟨s, 0, []⟩)), []) := rfl

/-- C51. Sample `t` of `noise s` is value `t` of the generator with seed `s`, rounded to f32, whatever the block
length and the inputs: no value is skipped, repeated or drawn again. -/
theorem c51_noise (P : Plat) (N : Nat) (env : Env) (s : Nat) (ins : List Ins) :
    ∃ outs ys, play P N env (.noise s) [] ins = .ok outs ∧ channel 0 outs = some ys ∧
      ys.length = ins.length * N ∧ ∀ t, t < ys.length → ys[t]? = some (Fl.conv f32 (P.libm.noise s t)) := by
  have hr := runM_count (fun k => .ok (Fl.conv f32 (P.libm.noise s k))) (fun k => Fl.conv f32 (P.libm.noise s k)) 0
    (ins.length * N) (fun _ _ _ => rfl)
  obtain ⟨o, h1, h2⟩ := blocks_source (procG P) (fun k => .prim (.noise ⟨s, k, []⟩))
    (countStep (fun k => .ok (Fl.conv f32 (P.libm.noise s k)))) N (Shaped 1 N) ins
    (fun k i out _ ho => by
      obtain ⟨a, rfl, ha⟩ := ho.one
      have h1 := runM_pure (noiseStep P.libm s) k a
      have h2 := runM_const (fun k x => .ok (noiseStep P.libm s k x))
        (countStep (fun k => .ok (Fl.conv f32 (P.libm.noise s k)))) (fun _ _ _ => rfl) k a (List.replicate N ()) (by simp [ha])
      rw [← h2, h1]
      rfl)
    (fun y hy => ⟨rfl, by simp [hy]⟩) 0 _ (shaped_fresh N 1 (GNode.prim (P := P) (.noise ⟨s, 0, []⟩))) _ hr
  refine ⟨o, _, play_ok (noise_make P N env s) rfl h1, h2, by simp, fun t ht => ?_⟩
  simp only [List.length_map, List.length_range] at ht
  simp [ht]

/-- Two blocks of two samples: four different values. -/
example (P : Plat) (env : Env) : ∃ (Q : Plat) (outs : List (List Buf)),
    play Q 2 env (.noise 7) [] (noInput 2) = .ok outs ∧
    channel 0 outs = some [.fin 0, .fin (1 / 8), .fin (1 / 4), .fin (3 / 8)] := by
  obtain ⟨o, ys, h1, h2, h3, h4⟩ := c51_noise
    { P with libm := { P.libm with noise := fun _ k => .fin (k / 8) } } 2 env 7 (noInput 2)
  refine ⟨_, o, h1, h2.trans ?_⟩
  rw [Option.some.injEq]
  simp only [noInput, List.length_replicate] at h3
  apply List.ext_getElem? 
  intro t
  by_cases ht : t < ys.length
  · rw [h4 t ht]
    rw [h3] at ht
    rcases t with _ | _ | _ | _ | t
    · show some (Fl.conv f32 (.fin ((0 : Nat) / 8))) = some (.fin 0)
      decide +kernel
    · show some (Fl.conv f32 (.fin ((1 : Nat) / 8))) = some (.fin (1 / 8))
      decide +kernel
    · show some (Fl.conv f32 (.fin ((2 : Nat) / 8))) = some (.fin (1 / 4))
      decide +kernel
    · show some (Fl.conv f32 (.fin ((3 : Nat) / 8))) = some (.fin (3 / 8))
      decide +kernel
    · omega
  · rw [List.getElem?_eq_none (by omega), List.getElem?_eq_none (by rw [h3] at ht; simpa using ht)]

/-! ### balance -/

/-- The stream of blocks given one by one. -/
theorem channel_of_blocks {N c : Nat} (outs : List (List Buf)) (xs : List Fl) (hl : xs.length = outs.length * N)
    (h : ∀ (k : Nat) o, outs[k]? = some o → ∃ b, o[c]? = some b ∧ b.length = N ∧ ∀ s, s < N → b[s]? = xs[k * N + s]?) :
    channel c outs = some xs := by
  induction outs generalizing xs with
  | nil =>
    obtain rfl : xs = [] := List.length_eq_zero_iff.mp (by simpa using hl)
    rfl
  | cons o outs ih =>
    obtain ⟨b, h1, h2, h3⟩ := h 0 o rfl
    have hlen : xs.length = outs.length * N + N := by rw [hl, List.length_cons]; ring
    have := ih (xs.drop N) (by rw [List.length_drop]; omega) (fun k o' ho => by
      obtain ⟨b', g1, g2, g3⟩ := h (k + 1) o' ho
      refine ⟨b', g1, g2, fun s hs => ?_⟩
      rw [g3 s hs, List.getElem?_drop]
      congr 1
      ring)
    simp only [channel, h1, this, Option.some.injEq]
    have hb : b = xs.take N := by
      apply List.ext_getElem?
      intro s
      by_cases hs : s < N
      · rw [h3 s hs, List.getElem?_take, if_pos hs]; simp
      · rw [List.getElem?_eq_none (by omega), List.getElem?_eq_none (by rw [List.length_take]; omega)]
    rw [hb, List.take_append_drop]

theorem balance_blocks (P : Plat) (N : Nat) (k j : Nat) (ins : List Ins) (h2 : ∀ i, i ∈ ins → i.length = 2)
    (g : ∀ i, i ∈ ins → ∃ l l0 r r0, inputAt i [k, j] 0 = .ok l ∧ chan l 0 = .ok l0 ∧ inputAt i [k, j] 1 = .ok r ∧ chan r 0 = .ok r0)
    (a b : Buf) :
    ∃ outs, runBlocks (procG P) (.prim (.balance [k, j])) [a, b] ins = .ok outs ∧ List.Forall₂ (fun i o =>
      ∃ l r l0 r0, inputAt i [k, j] 0 = .ok l ∧ chan l 0 = .ok l0 ∧ inputAt i [k, j] 1 = .ok r ∧ chan r 0 = .ok r0 ∧
        o = [l0, r0]) ins outs := by
  induction ins generalizing a b with
  | nil => exact ⟨[], rfl, .nil⟩
  | cons i ins ih =>
    obtain ⟨l, l0, r, r0, g1, g2, g3, g4⟩ := g i (by simp)
    obtain ⟨o, h3, h4⟩ := ih (fun i hi => h2 i (by simp [hi])) (fun i hi => g i (by simp [hi])) l0 r0
    obtain ⟨x, y, rfl⟩ := List.length_eq_two.mp (h2 i (by simp))
    refine ⟨[l0, r0] :: o, ?_, .cons ⟨l, r, l0, r0, g1, g2, g3, g4, rfl⟩ h4⟩
    have hp : procG P (.prim (.balance [k, j])) [x, y] [a, b] = .ok (.prim (.balance [k, j]), [l0, r0]) := by
      simp only [procG, procPrim, procBalance, g1, g2, g3, g4, bind, Except.bind, setStereo, sameNode]
      rfl
    rw [runBlocks, hp]
    simp only [h3]

/-- C52 for two different sources: `balance ~a ~b` plays the first source on the left and the second on the right
(the first channel of each), in whatever order the inputs are visited. -/
theorem c52_balance_partial (P : Plat) (N : Nat) (env : Env) (p q : Name) (k j : Nat) (ins : List Ins) (xs ys : List Fl)
    (h2 : ∀ i, i ∈ ins → i.length = 2) (hx : Sends N ins k xs) (hy : Sends N ins j ys) :
    ∃ outs, play P N env (.balance p q) [.index k, .index j] ins = .ok outs ∧
      channel 0 outs = some xs ∧ channel 1 outs = some ys := by
  obtain ⟨o, g1, g2⟩ := balance_blocks P N k j ins h2 (fun i hi => by
    obtain ⟨m, hm⟩ := List.getElem?_of_mem hi
    obtain ⟨l, l0, a1, a2, _, _⟩ := sends_inputAt hx (order := [k, j]) (j := 0) rfl hm
    obtain ⟨r, r0, b1, b2, _, _⟩ := sends_inputAt hy (order := [k, j]) (j := 1) rfl hm
    exact ⟨l, l0, r, r0, a1, a2, b1, b2⟩) (List.replicate N (.fin 0)) (List.replicate N (.fin 0))
  have hlen := g2.length_eq
  have key : ∀ (m : Nat) o', o[m]? = some o' → ∃ l0 r0, o' = [l0, r0] ∧ (l0.length = N ∧ ∀ s, s < N → l0[s]? = xs[m * N + s]?) ∧
      r0.length = N ∧ ∀ s, s < N → r0[s]? = ys[m * N + s]? := by
    intro m o' ho
    obtain ⟨hm, rfl⟩ := List.getElem?_eq_some_iff.mp ho
    have hmi : ins[m]? = some ins[m] := List.getElem?_eq_getElem (by omega)
    obtain ⟨l, r, l0, r0, e1, e2, e3, e4, e5⟩ := (List.forall₂_iff_get.mp g2).2 m (by omega) hm
    obtain ⟨l', l0', a1, a2, a3, a4⟩ := sends_inputAt hx (order := [k, j]) (j := 0) rfl hmi
    obtain ⟨r', r0', b1, b2, b3, b4⟩ := sends_inputAt hy (order := [k, j]) (j := 1) rfl hmi
    simp only [List.get_eq_getElem] at e1 e2 e3 e4 e5
    rw [e1] at a1; cases a1; rw [e2] at a2; cases a2
    rw [e3] at b1; cases b1; rw [e4] at b2; cases b2
    exact ⟨l0, r0, e5, ⟨a3, a4⟩, b3, b4⟩
  refine ⟨o, play_ok (d := fresh N 2 (.prim (.balance []))) (refs := [p, q]) (n := .prim (.balance [k, j])) rfl rfl g1, ?_, ?_⟩
  · refine channel_of_blocks o xs (by rw [hx.1, hlen]) (fun m o' ho => ?_)
    obtain ⟨l0, r0, rfl, ⟨c1, c2⟩, _⟩ := key m o' ho
    exact ⟨l0, rfl, c1, c2⟩
  · refine channel_of_blocks o ys (by rw [hy.1, hlen]) (fun m o' ho => ?_)
    obtain ⟨l0, r0, rfl, _, c1, c2⟩ := key m o' ho
    exact ⟨r0, rfl, c1, c2⟩

/-- Two sources, visited in one order in the first block and in the other in the second. -/
example : let ins : List Ins := [[(3, [[.fin 1]]), (5, [[.fin 2], [.fin 9]])], [(5, [[.fin 4], [.fin 9]]), (3, [[.fin 3]])]]
    (∀ i, i ∈ ins → i.length = 2) ∧ Sends 1 ins 3 [.fin 1, .fin 3] ∧ Sends 1 ins 5 [.fin 2, .fin 4] := by
  refine ⟨by decide, ⟨rfl, ?_⟩, rfl, ?_⟩ <;> intro k i hi <;> rcases k with _ | _ | k <;>
    simp only [List.getElem?_cons_zero, List.getElem?_cons_succ, List.getElem?_nil, Option.some.injEq, reduceCtorEq] at hi <;>
    subst hi <;> refine ⟨_, _, List.mem_cons.mpr (by first | exact .inl rfl | exact .inr (List.mem_cons.mpr (.inl rfl))), ?_, rfl, rfl, ?_⟩ <;>
    first
      | (intro s hs; obtain rfl : s = 0 := by omega
         rfl)
      | (intro x hx; simpa using hx)

/-- C52 fails for one source: `balance ~a ~a` is silent (rs/synth/src/node/effect/balance.rs:23-34 asks for two inputs, but
one source is one input). -/
theorem c52_same_source_counterexample (P : Plat) (N : Nat) (env : Env) (p : Name) (k : Nat) (xs : List (List (Fl × Fl)))
    (mono : Bool) :
    play P N env (.balance p p) [.index k, .index k] (oneFrom k mono xs) =
      .ok (List.replicate xs.length [List.replicate N (.fin 0), List.replicate N (.fin 0)]) := by
  have : ∀ out, runBlocks (procG P) (.prim (.balance [k, k])) out (oneFrom k mono xs) = .ok (List.replicate xs.length out) := by
    intro out
    induction xs with
    | nil => rfl
    | cons x xs ih =>
      have hp : procG P (.prim (.balance [k, k])) [(k, bufsOf mono x)] out = .ok (.prim (.balance [k, k]), out) := rfl
      simp only [oneFrom, List.map_cons] at ih ⊢
      rw [runBlocks, hp]
      simp only [ih]
      rfl
  exact play_ok (d := fresh N 2 (.prim (.balance []))) (refs := [p, p]) (n := .prim (.balance [k, k])) rfl rfl (this _)

end Verif.Props
