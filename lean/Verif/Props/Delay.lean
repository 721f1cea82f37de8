import Verif.Lemmas.Nodes

/-! # The delay lines (C18, C19) -/

namespace Verif.Props
open Spec

/-! ### delayn -/

theorem delayn_make (P : Plat) (N : Nat) (env : Env) (n k : Nat) :
    makeNode P N env.samples env.sr env.bpm env.seed (.delayn (.nat n)) =
      .ok (fresh N 2 (.prim (.delayn (DelayN.new n))), []) ∧
    sendMsgs (P := P) (.prim (.delayn (DelayN.new n))) [.index k] =
      .ok (.prim (.delayn { DelayN.new n with order := [k] })) := by
  exact ⟨rfl, rfl⟩

theorem run_reStep_push {ι : Type} {r : Ring} (hr : r.Wf) (a : ι → Fl) (b : Fl → Fl × Fl) (xs : List ι) :
    ∃ r', runM (reStep a b Ring.push) r xs =
      .ok (r', ((r.contents ++ xs.map a).take xs.length).map b) := by
  obtain ⟨r', h, _⟩ := Ring.run_push hr (xs.map a)
  refine ⟨r', ?_⟩
  rw [runM_map, h]
  simp [Except.map]

theorem run_triv {ι ο : Type} (b : ι → ο) (xs : List ι) :
    runM (fun (_ : Unit) x => .ok ((), b x)) () xs = .ok ((), xs.map b) := by
  induction xs with
  | nil => rfl
  | cons x xs ih => simp [runM, ih]

theorem shaped_pairs {N : Nat} {ys : List (Fl × Fl)} (h : ys.length = N) :
    Shaped 2 N [ys.map Prod.fst, ys.map Prod.snd] :=
  ⟨rfl, fun b hb => by
    simp only [List.mem_cons, List.not_mem_nil, or_false] at hb
    rcases hb with rfl | rfl <;> simp [h]⟩

theorem delayn_new {n : Nat} (hn : 1 ≤ n) :
    (DelayN.new n).buf = ⟨List.replicate n (.fin 0), 0⟩ := by
  have : n ≠ 0 := by omega
  simp [DelayN.new, this]

/-- C18 for a mono input: both output channels are the input delayed by `n` samples, whatever the
block length and the cut of the stream into blocks. Missing: a stereo input, see below. -/
theorem c18_delayn_mono_partial (P : Plat) (N : Nat) (env : Env) (n k : Nat) (xs : List Buf) :
    ∃ outs ys, play P N env (.delayn (.nat n)) [.index k] (monoFrom k xs) = .ok outs ∧
      channel 0 outs = some ys ∧ channel 1 outs = some ys ∧ Delayed n xs.flatten ys := by
  by_cases hn : n = 0
  · subst hn
    obtain ⟨o, h1, h2, h3⟩ := blocks_stereo (procG P)
      (fun (_ : Unit) => .prim (.delayn { DelayN.new 0 with order := [k] }))
      (fun _ (x : Fl) => .ok ((), (x, x))) (fun x => [(k, [x])]) (fun o => o.length = 2) xs
      (fun s x out _ ho => by
        obtain ⟨a, b, rfl⟩ := List.length_eq_two.mp ho
        have := run_triv (fun x : Fl => (x, x)) x
        rw [this]
        simp [procG, procPrim, procDelayN, DelayN.new, passBufs, reState, blockOf, Function.comp_def])
      (fun _ _ _ _ _ => rfl) () _ (shaped_fresh N 2 (GNode.prim (P := P) (.delayn (DelayN.new 0)))).1
      _ (run_triv _ _)
    refine ⟨o, xs.flatten, play_ok (delayn_make P N env 0 k).1 (delayn_make P N env 0 k).2 h1,
      by simpa [Function.comp_def] using h2, by simpa [Function.comp_def] using h3, delayed_zero _⟩
  · have hb := delayn_new (n := n) (by omega)
    have hw : (DelayN.new n).buf.Wf := by rw [hb]; exact Ring.wf_zeros (by omega)
    obtain ⟨r', hr⟩ := run_reStep_push hw (id : Fl → Fl) (fun y => (y, y)) xs.flatten
    obtain ⟨o, h1, h2, h3⟩ := blocks_stereo (procG P)
      (fun r => .prim (.delayn { DelayN.new n with buf := r, order := [k] }))
      (reStep id (fun y => (y, y)) Ring.push) (fun x => [(k, [x])]) (fun o => o.length = 2) xs
      (fun s x out _ ho => by
        obtain ⟨a, b, rfl⟩ := List.length_eq_two.mp ho
        rw [runM_map, List.map_id]
        simp only [procG, procPrim, procDelayN, DelayN.new, if_neg hn, chan, List.getElem?_cons_zero]
        cases h : runM Ring.push s x with
        | error e => simp [bind, Except.bind, h, reState, blockOf, Except.map]
        | ok q => simp [bind, Except.bind, h, reState, blockOf, Except.map, Function.comp_def])
      (fun _ _ _ _ _ => rfl) _ _ (shaped_fresh N 2 (GNode.prim (P := P) (.delayn (DelayN.new n)))).1
      _ hr
    refine ⟨o, _, play_ok (delayn_make P N env n k).1 (delayn_make P N env n k).2 h1, h2, ?_, ?_⟩
    · rw [h3]; simp only [List.map_map, Function.comp_def]
    · simp only [hb, Ring.contents_zeros, List.map_map, List.map_id]
      simpa [Function.comp_def] using delayed_take n xs.flatten

/-- C18 for a stereo input, `n ≥ 1`: the left channel is delayed as it should be, but the right
channel of the output is silent. -/
theorem c18_delayn_stereo_partial (P : Plat) (N : Nat) (env : Env) (n k : Nat) (hn : 1 ≤ n)
    (xs : List (List (Fl × Fl))) (hs : Sized N xs) :
    ∃ outs l r, play P N env (.delayn (.nat n)) [.index k] (stereoFrom k xs) = .ok outs ∧
      channel 0 outs = some l ∧ channel 1 outs = some r ∧
      Delayed n (xs.flatten.map Prod.fst) l ∧ ∀ x, x ∈ r → x = .fin 0 := by
  have hn0 : n ≠ 0 := by omega
  have hb := delayn_new hn
  have hw : (DelayN.new n).buf.Wf := by rw [hb]; exact Ring.wf_zeros (by omega)
  obtain ⟨r', hr⟩ := run_reStep_push hw (Prod.fst : Fl × Fl → Fl) (fun y => (y, .fin 0)) xs.flatten
  obtain ⟨o, h1, h2, h3⟩ := blocks_stereo (procG P)
    (fun r => .prim (.delayn { DelayN.new n with buf := r, order := [k] }))
    (reStep Prod.fst (fun y => (y, .fin 0)) Ring.push)
    (fun x => [(k, [x.map Prod.fst, x.map Prod.snd])])
    (fun o => ∃ a, o = [a, List.replicate N (.fin 0)]) xs
    (fun s x out hx ho => by
      obtain ⟨a, rfl⟩ := ho
      rw [runM_map]
      simp only [procG, procPrim, procDelayN, DelayN.new, if_neg hn0, chan, List.getElem?_cons_zero]
      cases h : runM Ring.push s (x.map Prod.fst) with
      | error e => simp [bind, Except.bind, h, reState, blockOf, Except.map]
      | ok q =>
        have hl := runM_length h
        rw [List.length_map, hs x hx] at hl
        simp only [bind, Except.bind, h, reState, blockOf, Except.map, List.map_map, List.length_cons,
          List.length_nil]
        simp [Function.comp_def, List.map_const', hl])
    (fun s x r hx hr => by
      have hl := sized_out hs hx hr
      rw [runM_map] at hr
      cases h : runM Ring.push s (x.map Prod.fst) with
      | error e => rw [h] at hr; simp [Except.map] at hr
      | ok q =>
        rw [h] at hr
        simp only [Except.map, Except.ok.injEq] at hr
        subst hr
        simp only [List.length_map] at hl
        exact ⟨q.2, by simp [Function.comp_def, List.map_const', hl]⟩)
    _ (fresh N 2 (GNode.prim (P := P) (.delayn (DelayN.new n)))).buffers ⟨_, rfl⟩ _ hr
  refine ⟨o, _, _, play_ok (delayn_make P N env n k).1 (delayn_make P N env n k).2 h1, h2, h3, ?_, ?_⟩
  · simp only [hb, Ring.contents_zeros, List.map_map]
    simpa [Function.comp_def] using delayed_take n (xs.flatten.map Prod.fst)
  · intro x hx
    simp only [List.map_map, List.mem_map] at hx
    obtain ⟨a, _, rfl⟩ := hx
    rfl

/-- C18 fails for stereo inputs: whatever the platform, the block length and the environment, there
is an input whose right channel does not come out of `delayn n`. -/
theorem c18_stereo_counterexample (P : Plat) (N : Nat) (env : Env) (n k : Nat) (hn : 1 ≤ n)
    (hN : 1 ≤ N) :
    ¬ ∀ xs : List (List (Fl × Fl)), Sized N xs →
      ∃ outs r, play P N env (.delayn (.nat n)) [.index k] (stereoFrom k xs) = .ok outs ∧
        channel 1 outs = some r ∧ Delayed n (xs.flatten.map Prod.snd) r := by
  intro h
  have hs : Sized N (List.replicate (n + 1) (List.replicate N ((.fin 0, .fin 1) : Fl × Fl))) := by
    intro x hx
    rw [List.mem_replicate] at hx
    simp [hx.2]
  obtain ⟨outs, r, h1, h2, h3, h4⟩ := h _ hs
  obtain ⟨outs', l, r', g1, _, g3, _, g5⟩ := c18_delayn_stereo_partial P N env n k hn _ hs
  rw [h1] at g1; cases g1
  rw [h2] at g3; cases g3
  have hlen : n + 1 ≤ (n + 1) * N := Nat.le_mul_of_pos_right _ hN
  have hlen2 : ((List.replicate (n + 1) (List.replicate N ((.fin 0, .fin 1) : Fl × Fl))).flatten.map
      Prod.snd).length = (n + 1) * N := by simp
  have hall : ∀ y, y ∈ ((List.replicate (n + 1) (List.replicate N ((.fin 0, .fin 1) : Fl × Fl))).flatten.map
      Prod.snd) → y = .fin 1 := by
    intro y hy
    simp only [List.mem_map, List.mem_flatten, List.mem_replicate] at hy
    obtain ⟨a, ⟨l, ⟨_, rfl⟩, ha⟩, rfl⟩ := hy
    rw [List.mem_replicate] at ha
    rw [ha.2]
  have ht := h4 n (by rw [hlen2]; omega)
  rw [if_neg (by omega), Nat.sub_self] at ht
  obtain ⟨v, hv⟩ : ∃ v, r[n]? = some v := ⟨r[n]'(by rw [h3, hlen2]; omega), by simp⟩
  rw [hv] at ht
  have e1 := g5 v (List.mem_of_getElem? hv)
  have e2 := hall v (List.mem_of_getElem? ht.symm)
  rw [e1] at e2
  exact absurd e2 (by decide)

example : ∃ xs : List (List (Fl × Fl)), Sized 2 xs ∧ xs.flatten.length = 4 :=
  ⟨[[(.fin 1, .fin 2), (.fin 3, .fin 4)], [(.fin 5, .nz), (.fin 0, .nan)]], by
    intro x hx; simp at hx; rcases hx with rfl | rfl <;> rfl, rfl⟩

/-! ### delayms -/

theorem delayms_make (P : Plat) (N : Nat) (env : Env) (d : Fl) (k : Nat) :
    makeNode P N env.samples env.sr env.bpm env.seed (.delayms (.num d)) =
      .ok (fresh N 2 (.prim (.delayms (DelayMs.new env.sr d 2))), []) ∧
    sendMsgs (P := P) (.prim (.delayms (DelayMs.new env.sr d 2))) [.index k] =
      .ok (.prim (.delayms { DelayMs.new env.sr d 2 with order := [k] })) := by
  exact ⟨rfl, rfl⟩

/-- The number of samples of a delay of `q` milliseconds is right up to one sample and the rounding
of f32. -/
theorem msToSamples_close {sr : Nat} (h1 : 1 ≤ sr) (h2 : sr ≤ 2 ^ 24) {d : Fl}
    (hd : d.isFinite = true) (hq : 0 ≤ d.val) (hq2 : d.val ≤ 2 ^ 30) :
    |((max (msToSamples sr d).toUsize 1 : Nat) : ℚ) - d.val * sr / 1000| ≤
      1 + d.val * sr / 1000 / 2 ^ 22 := by
  obtain ⟨f1, f2⟩ := f32_ofNat h2
  have hsr1 : (1 : ℚ) ≤ sr := by exact_mod_cast h1
  have hsr2 : (sr : ℚ) ≤ 2 ^ 24 := by exact_mod_cast h2
  have hx0 : 0 ≤ d.val / 1000 := by positivity
  have hx1 : d.val / 1000 ≤ 2 ^ 30 := by linarith
  have hdiv := Fl.div_fin (f := f32) (b := .fin 1000) hd rfl (by simp [Fl.val]) (f32_inRange (by
    rw [Fl.val, abs_of_nonneg hx0]; exact le_trans hx1 (by norm_num)))
  have ha0 : 0 ≤ f32.rnd (d.val / 1000) := Fmt.rnd_nonneg hx0
  have hr30 : f32.Rep ((2 : ℚ) ^ 30) := ⟨1, 30, by decide, by decide, by rw [pow2_eq]; norm_num⟩
  have ha1 : f32.rnd (d.val / 1000) ≤ 2 ^ 30 := Fmt.rnd_le f32_p hr30 hx1
  generalize hb : d /. .fin 1000 = b at *
  simp only [show (Fl.fin 1000).val = 1000 from rfl] at hdiv
  have hab : b.val * sr ≤ 2 ^ 54 := by
    rw [hdiv.2]
    calc f32.rnd (d.val / 1000) * sr ≤ 2 ^ 30 * 2 ^ 24 := by
          apply mul_le_mul ha1 hsr2 (by positivity) (by positivity)
      _ = 2 ^ 54 := by norm_num
  have hab0 : 0 ≤ b.val * sr := by rw [hdiv.2]; positivity
  have hmul := Fl.mul_fin (f := f32) hdiv.1 f1 (by
    rw [f2]; apply f32_inRange; rw [abs_of_nonneg hab0]; exact le_trans hab (by norm_num))
  rw [f2] at hmul
  have hms : msToSamples sr d = b *. Fl.ofNat f32 sr := by rw [← hb]; rfl
  rw [hms]
  have hr54 : f32.Rep ((2 : ℚ) ^ 54) := ⟨1, 54, by decide, by decide, by rw [pow2_eq]; norm_num⟩
  have hv1 : f32.rnd (b.val * sr) ≤ 2 ^ 54 := Fmt.rnd_le f32_p hr54 hab
  have hv0 : 0 ≤ f32.rnd (b.val * sr) := Fmt.rnd_nonneg hab0
  rw [Fl.toUsize_of hmul.1 (by rw [hmul.2]; exact lt_of_le_of_lt hv1 (by norm_num)), hmul.2]
  -- the error of the value
  have hmin : pow2 (f32.emin + f32.p - 1) = pow2 (-126) := rfl
  have hmin1 : pow2 (-126) ≤ 1 := by rw [pow2_eq]; norm_num
  have hrmin : f32.Rep (pow2 (-126)) := ⟨1, -126, by decide, by decide, by simp⟩
  have heps : pow2 (-(f32.p : Int)) = 1 / 2 ^ 24 := by rw [pow2_eq]; norm_num [f32]
  set X := d.val * sr / 1000 with hX
  have hXe : X = d.val / 1000 * sr := by rw [hX]; ring
  have hX0 : 0 ≤ X := by rw [hXe]; positivity
  have hfl : ∀ v : ℚ, 0 ≤ v → |((max ⌊v⌋.toNat 1 : Nat) : ℚ) - v| ≤ 1 := by
    intro v hv
    have h1 := Int.floor_le v
    have h2 := Int.lt_floor_add_one v
    have h3 : 0 ≤ ⌊v⌋ := Int.floor_nonneg.mpr hv
    have h4 : ((⌊v⌋.toNat : Nat) : ℚ) = (⌊v⌋ : ℚ) := by
      have : ((⌊v⌋.toNat : Nat) : Int) = ⌊v⌋ := Int.toNat_of_nonneg h3
      exact_mod_cast congrArg (Int.cast (R := ℚ)) this
    rw [Nat.cast_max, h4, abs_le]
    push_cast
    rcases le_total (⌊v⌋ : ℚ) 1 with h | h
    · rw [max_eq_right h]
      have : ⌊v⌋ ≤ 1 := by exact_mod_cast h
      constructor <;> linarith
    · rw [max_eq_left h]; constructor <;> linarith
  have hclose : |f32.rnd (b.val * sr) - X| ≤ X / 2 ^ 22 ∨
      (f32.rnd (b.val * sr) < 1 ∧ X ≤ 1) := by
    rcases le_or_gt (pow2 (-126)) (d.val / 1000) with hc | hc
    · left
      have e1 := Fmt.rnd_rel (f := f32) (x := d.val / 1000) (by
        rw [hmin, abs_of_nonneg hx0]; exact hc)
      have hage : pow2 (-126) ≤ b.val := by rw [hdiv.2]; exact Fmt.le_rnd f32_p hrmin hc
      have e2 := Fmt.rnd_rel (f := f32) (x := b.val * sr) (by
        rw [hmin, abs_of_nonneg hab0]
        calc pow2 (-126) ≤ b.val := hage
          _ = b.val * 1 := by ring
          _ ≤ b.val * sr := mul_le_mul_of_nonneg_left hsr1 (le_trans (pow2_pos _).le hage))
      rw [heps, abs_of_nonneg hx0, ← hdiv.2] at e1
      rw [heps, abs_of_nonneg hab0] at e2
      have e3 : |b.val * sr - X| ≤ X * (1 / 2 ^ 24) := by
        rw [hXe, ← sub_mul, abs_mul, abs_of_nonneg (by positivity : (0 : ℚ) ≤ sr)]
        calc _ ≤ d.val / 1000 * (1 / 2 ^ 24) * sr := mul_le_mul_of_nonneg_right e1 (by positivity)
          _ = _ := by ring
      rw [abs_le] at e2 e3 ⊢
      constructor <;> linarith
    · right
      have hble : b.val ≤ pow2 (-126) := by rw [hdiv.2]; exact Fmt.rnd_le f32_p hrmin hc.le
      have hp : pow2 (-126) * 2 ^ 24 = 1 / 2 ^ 102 := by rw [pow2_eq]; norm_num
      have hr102 : f32.Rep ((1 : ℚ) / 2 ^ 102) :=
        ⟨1, -102, by decide, by decide, by rw [pow2_eq]; norm_num⟩
      have hbs : b.val * sr ≤ 1 / 2 ^ 102 := by
        rw [← hp]
        have : 0 ≤ b.val := by rw [hdiv.2]; exact ha0
        exact mul_le_mul hble hsr2 (by positivity) (pow2_pos _).le
      refine ⟨lt_of_le_of_lt (Fmt.rnd_le f32_p hr102 hbs) (by norm_num), ?_⟩
      rw [hXe]
      calc d.val / 1000 * sr ≤ pow2 (-126) * 2 ^ 24 :=
            mul_le_mul hc.le hsr2 (by positivity) (pow2_pos _).le
        _ ≤ 1 := by rw [hp]; norm_num
  rcases hclose with h | ⟨ha, hb⟩
  · have h1 := hfl _ hv0
    rw [abs_le] at h h1 ⊢
    constructor <;> linarith
  · have : ⌊f32.rnd (b.val * sr)⌋ < 1 := by rw [Int.floor_lt]; exact_mod_cast ha
    have h0 : max ⌊f32.rnd (b.val * sr)⌋.toNat 1 = 1 := by omega
    rw [h0, abs_le]
    push_cast
    constructor <;> linarith [div_nonneg hX0 (by norm_num : (0 : ℚ) ≤ 2 ^ 22)]

/-- One sample of two delay lines. -/
def push2 (s : Ring × Ring) (x : Fl × Fl) : Except Panic ((Ring × Ring) × (Fl × Fl)) :=
  match s.1.push x.1, s.2.push x.2 with
  | .ok a, .ok b => .ok ((a.1, b.1), (a.2, b.2))
  | .error e, _ => .error e
  | _, .error e => .error e

theorem run_push2 {a b : Ring} (ha : a.Wf) (hb : b.Wf) (xs : List (Fl × Fl)) :
    ∃ a' b' u v, runM Ring.push a (xs.map Prod.fst) = .ok (a', u) ∧
      runM Ring.push b (xs.map Prod.snd) = .ok (b', v) ∧ a'.Wf ∧ b'.Wf ∧
      ∃ o, runM push2 (a, b) xs = .ok ((a', b'), o) ∧ o.map Prod.fst = u ∧ o.map Prod.snd = v := by
  induction xs generalizing a b with
  | nil => exact ⟨a, b, [], [], rfl, rfl, ha, hb, [], rfl, rfl, rfl⟩
  | cons x xs ih =>
    obtain ⟨a1, y, _, h1, _, w1, _⟩ := Ring.push_spec ha x.1
    obtain ⟨b1, z, _, h2, _, w2, _⟩ := Ring.push_spec hb x.2
    obtain ⟨a', b', u, v, g1, g2, g3, g4, o, g5, g6, g7⟩ := ih w1 w2
    refine ⟨a', b', y :: u, z :: v, ?_, ?_, g3, g4, (y, z) :: o, ?_, by simp [g6], by simp [g7]⟩
    · simp [runM, h1, g1]
    · simp [runM, h2, g2]
    · simp [runM, push2, h1, h2, g5]

/-- The plain delay of both channels. -/
theorem delayms_stereo (P : Plat) (N k n sr : Nat) (order : List Nat) (hn : 1 ≤ n)
    (xs : List (List (Fl × Fl))) (out : List Buf) (ho : Shaped 2 N out) :
    ∃ outs l r, runBlocks (procG P) (.prim (.delayms
        ⟨List.replicate 2 ⟨List.replicate n (.fin 0), 0⟩, sr, order, n⟩)) out (stereoFrom k xs) = .ok outs ∧
      channel 0 outs = some l ∧ channel 1 outs = some r ∧
      Delayed n (xs.flatten.map Prod.fst) l ∧ Delayed n (xs.flatten.map Prod.snd) r := by
  have hn0 : n ≠ 0 := by omega
  have hw := Ring.wf_zeros hn
  obtain ⟨a', b', u, v, g1, g2, _, _, o, g3, g4, g5⟩ := run_push2 hw hw xs.flatten
  obtain ⟨o', h1, h2, h3⟩ := blocks_stereo_inv (procG P)
    (fun s => .prim (.delayms ⟨[s.1, s.2], sr, order, n⟩)) push2
    (fun x => [(k, [x.map Prod.fst, x.map Prod.snd])]) (fun s => s.1.Wf ∧ s.2.Wf)
    (fun o => o.length = 2) xs
    (fun s x out hx hi ho => by
      obtain ⟨a, b, rfl⟩ := List.length_eq_two.mp ho
      obtain ⟨a', b', u, v, g1, g2, _, _, o, g3, g4, g5⟩ := run_push2 hi.1 hi.2 x
      rw [g3]
      simp [procG, procPrim, procDelayMs, hn0, delayMsPlain, bind, Except.bind, g1, g2, reState,
        blockOf, g4, g5])
    (fun s x r hx hi hr => by
      obtain ⟨a', b', u, v, g1, g2, w1, w2, o, g3, g4, g5⟩ := run_push2 hi.1 hi.2 x
      rw [g3] at hr; cases hr
      exact ⟨⟨w1, w2⟩, rfl⟩)
    (⟨List.replicate n (.fin 0), 0⟩, ⟨List.replicate n (.fin 0), 0⟩) out ⟨hw, hw⟩ ho.1 _ g3
  refine ⟨o', _, _, h1, h2, h3, ?_, ?_⟩
  · obtain ⟨_, q, _⟩ := Ring.run_push hw (xs.flatten.map Prod.fst)
    rw [g1] at q; cases q
    simp only [g4, Ring.contents_zeros]
    exact delayed_take n _
  · obtain ⟨_, q, _⟩ := Ring.run_push hw (xs.flatten.map Prod.snd)
    rw [g2] at q; cases q
    simp only [g5, Ring.contents_zeros]
    exact delayed_take n _

/-- C19 for a stereo input: both channels come out delayed by the same number of samples, at least
one, and up to one sample and f32 rounding the number the delay time stands for. Missing: the exact
number (`c19_rounding_counterexample`), mono inputs (`c19_mono_counterexample`) and a delay set to 0
(`c19_set_zero_counterexample`). -/
theorem c19_delayms_stereo_partial (P : Plat) (N : Nat) (env : Env) (d : Fl) (k : Nat)
    (h1 : 1 ≤ env.sr) (h2 : env.sr ≤ 2 ^ 24) (hd : d.isFinite = true) (hq : 0 ≤ d.val)
    (hq2 : d.val ≤ 2 ^ 30) (xs : List (List (Fl × Fl))) :
    ∃ outs l r n, play P N env (.delayms (.num d)) [.index k] (stereoFrom k xs) = .ok outs ∧
      channel 0 outs = some l ∧ channel 1 outs = some r ∧
      Delayed n (xs.flatten.map Prod.fst) l ∧ Delayed n (xs.flatten.map Prod.snd) r ∧
      1 ≤ n ∧ |(n : ℚ) - d.val * env.sr / 1000| ≤ 1 + d.val * env.sr / 1000 / 2 ^ 22 := by
  obtain ⟨outs, l, r, g1, g2, g3, g4, g5⟩ := delayms_stereo P N k _ env.sr [k]
    (Nat.le_max_right (msToSamples env.sr d).toUsize 1) xs _
    (shaped_fresh N 2 (GNode.prim (P := P) (.delayms (DelayMs.new env.sr d 2))))
  exact ⟨outs, l, r, _, play_ok (delayms_make P N env d k).1 (delayms_make P N env d k).2 g1, g2, g3,
    g4, g5, Nat.le_max_right _ _, msToSamples_close h1 h2 hd hq hq2⟩

/-- Half a second at 48 kHz. -/
example : ∃ (env : Env) (d : Fl), env.sr = 48000 ∧ 1 ≤ env.sr ∧ env.sr ≤ 2 ^ 24 ∧ d.isFinite = true ∧
    d.val = 500 ∧ 0 ≤ d.val ∧ d.val ≤ 2 ^ 30 :=
  ⟨⟨[], 48000, .fin 120, 0⟩, .fin 500, rfl, by decide, by decide, rfl, rfl, by norm_num [Fl.val],
    by norm_num [Fl.val]⟩

/-- C19 fails in the exact number: 9 ms at 48 kHz are 432 samples, but the delay is 431 samples. -/
theorem c19_rounding_counterexample (P : Plat) (N : Nat) (env : Env) (k : Nat) (hsr : env.sr = 48000)
    (xs : List (List (Fl × Fl))) :
    ∃ outs l r, play P N env (.delayms (.num (.fin 9))) [.index k] (stereoFrom k xs) = .ok outs ∧
      channel 0 outs = some l ∧ channel 1 outs = some r ∧ 9 * 48000 / 1000 = 432 ∧
      Delayed 431 (xs.flatten.map Prod.fst) l ∧ Delayed 431 (xs.flatten.map Prod.snd) r := by
  obtain ⟨outs, l, r, g1, g2, g3, g4, g5⟩ := delayms_stereo P N k 431 48000 [k] (by decide) xs _
    (shaped_fresh N 2 (GNode.prim (P := P) (.delayms (DelayMs.new env.sr (.fin 9) 2))))
  refine ⟨outs, l, r, play_ok (delayms_make P N env _ k).1 (delayms_make P N env _ k).2 ?_, g2, g3,
    rfl, g4, g5⟩
  have : max (msToSamples 48000 (.fin 9)).toUsize 1 = 431 := by decide +kernel
  simp only [DelayMs.new, hsr, this]
  exact g1

theorem take_two (c x y : List Fl) : (c ++ (x ++ y)).take (x.length + y.length) =
    (c ++ x).take x.length ++ ((c ++ x).drop x.length ++ y).take y.length := by
  have h : x.length ≤ (c ++ x).length := by simp
  rw [← List.append_assoc, List.take_add, List.take_append_of_le_length h,
    List.drop_append_of_le_length h]

/-- The right output of `delayms` for a mono input. -/
theorem delayms_mono_right (P : Plat) (N k n sr : Nat) (order : List Nat) (hn : 1 ≤ n) (r1 r2 : Ring)
    (hw : r1.Wf) (xs : List Buf) (out : List Buf)
    (ho : ∃ a, out = [a, List.replicate N (.fin 0)]) :
    ∃ outs, runBlocks (procG P) (.prim (.delayms ⟨[r1, r2], sr, order, n⟩)) out (monoFrom k xs) = .ok outs ∧
      channel 1 outs = some (List.replicate (N * xs.length) (.fin 0)) ∧
      channel 0 outs = some ((r1.contents ++ xs.flatten).take xs.flatten.length) := by
  have hn0 : n ≠ 0 := by omega
  induction xs generalizing r1 out with
  | nil => exact ⟨[], rfl, rfl, by simp [channel]⟩
  | cons x xs ih =>
    obtain ⟨a, rfl⟩ := ho
    obtain ⟨r', h1, h2, h3⟩ := Ring.run_push hw x
    obtain ⟨outs, g1, g2, g3⟩ := ih r' h2
      [(r1.contents ++ x).take x.length, List.replicate N (.fin 0)] ⟨_, rfl⟩
    refine ⟨[(r1.contents ++ x).take x.length, List.replicate N (.fin 0)] :: outs, ?_, ?_, ?_⟩
    · simp only [monoFrom, List.map_cons, runBlocks]
      simp only [procG, procPrim, procDelayMs, if_neg hn0, delayMsPlain, bind, Except.bind, h1, reState]
      simp only [monoFrom] at g1
      simp [g1]
    · simp [channel, g2, Nat.mul_succ, Nat.add_comm]
    · simp only [channel, g3, List.getElem?_cons_zero, List.flatten_cons, List.length_append]
      rw [h3, take_two]

/-- C19 for a mono input: the left channel is delayed as it should be, the right channel is silent
(a mono signal is not sent to both sides as `delayn` does). -/
theorem c19_delayms_mono_partial (P : Plat) (N : Nat) (env : Env) (d : Fl) (k : Nat)
    (h1 : 1 ≤ env.sr) (h2 : env.sr ≤ 2 ^ 24) (hd : d.isFinite = true) (hq : 0 ≤ d.val)
    (hq2 : d.val ≤ 2 ^ 30) (xs : List Buf) :
    ∃ outs l r n, play P N env (.delayms (.num d)) [.index k] (monoFrom k xs) = .ok outs ∧
      channel 0 outs = some l ∧ channel 1 outs = some r ∧ Delayed n xs.flatten l ∧
      1 ≤ n ∧ |(n : ℚ) - d.val * env.sr / 1000| ≤ 1 + d.val * env.sr / 1000 / 2 ^ 22 ∧
      ∀ x, x ∈ r → x = .fin 0 := by
  have hw := Ring.wf_zeros (Nat.le_max_right (msToSamples env.sr d).toUsize 1)
  obtain ⟨outs, g1, g2, g3⟩ := delayms_mono_right P N k _ env.sr [k]
    (Nat.le_max_right (msToSamples env.sr d).toUsize 1) _ ⟨List.replicate _ (.fin 0), 0⟩ hw xs
    (fresh N 2 (GNode.prim (P := P) (.delayms (DelayMs.new env.sr d 2)))).buffers ⟨_, rfl⟩
  refine ⟨outs, _, _, _, play_ok (delayms_make P N env d k).1 (delayms_make P N env d k).2 g1, g3, g2,
    ?_, Nat.le_max_right _ _, msToSamples_close h1 h2 hd hq hq2, ?_⟩
  · rw [Ring.contents_zeros]; exact delayed_take _ _
  · intro x hx; exact (List.mem_replicate.mp hx).2

/-- C19 fails for mono inputs: a mono signal does not come out on the right channel. -/
theorem c19_mono_counterexample (P : Plat) (N : Nat) (env : Env) (k : Nat) (hN : 1 ≤ N)
    (h1 : 1 ≤ env.sr) (h2 : env.sr ≤ 2 ^ 24) :
    ¬ ∀ (d : Fl) (xs : List Buf), d.isFinite = true → 0 ≤ d.val → d.val ≤ 2 ^ 30 → Sized N xs →
      ∃ outs r, ∃ n : Nat, play P N env (.delayms (.num d)) [.index k] (monoFrom k xs) = .ok outs ∧
        channel 1 outs = some r ∧ (n : ℚ) ≤ d.val * env.sr / 1000 + 1 ∧ Delayed n xs.flatten r := by
  intro h
  have hs : Sized N (List.replicate 2 (List.replicate N (Fl.fin 1))) := by
    intro x hx
    rw [List.mem_replicate] at hx
    simp [hx.2]
  obtain ⟨outs, r, n, p1, p2, p3, p4, p5⟩ := h (.fin 0) _ rfl (le_refl _) (by norm_num [Fl.val]) hs
  obtain ⟨outs', l', r', n', q1, _, q3, _, _, _, q5⟩ := c19_delayms_mono_partial P N env (.fin 0) k h1 h2
    rfl (le_refl _) (by norm_num [Fl.val]) (List.replicate 2 (List.replicate N (Fl.fin 1)))
  rw [p1] at q1; cases q1
  rw [p2] at q3; cases q3
  have hn1 : n ≤ 1 := by
    simp only [Fl.val, zero_mul, zero_div, zero_add] at p3
    exact_mod_cast p3
  have hl : (List.replicate 2 (List.replicate N (Fl.fin 1))).flatten = List.replicate (N + N) (Fl.fin 1) := by
    simp
  rw [hl] at p4 p5
  have ht := p5 n (by simp; omega)
  rw [if_neg (by omega), Nat.sub_self] at ht
  obtain ⟨v, hv⟩ : ∃ v, r[n]? = some v := ⟨r[n]'(by rw [p4]; simp; omega), by simp⟩
  rw [hv] at ht
  have e1 := q5 v (List.mem_of_getElem? hv)
  have e2 := (List.mem_replicate.mp (List.mem_of_getElem? ht.symm)).2
  rw [e1] at e2
  exact absurd e2 (by decide)

theorem msToSamples_zero (sr : Nat) : (msToSamples sr (.fin 0)).toUsize = 0 := by
  have e1 : Fl.fin 0 /. .fin 1000 = .fin 0 := by decide +kernel
  have e2 : ∀ x : Fl, (Fl.fin 0 *. x).toUsize = 0 := by
    intro x
    cases x with
    | nan => rfl
    | inf s => rfl
    | nz => simp [Fl.mul, Fl.val, Fl.round, Fmt.rnd_zero, Fl.toUsize, Fl.sign]
    | fin q =>
      simp only [Fl.mul, Fl.val, zero_mul, Fl.round, Fmt.rnd_zero, if_true]
      split <;> simp [Fl.toUsize]
      all_goals rfl
  rw [msToSamples, e1, e2]

/-- C19 (and C40) fail for a delay time set to 0: the left channel is passed on, the right channel is
silent whatever the input. -/
theorem c19_set_zero_counterexample (P : Plat) (N : Nat) (env : Env) (d : Fl) (k : Nat)
    (xs : List (List (Fl × Fl))) :
    ∃ outs r, play P N env (.delayms (.num d)) [.setToNumber 0 (.fin 0), .index k] (stereoFrom k xs) =
        .ok outs ∧
      channel 0 outs = some (xs.flatten.map Prod.fst) ∧ channel 1 outs = some r ∧
      ∀ x, x ∈ r → x = .fin 0 := by
  have key : ∀ (xs : List (List (Fl × Fl))) (a : Buf), ∃ outs,
      runBlocks (procG P) (.prim (.delayms ⟨[], env.sr, [k], 0⟩)) [a, List.replicate N (.fin 0)]
        (stereoFrom k xs) = .ok outs ∧ channel 0 outs = some (xs.flatten.map Prod.fst) ∧
      channel 1 outs = some (List.replicate (N * xs.length) (.fin 0)) := by
    intro xs
    induction xs with
    | nil => intro a; exact ⟨[], rfl, rfl, rfl⟩
    | cons x xs ih =>
      intro a
      obtain ⟨outs, h1, h2, h3⟩ := ih (x.map Prod.fst)
      refine ⟨[x.map Prod.fst, List.replicate N (.fin 0)] :: outs, ?_, ?_, ?_⟩
      · simp only [stereoFrom, List.map_cons, runBlocks]
        simp only [stereoFrom] at h1
        simp [procG, procPrim, procDelayMs, chan, bind, Except.bind, reState, h1]
      · simp [channel, h2]
      · simp [channel, h3, Nat.mul_succ, Nat.add_comm]
  obtain ⟨outs, h1, h2, h3⟩ := key xs (List.replicate N (.fin 0))
  refine ⟨outs, _, play_ok (delayms_make P N env d k).1 (n := .prim (.delayms ⟨[], env.sr, [k], 0⟩)) ?_ h1,
    h2, h3, fun x hx => (List.mem_replicate.mp hx).2⟩
  simp [sendMsgs, fresh, msgG, msgPrim, DelayMs.msg, DelayMs.new, msToSamples_zero, orderMsg, bind,
    Except.bind, Functor.map, Except.map]

/-- Nothing is written when the lines have been cleared. -/
theorem delayms_dead (P : Plat) (k n sr : Nat) (order : List Nat) (hn : n ≠ 0)
    (xs : List (List (Fl × Fl))) (out : List Buf) :
    runBlocks (procG P) (.prim (.delayms ⟨[], sr, order, n⟩)) out (stereoFrom k xs) =
      .ok (List.replicate xs.length out) := by
  induction xs with
  | nil => rfl
  | cons x xs ih =>
    simp only [stereoFrom, List.map_cons, runBlocks]
    simp only [procG, procPrim, procDelayMs, if_neg hn, delayMsPlain, bind, Except.bind, reState]
    simp only [stereoFrom] at ih
    simp [ih, List.replicate_succ]

theorem channel_replicate (c : Nat) (out : List Buf) (b : Buf) (h : out[c]? = some b) (n : Nat) :
    channel c (List.replicate n out) = some (List.replicate n b).flatten := by
  induction n with
  | zero => rfl
  | succ n ih => simp [List.replicate_succ, channel, h, ih]

/-- C40 fails for `delayms`: once the delay time has been set to 0, no later setting makes the node
sound again; it is silent whatever its input. -/
theorem c40_set_zero_counterexample (P : Plat) (N : Nat) (env : Env) (d v : Fl) (k : Nat)
    (hv1 : 1 ≤ (msToSamples env.sr v).toUsize) (xs : List (List (Fl × Fl))) :
    ∃ outs l r, play P N env (.delayms (.num d))
        [.setToNumber 0 (.fin 0), .setToNumber 0 v, .index k] (stereoFrom k xs) = .ok outs ∧
      channel 0 outs = some l ∧ channel 1 outs = some r ∧
      (∀ x, x ∈ l → x = .fin 0) ∧ ∀ x, x ∈ r → x = .fin 0 := by
  have h0 : (msToSamples env.sr v).toUsize ≠ 0 := by omega
  have hz := msToSamples_zero env.sr
  have hz2 : ∀ x, x ∈ (List.replicate xs.length (List.replicate N (Fl.fin 0))).flatten → x = .fin 0 := by
    intro x hx
    simp only [List.mem_flatten, List.mem_replicate] at hx
    obtain ⟨l, ⟨_, rfl⟩, hx⟩ := hx
    exact (List.mem_replicate.mp hx).2
  refine ⟨_, _, _, play_ok (delayms_make P N env d k).1 (n := .prim (.delayms
    ⟨[], env.sr, [k], (msToSamples env.sr v).toUsize⟩)) ?_ (delayms_dead P k _ _ _ h0 xs _),
    channel_replicate 0 _ (List.replicate N (.fin 0)) rfl _,
    channel_replicate 1 _ (List.replicate N (.fin 0)) rfl _, hz2, hz2⟩
  simp [sendMsgs, fresh, msgG, msgPrim, DelayMs.msg, DelayMs.new, h0, hz, orderMsg, bind, Except.bind,
    Functor.map, Except.map]

end Verif.Props
