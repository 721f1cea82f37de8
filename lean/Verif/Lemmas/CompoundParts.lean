import Verif.Lemmas.Patch
import Verif.Lemmas.Loop
import Verif.Lemmas.KernelRfl
import Verif.Lemmas.SafeG
import Verif.Spec.Compound

/-! The parts of drums and synths (helpers for C57 and C34). -/

namespace Verif.Props
open Verif Spec

/-! ### One node inside -/

theorem forall₂_of_get {α β : Type} {R : α → β → Prop} {a : List α} {b : List β} (hl : a.length = b.length)
    (h : ∀ (t : Nat) x y, a[t]? = some x → b[t]? = some y → R x y) : List.Forall₂ R a b := by
  induction a generalizing b with
  | nil => cases b with
    | nil => exact .nil
    | cons y b => simp at hl
  | cons x a ih => cases b with
    | nil => simp at hl
    | cons y b => exact .cons (h 0 x y rfl rfl) (ih (by simpa using hl) (fun t u v hu hv => h (t + 1) u v hu hv))

theorem forall₂_eq_map {α β : Type} {f : α → β} {a : List α} {b : List β} (h : List.Forall₂ (fun y o => o = f y) a b) :
    b = a.map f := by
  induction h with
  | nil => rfl
  | cons h _ ih => rw [h, ih]; rfl

variable {P : Plat} {E : List (Nat × Nat)} {g : Patch} {sig : Nat → List (List Buf)} {n : Nat}

theorem part_out {σ ι : Type} (hp : PartPlays P E g sig n) (node : σ → Prim) (F : σ → ι → σ × Buf) (R : Ins → ι → Prop)
    (I : List Buf → Prop) {C : Nat} {s : σ} {b : List Buf} (hg : g.node? n = some ⟨node s, b⟩) (hI : I b) {xs : List ι}
    (hl : (sig n).length = xs.length)
    (hR : ∀ (t : Nat) i x, InputsOf E n i → (∀ k b, (k, b) ∈ i → (sig k)[t]? = some b) → xs[t]? = some x → R i x)
    (hI' : ∀ s x, (∃ i, R i x) → I (List.replicate C (F s x).2))
    (h : ∀ s i x out, R i x → I out → procPrim P.libm (node s) i out = .ok (node (F s x).1, List.replicate C (F s x).2)) :
    sig n = (run F s xs).2.map (List.replicate C) := by
  obtain ⟨d, inputs, h1, h2, h3, h4⟩ := hp
  rw [hg] at h1
  cases h1
  have hF : List.Forall₂ R inputs xs := forall₂_of_get (h2.trans hl) (fun t i x hi hx =>
    hR t i x (h4 t i hi).1 (h4 t i hi).2 hx)
  obtain ⟨outs, k1, k2⟩ := part_run (P := P) node F R I (fun y o => o = List.replicate C y)
    (fun s i x out hr ho => ⟨_, h s i x out hr ho, hI' s x ⟨i, hr⟩, rfl⟩) hF s b hI
  have : sig n = outs := by simpa using h3.symm.trans k1
  rw [this]
  exact forall₂_eq_map k2

/-- A node with one source. -/
theorem part_out1 {σ : Type} (hp : PartPlays P E g sig n) (a : Nat) {ca C : Nat} (node : σ → Prim) (F : σ → Buf → σ × Buf)
    {s : σ} {b : List Buf} (hE : ∀ k, (k, n) ∈ E ∧ k ≠ n ↔ k = a) (hg : g.node? n = some ⟨node s, b⟩) (hb : b.length = C)
    {xs : List Buf} (ha : sig a = xs.map (List.replicate ca)) (hl : (sig n).length = xs.length)
    (h : ∀ s x out, out.length = C →
      procPrim P.libm (node s) [(a, List.replicate ca x)] out = .ok (node (F s x).1, List.replicate C (F s x).2)) :
    sig n = (run F s xs).2.map (List.replicate C) := by
  refine part_out hp node F (fun i x => i = [(a, List.replicate ca x)]) (fun o => o.length = C) hg hb hl ?_ (by simp) ?_
  · intro t i x hi hk hx
    obtain ⟨y, rfl⟩ := inputsOf_one hi hE
    have := hk a y (by simp)
    rw [ha, List.getElem?_map, hx] at this
    cases this
    rfl
  · rintro s i x out rfl ho
    exact h s x out ho

/-- A node with two sources. -/
theorem part_out2 {σ : Type} (hp : PartPlays P E g sig n) (a c : Nat) {ca cc C : Nat} (node : σ → Prim)
    (F : σ → Buf × Buf → σ × Buf) {s : σ} {b : List Buf} (hac : a ≠ c) (hE : ∀ k, (k, n) ∈ E ∧ k ≠ n ↔ k = a ∨ k = c)
    (hg : g.node? n = some ⟨node s, b⟩) (hb : b.length = C) {xs ys : List Buf} (ha : sig a = xs.map (List.replicate ca))
    (hc : sig c = ys.map (List.replicate cc)) (hl : (sig n).length = (xs.zip ys).length)
    (h : ∀ s x y out, out.length = C →
      procPrim P.libm (node s) [(a, List.replicate ca x), (c, List.replicate cc y)] out =
        .ok (node (F s (x, y)).1, List.replicate C (F s (x, y)).2) ∧
      procPrim P.libm (node s) [(c, List.replicate cc y), (a, List.replicate ca x)] out =
        .ok (node (F s (x, y)).1, List.replicate C (F s (x, y)).2)) :
    sig n = (run F s (xs.zip ys)).2.map (List.replicate C) := by
  refine part_out hp node F (fun i x => i = [(a, List.replicate ca x.1), (c, List.replicate cc x.2)] ∨
    i = [(c, List.replicate cc x.2), (a, List.replicate ca x.1)]) (fun o => o.length = C) hg hb hl ?_ (by simp) ?_
  · intro t i x hi hk hx
    obtain ⟨x1, x2⟩ := x
    rw [List.getElem?_zip_eq_some] at hx
    obtain ⟨y, z, hyz⟩ := inputsOf_two hi hac hE
    have k1 := hk a y (by rcases hyz with rfl | rfl <;> simp)
    have k2 := hk c z (by rcases hyz with rfl | rfl <;> simp)
    rw [ha, List.getElem?_map, hx.1] at k1
    rw [hc, List.getElem?_map, hx.2] at k2
    cases k1
    cases k2
    exact hyz
  · rintro s i x out (rfl | rfl) ho
    · exact (h s x.1 x.2 out ho).1
    · exact (h s x.1 x.2 out ho).2

/-- A node without sources. -/
theorem part_out0 {σ : Type} (hp : PartPlays P E g sig n) (node : σ → Prim) (F : σ → Unit → σ × Buf)
    {s : σ} {b : Buf} {N : Nat} (hE : ∀ k, (k, n) ∉ E) (hg : g.node? n = some ⟨node s, [b]⟩) (hb : b.length = N) {l : Nat}
    (hl : (sig n).length = l) (hN : ∀ s, (F s ()).2.length = N)
    (h : ∀ s b, b.length = N → procPrim P.libm (node s) [] [b] = .ok (node (F s ()).1, [(F s ()).2])) :
    sig n = (run F s (List.replicate l ())).2.map (List.replicate 1) := by
  refine part_out hp (ι := Unit) node F (fun i _ => i = []) (fun o => ∃ b, o = [b] ∧ b.length = N) hg ⟨b, rfl, hb⟩ (by simp [hl]) ?_ ?_ ?_
  · intro t i x hi _ _
    exact inputsOf_nil hi hE
  · intro s x _
    exact ⟨_, rfl, hN s⟩
  · rintro s i x out rfl ⟨b, rfl, hb⟩
    exact h s b hb

/-! ### Signals -/

/-- A block of noise. -/
def noiseBlock (m : Libm) (seed N : Nat) (k : Nat) (_ : Unit) : Nat × Buf :=
  run (noiseStep m seed) k (List.replicate N (.fin 0))

/-- Blocks of an envelope. -/
def percBlocks (sr : Nat) (a d : Fl) (xs : List Buf) : List Buf :=
  (run (fun s x => run (percStep (secToSamples sr a) (secToSamples sr d)) s x) (0, .fin 1) xs).2

/-- Blocks of a sine of changing frequency. -/
def sinBlocks (m : Libm) (sr : Nat) (xs : List Buf) : List Buf := (run (fun s x => run (sinStep m sr) s x) (.fin 0) xs).2

/-- Blocks of another oscillator of changing frequency. -/
def oscBlocks (w : Wave) (sr : Nat) (xs : List Buf) : List Buf :=
  (run (fun s x => run (oscModStep w sr) s x) (.fin 0, .fin 0) xs).2

/-- Blocks of a high-pass filter. -/
def rhpfBlocks (m : Libm) (v q : Fl) (xs : List Buf) : List Buf :=
  (run (fun s x => run (biquadStep (rhpfCoef m v q 44100)) s x) Biquad.zero xs).2

/-- Blocks of noise. -/
def noiseBlocks (m : Libm) (seed N n : Nat) : List Buf := (run (noiseBlock m seed N) 0 (List.replicate n ())).2

/-- The signal of `bd`. -/
def bdSig (m : Libm) (_N : Nat) (decay : Fl) (xs : List Buf) : List Buf :=
  both (fun w a => w *. a)
    (sinBlocks m 44100 (each (fun x => x *. .fin 50 +. .fin 60) (percBlocks 44100 (dec (1 / 100)) (dec (1 / 10)) xs)))
    (percBlocks 44100 (dec (3 / 1000)) decay xs)

/-- The signal of `hh`. -/
def hhSig (m : Libm) (N : Nat) (decay : Fl) (xs : List Buf) : List Buf :=
  both (fun w a => w *. a) (rhpfBlocks m (.fin 15000) (.fin 1) (noiseBlocks m 42 N xs.length))
    (percBlocks 44100 (dec (3 / 1000)) decay xs)

/-- The signal of `sn`. -/
def snSig (m : Libm) (N : Nat) (decay : Fl) (xs : List Buf) : List Buf :=
  both (fun w a => w *. a)
    (both (fun w n => w +. n *. dec (3 / 10) +. .fin 0)
      (sinBlocks m 44100 (each (fun x => x *. .fin 55 +. .fin 60) (percBlocks 44100 (dec (1 / 1000)) (dec (1 / 10)) xs)))
      (noiseBlocks m 42 N xs.length))
    (percBlocks 44100 (dec (1 / 1000)) decay xs)

/-- The signal of a synth. -/
def synthSig (w : Wave) (attack decay : Fl) (xs : List Buf) : List Buf :=
  both (fun w a => w *. a) (oscBlocks w 44100 (each (fun x => x *. dec (26163 / 100)) xs)) (percBlocks 44100 attack decay xs)

/-! ### Components alone -/

/-- A component whose node is a loop over the blocks of its only input. -/
theorem alone_of {N : Nat} {env : Env} {c : Comp} {σ : Type} {C : Nat} (hC : 1 ≤ C) (node : Nat → σ → Prim) (F : σ → Buf → σ × Buf)
    (s : σ) (hmk : ∀ k, ∃ rs n0, makeNode P N env.samples env.sr env.bpm env.seed c = .ok (fresh N C n0, rs) ∧
      sendMsgs n0 [.index k] = .ok (.prim (node k s)))
    (h : ∀ k s x b rest, ∃ rest', procPrim P.libm (node k s) [(k, [x])] (b :: rest) =
      .ok (node k (F s x).1, (F s x).2 :: rest') ∧ rest'.length = rest.length) (xs : List Buf) :
    Alone P N env c xs (run F s xs).2 := by
  intro k
  obtain ⟨rs, n0, h1, h2⟩ := hmk k
  obtain ⟨outs, k1, k2⟩ := part_run (P := P) (node k) F (fun i x => i = [(k, [x])]) (fun o => o.length = C)
    (fun y o => o[0]? = some y) (by
      rintro s i x out rfl ho
      match out, ho with
      | [], ho => exact absurd ho (by simp; omega)
      | b :: rest, ho =>
        obtain ⟨r, h3, h4⟩ := h k s x b rest
        exact ⟨_, h3, by simpa [h4] using ho, rfl⟩)
    (is := monoFrom k xs) (xs := xs) (by
      unfold monoFrom
      induction xs with
      | nil => exact .nil
      | cons x xs ih => exact .cons rfl ih) s (List.replicate C (List.replicate N (.fin 0))) (by simp)
  refine ⟨outs, ?_, ?_⟩
  · simp only [play, h1, fresh, h2, k1]
  · have : ∀ {ys : List Buf} {outs : List (List Buf)}, List.Forall₂ (fun y o => o[0]? = some y) ys outs →
        outs.map (fun o => o[0]?) = ys.map some := by
      intro ys outs h
      induction h with
      | nil => rfl
      | cons h _ ih => simp only [List.map_cons, h, ih]
    exact this k2

theorem perc_alone {N : Nat} {env : Env} {a d : Fl} (h : secToSamples env.sr a + secToSamples env.sr d < 2 ^ 64)
    (xs : List Buf) : Alone P N env (.envperc a d) xs
      (percBlocks env.sr a d xs) := by
  have hadd : usizeAdd (secToSamples env.sr a) (secToSamples env.sr d) = .ok _ := if_pos h
  refine alone_of (C := 2) (by omega) (fun k s => .envperc ⟨a, d, s.1, s.2, env.sr, [k]⟩) _ (0, .fin 1) ?_ ?_ xs
  · intro k
    exact ⟨_, _, rfl, rfl⟩
  · intro k s x b rest
    exact ⟨rest, by simp [procPrim, procEnvPerc, hadd, inputAt, chan, bind, Except.bind, reState], rfl⟩

theorem sin_alone {N : Nat} {env : Env} (xs : List Buf) : Alone P N env (.sin (.ref [])) xs
      (sinBlocks P.libm env.sr xs) := by
  refine alone_of (C := 1) (by omega) (fun k s => .sin ⟨.fin 0, s, .fin 0, env.sr, [k]⟩) _ (.fin 0) ?_ ?_ xs
  · intro k
    exact ⟨_, _, rfl, rfl⟩
  · intro k s x b rest
    exact ⟨rest.map (fun _ => (run (sinStep P.libm env.sr) s x).2),
      by simp [procPrim, procSin, modInput, inputAt, chan, bind, Except.bind, reState], by simp⟩

theorem osc_alone {N : Nat} {env : Env} (w : Wave) (xs : List Buf) : Alone P N env (waveOsc w) xs
      (oscBlocks w env.sr xs) := by
  refine alone_of (C := 1) (by omega) (fun k s => .osc w ⟨.fin 0, s.1, s.2, env.sr, [k]⟩) _ (.fin 0, .fin 0) ?_ ?_ xs
  · intro k
    cases w <;> exact ⟨_, _, rfl, rfl⟩
  · intro k s x b rest
    exact ⟨rest, by simp [procPrim, procOsc, modInput, inputAt, chan, bind, Except.bind, reState], rfl⟩

theorem rhpf_alone {N : Nat} {env : Env} (v q : Fl) (xs : List Buf) : Alone P N env (.rhpf (.num v) q) xs
      (rhpfBlocks P.libm v q xs) := by
  refine alone_of (C := 1) (by omega) (fun k s => .rhpf ⟨v, q, s, 44100, [k]⟩) _ Biquad.zero ?_ ?_ xs
  · intro k
    exact ⟨_, _, rfl, rfl⟩
  · intro k s x b rest
    exact ⟨rest, by simp [procPrim, procRhpf, chan, bind, Except.bind, reState], rfl⟩

theorem noise_block {m : Libm} {seed N k : Nat} {b : Buf} (h : b.length = N) :
    run (noiseStep m seed) k b = noiseBlock m seed N k () := by
  subst h
  unfold noiseBlock
  induction b generalizing k with
  | nil => rfl
  | cons x b ih =>
    simp only [List.length_cons, List.replicate_succ, run]
    have := ih (k := k + 1)
    simp only [noiseStep] at *
    rw [this]

theorem noise_proc {m : Libm} {seed N k : Nat} {b : Buf} {l : List Nat} (h : b.length = N) :
    procPrim m (.noise ⟨seed, k, l⟩) [] [b] =
      .ok (.noise ⟨seed, (noiseBlock m seed N k ()).1, l⟩, [(noiseBlock m seed N k ()).2]) := by
  rw [← noise_block h]
  rfl

theorem noise_alone {N : Nat} {env : Env} (seed n : Nat) : AloneSource P N env (.noise seed) n
      (noiseBlocks P.libm seed N n) := by
  obtain ⟨outs, k1, k2⟩ := part_run (P := P) (fun k => .noise ⟨seed, k, []⟩) (noiseBlock P.libm seed N)
    (fun i _ => i = []) (fun o => ∃ b, o = [b] ∧ b.length = N) (fun y o => o = [y]) (by
      rintro s i x out rfl ⟨b, rfl, hb⟩
      refine ⟨_, noise_proc hb, ⟨_, rfl, ?_⟩, rfl⟩
      rw [noiseBlock, run_length, List.length_replicate])
    (is := noInput n) (xs := List.replicate n ()) (by
      unfold noInput
      induction n with
      | zero => exact .nil
      | succ n ih => exact .cons rfl ih) 0 [List.replicate N (.fin 0)] ⟨_, rfl, by simp⟩
  refine ⟨outs, ?_, ?_⟩
  · exact play_ok (d := fresh N 1 (.prim (.noise ⟨seed, 0, []⟩))) rfl rfl k1
  · rw [forall₂_eq_map k2, List.map_map]
    rfl

/-! ### Operators inside -/

theorem run_map {ι ο : Type} (f : ι → ο) (xs : List ι) : (run (fun (_ : Unit) x => ((), f x)) () xs).2 = xs.map f := by
  induction xs with
  | nil => rfl
  | cons x xs ih => simp only [run, ih, List.map_cons]

theorem mono_stereo {ca : Nat} (h : ca = 1 ∨ ca = 2) (x : Buf) : ∃ r, List.replicate ca x = x :: r ∧ (r = [] ∨ r = [x]) := by
  rcases h with rfl | rfl
  · exact ⟨[], rfl, .inl rfl⟩
  · exact ⟨[x], rfl, .inr rfl⟩

theorem op_one {op : Fl → Fl → Fl} {l : List Nat} {v : Fl} {a ca C : Nat} (hca : ca = 1 ∨ ca = 2) (hC : C = 1 ∨ C = 2)
    (x : Buf) (out : List Buf) (ho : out.length = C) :
    applyOp op l v [(a, List.replicate ca x)] out = .ok (List.replicate C (x.map (fun y => op y v))) := by
  obtain ⟨r, hr, hr'⟩ := mono_stereo hca x
  rw [hr]
  have hright : rightOf (x :: r) x = x := by rcases hr' with rfl | rfl <;> rfl
  rcases hC with rfl | rfl
  · match out, ho with
    | [b], _ => simp [applyOp, chan, bind, Except.bind, setRight]
  · match out, ho with
    | [b, c], _ => simp [applyOp, chan, bind, Except.bind, setRight, hright, List.replicate]

theorem op_two {op : Fl → Fl → Fl} {v : Fl} {a c ca cc C : Nat} (hac : a ≠ c) (hca : ca = 1 ∨ ca = 2) (hcc : cc = 1 ∨ cc = 2)
    (hC : C = 1 ∨ C = 2) (x y : Buf) (out : List Buf) (ho : out.length = C) :
    applyOp op [a, c] v [(a, List.replicate ca x), (c, List.replicate cc y)] out =
        .ok (List.replicate C (List.zipWith op x y)) ∧
      applyOp op [a, c] v [(c, List.replicate cc y), (a, List.replicate ca x)] out =
        .ok (List.replicate C (List.zipWith op x y)) := by
  obtain ⟨r, hr, hr'⟩ := mono_stereo hca x
  obtain ⟨q, hq, hq'⟩ := mono_stereo hcc y
  rw [hr, hq]
  have h1 : rightOf (x :: r) x = x := by rcases hr' with rfl | rfl <;> rfl
  have h2 : rightOf (y :: q) y = y := by rcases hq' with rfl | rfl <;> rfl
  have hca' : c ≠ a := fun h => hac h.symm
  rcases hC with rfl | rfl
  · match out, ho with
    | [b], _ => simp [applyOp, inputAt, chan, bind, Except.bind, setRight, hac, hca']
  · match out, ho with
    | [b, d], _ => simp [applyOp, inputAt, chan, bind, Except.bind, setRight, h1, h2, hac, hca', List.replicate]

/-! ### The last steps -/

/-- The destination: its only source on both channels. -/
theorem dest_out {ys : List Buf} {src C N : Nat} (hC : C = 1 ∨ C = 2) (hp : PartPlays P E g sig 0)
    (hE : ∀ k, (k, 0) ∈ E ∧ k ≠ 0 ↔ k = src) (hg : g.node? 0 = some (fresh N 2 .sum2)) (hs : sig src = ys.map (List.replicate C))
    (hl : (sig 0).length = ys.length) (hsz : ∀ y, y ∈ ys → y.length = N) :
    sig 0 = (ys.map (List.map (.fin 0 +. ·))).map (List.replicate 2) := by
  have : sig 0 = (run (fun (_ : Unit) x => ((), x.map (.fin 0 +. ·))) () ys).2.map (List.replicate 2) := by
    refine part_out hp (fun _ => .sum2) _ (fun i x => i = [(src, List.replicate C x)] ∧ x.length = N)
      (fun o => o.length = 2 ∧ ∀ b, b ∈ o → b.length = N) (b := List.replicate 2 (List.replicate N (.fin 0))) hg ⟨by simp, ?_⟩ hl
      ?_ ?_ ?_
    · intro b hb
      rw [List.eq_of_mem_replicate hb]
      simp
    · intro t i x hi hk hx
      obtain ⟨y, rfl⟩ := inputsOf_one hi hE
      have := hk src y (by simp)
      rw [hs, List.getElem?_map, hx] at this
      cases this
      exact ⟨rfl, hsz _ (List.mem_of_getElem? hx)⟩
    · rintro s x ⟨i, -, hx⟩
      refine ⟨by simp, ?_⟩
      intro b hb
      rw [List.eq_of_mem_replicate hb]
      simpa using hx
    · rintro s i x out ⟨rfl, hx⟩ ⟨ho, hb⟩
      match out, ho with
      | [a, b], _ =>
        have ha : a.length = x.length := by rw [hx]; exact hb a (by simp)
        have hb : b.length = x.length := by rw [hx]; exact hb b (by simp)
        have key : ∀ {a x : Buf}, a.length = x.length → addBuf (silent a) x = x.map (.fin 0 +. ·) := by
          intro a
          induction a with
          | nil => intro x h; cases x with
            | nil => rfl
            | cons y x => simp at h
          | cons z a ih => intro x h; cases x with
            | nil => simp at h
            | cons y x =>
              have := ih (x := x) (by simpa using h)
              simp only [addBuf, silent, List.map_cons, List.zipWith_cons_cons] at *
              rw [this]
        obtain ⟨r, hr, hr'⟩ := mono_stereo hC x
        rw [hr]
        rcases hr' with rfl | rfl <;>
          simp [procPrim, sameNode, procSum2, sum2From, sum2Chan, chan, bind, Except.bind, key ha, key hb, List.replicate, pure, Except.pure]
  rw [this, run_map]

theorem leftIs_one (k : Nat) (mono : Bool) (xs : List (List (Fl × Fl))) :
    List.Forall₂ (LeftIs k) (oneFrom k mono xs) (leftOf xs) := by
  unfold oneFrom leftOf
  induction xs with
  | nil => exact .nil
  | cons x xs ih => exact .cons ⟨_, rfl, by cases mono <;> rfl⟩ ih

theorem result_eq {ys : List Buf} {s outs : List (List Buf)} (hs : s = (ys.map (List.map (.fin 0 +. ·))).map (List.replicate 2))
    (h : List.Forall₂ (fun s o => ∃ l r, s[0]? = some l ∧ s[1]? = some r ∧ o = [l, r]) s outs) : outs = onBothSides ys := by
  subst hs
  unfold onBothSides
  induction ys generalizing outs with
  | nil => cases h; rfl
  | cons y ys ih =>
    cases h with
    | cons h1 h2 =>
      obtain ⟨l, r, e1, e2, rfl⟩ := h1
      cases e1
      cases e2
      rw [ih h2]
      rfl

theorem zipWith_zip {f : Fl → Fl → Fl} (a b : List Buf) :
    (a.zip b).map (fun p => List.zipWith f p.1 p.2) = both f a b := by
  induction a generalizing b with
  | nil => rfl
  | cons x a ih => cases b with
    | nil => rfl
    | cons y b => simp only [List.zip_cons_cons, List.map_cons, ih]; rfl

theorem run_sized {σ : Type} {F : σ → Buf → σ × Buf} (h : ∀ s x, (F s x).2.length = x.length) {N : Nat} : ∀ {xs : List Buf} {s : σ},
    Sized N xs → Sized N (run F s xs).2 := by
  intro xs
  induction xs with
  | nil => intro s _ x hx; cases hx
  | cons y xs ih =>
    intro s hs x hx
    simp only [run, List.mem_cons] at hx
    rcases hx with rfl | hx
    · rw [h]; exact hs y (by simp)
    · exact ih (fun z hz => hs z (by simp [hz])) x hx

theorem both_sized {f : Fl → Fl → Fl} {N : Nat} {a b : List Buf} (ha : Sized N a) (hb : Sized N b) : Sized N (both f a b) := by
  intro x hx
  obtain ⟨t, ht⟩ := List.mem_iff_getElem?.mp hx
  simp only [both, List.getElem?_zipWith] at ht
  cases h1 : a[t]? with
  | none => rw [h1] at ht; cases ht
  | some u =>
    cases h2 : b[t]? with
    | none => rw [h1, h2] at ht; cases ht
    | some v =>
      rw [h1, h2] at ht
      cases ht
      rw [List.length_zipWith, ha u (List.mem_of_getElem? h1), hb v (List.mem_of_getElem? h2), Nat.min_self]

theorem each_sized {f : Fl → Fl} {N : Nat} {a : List Buf} (ha : Sized N a) : Sized N (each f a) := by
  intro x hx
  obtain ⟨y, hy, rfl⟩ := List.mem_map.mp hx
  rw [List.length_map]
  exact ha y hy

theorem leftOf_sized {N : Nat} {xs : List (List (Fl × Fl))} (h : Sized N xs) : Sized N (leftOf xs) := by
  intro x hx
  obtain ⟨y, hy, rfl⟩ := List.mem_map.mp hx
  rw [List.length_map]
  exact h y hy

theorem percBlocks_sized {sr N : Nat} {a d : Fl} {xs : List Buf} (h : Sized N xs) : Sized N (percBlocks sr a d xs) :=
  run_sized (fun _ _ => run_length _ _ _) h

theorem sinBlocks_sized {m : Libm} {sr N : Nat} {xs : List Buf} (h : Sized N xs) : Sized N (sinBlocks m sr xs) :=
  run_sized (fun _ _ => run_length _ _ _) h

theorem oscBlocks_sized {w : Wave} {sr N : Nat} {xs : List Buf} (h : Sized N xs) : Sized N (oscBlocks w sr xs) :=
  run_sized (fun _ _ => run_length _ _ _) h

theorem rhpfBlocks_sized {m : Libm} {N : Nat} {v q : Fl} {xs : List Buf} (h : Sized N xs) : Sized N (rhpfBlocks m v q xs) :=
  run_sized (fun _ _ => run_length _ _ _) h

theorem noiseBlocks_sized {m : Libm} {seed N n : Nat} : Sized N (noiseBlocks m seed N n) := by
  unfold noiseBlocks
  generalize 0 = k
  induction n generalizing k with
  | zero => intro x hx; cases hx
  | succ n ih =>
    intro x hx
    simp only [List.replicate_succ, run, List.mem_cons] at hx
    rcases hx with rfl | hx
    · rw [noiseBlock, run_length, List.length_replicate]
    · exact ih _ x hx

@[simp] theorem percBlocks_length {sr : Nat} {a d : Fl} {xs : List Buf} : (percBlocks sr a d xs).length = xs.length := run_length _ _ _
@[simp] theorem sinBlocks_length {m : Libm} {sr : Nat} {xs : List Buf} : (sinBlocks m sr xs).length = xs.length := run_length _ _ _
@[simp] theorem oscBlocks_length {w : Wave} {sr : Nat} {xs : List Buf} : (oscBlocks w sr xs).length = xs.length := run_length _ _ _
@[simp] theorem rhpfBlocks_length {m : Libm} {v q : Fl} {xs : List Buf} : (rhpfBlocks m v q xs).length = xs.length :=
  run_length _ _ _
@[simp] theorem noiseBlocks_length {m : Libm} {seed N n : Nat} : (noiseBlocks m seed N n).length = n := by
  rw [noiseBlocks, run_length, List.length_replicate]
@[simp] theorem each_length {f : Fl → Fl} {xs : List Buf} : (each f xs).length = xs.length := List.length_map ..
@[simp] theorem both_length {f : Fl → Fl → Fl} {xs ys : List Buf} : (both f xs ys).length = min xs.length ys.length :=
  List.length_zipWith ..

theorem each_each {f h : Fl → Fl} {xs : List Buf} : each f (each h xs) = each (fun x => f (h x)) xs := by
  simp only [each, List.map_map, Function.comp_def]

theorem each_both {f : Fl → Fl} {h : Fl → Fl → Fl} {xs ys : List Buf} :
    each f (both h xs ys) = both (fun x y => f (h x y)) xs ys := by
  simp only [each, both, List.map_zipWith]

theorem both_each {f : Fl → Fl} {h : Fl → Fl → Fl} {xs ys : List Buf} :
    both h xs (each f ys) = both (fun x y => h x (f y)) xs ys := by
  simp only [each, both, List.zipWith_map_right]

/-! ### The parts inside -/

section
variable {xs : List Buf}

theorem in_perc {a d : Fl} {N src : Nat} (hp : PartPlays P E g sig n) (hE : ∀ k, (k, n) ∈ E ∧ k ≠ n ↔ k = src)
    (hg : g.node? n = some (fresh N 1 (.envperc ⟨a, d, 0, .fin 1, 44100, [src]⟩)))
    (ho : secToSamples 44100 a + secToSamples 44100 d < 2 ^ 64) (hs : sig src = xs.map (List.replicate 1))
    (hl : (sig n).length = xs.length) :
    sig n = (percBlocks 44100 a d xs).map (List.replicate 1) := by
  have hadd : usizeAdd (secToSamples 44100 a) (secToSamples 44100 d) = .ok _ := if_pos ho
  refine part_out1 hp src (fun s : Nat × Fl => .envperc ⟨a, d, s.1, s.2, 44100, [src]⟩) _ (s := (0, .fin 1)) hE hg (List.length_replicate ..) hs hl ?_
  intro s x out hout
  match out, hout with
  | [b], _ => simp [procPrim, procEnvPerc, hadd, inputAt, chan, bind, Except.bind, reState]

theorem in_sin {v : Fl} {N src C : Nat} (hC : C = 1 ∨ C = 2) (hp : PartPlays P E g sig n)
    (hE : ∀ k, (k, n) ∈ E ∧ k ≠ n ↔ k = src)
    (hg : g.node? n = some (fresh N 1 (.sin ⟨v, .fin 0, .fin 0, 44100, [src]⟩)))
    (hs : sig src = xs.map (List.replicate C)) (hl : (sig n).length = xs.length) :
    sig n = (sinBlocks P.libm 44100 xs).map (List.replicate 1) := by
  refine part_out1 hp src (fun s => .sin ⟨v, s, .fin 0, 44100, [src]⟩) _ (s := .fin 0) hE hg (by simp) hs hl ?_
  intro s x out hout
  obtain ⟨r, hr, _⟩ := mono_stereo hC x
  match out, hout with
  | [b], _ => simp [hr, procPrim, procSin, modInput, inputAt, chan, bind, Except.bind, reState]

theorem in_osc {v : Fl} {w : Wave} {N src C : Nat} (hC : C = 1 ∨ C = 2) (hp : PartPlays P E g sig n)
    (hE : ∀ k, (k, n) ∈ E ∧ k ≠ n ↔ k = src)
    (hg : g.node? n = some (fresh N 1 (.osc w ⟨v, .fin 0, .fin 0, 44100, [src]⟩)))
    (hs : sig src = xs.map (List.replicate C)) (hl : (sig n).length = xs.length) :
    sig n = (oscBlocks w 44100 xs).map (List.replicate 1) := by
  refine part_out1 hp src (fun s : Fl × Fl => .osc w ⟨v, s.1, s.2, 44100, [src]⟩) _ (s := (.fin 0, .fin 0)) hE hg (List.length_replicate ..) hs hl ?_
  intro s x out hout
  obtain ⟨r, hr, _⟩ := mono_stereo hC x
  match out, hout with
  | [b], _ => simp [hr, procPrim, procOsc, modInput, inputAt, chan, bind, Except.bind, reState]

theorem in_rhpf {v q : Fl} {N src : Nat} {l : List Nat} (hp : PartPlays P E g sig n) (hE : ∀ k, (k, n) ∈ E ∧ k ≠ n ↔ k = src)
    (hg : g.node? n = some (fresh N 1 (.rhpf ⟨v, q, Biquad.zero, 44100, l⟩))) (hs : sig src = xs.map (List.replicate 1))
    (hl : (sig n).length = xs.length) :
    sig n = (rhpfBlocks P.libm v q xs).map (List.replicate 1) := by
  refine part_out1 hp src (fun s => .rhpf ⟨v, q, s, 44100, l⟩) _ (s := Biquad.zero) hE hg (by simp) hs hl ?_
  intro s x out hout
  match out, hout with
  | [b], _ => simp [procPrim, procRhpf, chan, bind, Except.bind, reState]

theorem in_noise {seed N l : Nat} {r : List Nat} (hp : PartPlays P E g sig n) (hE : ∀ k, (k, n) ∉ E)
    (hg : g.node? n = some (fresh N 1 (.noise ⟨seed, 0, r⟩))) (hl : (sig n).length = l) :
    sig n = (noiseBlocks P.libm seed N l).map (List.replicate 1) := by
  refine part_out0 hp (fun k => .noise ⟨seed, k, r⟩) _ (s := 0) hE hg (List.length_replicate ..) hl ?_ (fun s b hb => noise_proc hb)
  intro s
  rw [noiseBlock, run_length, List.length_replicate]

theorem in_mul {v : Fl} {N src ca C : Nat} {l : List Nat} (hca : ca = 1 ∨ ca = 2) (hC : C = 1 ∨ C = 2) (hp : PartPlays P E g sig n)
    (hE : ∀ k, (k, n) ∈ E ∧ k ≠ n ↔ k = src) (hg : g.node? n = some (fresh N C (.mul ⟨v, l⟩)))
    (hs : sig src = xs.map (List.replicate ca)) (hl : (sig n).length = xs.length) :
    sig n = (each (fun y => y *. v) xs).map (List.replicate C) := by
  have := part_out1 hp src (fun (_ : Unit) => .mul ⟨v, l⟩) (fun _ x => ((), x.map (fun y => y *. v))) (s := ()) hE hg
    (List.length_replicate ..) hs hl (by
    intro s x out hout
    simp only [procPrim, procMul, op_one hca hC x out hout, sameNode])
  rw [run_map] at this
  exact this

theorem in_add {v : Fl} {N src ca C : Nat} {l : List Nat} (hca : ca = 1 ∨ ca = 2) (hC : C = 1 ∨ C = 2) (hp : PartPlays P E g sig n)
    (hE : ∀ k, (k, n) ∈ E ∧ k ≠ n ↔ k = src) (hg : g.node? n = some (fresh N C (.add ⟨v, l⟩)))
    (hs : sig src = xs.map (List.replicate ca)) (hl : (sig n).length = xs.length) :
    sig n = (each (fun y => y +. v) xs).map (List.replicate C) := by
  have := part_out1 hp src (fun (_ : Unit) => .add ⟨v, l⟩) (fun _ x => ((), x.map (fun y => y +. v))) (s := ()) hE hg
    (List.length_replicate ..) hs hl (by
    intro s x out hout
    simp only [procPrim, procAdd, op_one hca hC x out hout, sameNode])
  rw [run_map] at this
  exact this

theorem in_mul2 {v : Fl} {N a c ca cc C : Nat} {ys : List Buf} (hac : a ≠ c) (hca : ca = 1 ∨ ca = 2) (hcc : cc = 1 ∨ cc = 2)
    (hC : C = 1 ∨ C = 2) (hp : PartPlays P E g sig n) (hE : ∀ k, (k, n) ∈ E ∧ k ≠ n ↔ k = a ∨ k = c)
    (hg : g.node? n = some (fresh N C (.mul ⟨v, [a, c]⟩))) (ha : sig a = xs.map (List.replicate ca))
    (hc : sig c = ys.map (List.replicate cc)) (hl : (sig n).length = (xs.zip ys).length) :
    sig n = (both (fun x y => x *. y) xs ys).map (List.replicate C) := by
  have := part_out2 hp a c (fun (_ : Unit) => .mul ⟨v, [a, c]⟩) (fun _ x => ((), List.zipWith (fun x y => x *. y) x.1 x.2)) (s := ()) hac hE hg
    (List.length_replicate ..) ha hc hl (by
    intro s x y out hout
    have := op_two (op := Fl.mul f32) (v := v) hac hca hcc hC x y out hout
    exact ⟨by simp only [procPrim, procMul, this.1, sameNode], by simp only [procPrim, procMul, this.2, sameNode]⟩)
  rw [run_map, zipWith_zip] at this
  exact this

theorem in_add2 {v : Fl} {N a c ca cc C : Nat} {ys : List Buf} (hac : a ≠ c) (hca : ca = 1 ∨ ca = 2) (hcc : cc = 1 ∨ cc = 2)
    (hC : C = 1 ∨ C = 2) (hp : PartPlays P E g sig n) (hE : ∀ k, (k, n) ∈ E ∧ k ≠ n ↔ k = a ∨ k = c)
    (hg : g.node? n = some (fresh N C (.add ⟨v, [a, c]⟩))) (ha : sig a = xs.map (List.replicate ca))
    (hc : sig c = ys.map (List.replicate cc)) (hl : (sig n).length = (xs.zip ys).length) :
    sig n = (both (fun x y => x +. y) xs ys).map (List.replicate C) := by
  have := part_out2 hp a c (fun (_ : Unit) => .add ⟨v, [a, c]⟩) (fun _ x => ((), List.zipWith (fun x y => x +. y) x.1 x.2)) (s := ()) hac hE hg
    (List.length_replicate ..) ha hc hl (by
    intro s x y out hout
    have := op_two (op := Fl.add f32) (v := v) hac hca hcc hC x y out hout
    exact ⟨by simp only [procPrim, procAdd, this.1, sameNode], by simp only [procPrim, procAdd, this.2, sameNode]⟩)
  rw [run_map, zipWith_zip] at this
  exact this

end

/-- Decides which nodes feed a node. -/
macro "edges" E:ident : tactic => `(tactic| (intro j; constructor <;> (intro h; simp [$E:ident] at h ⊢; try omega)))

/-- Opens a compound node. -/
theorem play_compound {N : Nat} {env : Env} {c : Comp} {K : Compound} {k : Nat} {ins : List Ins} {outs : List (List Buf)}
    (hmk : makePrim P.libm env.samples env.sr env.bpm env.seed c = none) (hK : makeCompound P.libm N c = some (.ok K))
    (hord : K.order = []) (hkind : K.kind ≠ .plate) (h : play P N env c [.index k] ins = .ok outs) :
    runBlocks (procG P) (.compound { K with order := [k] }) (List.replicate 2 (List.replicate N (.fin 0))) ins = .ok outs := by
  simp only [play, makeNode, hmk, hK, fresh, bind, Except.bind, liftP, sendMsgs, msgG] at h
  have : K.msg P.libm (.index k) = .ok { K with order := [k] } := by
    obtain ⟨kind, graph, dest, input, tags, order⟩ := K
    subst hord
    cases kind with
    | plate => exact absurd rfl hkind
    | _ => rfl
  rw [this] at h
  simp only [Functor.map, Except.map] at h
  split at h
  · cases h
  · cases h; assumption



/-! ### The bass drum -/

/-- The connections inside `bd`. -/
def bdEdges : List (Nat × Nat) := [(6, 7), (5, 6), (4, 5), (2, 4), (3, 8), (2, 3), (8, 0), (7, 8)]

/-- The nodes inside `bd`. -/
def bdNodes (N : Nat) (decay : Fl) : List (Option (NodeData Prim Buf)) :=
  [some (fresh N 2 .sum2), some (fresh N 2 .pass), some (fresh N 1 .pass),
   some (fresh N 1 (.envperc ⟨dec (3 / 1000), decay, 0, .fin 1, 44100, [2]⟩)),
   some (fresh N 1 (.envperc ⟨dec (1 / 100), dec (1 / 10), 0, .fin 1, 44100, [2]⟩)),
   some (fresh N 2 (.mul ⟨.fin 50, [4]⟩)), some (fresh N 2 (.add ⟨.fin 60, [5]⟩)),
   some (fresh N 1 (.sin ⟨.fin 1, .fin 0, .fin 0, 44100, [6]⟩)), some (fresh N 1 (.mul ⟨.fin 0, [7, 3]⟩))]

theorem newBd_eq (m : Libm) (N : Nat) (decay : Fl) :
    newBd m N decay = .ok ⟨.drum, ⟨bdNodes N decay, [], bdEdges⟩, 0, 2, [3], []⟩ := by
  kernel_rfl

theorem bd_run (P : Plat) (N : Nat) (decay : Fl) (ord : List Nat) (k : Nat) (hord : ord[0]? = some k) (ins : List Ins)
    (xs : List Buf) (hF : List.Forall₂ (LeftIs k) ins xs) (hN : Sized N xs) (hd : TimeOk decay) (outs : List (List Buf))
    (h : runBlocks (procG P) (.compound ⟨.drum, ⟨bdNodes N decay, [], bdEdges⟩, 0, 2, [3], ord⟩)
      (List.replicate 2 (List.replicate N (.fin 0))) ins = .ok outs) :
    outs = onBothSides (bdSig P.libm N decay xs) := by
  have hA : AcyclicTo bdEdges 0 := acyclic_rank
    (fun n => if n = 0 then 9 else if n = 8 then 8 else if n = 3 then 7 else n) (by decide)
  have f8 : Feeds bdEdges 8 0 := .step (b := 0) (by decide) (.refl _)
  have f7 : Feeds bdEdges 7 0 := .step (b := 8) (by decide) f8
  have f6 : Feeds bdEdges 6 0 := .step (b := 7) (by decide) f7
  have f5 : Feeds bdEdges 5 0 := .step (b := 6) (by decide) f6
  have f4 : Feeds bdEdges 4 0 := .step (b := 5) (by decide) f5
  have f3 : Feeds bdEdges 3 0 := .step (b := 8) (by decide) f8
  have f2 : Feeds bdEdges 2 0 := .step (b := 3) (by decide) f3
  obtain ⟨sig, s1, s2, s3, s4⟩ := compound_parts
    (c := ⟨.drum, ⟨bdNodes N decay, [], bdEdges⟩, 0, 2, [3], ord⟩) (E := bdEdges) hA
    (by intro j; simp [bdEdges]) f2 (by simp) hord _ _ hF ⟨bdNodes N decay, [], bdEdges⟩ _ outs rfl
    (by
      intro e he
      simp only [bdEdges, List.mem_cons, List.not_mem_nil, or_false] at he
      rcases he with rfl | rfl | rfl | rfl | rfl | rfl | rfl | rfl <;> exact ⟨⟨_, rfl⟩, ⟨_, rfl⟩⟩)
    ⟨_, rfl⟩ ⟨_, rfl⟩ (by simp) h
  have s1 : sig 2 = xs.map (List.replicate 1) := s1
  have t3 := dec_le (3 / 1000)
  have t4 := dec_le (1 / 100)
  have t4' := dec_le (1 / 10)
  have td := time_le hd
  have hX := hN
  have e3 := in_perc (s3 3 (by simp) f3) (src := 2) (by edges bdEdges) rfl (by omega) s1 (s2 3 f3)
  have e4 := in_perc (s3 4 (by simp) f4) (src := 2) (by edges bdEdges) rfl (by omega) s1 (s2 4 f4)
  have e5 := in_mul (.inl rfl) (.inr rfl) (s3 5 (by simp) f5) (src := 4) (by edges bdEdges) rfl e4 (by simp [s2 5 f5])
  have e6 := in_add (.inr rfl) (.inr rfl) (s3 6 (by simp) f6) (src := 5) (by edges bdEdges) rfl e5 (by simp [s2 6 f6])
  have e7 := in_sin (.inr rfl) (s3 7 (by simp) f7) (src := 6) (by edges bdEdges) rfl e6 (by simp [s2 7 f7])
  have e8 := in_mul2 (by decide) (.inl rfl) (.inl rfl) (.inl rfl) (s3 8 (by simp) f8) (a := 7) (c := 3) (by edges bdEdges) rfl e7 e3
    (by simp [s2 8 f8])
  have e0 := dest_out (.inl rfl) (s3 0 (by simp) (.refl _)) (src := 8) (by edges bdEdges) rfl e8 (by simp [s2 0 (.refl _)])
    (both_sized (sinBlocks_sized (each_sized (each_sized (percBlocks_sized hX)))) (percBlocks_sized hX))
  rw [result_eq e0 s4, each_each, bdSig]

/-! ### The hi-hat -/

/-- The connections inside `hh`. -/
def hhEdges : List (Nat × Nat) := [(6, 5), (2, 6), (5, 0), (4, 5), (3, 4)]

/-- The nodes inside `hh`. -/
def hhNodes (N : Nat) (decay : Fl) : List (Option (NodeData Prim Buf)) :=
  [some (fresh N 2 .sum2), some (fresh N 2 .pass), some (fresh N 1 .pass), some (fresh N 1 (.noise ⟨42, 0, []⟩)),
   some (fresh N 1 (.rhpf ⟨.fin 15000, .fin 1, Biquad.zero, 44100, [3]⟩)), some (fresh N 2 (.mul ⟨.fin 0, [4, 6]⟩)),
   some (fresh N 1 (.envperc ⟨dec (3 / 1000), decay, 0, .fin 1, 44100, [2]⟩))]

theorem newHh_eq (m : Libm) (N : Nat) (decay : Fl) :
    newHh m N decay = .ok ⟨.drum, ⟨hhNodes N decay, [], hhEdges⟩, 0, 2, [6], []⟩ := by
  kernel_rfl

theorem hh_run (P : Plat) (N : Nat) (decay : Fl) (ord : List Nat) (k : Nat) (hord : ord[0]? = some k) (ins : List Ins)
    (xs : List Buf) (hF : List.Forall₂ (LeftIs k) ins xs) (hN : Sized N xs) (hd : TimeOk decay) (outs : List (List Buf))
    (h : runBlocks (procG P) (.compound ⟨.drum, ⟨hhNodes N decay, [], hhEdges⟩, 0, 2, [6], ord⟩)
      (List.replicate 2 (List.replicate N (.fin 0))) ins = .ok outs) :
    outs = onBothSides (hhSig P.libm N decay xs) := by
  have hA : AcyclicTo hhEdges 0 := acyclic_rank (fun n => if n = 0 then 9 else if n = 5 then 8 else n) (by decide)
  have f5 : Feeds hhEdges 5 0 := .step (b := 0) (by decide) (.refl _)
  have f4 : Feeds hhEdges 4 0 := .step (b := 5) (by decide) f5
  have f3 : Feeds hhEdges 3 0 := .step (b := 4) (by decide) f4
  have f6 : Feeds hhEdges 6 0 := .step (b := 5) (by decide) f5
  have f2 : Feeds hhEdges 2 0 := .step (b := 6) (by decide) f6
  obtain ⟨sig, s1, s2, s3, s4⟩ := compound_parts
    (c := ⟨.drum, ⟨hhNodes N decay, [], hhEdges⟩, 0, 2, [6], ord⟩) (E := hhEdges) hA
    (by intro j; simp [hhEdges]) f2 (by simp) hord _ _ hF ⟨hhNodes N decay, [], hhEdges⟩ _ outs rfl
    (by
      intro e he
      simp only [hhEdges, List.mem_cons, List.not_mem_nil, or_false] at he
      rcases he with rfl | rfl | rfl | rfl | rfl <;> exact ⟨⟨_, rfl⟩, ⟨_, rfl⟩⟩)
    ⟨_, rfl⟩ ⟨_, rfl⟩ (by simp) h
  have s1 : sig 2 = xs.map (List.replicate 1) := s1
  have t3 := dec_le (3 / 1000)
  have td := time_le hd
  have hX := hN
  have e6 := in_perc (s3 6 (by simp) f6) (src := 2) (by edges hhEdges) rfl (by omega) s1 (s2 6 f6)
  have e3 := in_noise (l := xs.length) (s3 3 (by simp) f3) (by intro j; simp [hhEdges]) rfl (by rw [s2 3 f3])
  have e4 := in_rhpf (s3 4 (by simp) f4) (src := 3) (by edges hhEdges) rfl e3 (by simp [s2 4 f4])
  have e5 := in_mul2 (by decide) (.inl rfl) (.inl rfl) (.inr rfl) (s3 5 (by simp) f5) (a := 4) (c := 6) (by edges hhEdges) rfl e4 e6
    (by simp [s2 5 f5])
  have e0 := dest_out (.inr rfl) (s3 0 (by simp) (.refl _)) (src := 5) (by edges hhEdges) rfl e5 (by simp [s2 0 (.refl _)])
    (both_sized (rhpfBlocks_sized noiseBlocks_sized) (percBlocks_sized hX))
  exact result_eq e0 s4

/-! ### The snare -/

/-- The connections inside `sn`. -/
def snEdges : List (Nat × Nat) :=
  [(6, 7), (5, 6), (4, 5), (2, 4), (3, 10), (2, 3), (12, 8), (11, 12), (10, 0), (9, 10), (8, 9), (7, 8)]

/-- The nodes inside `sn`. -/
def snNodes (N : Nat) (decay : Fl) : List (Option (NodeData Prim Buf)) :=
  [some (fresh N 2 .sum2), some (fresh N 2 .pass), some (fresh N 1 .pass),
   some (fresh N 1 (.envperc ⟨dec (1 / 1000), decay, 0, .fin 1, 44100, [2]⟩)),
   some (fresh N 1 (.envperc ⟨dec (1 / 1000), dec (1 / 10), 0, .fin 1, 44100, [2]⟩)),
   some (fresh N 2 (.mul ⟨.fin 55, [4]⟩)), some (fresh N 2 (.add ⟨.fin 60, [5]⟩)),
   some (fresh N 1 (.sin ⟨.fin 1, .fin 0, .fin 0, 44100, [6]⟩)), some (fresh N 2 (.add ⟨.fin 0, [7, 12]⟩)),
   some (fresh N 2 (.add ⟨.fin 0, [8]⟩)), some (fresh N 2 (.mul ⟨.fin 0, [9, 3]⟩)), some (fresh N 1 (.noise ⟨42, 0, []⟩)),
   some (fresh N 2 (.mul ⟨dec (3 / 10), [11]⟩))]

theorem newSn_eq (m : Libm) (N : Nat) (decay : Fl) :
    newSn m N decay = .ok ⟨.drum, ⟨snNodes N decay, [], snEdges⟩, 0, 2, [3], []⟩ := by
  kernel_rfl

theorem sn_run (P : Plat) (N : Nat) (decay : Fl) (ord : List Nat) (k : Nat) (hord : ord[0]? = some k) (ins : List Ins)
    (xs : List Buf) (hF : List.Forall₂ (LeftIs k) ins xs) (hN : Sized N xs) (hd : TimeOk decay) (outs : List (List Buf))
    (h : runBlocks (procG P) (.compound ⟨.drum, ⟨snNodes N decay, [], snEdges⟩, 0, 2, [3], ord⟩)
      (List.replicate 2 (List.replicate N (.fin 0))) ins = .ok outs) :
    outs = onBothSides (snSig P.libm N decay xs) := by
  have hA : AcyclicTo snEdges 0 := acyclic_rank
    (fun n => if n = 0 then 20 else if n = 10 then 19 else if n = 9 then 18 else if n = 8 then 17 else n) (by decide)
  have f10 : Feeds snEdges 10 0 := .step (b := 0) (by decide) (.refl _)
  have f9 : Feeds snEdges 9 0 := .step (b := 10) (by decide) f10
  have f8 : Feeds snEdges 8 0 := .step (b := 9) (by decide) f9
  have f12 : Feeds snEdges 12 0 := .step (b := 8) (by decide) f8
  have f11 : Feeds snEdges 11 0 := .step (b := 12) (by decide) f12
  have f7 : Feeds snEdges 7 0 := .step (b := 8) (by decide) f8
  have f6 : Feeds snEdges 6 0 := .step (b := 7) (by decide) f7
  have f5 : Feeds snEdges 5 0 := .step (b := 6) (by decide) f6
  have f4 : Feeds snEdges 4 0 := .step (b := 5) (by decide) f5
  have f3 : Feeds snEdges 3 0 := .step (b := 10) (by decide) f10
  have f2 : Feeds snEdges 2 0 := .step (b := 3) (by decide) f3
  obtain ⟨sig, s1, s2, s3, s4⟩ := compound_parts
    (c := ⟨.drum, ⟨snNodes N decay, [], snEdges⟩, 0, 2, [3], ord⟩) (E := snEdges) hA
    (by intro j; simp [snEdges]) f2 (by simp) hord _ _ hF ⟨snNodes N decay, [], snEdges⟩ _ outs rfl
    (by
      intro e he
      simp only [snEdges, List.mem_cons, List.not_mem_nil, or_false] at he
      rcases he with rfl | rfl | rfl | rfl | rfl | rfl | rfl | rfl | rfl | rfl | rfl | rfl <;> exact ⟨⟨_, rfl⟩, ⟨_, rfl⟩⟩)
    ⟨_, rfl⟩ ⟨_, rfl⟩ (by simp) h
  have s1 : sig 2 = xs.map (List.replicate 1) := s1
  have t3 := dec_le (1 / 1000)
  have t4' := dec_le (1 / 10)
  have td := time_le hd
  have hX := hN
  have e3 := in_perc (s3 3 (by simp) f3) (src := 2) (by edges snEdges) rfl (by omega) s1 (s2 3 f3)
  have e4 := in_perc (s3 4 (by simp) f4) (src := 2) (by edges snEdges) rfl (by omega) s1 (s2 4 f4)
  have e5 := in_mul (.inl rfl) (.inr rfl) (s3 5 (by simp) f5) (src := 4) (by edges snEdges) rfl e4 (by simp [s2 5 f5])
  have e6 := in_add (.inr rfl) (.inr rfl) (s3 6 (by simp) f6) (src := 5) (by edges snEdges) rfl e5 (by simp [s2 6 f6])
  have e7 := in_sin (.inr rfl) (s3 7 (by simp) f7) (src := 6) (by edges snEdges) rfl e6 (by simp [s2 7 f7])
  have e11 := in_noise (l := xs.length) (s3 11 (by simp) f11) (by intro j; simp [snEdges]) rfl (by rw [s2 11 f11])
  have e12 := in_mul (.inl rfl) (.inr rfl) (s3 12 (by simp) f12) (src := 11) (by edges snEdges) rfl e11 (by simp [s2 12 f12])
  have e8 := in_add2 (by decide) (.inl rfl) (.inr rfl) (.inr rfl) (s3 8 (by simp) f8) (a := 7) (c := 12) (by edges snEdges) rfl e7 e12
    (by simp [s2 8 f8])
  have e9 := in_add (.inr rfl) (.inr rfl) (s3 9 (by simp) f9) (src := 8) (by edges snEdges) rfl e8 (by simp [s2 9 f9])
  have e10 := in_mul2 (by decide) (.inr rfl) (.inl rfl) (.inr rfl) (s3 10 (by simp) f10) (a := 9) (c := 3) (by edges snEdges) rfl e9 e3
    (by simp [s2 10 f10])
  have e0 := dest_out (.inr rfl) (s3 0 (by simp) (.refl _)) (src := 10) (by edges snEdges) rfl e10 (by simp [s2 0 (.refl _)])
    (both_sized (each_sized (both_sized (sinBlocks_sized (each_sized (each_sized (percBlocks_sized hX))))
      (each_sized noiseBlocks_sized))) (percBlocks_sized hX))
  rw [result_eq e0 s4, each_each, each_both, both_each, snSig]

/-! ### The synths -/

/-- The connections inside a synth. -/
def synthEdges : List (Nat × Nat) := [(6, 3), (2, 6), (5, 4), (2, 5), (4, 0), (3, 4)]

/-- The nodes inside a synth. -/
def synthNodes (N : Nat) (w : Wave) (attack decay : Fl) : List (Option (NodeData Prim Buf)) :=
  [some (fresh N 2 .sum2), some (fresh N 2 .pass), some (fresh N 1 .pass),
   some (fresh N 1 (.osc w ⟨.fin 1, .fin 0, .fin 0, 44100, [6]⟩)), some (fresh N 2 (.mul ⟨.fin 0, [3, 5]⟩)),
   some (fresh N 1 (.envperc ⟨attack, decay, 0, .fin 1, 44100, [2]⟩)), some (fresh N 2 (.mul ⟨dec (26163 / 100), [2]⟩))]

theorem newSynth_eq (m : Libm) (N : Nat) (w : Wave) (attack decay : Fl) :
    newSynth m N w attack decay = .ok ⟨.synth, ⟨synthNodes N w attack decay, [], synthEdges⟩, 0, 2, [5], []⟩ := by
  kernel_rfl

/-- The component of a synth. -/
def synthComp : Wave → Fl → Fl → Comp
  | .saw => .sawsynth
  | .squ => .squsynth
  | .tri => .trisynth

theorem synth_made (P : Plat) (N : Nat) (w : Wave) (attack decay : Fl) : makeCompound P.libm N (synthComp w attack decay) =
    some (.ok ⟨.synth, ⟨synthNodes N w attack decay, [], synthEdges⟩, 0, 2, [5], []⟩) := by
  have := congrArg some (newSynth_eq P.libm N w attack decay)
  cases w <;> exact this

theorem synth_run (P : Plat) (N : Nat) (w : Wave) (attack decay : Fl) (ord : List Nat) (k : Nat) (hord : ord[0]? = some k) (ins : List Ins)
    (xs : List Buf) (hF : List.Forall₂ (LeftIs k) ins xs) (hN : Sized N xs) (ha : TimeOk attack) (hd : TimeOk decay) (outs : List (List Buf))
    (h : runBlocks (procG P) (.compound ⟨.synth, ⟨synthNodes N w attack decay, [], synthEdges⟩, 0, 2, [5], ord⟩)
      (List.replicate 2 (List.replicate N (.fin 0))) ins = .ok outs) :
    outs = onBothSides (synthSig w attack decay xs) := by
  have hA : AcyclicTo synthEdges 0 := acyclic_rank
    (fun n => if n = 0 then 20 else if n = 4 then 19 else if n = 3 then 18 else n) (by decide)
  have f4 : Feeds synthEdges 4 0 := .step (b := 0) (by decide) (.refl _)
  have f3 : Feeds synthEdges 3 0 := .step (b := 4) (by decide) f4
  have f6 : Feeds synthEdges 6 0 := .step (b := 3) (by decide) f3
  have f5 : Feeds synthEdges 5 0 := .step (b := 4) (by decide) f4
  have f2 : Feeds synthEdges 2 0 := .step (b := 5) (by decide) f5
  obtain ⟨sig, s1, s2, s3, s4⟩ := compound_parts
    (c := ⟨.synth, ⟨synthNodes N w attack decay, [], synthEdges⟩, 0, 2, [5], ord⟩) (E := synthEdges) hA
    (by intro j; simp [synthEdges]) f2 (by simp) hord _ _ hF ⟨synthNodes N w attack decay, [], synthEdges⟩ _ outs rfl
    (by
      intro e he
      simp only [synthEdges, List.mem_cons, List.not_mem_nil, or_false] at he
      rcases he with rfl | rfl | rfl | rfl | rfl | rfl <;> exact ⟨⟨_, rfl⟩, ⟨_, rfl⟩⟩)
    ⟨_, rfl⟩ ⟨_, rfl⟩ (by simp) h
  have s1 : sig 2 = xs.map (List.replicate 1) := s1
  have ta := time_le ha
  have td := time_le hd
  have hX := hN
  have e5 := in_perc (s3 5 (by simp) f5) (src := 2) (by edges synthEdges) rfl (by omega) s1 (s2 5 f5)
  have e6 := in_mul (.inl rfl) (.inr rfl) (s3 6 (by simp) f6) (src := 2) (by edges synthEdges) rfl s1 (by simp [s2 6 f6])
  have e3 := in_osc (.inr rfl) (s3 3 (by simp) f3) (src := 6) (by edges synthEdges) rfl e6 (by simp [s2 3 f3])
  have e4 := in_mul2 (by decide) (.inl rfl) (.inl rfl) (.inr rfl) (s3 4 (by simp) f4) (a := 3) (c := 5) (by edges synthEdges) rfl e3 e5
    (by simp [s2 4 f4])
  have e0 := dest_out (.inr rfl) (s3 0 (by simp) (.refl _)) (src := 4) (by edges synthEdges) rfl e4 (by simp [s2 0 (.refl _)])
    (both_sized (oscBlocks_sized (each_sized hX)) (percBlocks_sized hX))
  exact result_eq e0 s4

end Verif.Props
