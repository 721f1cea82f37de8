import Verif.Lemmas.Nodes

/-! The states of a loop over samples, and sizes of rounding errors. -/

namespace Verif
open Spec

variable {σ ι ο : Type}

/-- The state before each sample of a loop that may panic and did not. -/
theorem runM_states {f : σ → ι → Except Panic (σ × ο)} {s : σ} {xs : List ι} {r : σ × List ο}
    (h : runM f s xs = .ok r) :
    ∃ st : Nat → σ, st 0 = s ∧ st xs.length = r.1 ∧ ∀ t x, xs[t]? = some x → ∃ y,
      r.2[t]? = some y ∧ f (st t) x = .ok (st (t + 1), y) := by
  induction xs generalizing s r with
  | nil => cases h; exact ⟨fun _ => s, rfl, rfl, by simp⟩
  | cons x xs ih =>
    simp only [runM] at h
    split at h
    · cases h
    · next q hq =>
      split at h
      · cases h
      · next w hw =>
        cases h
        obtain ⟨st, h0, h1, h2⟩ := ih hw
        refine ⟨fun t => match t with | 0 => s | t + 1 => st t, rfl, h1, ?_⟩
        intro t y hy
        cases t with
        | zero =>
          simp only [List.getElem?_cons_zero, Option.some.injEq] at hy
          subst hy
          exact ⟨q.2, by simp, by simp only [h0]; exact hq⟩
        | succ t =>
          rw [List.getElem?_cons_succ] at hy
          obtain ⟨z, z1, z2⟩ := h2 t y hy
          exact ⟨z, by simpa using z1, z2⟩

/-- The state before each sample of a loop. -/
theorem run_states (f : σ → ι → σ × ο) (s : σ) (xs : List ι) :
    ∃ st : Nat → σ, st 0 = s ∧ st xs.length = (run f s xs).1 ∧ ∀ t x, xs[t]? = some x →
      (run f s xs).2[t]? = some (f (st t) x).2 ∧ st (t + 1) = (f (st t) x).1 := by
  obtain ⟨st, h0, h1, h2⟩ := runM_states (runM_pure f s xs)
  refine ⟨st, h0, h1, fun t x hx => ?_⟩
  obtain ⟨y, y1, y2⟩ := h2 t x hx
  simp only [Except.ok.injEq] at y2
  rw [y2]
  exact ⟨y1, rfl⟩

/-- A loop does not panic if an invariant of the state keeps its steps from panicking. -/
theorem runM_total {I : σ → Prop} {J : ι → Prop} (f : σ → ι → Except Panic (σ × ο))
    (h : ∀ s x, I s → J x → ∃ r, f s x = .ok r ∧ I r.1) (s : σ) (hs : I s) (xs : List ι)
    (hx : ∀ x, x ∈ xs → J x) : ∃ r, runM f s xs = .ok r ∧ I r.1 := by
  induction xs generalizing s with
  | nil => exact ⟨_, rfl, hs⟩
  | cons x xs ih =>
    obtain ⟨r, r1, r2⟩ := h s x hs (hx x (by simp))
    obtain ⟨q, q1, q2⟩ := ih r.1 r2 (fun y hy => hx y (by simp [hy]))
    exact ⟨(q.1, r.2 :: q.2), by simp only [runM, r1, q1], q2⟩

/-- Two buffers of which the second is silent. -/
def LeftOnly (N : Nat) (out : List Buf) : Prop :=
  ∃ a, a.length = N ∧ out = [a, List.replicate N (.fin 0)]

theorem leftOnly_fresh {ν : Type} (N : Nat) (n : ν) : LeftOnly N (fresh N 2 n).buffers :=
  ⟨List.replicate N (.fin 0), by simp, rfl⟩

/-- A node with two output channels that only writes the left one. -/
theorem blocks_left {ν : Type} (proc : ProcFn ν Buf) (wrap : σ → ν)
    (f : σ → ι → Except Panic (σ × Fl)) (mk : List ι → Ins) (N : Nat) (xs : List (List ι))
    (hN : Sized N xs)
    (H : ∀ s x a b, x ∈ xs → a.length = N → proc (wrap s) (mk x) [a, b] = blockOf wrap (fun y => [y, b]) (runM f s x))
    (s : σ) (out : List Buf) (hg : LeftOnly N out) (r : σ × List Fl)
    (hr : runM f s xs.flatten = .ok r) :
    ∃ outs, runBlocks proc (wrap s) out (xs.map mk) = .ok outs ∧ channel 0 outs = some r.2 ∧
      channel 1 outs = some (List.replicate xs.flatten.length (.fin 0)) := by
  have hput : ∀ (y : List Fl) (out : List Buf), LeftOnly N out →
      y :: out.tail = [y, List.replicate N (.fin 0)] := by
    rintro y _ ⟨a, _, rfl⟩; rfl
  have h0 := blocks_loop proc wrap f id mk (fun _ => True) (LeftOnly N) 0 (fun y o => y :: o.tail) xs
    (fun s x out hx _ hg => by
      obtain ⟨a, ha, rfl⟩ := hg
      exact H s x _ _ hx ha)
    (fun x s r out hx _ hg hr => ⟨trivial, ⟨_, sized_out hN hx hr, hput _ _ hg⟩, by simp⟩) s out trivial hg
  have h1 := blocks_loop proc wrap f (fun _ => .fin 0) mk (fun _ => True) (LeftOnly N) 1
    (fun y o => y :: o.tail) xs
    (fun s x out hx _ hg => by
      obtain ⟨a, ha, rfl⟩ := hg
      exact H s x _ _ hx ha)
    (fun x s r out hx _ hg hr => ⟨trivial, ⟨_, sized_out hN hx hr, hput _ _ hg⟩, by
      rw [hput _ _ hg, List.map_const', sized_out hN hx hr]; rfl⟩) s out trivial hg
  rw [hr] at h0 h1
  obtain ⟨o, ho, ho'⟩ := chanResult_ok h0
  obtain ⟨o2, ho2, ho2'⟩ := chanResult_ok h1
  rw [ho] at ho2; cases ho2
  rw [List.map_const', runM_length hr] at ho2'
  exact ⟨o, ho, by simpa using ho', ho2'⟩

/-- The error of rounding to f32. -/
theorem f32_err (x : ℚ) : |f32.rnd x - x| ≤ |x| / 2 ^ 24 + 1 / 2 ^ 150 := by
  by_cases h0 : x = 0
  · subst h0; rw [Fmt.rnd_zero]; norm_num
  rcases le_or_gt (pow2 (f32.emin + f32.p - 1)) |x| with h | h
  · have := Fmt.rnd_rel h
    have heps : pow2 (-(f32.p : Int)) = 1 / 2 ^ 24 := by rw [pow2_eq]; norm_num [f32]
    rw [heps] at this
    have : |x| * (1 / 2 ^ 24) = |x| / 2 ^ 24 := by ring
    have : (0 : ℚ) ≤ 1 / 2 ^ 150 := by positivity
    linarith
  · have he := Fmt.rnd_err (f := f32) x
    have hq : f32.quantum x ≤ f32.emin := by
      rw [Fmt.quantum]
      have hx : 0 < |x| := abs_pos.mpr h0
      have := pow2_lt_iff.mp (lt_of_le_of_lt (ilog2_spec hx).1 h)
      omega
    have h1 : pow2 (f32.quantum x) ≤ 1 / 2 ^ 149 := by
      refine le_trans (pow2_le hq) ?_
      rw [pow2_eq]; norm_num [f32]
    have h2 : (0 : ℚ) ≤ |x| / 2 ^ 24 := by positivity
    have h3 : (1 : ℚ) / 2 ^ 149 / 2 = 1 / 2 ^ 150 := by norm_num
    linarith

/-- Results of multiplication are numbers of the format. -/
theorem Fl.mul_ok {f : Fmt} (a b : Fl) : (Fl.mul f a b).Ok f := by
  cases a <;> cases b <;> simp only [Fl.mul] <;> (try split) <;> first | exact round_ok | trivial

theorem Fl.add_ok {f : Fmt} (a b : Fl) : (Fl.add f a b).Ok f := by
  cases a <;> cases b <;> simp only [Fl.add] <;> (try split) <;> first | exact round_ok | trivial

theorem Fl.zero_ok {f : Fmt} : (Fl.fin 0).Ok f :=
  ⟨Fmt.rep_zero, by simpa using Fmt.maxFin_nonneg⟩

/-- The f32 nearest to a natural number that is not huge. -/
theorem f32_ofNat_big {n : Nat} (h : n ≤ 2 ^ 64) :
    (Fl.ofNat f32 n).isFinite = true ∧ (Fl.ofNat f32 n).val = f32.rnd n := by
  have h3 : InRange f32 (n : ℚ) := f32_inRange (by
    rw [abs_of_nonneg (by positivity)]
    have : (n : ℚ) ≤ 2 ^ 64 := by exact_mod_cast h
    exact le_trans this (by norm_num))
  exact Fl.round_val (s := false) h3

theorem Fl.toUsize_le (x : Fl) : x.toUsize ≤ 2 ^ 64 - 1 := by
  cases x with
  | nan => simp [Fl.toUsize]
  | inf s => cases s <;> simp [Fl.toUsize]
  | nz => simp [Fl.toUsize]
  | fin q => exact Nat.min_le_right _ _

/-- The floor of a non-negative number as a natural number. -/
theorem floor_toNat {v : ℚ} (hv : 0 ≤ v) : ((⌊v⌋.toNat : Nat) : ℚ) ≤ v ∧ v < (⌊v⌋.toNat : ℚ) + 1 := by
  have h3 : 0 ≤ ⌊v⌋ := Int.floor_nonneg.mpr hv
  have h4 : ((⌊v⌋.toNat : Nat) : ℚ) = (⌊v⌋ : ℚ) := by
    have : ((⌊v⌋.toNat : Nat) : Int) = ⌊v⌋ := Int.toNat_of_nonneg h3
    exact_mod_cast congrArg (Int.cast (R := ℚ)) this
  rw [h4]
  exact ⟨Int.floor_le v, Int.lt_floor_add_one v⟩

/-- A time in seconds is turned into samples up to one sample and the rounding of f32. -/
theorem secToSamples_close {sr : Nat} (h2 : sr ≤ 2 ^ 24) {d : Fl}
    (hd : d.isFinite = true) (hq : 0 ≤ d.val) (hq2 : d.val ≤ 2 ^ 30) :
    |(secToSamples sr d : ℚ) - d.val * sr| ≤ 1 + d.val * sr / 2 ^ 23 ∧ secToSamples sr d ≤ 2 ^ 54 := by
  obtain ⟨f1, f2⟩ := f32_ofNat h2
  have hsr2 : (sr : ℚ) ≤ 2 ^ 24 := by exact_mod_cast h2
  have hab : d.val * sr ≤ 2 ^ 54 := by
    calc d.val * sr ≤ 2 ^ 30 * 2 ^ 24 := mul_le_mul hq2 hsr2 (by positivity) (by positivity)
      _ = 2 ^ 54 := by norm_num
  have hab0 : 0 ≤ d.val * sr := by positivity
  have hmul := Fl.mul_fin (f := f32) hd f1 (by
    rw [f2]; apply f32_inRange; rw [abs_of_nonneg hab0]; exact le_trans hab (by norm_num))
  rw [f2] at hmul
  have hr54 : f32.Rep ((2 : ℚ) ^ 54) := ⟨1, 54, by decide, by decide, by rw [pow2_eq]; norm_num⟩
  have hv1 : f32.rnd (d.val * sr) ≤ 2 ^ 54 := Fmt.rnd_le f32_p hr54 hab
  have hv0 : 0 ≤ f32.rnd (d.val * sr) := Fmt.rnd_nonneg hab0
  unfold secToSamples
  rw [Fl.toUsize_of hmul.1 (by rw [hmul.2]; exact lt_of_le_of_lt hv1 (by norm_num)), hmul.2]
  have he := f32_err (d.val * sr)
  have hf := floor_toNat hv0
  have h150 : (1 : ℚ) / 2 ^ 150 ≤ 1 := by norm_num
  rw [abs_of_nonneg hab0] at he
  constructor
  · by_cases hsmall : d.val * sr ≤ 1 / 2 ^ 120
    · -- the rounded number is below 1, so no sample at all
      have hr : f32.Rep ((1 : ℚ) / 2 ^ 120) := ⟨1, -120, by decide, by decide, by rw [pow2_eq]; norm_num⟩
      have hlt : f32.rnd (d.val * sr) < 1 :=
        lt_of_le_of_lt (Fmt.rnd_le f32_p hr hsmall) (by norm_num)
      have h0 : ⌊f32.rnd (d.val * sr)⌋.toNat = 0 := by
        have : ⌊f32.rnd (d.val * sr)⌋ < 1 := by rw [Int.floor_lt]; exact_mod_cast hlt
        omega
      have h120 : (1 : ℚ) / 2 ^ 120 ≤ 1 := by norm_num
      have h23 : 0 ≤ d.val * sr / 2 ^ 23 := by positivity
      rw [h0, abs_le]
      push_cast
      constructor <;> linarith
    · have hbig : (1 : ℚ) / 2 ^ 150 ≤ d.val * sr / 2 ^ 24 := by
        have : (1 : ℚ) / 2 ^ 120 / 2 ^ 24 ≤ d.val * sr / 2 ^ 24 :=
          div_le_div_of_nonneg_right (not_le.mp hsmall).le (by positivity)
        refine le_trans ?_ this
        norm_num
      have h23 : d.val * sr / 2 ^ 24 + d.val * sr / 2 ^ 24 = d.val * sr / 2 ^ 23 := by ring
      rw [abs_le] at he ⊢
      constructor <;> linarith
  · have : ((⌊f32.rnd (d.val * sr)⌋.toNat : Nat) : ℚ) ≤ ((2 ^ 54 : Nat) : ℚ) := by
      push_cast; exact le_trans hf.1 hv1
    exact_mod_cast this

end Verif
