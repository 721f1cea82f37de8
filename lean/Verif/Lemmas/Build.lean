import Verif.Spec.Build
import Verif.Lemmas.AtLeast
import Verif.Lemmas.PatText
import Verif.Lemmas.KernelRfl
import Verif.Lemmas.Table

/-! Building nodes does not panic on buildable components. -/

namespace Verif
open Spec

/-- Whether the computation ends without a panic. -/
def isOk {ε α : Type} : Except ε α → Bool
  | .ok _ => true
  | .error _ => false

theorem ok_of_isOk {ε α : Type} {x : Except ε α} (h : isOk x = true) : ∃ a, x = .ok a := by
  cases x with
  | ok a => exact ⟨a, rfl⟩
  | error e => cases h

theorem newBd_total (m : Libm) (N : Nat) (d : Fl) : ∃ k, newBd m N d = .ok k := ok_of_isOk (by kernel_rfl)
theorem newHh_total (m : Libm) (N : Nat) (d : Fl) : ∃ k, newHh m N d = .ok k := ok_of_isOk (by kernel_rfl)
theorem newSn_total (m : Libm) (N : Nat) (d : Fl) : ∃ k, newSn m N d = .ok k := ok_of_isOk (by kernel_rfl)
theorem newSynth_total (m : Libm) (N : Nat) (w : Wave) (a d : Fl) : ∃ k, newSynth m N w a d = .ok k :=
  ok_of_isOk (by kernel_rfl)
theorem newPlate_total (m : Libm) (N : Nat) (x : Fl) : ∃ k, newPlate m N x = .ok k := ok_of_isOk (by kernel_rfl)

theorem f32_1024th : f32.Rep (1 / 1024) := ⟨1, -10, by decide, by decide, by rw [pow2_eq]; norm_num⟩
theorem f32_one : f32.Rep 1 := ⟨1, 0, by decide, by decide, by rw [pow2_eq]; norm_num⟩
theorem f32_three : f32.Rep 3 := ⟨3, 0, by decide, by decide, by rw [pow2_eq]; norm_num⟩

theorem ring_from_ok {n : Nat} (h : n ≠ 0) : ∃ r, Ring.from' (List.replicate n (.fin 0)) = .ok r := by
  unfold Ring.from'
  cases n with
  | zero => exact absurd rfl h
  | succ n => exact ⟨_, rfl⟩

theorem apf_num {sr : Nat} {q : ℚ} {g : Fl} (hs : 4096 ≤ sr) (hq : 1 ≤ q) : ∃ f, Apf.new sr (.fin q) g = .ok f := by
  have hb : Fl.beq (.fin q) (.fin 0) = false := by
    have : q ≠ 0 := by intro h; rw [h] at hq; norm_num at hq
    simp [Fl.beq, Fl.val, this]
  have h1 : AtLeast (1 / 1024) (.fin q /. .fin 1000) :=
    AtLeast.div f32_p (AtLeast.of_le hq) (by norm_num) (le_refl _) (by norm_num) f32_1024th (by norm_num) (by norm_num)
  have h2 : AtLeast 1 (msToSamples sr (.fin q)) :=
    AtLeast.mul f32_p h1 (rate_atLeast hs) (by norm_num) (by norm_num) f32_one (by norm_num) (by norm_num)
  obtain ⟨r, hr⟩ := ring_from_ok h2.toUsize
  unfold Apf.new
  rw [hb]
  simp only [Bool.false_eq_true, if_false, hr]
  exact ⟨_, rfl⟩

theorem apf_ref {sr : Nat} {g : Fl} (hs : 4096 ≤ sr) : ∃ f, Apf.new sr (.fin 0) g = .ok f := by
  have hb : Fl.beq (.fin 0) (.fin 0) = true := by decide
  have h2 : AtLeast 1 (.fin 3 *. Fl.ofNat f32 sr) :=
    AtLeast.mul f32_p (AtLeast.of_le (le_refl (3 : ℚ))) (rate_atLeast hs) (by norm_num) (by norm_num) f32_one
      (by norm_num) (by norm_num)
  obtain ⟨r, hr⟩ := ring_from_ok h2.toUsize
  unfold Apf.new
  rw [hb]
  simp only [if_true, hr]
  exact ⟨_, rfl⟩

theorem selectSamples_panic {samples : List (Name × Sample)} {ev : Events} {p : Panic} :
    selectSamples samples ev ≠ .error (.panic p) := by
  induction ev with
  | nil => intro h; cases h
  | cons x es ih =>
    obtain ⟨v, t⟩ := x
    intro h
    unfold selectSamples at h
    dsimp only at h
    split at h
    · cases h
    · cases hs : selectSamples samples es with
      | error e =>
        rw [hs] at h
        cases h
        exact ih hs
      | ok r => rw [hs] at h; cases h

theorem makePrim_panic {m : Libm} {script : Bool → Name → Prop} {samples : List (Name × Sample)} {sr : Nat} {bpm : Fl}
    {seed : Nat} {c : Comp} {p : Panic} (hc : Buildable script sr c)
    (hs : ∀ n s, (n, s) ∈ samples → SampleFilled s) :
    makePrim m samples sr bpm seed c ≠ some (.error (.panic p)) := by
  intro h
  cases c with
  | psampler ev span =>
    cases span with
    | none => exact hc
    | some v =>
      simp only [makePrim, Option.some.injEq, bind, Except.bind] at h
      cases hs : selectSamples samples ev with
      | error e =>
        rw [hs] at h
        cases h
        exact selectSamples_panic hs
      | ok r => rw [hs] at h; cases h
  | points ps span l =>
    cases ps with
    | nil => exact hc rfl
    | cons x ps => cases h
  | patternSynth s _ =>
    obtain ⟨es, hp⟩ := hc
    simp only [makePrim, PatternSynth.new, Props.patEvents_text hp, bind, Except.bind, Option.some.injEq] at h
    cases h
  | sp sym =>
    simp only [makePrim, Option.some.injEq] at h
    split at h
    · cases h
    · rename_i s hl
      obtain ⟨h1, h2⟩ := hs _ _ (lookup_mem hl)
      unfold Sampler.new at h
      rw [if_neg h1, if_neg (fun h => h2 (List.length_eq_zero_iff.mp h))] at h
      cases h
  | lpf c q =>
    cases c with
    | event => exact hc
    | _ => cases h
  | apfmsgain d g =>
    cases d with
    | num v =>
      obtain ⟨h1, q, rfl, h2⟩ := hc
      obtain ⟨f, hf⟩ := apf_num (g := g) h1 h2
      simp only [makePrim, NumRef.value, hf] at h
      cases h
    | ref r =>
      obtain ⟨f, hf⟩ := apf_ref (g := g) hc
      simp only [makePrim, NumRef.value, hf] at h
      cases h
  | delayn d => cases d <;> cases h
  | adc _ => exact hc
  | reverb => exact hc
  | expr _ => exact hc
  | _ => cases h

theorem makeCompound_total {m : Libm} {N : Nat} {c : Comp} {r : Except Panic Compound}
    (h : makeCompound m N c = some r) : ∃ k, r = .ok k := by
  cases c with
  | bd p => rw [← Option.some.inj h]; exact newBd_total ..
  | hh p => rw [← Option.some.inj h]; exact newHh_total ..
  | sn p => rw [← Option.some.inj h]; exact newSn_total ..
  | sawsynth => rw [← Option.some.inj h]; exact newSynth_total ..
  | squsynth => rw [← Option.some.inj h]; exact newSynth_total ..
  | trisynth => rw [← Option.some.inj h]; exact newSynth_total ..
  | plate => rw [← Option.some.inj h]; exact newPlate_total ..
  | _ => cases h

theorem makeNode_panic {P : Plat} {N : Nat} {script : Bool → Name → Prop} {samples : List (Name × Sample)} {sr : Nat}
    {bpm : Fl} {seed : Nat} {c : Comp} {p : Panic} (hc : Buildable script sr c)
    (hs : ∀ n s, (n, s) ∈ samples → SampleFilled s)
    (hx : ∀ isMeta code, script isMeta code → ∃ s, P.ext.new isMeta code sr = .ok s) :
    makeNode P N samples sr bpm seed c ≠ .error (.panic p) := by
  intro h
  unfold makeNode at h
  split at h
  · rename_i r hr
    cases r with
    | ok a => cases h
    | error e =>
      cases e with
      | err => cases h
      | panic q => exact makePrim_panic hc hs hr
  · rename_i hn
    split at h
    · rename_i r hr
      obtain ⟨k, rfl⟩ := makeCompound_total hr
      cases h
    · rename_i hn2
      split at h
      · obtain ⟨s, hs⟩ := hx true _ hc
        rw [hs] at h
        cases h
      · obtain ⟨s, hs⟩ := hx false _ hc
        rw [hs] at h
        cases h
      · rename_i h1 h2
        cases c with
        | metaScript code => exact h1 _ rfl
        | eval code => exact h2 _ rfl
        | psampler _ s => cases s <;> cases hn
        | lpf c _ => cases c <;> cases hn
        | delayn d => cases d <;> cases hn
        | _ => first | exact absurd hn (Option.some_ne_none _) | exact absurd hn2 (Option.some_ne_none _)

end Verif
