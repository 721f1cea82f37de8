import Verif.Lemmas.SafeCompound
import Verif.Lemmas.Concrete

/-! What `makenode` builds from safe settings (helpers for C37). -/

namespace Verif
open Spec Props

/-- The components whose nodes keep a list of their inputs. -/
def Comp.keeps : Comp → Bool
  | .mix _ | .get _ | .imp _ | .noise _ | .constsig _ | .points .. => false
  | _ => true

/-- The components whose nodes empty this list when told to. -/
def Comp.empties : Comp → Bool
  | .mix _ | .get _ | .imp _ | .noise _ | .constsig _ | .points .. => false
  | .bd _ | .sn _ | .hh _ | .sawsynth _ _ | .squsynth _ _ | .trisynth _ _ => false
  | _ => true

theorem listEq_length {α : Type} {eq : α → α → Bool} : ∀ {l k : List α}, listEq eq l k = true →
    l.length = k.length
  | [], [], _ => rfl
  | _ :: _, _ :: _, h => by
    simp only [listEq, Bool.and_eq_true] at h
    simp [listEq_length h.2]
  | [], _ :: _, h => by simp [listEq] at h
  | _ :: _, [], h => by simp [listEq] at h

theorem Comp.class_eq (a b : Comp) (h : Comp.eq a b = true) :
    a.keeps = b.keeps ∧ a.empties = b.empties ∧ (∀ sc n, SafeInputs sc a n ↔ SafeInputs sc b n) ∧
      (∀ p v, SafeNumber a p v ↔ SafeNumber b p v) ∧ ∀ sc p t, SafeText sc a p t ↔ SafeText sc b p t := by
  revert h
  fun_cases Comp.eq a b <;> intro h <;>
    first
      | exact ⟨rfl, rfl, fun _ _ => Iff.rfl, fun _ _ => Iff.rfl, fun _ _ _ => Iff.rfl⟩
      | exact absurd h Bool.false_ne_true
      | (cases of_decide_eq_true h
         exact ⟨rfl, rfl, fun _ _ => Iff.rfl, fun _ _ => Iff.rfl, fun _ _ _ => Iff.rfl⟩)
      | (refine ⟨rfl, rfl, fun _ n => ?_, fun _ _ => Iff.rfl, fun _ _ _ => Iff.rfl⟩
         simp only [SafeInputs]
         rw [listEq_length h])

theorem selectSamples_fine {samples : List (Name × Sample)} (hs : ∀ n s, (n, s) ∈ samples → SampleOk s) :
    ∀ {e : Events} {l : List (Sample × Fl)}, selectSamples samples e = .ok l → ∀ x, x ∈ l → Fine x.1 := by
  intro e
  induction e with
  | nil =>
    intro l h x hx
    cases h
    cases hx
  | cons a e ih =>
    intro l h x hx
    obtain ⟨v, t⟩ := a
    unfold selectSamples at h
    simp only at h
    split at h
    · cases h
    · rename_i s hl
      rw [except_bind_ok] at h
      obtain ⟨r, hr, h⟩ := h
      cases h
      rcases List.mem_cons.mp hx with rfl | hx
      · exact hs _ _ (lookup_mem hl)
      · exact ih hr x hx

theorem makePrim_ok {m : Libm} {samples : List (Name × Sample)} {sr : Nat} {bpm : Fl} {seed : Nat}
    {c : Comp} {ch : Nat} {n : Prim} (hr : RateOk sr) (ht : TempoOk bpm)
    (hsm : ∀ n s, (n, s) ∈ samples → SampleOk s) (hs : SafeSettings m.checked sr c)
    (h : makePrim m samples sr bpm seed c = some (.ok (ch, n))) :
    n.Safe m ∧ 1 ≤ ch ∧ (n.twoSided → 2 ≤ ch) := by
  have h1 : ∀ {n : Prim}, n.Safe m → (n.twoSided ↔ False) → n.Safe m ∧ 1 ≤ 1 ∧ (n.twoSided → 2 ≤ 1) :=
    fun h k => ⟨h, Nat.le_refl 1, fun t => (k.mp t).elim⟩
  have h2 : ∀ {n : Prim}, n.Safe m → n.Safe m ∧ 1 ≤ 2 ∧ (n.twoSided → 2 ≤ 2) :=
    fun h => ⟨h, by decide, fun _ => Nat.le_refl 2⟩
  cases c with
  | psampler e span =>
    obtain ⟨v, rfl, hv⟩ := hs
    have h := Option.some.inj h
    rw [except_bind_ok] at h
    obtain ⟨l, hl, h⟩ := h
    cases h
    refine h2 ⟨_, bar_ne ht hv hr.1, rfl, selectSamples_fine hsm hl, ?_⟩
    intro v hv
    cases hv
  | points ps span looping =>
    have h := Option.some.inj h
    rw [except_bind_ok] at h
    obtain ⟨p, hp, h⟩ := h
    cases h
    have hp := liftP_ok hp
    unfold Points.new at hp
    rw [except_bind_ok] at hp
    obtain ⟨l, _, hp⟩ := hp
    cases hp
    refine h1 ?_ Iff.rfl
    simp only [SafeSettings] at hs
    simp only [Prim.Safe]
    cases looping
    · exact hs
    · exact ⟨hs, ht, hr.1⟩
  | patternSynth s span =>
    have h := Option.some.inj h
    rw [except_bind_ok] at h
    obtain ⟨p, hp, h⟩ := h
    cases h
    have hp := liftP_ok hp
    unfold PatternSynth.new at hp
    rw [except_bind_ok] at hp
    obtain ⟨l, _, hp⟩ := hp
    cases hp
    exact h1 (patBar_ne hr.1) Iff.rfl
  | sp sym =>
    have h := Option.some.inj h
    split at h
    · cases h
    · rename_i s hl
      rw [except_bind_ok] at h
      obtain ⟨p, hp, h⟩ := h
      cases h
      have hp := liftP_ok hp
      unfold Sampler.new at hp
      split at hp
      · cases hp
      · split at hp
        · cases hp
        · cases hp
          refine h2 ⟨hsm _ _ (lookup_mem hl), ?_⟩
          intro v hv
          cases hv
  | lpf s q =>
    cases s with
    | num v => cases h; exact h1 (Or.inl rfl) Iff.rfl
    | ref v => cases h; exact h1 (Or.inl rfl) Iff.rfl
    | pattern e span => cases h; exact h1 (Or.inr (bar_ne ht hs hr.1)) Iff.rfl
    | event e => cases h
  | apfmsgain d g =>
    have h := Option.some.inj h
    rw [except_bind_ok] at h
    obtain ⟨p, hp, h⟩ := h
    cases h
    have hp := liftP_ok hp
    unfold Apf.new at hp
    simp only [except_bind_ok] at hp
    obtain ⟨b, hb, hp⟩ := hp
    cases hp
    have := ring_from_wf hb
    exact h2 ⟨this, this⟩
  | envperc a d =>
    cases h
    exact h2 ⟨hr.2, sec_le hr.2 hs.1, sec_le hr.2 hs.2⟩
  | adsr a d s r =>
    cases h
    exact h2 ⟨hr.2, sec_le hr.2 hs.1, sec_le hr.2 hs.2⟩
  | imp p =>
    cases p with
    | num v =>
      cases h
      obtain ⟨q, rfl, q0, q1⟩ := hs
      exact h1 ⟨period_ne hr q0 q1, hr⟩ Iff.rfl
    | ref v =>
      cases h
      exact h1 ⟨period_ne hr (le_refl 0) (by positivity), hr⟩ Iff.rfl
  | delayn p =>
    cases p with
    | nat n =>
      cases h
      refine h2 (ring_new_wf ?_)
      split <;> omega
    | ref r =>
      cases h
      exact h2 (ring_new_wf (by decide))
  | delayms p =>
    cases h
    refine h2 ?_
    intro r hr
    rw [List.eq_of_mem_replicate hr]
    exact ring_new_wf (by omega)
  | seq e => cases h; exact h2 ⟨rfl, ht, hr.1⟩
  | choose l => cases h; exact h2 hs
  | balance _ _ => cases h; exact h2 trivial
  | mul _ => cases h; exact h2 trivial
  | add _ => cases h; exact h2 trivial
  | pan _ => cases h; exact h2 trivial
  | get _ => cases h; exact h2 trivial
  | mix _ => cases h; exact h2 trivial
  | arrange _ => cases h; exact h2 trivial
  | msgsynth _ _ _ => cases h; exact h1 trivial Iff.rfl
  | rhpf _ _ => cases h; exact h1 trivial Iff.rfl
  | tri _ => cases h; exact h1 trivial Iff.rfl
  | squ _ => cases h; exact h1 trivial Iff.rfl
  | saw _ => cases h; exact h1 trivial Iff.rfl
  | sin _ => cases h; exact h1 trivial Iff.rfl
  | noise _ => cases h; exact h1 trivial Iff.rfl
  | speed _ => cases h; exact h1 trivial Iff.rfl
  | onepole _ => cases h; exact h1 trivial Iff.rfl
  | constsig _ => cases h; exact h1 trivial Iff.rfl
  | _ => cases h

theorem makePrim_class {m : Libm} {samples : List (Name × Sample)} {sr : Nat} {bpm : Fl} {seed : Nat}
    {c : Comp} {ch : Nat} {n : Prim} (h : makePrim m samples sr bpm seed c = some (.ok (ch, n))) :
    n.keepsOrder = c.keeps ∧ n.keepsOrder = c.empties ∧ (∀ sc k, SafeInputs sc c k → n.fits k) ∧
      ∀ p v, SafeNumber c p v → n.takesNumber p v := by
  cases c with
  | psampler e span =>
    cases span with
    | none => cases h
    | some v =>
      have h := Option.some.inj h
      rw [except_bind_ok] at h
      obtain ⟨l, _, h⟩ := h
      cases h
      exact ⟨rfl, rfl, fun _ _ h => h, fun _ _ h => h⟩
  | points ps span looping =>
    have h := Option.some.inj h
    rw [except_bind_ok] at h
    obtain ⟨p, _, h⟩ := h
    cases h
    exact ⟨rfl, rfl, fun _ _ h => h, fun _ _ h => h⟩
  | patternSynth s span =>
    have h := Option.some.inj h
    rw [except_bind_ok] at h
    obtain ⟨p, _, h⟩ := h
    cases h
    exact ⟨rfl, rfl, fun _ _ h => h, fun _ _ h => h⟩
  | sp sym =>
    have h := Option.some.inj h
    split at h
    · cases h
    · rw [except_bind_ok] at h
      obtain ⟨p, _, h⟩ := h
      cases h
      exact ⟨rfl, rfl, fun _ _ h => h, fun _ _ h => h⟩
  | lpf s q => cases s <;> cases h <;> exact ⟨rfl, rfl, fun _ _ h => h, fun _ _ h => h⟩
  | apfmsgain d g =>
    have h := Option.some.inj h
    rw [except_bind_ok] at h
    obtain ⟨p, _, h⟩ := h
    cases h
    exact ⟨rfl, rfl, fun _ _ h => h, fun _ _ h => h⟩
  | delayn p => cases p <;> cases h <;> exact ⟨rfl, rfl, fun _ _ h => h, fun _ _ h => h⟩
  | _ => cases h <;> exact ⟨rfl, rfl, fun _ _ h => h, fun _ _ h => h⟩

end Verif
