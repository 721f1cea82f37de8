import Verif.Lemmas.Script
import Verif.Spec.Safe

/-! # Formulas that do not fail -/

namespace Verif.Script
open Spec

variable {F : FastEval} {R : Rhai}

/-- A formula whose statements need only what is set has a value. -/
theorem setBefore_runs {asgs : List (Name × F.Prog)} {last : F.Prog} {names : List Name} (h : SetBefore F names asgs last)
    {m : Name → Option Fl} (hm : ∀ y ∈ names, m y ≠ none) : ∃ m' v, Assigns F asgs m m' ∧ F.eval last m' = some v := by
  induction asgs generalizing names m with
  | nil =>
    obtain ⟨v, hv⟩ := Option.ne_none_iff_exists'.mp (h m hm)
    exact ⟨m, v, .nil m, hv⟩
  | cons a r ih =>
    obtain ⟨x, p⟩ := a
    obtain ⟨w, hw⟩ := Option.ne_none_iff_exists'.mp (h.1 m hm)
    obtain ⟨m', v, h1, h2⟩ := ih h.2 (m := setVar m x w) (by
      intro y hy
      by_cases hxy : y = x
      · rw [hxy, setVar_same]; simp
      · rw [setVar_ne _ _ hxy]
        exact hm y ((List.mem_cons.mp hy).resolve_left hxy))
    exact ⟨m', v, .cons hw (sets_iff.mpr rfl) h1, h2⟩

theorem statements_grow {vars : List Name} {ps : List F.Prog} {j : Nat} {m m' : Name → Option Fl} {y : Option Fl}
    (h : statements F vars j ps m = .ok (m', y)) (z : Name) (hz : m z ≠ none) : m' z ≠ none := by
  induction ps generalizing j m with
  | nil => cases h; exact hz
  | cons p ps ih =>
    rw [statements] at h
    split at h
    · cases h
    · next v hv =>
      cases ps with
      | nil => cases h; exact hz
      | cons q ps =>
        simp only at h
        split at h
        · cases h
        · next x hx =>
          refine ih h ?_
          by_cases hzx : z = x
          · rw [hzx, setVar_same]; simp
          · rwa [setVar_ne _ _ hzx]

theorem given_grow (m : Name → Option Fl) (x : Option Fl) (t : Nat) (z : Name) (hz : m z ≠ none) : given m x t z ≠ none := by
  have key : ∀ (m : Name → Option Fl) (x : Name) (v : Fl), m z ≠ none → setVar m x v z ≠ none := by
    intro m x v hz
    by_cases hzx : z = x
    · rw [hzx, setVar_same]; simp
    · rwa [setVar_ne _ _ hzx]
  cases x with
  | none => exact key _ _ _ hz
  | some v => exact key _ _ _ (key _ _ _ hz)

/-- What a node keeps while it plays. -/
def Keeps (n n' : EvalNode F) : Prop := n'.vars = n.vars ∧ n'.progs = n.progs ∧ ∀ z, n.map z ≠ none → n'.map z ≠ none

theorem step_keeps {n n' : EvalNode F} {x y : Option Fl} (h : evalStep n x = .ok (n', y)) : Keeps n n' := by
  have key : evalStep n x =
      match statements F n.vars 0 n.progs (given n.map x n.phase) with
      | .error e => .error e
      | .ok (m', y) => .ok ({ n with map := m', phase := n.phase + 1 }, y) := by
    cases x <;> rfl
  rw [key] at h
  split at h
  · cases h
  · next m' y' hm =>
    cases h
    exact ⟨rfl, rfl, fun z hz => statements_grow hm z (given_grow _ _ _ z hz)⟩

theorem run_keeps {n : EvalNode F} {xs : List (Option Fl)} {r : EvalNode F × List (Option Fl)} (h : runM evalStep n xs = .ok r) :
    Keeps n r.1 := by
  induction xs generalizing n r with
  | nil => cases h; exact ⟨rfl, rfl, fun _ h => h⟩
  | cons x xs ih =>
    rw [runM] at h
    cases hq : evalStep n x with
    | error e => rw [hq] at h; cases h
    | ok q =>
      obtain ⟨a1, a2, a3⟩ := step_keeps (show _ = Except.ok (q.1, q.2) from hq)
      rw [hq] at h
      simp only at h
      cases hw : runM evalStep q.1 xs with
      | error e => rw [hw] at h; cases h
      | ok w =>
        rw [hw] at h
        cases h
        obtain ⟨b1, b2, b3⟩ := ih hw
        exact ⟨b1.trans a1, b2.trans a2, fun z hz => b3 z (a3 z hz)⟩

/-- The node of a formula that always has a value. -/
structure Sound (input : Bool) (n : EvalNode F) : Prop where
  base : ∀ y ∈ [c!"x", c!"y", c!"z", c!"sr"], n.map y ≠ none
  code : ∃ asgs last extra, n.vars = asgs.map Prod.fst ++ extra ∧ n.progs = asgs.map Prod.snd ++ [last] ∧
    SetBefore F ((if input then [c!"in"] else []) ++ [c!"phase", c!"x", c!"y", c!"z", c!"sr"]) asgs last

theorem Sound.keep {input : Bool} {n n' : EvalNode F} (h : Sound input n) (hk : Keeps n n') : Sound input n' := by
  obtain ⟨asgs, last, extra, h1, h2, h3⟩ := h.code
  exact ⟨fun y hy => hk.2.2 y (h.base y hy), asgs, last, extra, hk.1.trans h1, hk.2.1.trans h2, h3⟩

theorem sound_run {n : EvalNode F} {input : Bool} (h : Sound input n) (xs : List (Option Fl))
    (hx : ∀ x ∈ xs, input = true → x ≠ none) : ∃ r, runM evalStep n xs = .ok r := by
  induction xs generalizing n with
  | nil => exact ⟨_, rfl⟩
  | cons x xs ih =>
    obtain ⟨asgs, last, extra, h1, h2, h3⟩ := h.code
    obtain ⟨t, vars, m, progs⟩ := n
    simp only at h1 h2
    subst h1 h2
    have hgiven : ∀ y ∈ (if input then [c!"in"] else []) ++ [c!"phase", c!"x", c!"y", c!"z", c!"sr"], given m x t y ≠ none := by
      intro y hy
      obtain ⟨g1, g2, -⟩ := given_iff.mpr (rfl : given m x t = given m x t)
      rcases List.mem_append.mp hy with hy | hy
      · cases input with
        | false => cases hy
        | true =>
          obtain ⟨v, hv⟩ := Option.ne_none_iff_exists'.mp (hx x (by simp) rfl)
          rw [List.mem_singleton.mp hy, g2 v hv]
          simp
      · rcases List.mem_cons.mp hy with rfl | hy
        · rw [g1]; simp
        · exact given_grow _ _ _ y (h.base y hy)
    obtain ⟨m', v, h4, h5⟩ := setBefore_runs h3 hgiven
    have hs : evalStep (formula F asgs last extra t m) x = .ok (formula F asgs last extra (t + 1) m', some (Fl.conv f32 v)) :=
      step_iff.mpr ⟨m', v, h4, h5, rfl, rfl⟩
    obtain ⟨r, hr⟩ := ih (h.keep (step_keeps hs)) (fun x hx' => hx x (by simp [hx']))
    refine ⟨(r.1, some (Fl.conv f32 v) :: r.2), ?_⟩
    show runM evalStep (formula F asgs last extra t m) (x :: xs) = _
    rw [runM, hs]
    simp only [hr]

/-- Tells `meta` from `eval`. -/
def isMeta (s : (scripts F R).State) : Bool :=
  match s with
  | .inl _ => false
  | .inr _ => true

/-- The nodes that cannot fail. -/
def Works (input : Bool) (s : (scripts F R).State) : Prop :=
  match s with
  | .inl n => Sound input n
  | .inr _ => True

theorem sound_code {input : Bool} {code : Name} (hc : SafeFormula F code input) {n n' : EvalNode F}
    (hb : ∀ y ∈ [c!"x", c!"y", c!"z", c!"sr"], n.map y ≠ none) (h : n.applyCode code = .ok n') : Sound input n' := by
  obtain ⟨asgs, last, ht, hs⟩ := hc
  obtain ⟨extra, hl⟩ := compile_text ht
  rw [EvalNode.applyCode, hl] at h
  cases h
  exact ⟨hb, asgs, last, extra, rfl, rfl, hs⟩

variable {libm : Libm} {ho : HashOrder} {N : Nat}

theorem scripts_behave : ScriptsBehave ⟨libm, ho, scripts F R⟩ N (SafeScript F) isMeta Works := by
  refine ⟨?_, ?_, ?_, ?_⟩
  · intro b code sr s h
    cases b with
    | false =>
      obtain ⟨n, hn, rfl⟩ := map_ok (show Sum.inl <$> EvalNode.new F sr code = _ from h)
      refine ⟨rfl, fun w hw => sound_code hw ?_ hn⟩
      intro y hy
      simp only [List.mem_cons, List.not_mem_nil, or_false] at hy
      rcases hy with rfl | rfl | rfl | rfl <;> exact Option.some_ne_none _
    | true =>
      cases h
      exact ⟨rfl, fun _ _ => trivial⟩
  · intro s p t s' h
    cases s with
    | inl n =>
      obtain ⟨n', hn, rfl⟩ := map_ok (show Sum.inl <$> n.set p t = _ from h)
      refine ⟨rfl, fun hp w hw => ?_⟩
      cases p with
      | zero => exact sound_code (hp rfl w) hw.base hn
      | succ p => cases hn; exact hw
    | inr n => cases h; exact ⟨rfl, fun _ _ _ => trivial⟩
  · intro s o ins out s' out' h
    cases s with
    | inl n =>
      obtain ⟨n', h', rfl⟩ := reState_ok (show reState _ (procEval n o ins out) = _ from h)
      clear h
      rename' h' => h
      unfold procEval at h
      split at h
      · cases h
      · split at h
        · cases h
        · split at h
          · cases h
          · next r hr =>
            cases h
            exact ⟨rfl, fun w hw => Sound.keep hw (run_keeps hr)⟩
    | inr n =>
      obtain ⟨n', h, rfl⟩ := reState_ok (show reState _ (procMeta n o ins out) = _ from h)
      exact ⟨rfl, fun _ _ => trivial⟩
  · intro s o ins out hs hi hb hne hin hk ho'
    have hsh := fun s' out' => (scripts_shape (libm := libm) (ho := ho) (F := F) (R := R) (N := N)).proc s o ins out s' out' trivial hi hb
    suffices h : ∃ s' out', (scripts F R).proc s o ins out = .ok (s', out') by
      obtain ⟨s', out', h⟩ := h
      exact ⟨s', out', h, (hsh s' out' h).2⟩
    have hchan : ∃ b, chan out 0 = .ok b := by
      cases out with
      | nil => exact absurd rfl hne
      | cons b _ => exact ⟨b, rfl⟩
    have hread : ins ≠ [] → ∃ b x, inputAt ins o 0 = .ok b ∧ chan b 0 = .ok x := by
      intro hx
      obtain ⟨k, l, rfl, hk'⟩ := ho' hx
      obtain ⟨e, he, hek⟩ := List.mem_map.mp hk'
      obtain ⟨e', he'⟩ : ∃ e', ins.find? (fun e => e.1 == k) = some e' := by
        have : (ins.find? (fun e => e.1 == k)).isSome := by
          rw [List.find?_isSome]
          exact ⟨e, he, by simpa using hek⟩
        exact Option.isSome_iff_exists.mp this
      have hb' := hin e' (List.mem_of_find?_eq_some he')
      obtain ⟨x, hx'⟩ : ∃ x, chan e'.2 0 = .ok x := by
        cases hc : e'.2 with
        | nil => exact absurd hc hb'
        | cons x _ => exact ⟨x, rfl⟩
      exact ⟨e'.2, x, by simp [inputAt, he'], hx'⟩
    obtain ⟨b, hb0⟩ := hchan
    cases s with
    | inl n =>
      suffices h : ∃ r, procEval n o ins out = .ok r by
        obtain ⟨r, hr⟩ := h
        exact ⟨.inl r.1, r.2, by show reState _ (procEval n o ins out) = _; rw [hr]; rfl⟩
      rw [procEval, hb0]
      simp only
      cases hins : ins with
      | nil =>
        rw [hins] at hs
        simp only [evalItems, List.isEmpty_nil, if_true]
        obtain ⟨r, hr⟩ := sound_run (n := n) (input := false) hs (b.map fun _ => none) (by intro _ _ h; cases h)
        exact ⟨_, by rw [hr]⟩
      | cons e es =>
        obtain ⟨c, x, h1, h2⟩ := hread (by rw [hins]; simp)
        rw [← hins]
        have hit : evalItems o ins b = .ok (x.map some) := by
          rw [evalItems, if_neg (by rw [hins]; simp), h1]
          simp only [h2]
        rw [hit]
        simp only
        rw [hins] at hs
        obtain ⟨r, hr⟩ := sound_run (n := n) (input := true) hs (x.map some) (by
          intro y hy _
          obtain ⟨v, -, rfl⟩ := List.mem_map.mp hy
          simp)
        exact ⟨_, by rw [hr]⟩
    | inr n =>
      suffices h : ∃ r, procMeta n o ins out = .ok r by
        obtain ⟨r, hr⟩ := h
        exact ⟨.inr r.1, r.2, by show reState _ (procMeta n o ins out) = _; rw [hr]; rfl⟩
      have hsc : ∃ s, metaScope n o ins = .ok s := by
        cases hins : ins with
        | nil => exact ⟨n.scope, rfl⟩
        | cons e es =>
          obtain ⟨c, x, h1, h2⟩ := hread (by rw [hins]; simp)
          rw [← hins]
          exact ⟨_, by rw [metaScope, if_neg (by rw [hins]; simp), h1]; simp only [h2]; rfl⟩
      obtain ⟨sc, hsc⟩ := hsc
      rw [procMeta, hsc]
      simp only
      rcases R.eval n.ast sc with ⟨s', r⟩
      cases r with
      | none => exact ⟨_, rfl⟩
      | some r => exact ⟨_, by simp only [hb0]; rfl⟩

end Verif.Script
