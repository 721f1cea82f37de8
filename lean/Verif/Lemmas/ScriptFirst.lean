import Verif.Lemmas.Script
import Verif.Lemmas.KernelRfl
import Verif.Lemmas.Single
import Verif.Spec.Stream

/-! What the scripted nodes do with their inputs (helpers). -/

namespace Verif
open Spec

variable {F : FastEval} {R : Rhai} {libm : Libm} {ho : HashOrder}

theorem evalItems_first (order : List Nat) (ins : Ins) (o : Buf) :
    evalItems order ins o = match firstHeard order ins with
      | .error e => .error e
      | .ok none => .ok (o.map fun _ => none)
      | .ok (some x) => .ok (x.map some) := by
  unfold evalItems firstHeard
  split
  · rfl
  · cases inputAt ins order 0 with
    | error e => rfl
    | ok b =>
      dsimp only
      cases chan b 0 <;> rfl

theorem metaScope_first (n : MetaNode R) (order : List Nat) (ins : Ins) :
    metaScope n order ins = match firstHeard order ins with
      | .error e => .error e
      | .ok none => .ok n.scope
      | .ok (some x) => .ok (R.setInput n.scope x) := by
  unfold metaScope firstHeard
  split
  · rfl
  · cases inputAt ins order 0 with
    | error e => rfl
    | ok b =>
      dsimp only
      cases chan b 0 <;> rfl

theorem statements_single {vars : List Name} : ∀ {ps : List F.Prog} {j : Nat} {m m' : Name → Option Fl} {y : Option Fl},
    statements F vars j ps m = .ok (m', y) → ∀ v, y = some v → v.Ok f32
  | [], _, _, _, _, h => by cases h; intro v hv; cases hv
  | p :: ps, j, m, m', y, h => by
    unfold statements at h
    split at h
    · cases h
    · split at h
      · cases h
        intro v hv
        cases hv
        exact sg_conv _
      · split at h
        · cases h
        · exact statements_single h

theorem evalRun_single : ∀ {xs : List (Option Fl)} {n : EvalNode F} {r : EvalNode F × List (Option Fl)},
    runM evalStep n xs = .ok r → ∀ v, some v ∈ r.2 → v.Ok f32
  | [], _, _, h => by cases h; intro v hv; cases hv
  | x :: xs, n, r, h => by
    unfold runM at h
    split at h
    · cases h
    · rename_i r1 h1
      split at h
      · cases h
      · rename_i q hq
        cases h
        intro v hv
        rcases List.mem_cons.mp hv with hv | hv
        · unfold evalStep at h1
          dsimp only at h1
          split at h1
          · cases h1
          · rename_i m' y hs
            cases h1
            exact statements_single hs v hv.symm
        · exact evalRun_single hq v hv

theorem overwrite_single : ∀ {o : Buf} {r : List (Option Fl)}, (∀ x, x ∈ o → x.Ok f32) → (∀ v, some v ∈ r → v.Ok f32) →
    ∀ x, x ∈ overwrite o r → x.Ok f32 := by
  intro o r
  fun_induction overwrite o r <;> intro h1 h2 x hx <;> grind

theorem laid_single : ∀ {r : List (Option Fl)} {o : Buf}, (∀ x, x ∈ o → x.Ok f32) → (∀ v, some v ∈ r → v.Ok f32) →
    ∀ x, x ∈ List.zipWith (fun (y : Option Fl) old => y.getD old) r o → x.Ok f32
  | [], _, _, _, x, hx => by cases hx
  | _ :: _, [], _, _, x, hx => by cases hx
  | y :: r, a :: o, h1, h2, x, hx => by
    rcases List.mem_cons.mp hx with rfl | hx
    · cases y with
      | none => exact h1 _ List.mem_cons_self
      | some v => exact h2 v List.mem_cons_self
    · exact laid_single (fun x hx => h1 x (List.mem_cons_of_mem _ hx)) (fun v hv => h2 v (List.mem_cons_of_mem _ hv)) x hx

theorem first_single {order : List Nat} {ins : Ins} {x : Buf} (h : firstHeard order ins = .ok (some x))
    (hi : ∀ e, e ∈ ins → ∀ b, b ∈ e.2 → ∀ x, x ∈ b → x.Ok f32) : ∀ v, v ∈ x → v.Ok f32 := by
  unfold firstHeard at h
  split at h
  · cases h
  · split at h
    · cases h
    · rename_i o ho
      split at h
      · cases h
      · rename_i y hy
        cases h
        have hmem : ∃ e ∈ ins, e.2 = o := by
          unfold inputAt at ho
          split at ho
          · cases ho
          · split at ho
            · next e he => cases ho; exact ⟨e, List.mem_of_find?_eq_some he, rfl⟩
            · cases ho
        obtain ⟨e, he, rfl⟩ := hmem
        unfold chan at hy
        split at hy
        · next z hz => cases hy; exact hi e he _ (List.mem_of_getElem? hz)
        · cases hy

/-- The scripted nodes hear the first channel of the first input they were told about, and nothing else, and make f32 numbers of f32 numbers. -/
theorem scripts_first (hR : Rhai32 R) : ExtFirst ⟨libm, ho, scripts F R⟩ where
  first := by
    intro s o o' ins ins' out h
    cases s with
    | inl n =>
      show reState _ (procEval n o' ins' out) = reState _ (procEval n o ins out)
      unfold procEval
      simp only [evalItems_first, h]
    | inr n =>
      show reState _ (procMeta n o' ins' out) = reState _ (procMeta n o ins out)
      unfold procMeta
      simp only [metaScope_first, h]
  single := by
    obtain ⟨G, g1, g2, g3⟩ := hR
    refine ⟨fun s => match s with | .inl _ => True | .inr n => G n.scope, ?_, ?_, ?_⟩
    · intro b code sr s h
      cases b with
      | true => cases h; exact g1 sr
      | false =>
        change (Sum.inl <$> EvalNode.new F sr code : Except Panic (EvalNode F ⊕ MetaNode R)) = .ok s at h
        cases hn : EvalNode.new F sr code with
        | error e => rw [hn] at h; cases h
        | ok n => rw [hn] at h; cases h; trivial
    · intro s p t s' hs h
      cases s with
      | inl n =>
        change (Sum.inl <$> n.set p t : Except Panic (EvalNode F ⊕ MetaNode R)) = .ok s' at h
        cases hn : n.set p t with
        | error e => rw [hn] at h; cases h
        | ok n => rw [hn] at h; cases h; trivial
      | inr n =>
        cases h
        cases p <;> exact hs
    intro s order ins b s' b' hs hi hb h
    have hch : ∀ {l : List Buf} {o : Buf}, chan l 0 = .ok o → o ∈ l := by
      intro l o h
      unfold chan at h
      split at h
      · next x hx => cases h; exact List.mem_of_getElem? hx
      · cases h
    have set0 : ∀ o' : Buf, (∀ x, x ∈ o' → x.Ok f32) → ∀ c, c ∈ b.set 0 o' → ∀ x, x ∈ c → x.Ok f32 := by
      intro o' ho' c hc
      rcases List.mem_or_eq_of_mem_set hc with hc | rfl
      · exact hb c hc
      · exact ho'
    cases s with
    | inl n =>
      obtain ⟨n', h, hn'⟩ := reState_ok (show reState _ (procEval n order ins b) = _ from h)
      unfold procEval at h
      split at h
      · cases h
      · rename_i o ho
        split at h
        · cases h
        · split at h
          · cases h
          · rename_i r hr
            cases h
            exact ⟨hn' ▸ trivial, set0 _ (laid_single (hb o (hch ho)) (evalRun_single hr))⟩
    | inr n =>
      obtain ⟨n', h, hn'⟩ := reState_ok (show reState _ (procMeta n order ins b) = _ from h)
      unfold procMeta at h
      split at h
      · cases h
      · rename_i sc hsc
        have hG : G sc := by
          rw [metaScope_first] at hsc
          split at hsc
          · cases hsc
          · cases hsc; exact hs
          · rename_i x hx
            cases hsc
            exact g2 _ _ hs (first_single hx hi)
        split at h
        · rename_i s1 hr
          cases h
          exact ⟨hn' ▸ (g3 _ _ _ _ hG hr).1, hb⟩
        · rename_i s1 r hr
          split at h
          · cases h
          · rename_i o ho
            cases h
            obtain ⟨k1, k2⟩ := g3 _ _ _ _ hG hr
            exact ⟨hn' ▸ k1, set0 _ (overwrite_single (hb o (hch ho)) (k2 r rfl))⟩

/-- The language of scripts for examples computes with f32 numbers. -/
theorem demo_rhai32 : Rhai32 Demo.rhai := by
  refine ⟨fun (s : Nat × Buf) => ∀ v, v ∈ s.2 → v.Ok f32, fun _ => (fun v hv => by cases hv), fun s x _ hx => hx, ?_⟩
  intro a s s' r hs h
  cases h
  refine ⟨hs, ?_⟩
  intro l hl v hv
  have h1 : (Fl.fin 1).Ok f32 := (show Fl.round f32 false 1 = .fin 1 by kernel_rfl) ▸ Fl.round_ok
  have h2 : (Fl.fin 2).Ok f32 := (show Fl.round f32 false 2 = .fin 2 by kernel_rfl) ▸ Fl.round_ok
  split at hl
  · cases hl
    obtain ⟨w, hw, e⟩ := List.mem_map.mp hv
    cases e
    exact hs _ hw
  · have hone : ∀ n : Fl, n.Ok f32 → ∀ l, l = [some n, some n] ∨ l = [some n] → some v ∈ l → v.Ok f32 := by
      intro n hn l hl hv
      rcases hl with rfl | rfl <;> simp at hv <;> exact hv ▸ hn
    split at hl
    · cases hl; exact hone _ Fl.round_ok _ (.inl rfl) hv
    · split at hl
      · split at hl
        · cases hl; exact hone _ h1 _ (.inl rfl) hv
        · cases hl
      · split at hl
        · split at hl
          · cases hl; exact hone _ h1 _ (.inl rfl) hv
          · cases hl; exact hone _ h2 _ (.inr rfl) hv
        · cases hl

end Verif
