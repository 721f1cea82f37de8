import Verif.Lemmas.Live
import Verif.Lemmas.Script

/-! # Lemmas about scripted nodes whose code is changed while they play -/

namespace Verif.Script
open Spec

variable {F : FastEval} {R : Rhai} {libm : Libm} {ho : HashOrder} {N : Nat}

/-! ### Formulas -/

/-- A formula as a node holds it: the assignments, the last expression and the names that are left over. -/
structure Held (F : FastEval) where
  asgs : List (Name × F.Prog)
  last : F.Prog
  extra : List Name

/-- One sample of a formula. -/
def stepBy (p : Held F) (s : Nat × (Name → Option Fl)) (x : Option Fl) : Except Panic ((Nat × (Name → Option Fl)) × Option Fl) :=
  match evalStep (formula F p.asgs p.last p.extra s.1 s.2) x with
  | .error e => .error e
  | .ok r => .ok ((r.1.phase, r.1.map), r.2)

/-- The node with a formula. -/
def heldNode (p : Held F) (s : Nat × (Name → Option Fl)) : EvalNode F := formula F p.asgs p.last p.extra s.1 s.2

theorem stepBy_iff {p : Held F} {s s' : Nat × (Name → Option Fl)} {x y : Option Fl} :
    stepBy p s x = .ok (s', y) ↔
      ∃ m' v, Assigns F p.asgs (given s.2 x s.1) m' ∧ F.eval p.last m' = some v ∧ s' = (s.1 + 1, m') ∧ y = some (Fl.conv f32 v) := by
  unfold stepBy
  constructor
  · intro h
    cases hq : evalStep (formula F p.asgs p.last p.extra s.1 s.2) x with
    | error e => rw [hq] at h; cases h
    | ok r =>
      rw [hq] at h
      obtain ⟨m', v, h1, h2, h3, h4⟩ := step_iff.mp (show _ = Except.ok (r.1, r.2) from hq)
      simp only [Except.ok.injEq, Prod.mk.injEq] at h
      refine ⟨m', v, h1, h2, ?_, by rw [← h.2, h4]⟩
      rw [← h.1, h3]
      rfl
  · rintro ⟨m', v, h1, h2, rfl, rfl⟩
    rw [step_iff.mpr ⟨m', v, h1, h2, rfl, rfl⟩]
    rfl

theorem stepBy_run (p : Held F) (s : Nat × (Name → Option Fl)) (xs : List (Option Fl)) :
    runM evalStep (heldNode p s) xs =
      match runM (stepBy p) s xs with
      | .error e => .error e
      | .ok r => .ok (heldNode p r.1, r.2) := by
  induction xs generalizing s with
  | nil => rfl
  | cons x xs ih =>
    simp only [runM]
    cases hq : stepBy p s x with
    | error e =>
      unfold stepBy at hq
      cases hq' : evalStep (formula F p.asgs p.last p.extra s.1 s.2) x with
      | error e' => rw [hq'] at hq; cases hq; rw [heldNode, hq']
      | ok r => rw [hq'] at hq; cases hq
    | ok q =>
      obtain ⟨m', v, h1, h2, h3, h4⟩ := stepBy_iff.mp (show _ = Except.ok (q.1, q.2) from hq)
      have h5 : evalStep (heldNode p s) x = .ok (heldNode p q.1, q.2) := step_iff.mpr ⟨m', v, h1, h2, by rw [h3]; rfl, h4⟩
      rw [h5]
      simp only
      rw [ih q.1]
      cases runM (stepBy p) q.1 xs with
      | error e => rfl
      | ok r => rfl

/-- The loop gives a sample each time. -/
theorem stepBy_shape {zs : List (Held F × Option Fl)} {s : Nat × (Name → Option Fl)} {r : (Nat × (Name → Option Fl)) × List (Option Fl)}
    (h : runM (fun s (q : Held F × Option Fl) => stepBy q.1 s q.2) s zs = .ok r) : ∃ ys : List Fl, r.2 = ys.map some ∧ ys.length = zs.length := by
  induction zs generalizing s r with
  | nil => cases h; exact ⟨[], rfl, rfl⟩
  | cons z zs ih =>
    rw [runM] at h
    cases hq : stepBy z.1 s z.2 with
    | error e => rw [hq] at h; cases h
    | ok q =>
      obtain ⟨m', v, -, -, h1, h2⟩ := stepBy_iff.mp (show _ = Except.ok (q.1, q.2) from hq)
      rw [hq] at h
      simp only at h
      cases hw : runM (fun s (q : Held F × Option Fl) => stepBy q.1 s q.2) q.1 zs with
      | error e => rw [hw] at h; cases h
      | ok w =>
        rw [hw] at h
        cases h
        obtain ⟨ys, g2, g3⟩ := ih hw
        exact ⟨Fl.conv f32 v :: ys, by rw [h2, g2]; rfl, by simp [g3]⟩

theorem loopBy_iff {code : Nat → List (Name × F.Prog) × F.Prog} {sr : Nat} {zs : List (Held F × Option Fl)} {ys : List Fl}
    (hc : ∀ (t : Nat) z, zs[t]? = some z → (z.1.asgs, z.1.last) = code t) :
    (∃ r, runM (fun s (q : Held F × Option Fl) => stepBy q.1 s q.2) (0, startVars sr) zs = .ok r ∧ r.2 = ys.map some) ↔
      ComputesBy F sr code (zs.map Prod.snd) ys := by
  constructor
  · rintro ⟨r, hr, hy⟩
    obtain ⟨st, h0, -, h2⟩ := runM_states hr
    have hst : ∀ t, t ≤ zs.length → (st t).1 = t := by
      intro t
      induction t with
      | zero => intro _; rw [h0]
      | succ t ih =>
        intro ht
        obtain ⟨y, -, h3⟩ := h2 t zs[t] (List.getElem?_eq_getElem (by omega))
        obtain ⟨m', v, -, -, h4, -⟩ := stepBy_iff.mp h3
        rw [h4, ih (by omega)]
    have hlen : ys.length = zs.length := by
      rw [← List.length_map (f := some), ← hy]
      exact runM_length hr
    refine ⟨by rw [hlen, List.length_map], fun t => (st t).2, starts_iff.mpr (by show (st 0).2 = _; rw [h0]), fun t x hx => ?_⟩
    rw [List.getElem?_map] at hx
    obtain ⟨z, hz, rfl⟩ := Option.map_eq_some_iff.mp hx
    have ht := (List.getElem?_eq_some_iff.mp hz).1
    obtain ⟨y, h5, h3⟩ := h2 t z hz
    obtain ⟨m', v, h6, h7, h4, h8⟩ := stepBy_iff.mp h3
    rw [hst t (by omega)] at h6
    rw [← hc t z hz]
    refine ⟨given (st t).2 z.2 t, v, given_iff.mpr rfl, by show Assigns F _ _ (st (t + 1)).2; rw [h4]; exact h6,
      by show F.eval _ (st (t + 1)).2 = _; rw [h4]; exact h7, ?_⟩
    rw [hy, h8, List.getElem?_map] at h5
    cases hyt : ys[t]? with
    | none => rw [hyt] at h5; cases h5
    | some w => rw [hyt] at h5; cases h5; rfl
  · rintro ⟨hlen, mem, h0, h1⟩
    rw [List.length_map] at hlen
    rw [starts_iff] at h0
    have hr := runM_along (fun s (q : Held F × Option Fl) => stepBy q.1 s q.2) zs (fun t => (t, mem t)) (fun t => some (ys[t]?.getD (.fin 0))) 0
      (fun t z hz => by
        obtain ⟨m, v, h2, h3, h4, h5⟩ := h1 t z.2 (by rw [List.getElem?_map, hz]; rfl)
        rw [given_iff] at h2
        subst h2
        rw [← hc t z hz] at h3 h4
        simp only [Nat.zero_add]
        rw [stepBy_iff]
        exact ⟨_, v, h3, h4, rfl, by rw [h5]; rfl⟩)
    simp only [h0] at hr
    refine ⟨_, hr, ?_⟩
    simp only [Nat.zero_add]
    apply List.ext_getElem?
    intro t
    rw [List.getElem?_map, List.getElem?_map]
    by_cases ht : t < zs.length
    · rw [List.getElem?_range ht, Option.map_some, List.getElem?_eq_getElem (show t < ys.length by omega)]
      rfl
    · rw [List.getElem?_eq_none (by simpa using ht), List.getElem?_eq_none (by omega)]
      rfl

/-- The formula that a node holds after messages. -/
def heldAfter (p : Held F) (c : News F) : Held F :=
  c.foldl (fun _ e => ⟨e.2.1, e.2.2, match compileLines F (splitOn ';' e.1) with | .ok r => r.1.drop e.2.1.length | .error _ => []⟩) p

theorem heldAfter_code (p : Held F) (c : News F) :
    ((heldAfter p c).asgs, (heldAfter p c).last) = (c.map Prod.snd).getLastD (p.asgs, p.last) := by
  unfold heldAfter
  induction c generalizing p with
  | nil => rfl
  | cons e c ih => rw [List.foldl_cons, ih, List.map_cons, List.getLastD_cons]

theorem heldAfter_inEffect (p : Held F) (cs : List (News F)) (k : Nat) :
    (((cs.take (k + 1)).foldl heldAfter p).asgs, ((cs.take (k + 1)).foldl heldAfter p).last) =
      inEffect (p.asgs, p.last) (cs.map fun c => c.map Prod.snd) k := by
  unfold inEffect
  rw [← List.map_take, ← inEffect_fold, List.foldl_map]
  generalize cs.take (k + 1) = l
  induction l generalizing p with
  | nil => rfl
  | cons c l ih => rw [List.foldl_cons, List.foldl_cons, ih, heldAfter_code]

theorem held_set {p : Held F} {s : Nat × (Name → Option Fl)} {e : Name × (List (Name × F.Prog) × F.Prog)} (h : FormulaText F e.1 e.2.1 e.2.2) :
    (heldNode p s).set 0 e.1 = .ok (heldNode (heldAfter p [e]) s) := by
  obtain ⟨extra, h⟩ := compile_text h
  show (heldNode p s).applyCode e.1 = _
  rw [EvalNode.applyCode, h]
  simp only [heldAfter, List.foldl_cons, List.foldl_nil, h, heldNode, formula]
  rw [List.drop_append_of_le_length (by simp), List.drop_of_length_le (by simp), List.nil_append]

theorem held_msgs {order : List Nat} {p : Held F} {s : Nat × (Name → Option Fl)} {c : News F} (h : ∀ e ∈ c, FormulaText F e.1 e.2.1 e.2.2) :
    sendMsgs (P := ⟨libm, ho, scripts F R⟩) (.script order (.inl (heldNode p s))) (c.map fun e => .setToSymbol 0 e.1) =
      .ok (.script order (.inl (heldNode (heldAfter p c) s))) := by
  induction c generalizing p with
  | nil => rfl
  | cons e c ih =>
    have h1 : msgG ⟨libm, ho, scripts F R⟩ (.script order (.inl (heldNode p s))) (.setToSymbol 0 e.1) =
        .ok (.script order (.inl (heldNode (heldAfter p [e]) s))) := by
      have h1 : (scripts F R).set (.inl (heldNode p s)) 0 e.1 = .ok (.inl (heldNode (heldAfter p [e]) s)) := by
        show Sum.inl <$> (heldNode p s).set 0 e.1 = _
        rw [held_set (h e (by simp))]
        rfl
      simp only [msgG, h1]
      rfl
    rw [List.map_cons, sendMsgs, h1]
    simp only
    exact ih fun e he => h e (by simp [he])

/-- The stream of formulas, block by block. -/
theorem blocks_evalBy {order : List Nat} {p : Held F} {m : Name → Option Fl} (bs : List (News F × Ins × List (Option Fl)))
    (hc : ∀ b ∈ bs, ∀ e ∈ b.1, FormulaText F e.1 e.2.1 e.2.2)
    (hb : ∀ b ∈ bs, b.2.2.length = N ∧ ∀ o : Buf, o.length = N → evalItems order b.2.1 o = .ok b.2.2) (out : List Buf) (ho' : Shaped 1 N out) :
    chanResult 0 (liveBlocks ⟨libm, ho, scripts F R⟩ (.script order (.inl (heldNode p (0, m)))) out
        (bs.map fun b => (b.1.map fun e => .setToSymbol 0 e.1, b.2.1))) =
      loopResult (fun y => y.getD (.fin 0)) (runM (fun s (q : Held F × Option Fl) => stepBy q.1 s q.2) (0, m) (withPar heldAfter p bs).flatten) := by
  refine live_general (P := ⟨libm, ho, scripts F R⟩) (fun p s => .script order (.inl (heldNode p s))) (fun c => c.map fun e => .setToSymbol 0 e.1)
    heldAfter stepBy (fun y => y.getD (.fin 0)) (fun _ => True) (Shaped 1 N) 0
    (fun ys out => out.set 0 (List.zipWith (fun (y : Option Fl) old => y.getD old) ys (out[0]?.getD []))) bs (fun _ _ _ _ => trivial)
    (fun b hb p s => held_msgs (hc b hb)) ?_ ?_ p (0, m) out trivial ho'
  · rintro p s b out hbm - hg
    obtain ⟨o, rfl, hol⟩ := hg.one
    show reState _ (reState _ (procEval _ order _ _)) = _
    rw [procEval]
    simp only [chan, List.getElem?_cons_zero]
    rw [(hb b hbm).2 o hol]
    simp only
    rw [stepBy_run]
    cases runM (stepBy p) s b.2.2 with
    | error e => rfl
    | ok r => rfl
  · rintro p b s r out hbm hg hr
    obtain ⟨o, rfl, hol⟩ := hg.one
    have hr' : runM (fun s (q : Held F × Option Fl) => stepBy q.1 s q.2) s (b.2.2.map fun x => (p, x)) = .ok r := by
      rw [← hr]
      generalize b.2.2 = xs
      clear hr
      induction xs generalizing s with
      | nil => rfl
      | cons x xs ih => simp only [List.map_cons, runM, ih]
    obtain ⟨ys, h2, h3⟩ := stepBy_shape hr'
    rw [List.length_map] at h3
    have hz : List.zipWith (fun (y : Option Fl) old => y.getD old) r.2 o = ys := by
      rw [h2]
      exact zip_some (by rw [h3, (hb b hbm).1, hol])
    refine ⟨?_, ?_⟩
    · simp only [List.getElem?_cons_zero, Option.getD_some, hz, List.set_cons_zero]
      exact ⟨rfl, by simp [h3, (hb b hbm).1]⟩
    · simp only [List.getElem?_cons_zero, Option.getD_some, hz, List.set_cons_zero]
      rw [h2, List.map_map]
      simp [Function.comp_def]

/-! ### Scripts -/

/-- The blocks that changing scripts play. -/
def metaRunBy (R : Rhai) : R.Ast → R.Scope → Buf → List (List Name × Option Buf) → List Buf
  | _, _, _, [] => []
  | a, s, o, (c, i) :: is =>
    let a := (c.filterMap R.compile).getLastD a
    let q := R.eval a (inputSet R s i)
    let o' := match q.2 with | some r => overwrite o r | none => o
    o' :: metaRunBy R a q.1 o' is

theorem metaRunBy_length (a : R.Ast) (s : R.Scope) (o : Buf) (bs : List (List Name × Option Buf)) : (metaRunBy R a s o bs).length = bs.length := by
  induction bs generalizing a s o with
  | nil => rfl
  | cons b bs ih => simp only [metaRunBy, List.length_cons, ih]

theorem metaRunBy_steps (a : R.Ast) (s : R.Scope) (o : Buf) (bs : List (List Name × Option Buf)) :
    ∃ (scope : Nat → R.Scope) (out : Nat → Buf), scope 0 = s ∧ out 0 = o ∧
      ∀ (k : Nat) i, (bs.map Prod.snd)[k]? = some i → (metaRunBy R a s o bs)[k]? = some (out (k + 1)) ∧ ∃ res,
        R.eval (inEffect a (bs.map fun b => b.1.filterMap R.compile) k) (inputSet R (scope k) i) = (scope (k + 1), res) ∧
        (∀ r, res = some r → Laid (out k) r (out (k + 1))) ∧ (res = none → out (k + 1) = out k) := by
  induction bs generalizing a s o with
  | nil => exact ⟨fun _ => s, fun _ => o, rfl, rfl, fun k i h => by simp at h⟩
  | cons b bs ih =>
    obtain ⟨c, i⟩ := b
    obtain ⟨scope, out, h1, h2, h3⟩ := ih ((c.filterMap R.compile).getLastD a) (R.eval ((c.filterMap R.compile).getLastD a) (inputSet R s i)).1
      (match (R.eval ((c.filterMap R.compile).getLastD a) (inputSet R s i)).2 with | some r => overwrite o r | none => o)
    refine ⟨fun k => match k with | 0 => s | k + 1 => scope k, fun k => match k with | 0 => o | k + 1 => out k, rfl, rfl, ?_⟩
    intro k j hk
    cases k with
    | zero =>
      simp only [List.map_cons, List.getElem?_cons_zero, Option.some.injEq] at hk
      subst hk
      have e : inEffect a (((c, i) :: bs).map fun b => b.1.filterMap R.compile) 0 = (c.filterMap R.compile).getLastD a := by simp [inEffect]
      rw [e]
      refine ⟨by simp only [metaRunBy, List.getElem?_cons_zero, h2], (R.eval ((c.filterMap R.compile).getLastD a) (inputSet R s i)).2, ?_, ?_⟩
      · show R.eval _ (inputSet R s i) = (scope 0, _)
        rw [h1]
      · show (∀ r, (R.eval _ (inputSet R s i)).2 = some r → Laid o r (out 0)) ∧ ((R.eval _ (inputSet R s i)).2 = none → out 0 = o)
        rw [h2]
        exact ⟨fun r h => by rw [h, laid_iff], fun h => by rw [h]⟩
    | succ k =>
      simp only [List.map_cons, List.getElem?_cons_succ] at hk
      obtain ⟨h4, h5⟩ := h3 k j hk
      have e : inEffect a (((c, i) :: bs).map fun b => b.1.filterMap R.compile) (k + 1) =
          inEffect ((c.filterMap R.compile).getLastD a) (bs.map fun b => b.1.filterMap R.compile) k := by
        simp only [inEffect, List.map_cons, List.take_succ_cons, List.flatten_cons, getLastD_append']
      rw [e]
      exact ⟨by simp only [metaRunBy, List.getElem?_cons_succ, h4], h5⟩

/-- The blocks are determined. -/
theorem metaPlaysBy_unique {N sr : Nat} {ast : Nat → R.Ast} {ins : List (Option Buf)} {o1 o2 : List Buf} (h1 : MetaPlaysBy R N sr ast ins o1)
    (h2 : MetaPlaysBy R N sr ast ins o2) : o1 = o2 := by
  obtain ⟨l1, s1, b1, i1, j1, k1⟩ := h1
  obtain ⟨l2, s2, b2, i2, j2, k2⟩ := h2
  have key : ∀ k : Nat, k ≤ ins.length → s1 k = s2 k ∧ b1 k = b2 k := by
    intro k
    induction k with
    | zero => intro _; exact ⟨i1.trans i2.symm, j1.trans j2.symm⟩
    | succ k ih =>
      intro hk
      obtain ⟨e1, e2⟩ := ih (by omega)
      obtain ⟨i, hi⟩ : ∃ i, ins[k]? = some i := ⟨ins[k], List.getElem?_eq_getElem (by omega)⟩
      obtain ⟨-, r1, f1, g1⟩ := k1 k i hi
      obtain ⟨-, r2, f2, g2⟩ := k2 k i hi
      rw [e1, f2] at f1
      obtain ⟨f3, f4⟩ := Prod.mk.inj f1
      subst f4
      refine ⟨f3.symm, ?_⟩
      cases r2 with
      | none =>
        rw [g1.2 rfl, g2.2 rfl, e2]
      | some r =>
        rw [laid_iff.mp (g1.1 r rfl), laid_iff.mp (g2.1 r rfl), e2]
  refine List.ext_getElem? fun k => ?_
  by_cases hk : k < ins.length
  · obtain ⟨i, hi⟩ : ∃ i, ins[k]? = some i := ⟨ins[k], List.getElem?_eq_getElem hk⟩
    rw [(k1 k i hi).1, (k2 k i hi).1, (key (k + 1) (by omega)).2]
  · rw [List.getElem?_eq_none (by omega), List.getElem?_eq_none (by omega)]

theorem meta_msgs {order : List Nat} {a : R.Ast} {s : R.Scope} (c : List Name) :
    sendMsgs (P := ⟨libm, ho, scripts F R⟩) (.script order (.inr ⟨a, s⟩)) (c.map fun t => .setToSymbol 0 t) =
      .ok (.script order (.inr ⟨(c.filterMap R.compile).getLastD a, s⟩)) := by
  induction c generalizing a with
  | nil => rfl
  | cons t c ih =>
    have h1 : msgG ⟨libm, ho, scripts F R⟩ (.script order (.inr ⟨a, s⟩)) (.setToSymbol 0 t) =
        .ok (.script order (.inr ⟨(R.compile t).getD a, s⟩)) := rfl
    rw [List.map_cons, sendMsgs, h1]
    simp only
    rw [ih, List.filterMap_cons]
    cases R.compile t with
    | none => rfl
    | some b => simp only [Option.getD_some, List.getLastD_cons]

theorem blocks_metaBy {order : List Nat} (bs : List (List Name × Ins × Option Buf))
    (hb : ∀ b ∈ bs, (b.2.2 = none → b.2.1 = []) ∧ ∀ x, b.2.2 = some x → b.2.1 ≠ [] ∧ ∃ bufs, inputAt b.2.1 order 0 = .ok bufs ∧ chan bufs 0 = .ok x)
    (a : R.Ast) (s : R.Scope) (o : Buf) :
    liveBlocks ⟨libm, ho, scripts F R⟩ (.script order (.inr ⟨a, s⟩)) [o] (bs.map fun b => (b.1.map fun t => .setToSymbol 0 t, b.2.1)) =
      .ok ((metaRunBy R a s o (bs.map fun b => (b.1, b.2.2))).map fun o => [o]) := by
  induction bs generalizing a s o with
  | nil => rfl
  | cons b bs ih =>
    obtain ⟨c, i, x⟩ := b
    generalize ha : (c.filterMap R.compile).getLastD a = a'
    have hp : procG ⟨libm, ho, scripts F R⟩ (.script order (.inr ⟨a', s⟩)) i [o] =
        .ok (.script order (.inr ⟨a', (R.eval a' (inputSet R s x)).1⟩),
          [match (R.eval a' (inputSet R s x)).2 with | some r => overwrite o r | none => o]) := by
      exact proc_meta (F := F) (hb _ (List.mem_cons_self)) s o
    rw [List.map_cons, List.map_cons, liveBlocks, meta_msgs, ha]
    simp only
    rw [hp]
    simp only
    rw [ih fun b h => hb b (by simp [h])]
    simp only [metaRunBy, ha, List.map_cons]

end Verif.Script
