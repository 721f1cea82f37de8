import Verif.Spec.Script
import Verif.Lemmas.Message
import Verif.Lemmas.Inputs
import Verif.Lemmas.Loop
import Verif.Lemmas.Shape
import Verif.Lemmas.Concrete

/-! # Lemmas about scripted nodes -/

namespace Verif.Script
open Spec

variable {F : FastEval} {R : Rhai}

/-! ### Reading the code -/

theorem cutAssign_none {s : Name} (h : ¬ c!":=" <:+: s) : cutAssign s = none := by
  induction s with
  | nil => rfl
  | cons a s ih =>
    cases s with
    | nil => rfl
    | cons b s =>
      have h1 : ¬ (a = ':' ∧ b = '=') := by
        rintro ⟨rfl, rfl⟩
        exact h ⟨[], s, rfl⟩
      rw [cutAssign, if_neg h1, ih fun hi => h (hi.trans (List.suffix_cons a (b :: s)).isInfix)]
      rfl

theorem cutAssign_some {l s : Name} (hl : ':' ∉ l) (hs : ¬ c!":=" <:+: s) : cutAssign (l ++ (c!":=" ++ s)) = some (l, s) := by
  induction l with
  | nil =>
    show cutAssign (':' :: '=' :: s) = _
    rw [cutAssign, if_pos ⟨rfl, rfl⟩, cutAssign_none hs]
  | cons a l ih =>
    simp only [List.mem_cons, not_or] at hl
    obtain ⟨b, t, e⟩ : ∃ b t, l ++ (c!":=" ++ s) = b :: t := by
      cases l with
      | nil => exact ⟨_, _, rfl⟩
      | cons b l => exact ⟨_, _, rfl⟩
    rw [List.cons_append, e, cutAssign, if_neg (fun h => hl.1 h.1.symm), ← e, ih hl.2]
    rfl

theorem noBlanks_blanks {s : Name} (h : BlankText s) : noBlanks s = [] := by
  rw [noBlanks, List.filter_eq_nil_iff]
  intro c hc
  rcases h c hc with rfl | rfl | rfl <;> decide

theorem noBlanks_name {s : Name} (h : VarName s) : noBlanks s = s := by
  rw [noBlanks, List.filter_eq_self]
  intro c hc
  obtain ⟨h1, h2, h3, -⟩ := h c hc
  simp [h1, h2, h3]

theorem compile_text {code : Name} {asgs : List (Name × F.Prog)} {last : F.Prog} (h : FormulaText F code asgs last) :
    ∃ extra, compileLines F (splitOn ';' code) = .ok (asgs.map Prod.fst ++ extra, asgs.map Prod.snd ++ [last]) := by
  have key : ∀ {a x b s : Name} {p : F.Prog}, BlankText a → VarName x → BlankText b → Expr F s p →
      ';' ∉ a ++ x ++ b ++ c!":=" ++ s ∧ cutAssign (a ++ x ++ b ++ c!":=" ++ s) = some (a ++ x ++ b, s) ∧ noBlanks (a ++ x ++ b) = x := by
    intro a x b s p ha hx hb hs
    have blank : ∀ {s : Name}, BlankText s → ∀ c, c ≠ ' ' → c ≠ '\t' → c ≠ '\n' → c ∉ s := by
      intro s h c h1 h2 h3 hc
      rcases h c hc with e | e | e
      · exact h1 e
      · exact h2 e
      · exact h3 e
    have hcol : ':' ∉ a ++ x ++ b := by
      simp only [List.mem_append, not_or]
      exact ⟨⟨blank ha _ (by decide) (by decide) (by decide), fun h => (hx _ h).2.2.2.1 rfl⟩,
        blank hb _ (by decide) (by decide) (by decide)⟩
    have hsemi : ';' ∉ a ++ x ++ b ++ c!":=" ++ s := by
      simp only [List.mem_append, not_or]
      exact ⟨⟨⟨⟨blank ha _ (by decide) (by decide) (by decide), fun h => (hx _ h).2.2.2.2 rfl⟩,
        blank hb _ (by decide) (by decide) (by decide)⟩, by decide⟩, hs.1⟩
    refine ⟨hsemi, ?_, ?_⟩
    · rw [List.append_assoc _ _ s]
      exact cutAssign_some hcol hs.2.1
    · have h1 := noBlanks_blanks ha
      have h2 := noBlanks_blanks hb
      have h3 := noBlanks_name hx
      unfold noBlanks at h1 h2 h3 ⊢
      rw [List.filter_append, List.filter_append, h1, h2, h3]
      simp
  induction h with
  | last h =>
    refine ⟨[], ?_⟩
    rw [splitOn_noSep h.1]
    simp only [compileLines, cutAssign_none h.2.1, h.2.2]
    rfl
  | @named a x b s p ha hx hb hs =>
    obtain ⟨h1, h2, h3⟩ := key ha hx hb hs
    refine ⟨[x], ?_⟩
    rw [splitOn_noSep h1]
    simp only [compileLines, h2, hs.2.2, h3]
    rfl
  | @assign a x b s p rest asgs last ha hx hb hs _ ih =>
    obtain ⟨h1, h2, h3⟩ := key ha hx hb hs
    obtain ⟨extra, ih⟩ := ih
    refine ⟨extra, ?_⟩
    rw [splitOn_append h1]
    simp only [compileLines, h2, hs.2.2, ih, h3]
    rfl

/-! ### One sample -/

theorem sets_iff {m m' : Name → Option Fl} {x : Name} {v : Fl} : Sets m x v m' ↔ m' = setVar m x v := by
  constructor
  · rintro ⟨h1, h2⟩
    funext y
    unfold setVar
    split
    · next h => rw [h, h1]
    · next h => exact h2 y h
  · rintro rfl
    exact ⟨if_pos rfl, fun y h => if_neg h⟩

theorem statements_iff {vars : List Name} {asgs : List (Name × F.Prog)} {last : F.Prog} {j : Nat} {m m' : Name → Option Fl} {y : Option Fl}
    (hv : ∀ i : Nat, i < asgs.length → vars[j + i]? = asgs[i]?.map Prod.fst) :
    statements F vars j (asgs.map Prod.snd ++ [last]) m = .ok (m', y) ↔
      ∃ v, Assigns F asgs m m' ∧ F.eval last m' = some v ∧ y = some (Fl.conv f32 v) := by
  induction asgs generalizing j m with
  | nil =>
    simp only [List.map_nil, List.nil_append, statements]
    constructor
    · intro h
      split at h
      · cases h
      · next v hv => cases h; exact ⟨v, .nil _, hv, rfl⟩
    · rintro ⟨v, h1, h2, rfl⟩
      cases h1
      rw [h2]
  | cons a asgs ih =>
    obtain ⟨x, p⟩ := a
    have hx : vars[j]? = some x := by simpa using hv 0 (by simp)
    have ih := @ih (j + 1)
    have hv' : ∀ i : Nat, i < asgs.length → vars[j + 1 + i]? = asgs[i]?.map Prod.fst := by
      intro i hi
      have := hv (i + 1) (by simp; omega)
      rw [show j + 1 + i = j + (i + 1) by omega, this, List.getElem?_cons_succ]
    obtain ⟨q, ps, e⟩ : ∃ q ps, asgs.map Prod.snd ++ [last] = q :: ps := by
      cases asgs with
      | nil => exact ⟨_, _, rfl⟩
      | cons b r => exact ⟨_, _, rfl⟩
    rw [List.map_cons, List.cons_append, e, statements]
    constructor
    · intro h
      split at h
      · cases h
      · next v hv1 =>
        simp only [hx] at h
        rw [← e] at h
        obtain ⟨w, h1, h2, h3⟩ := (ih hv').mp h
        exact ⟨w, .cons hv1 (sets_iff.mpr rfl) h1, h2, h3⟩
    · rintro ⟨w, h1, h2, h3⟩
      cases h1 with
      | cons g1 g2 g3 =>
        rw [sets_iff] at g2
        subst g2
        simp only [g1, hx]
        rw [← e]
        exact (ih hv').mpr ⟨w, g3, h2, h3⟩

/-- The variables a sample starts with. -/
def given (m : Name → Option Fl) (x : Option Fl) (t : Nat) : Name → Option Fl :=
  setVar (match x with | some v => setVar m c!"in" v | none => m) c!"phase" (Fl.ofNat f64 t)

theorem setVar_same (m : Name → Option Fl) (x : Name) (v : Fl) : setVar m x v x = some v := if_pos rfl

theorem setVar_ne (m : Name → Option Fl) {x y : Name} (v : Fl) (h : y ≠ x) : setVar m x v y = m y := if_neg h

theorem given_iff {m m' : Name → Option Fl} {x : Option Fl} {t : Nat} : Given m x t m' ↔ m' = given m x t := by
  have hne : c!"in" ≠ c!"phase" := by decide
  constructor
  · rintro ⟨h1, h2, h3⟩
    funext y
    show m' y = setVar _ _ _ y
    by_cases hy : y = c!"phase"
    · subst hy
      rw [h1, setVar_same]
    · rw [setVar_ne _ _ hy]
      cases x with
      | none => exact h3 y hy fun _ => rfl
      | some v =>
        show m' y = setVar _ _ _ y
        by_cases hi : y = c!"in"
        · subst hi
          rw [h2 v rfl, setVar_same]
        · rw [h3 y hy fun h => absurd h hi, setVar_ne _ _ hi]
  · rintro rfl
    refine ⟨setVar_same _ _ _, ?_, ?_⟩
    · rintro v rfl
      show setVar (setVar _ _ _) _ _ _ = _
      rw [setVar_ne _ _ hne, setVar_same]
    · intro y hy hi
      show setVar _ _ _ y = _
      rw [setVar_ne _ _ hy]
      cases x with
      | none => rfl
      | some v => exact setVar_ne _ _ fun h => by cases hi h

/-- The variables a new node starts with. -/
def startVars (sr : Nat) : Name → Option Fl :=
  setVar (setVar (setVar (setVar (fun _ => none) c!"x" (.fin 0)) c!"y" (.fin 0)) c!"z" (.fin 0)) c!"sr" (Fl.ofNat f64 sr)

theorem starts_iff {sr : Nat} {m : Name → Option Fl} : Starts sr m ↔ m = startVars sr := by
  constructor
  · rintro ⟨h1, h2, h3, h4, h5⟩
    funext y
    unfold startVars setVar
    split
    · next h => rw [h, h4]
    · split
      · next h => rw [h, h3]
      · split
        · next h => rw [h, h2]
        · split
          · next h => rw [h, h1]
          · next h4 h3 h2 h1 => exact h5 y (by simp only [List.mem_cons, List.not_mem_nil, or_false, not_or]; exact ⟨h1, h2, h3, h4⟩)
  · rintro rfl
    refine ⟨rfl, rfl, rfl, rfl, fun y hy => ?_⟩
    simp only [List.mem_cons, List.not_mem_nil, or_false, not_or] at hy
    unfold startVars setVar
    rw [if_neg hy.2.2.2, if_neg hy.2.2.1, if_neg hy.2.1, if_neg hy.1]

/-- The node of a formula. -/
def formula (F : FastEval) (asgs : List (Name × F.Prog)) (last : F.Prog) (extra : List Name) (t : Nat)
    (m : Name → Option Fl) : EvalNode F :=
  ⟨t, asgs.map Prod.fst ++ extra, m, asgs.map Prod.snd ++ [last]⟩

theorem step_iff {asgs : List (Name × F.Prog)} {last : F.Prog} {extra : List Name} {t : Nat} {m : Name → Option Fl} {x : Option Fl}
    {n' : EvalNode F} {y : Option Fl} :
    evalStep (formula F asgs last extra t m) x = .ok (n', y) ↔
      ∃ m' v, Assigns F asgs (given m x t) m' ∧ F.eval last m' = some v ∧ n' = formula F asgs last extra (t + 1) m' ∧
        y = some (Fl.conv f32 v) := by
  have key : evalStep (formula F asgs last extra t m) x =
      match statements F (asgs.map Prod.fst ++ extra) 0 (asgs.map Prod.snd ++ [last]) (given m x t) with
      | .error e => .error e
      | .ok (m', y) => .ok (formula F asgs last extra (t + 1) m', y) := by
    cases x <;> rfl
  rw [key]
  have hs := fun m' y => statements_iff (F := F) (vars := asgs.map Prod.fst ++ extra) (asgs := asgs) (last := last) (j := 0) (m := given m x t)
    (m' := m') (y := y) (by intro i hi; rw [Nat.zero_add, List.getElem?_append_left (by simpa using hi), List.getElem?_map])
  constructor
  · intro h
    split at h
    · cases h
    · next m' y' hm =>
      cases h
      obtain ⟨v, h1, h2, h3⟩ := (hs _ _).mp hm
      exact ⟨m', v, h1, h2, rfl, h3⟩
  · rintro ⟨m', v, h1, h2, rfl, rfl⟩
    rw [(hs m' _).mpr ⟨v, h1, h2, rfl⟩]

/-! ### The whole stream -/

/-- The loop over all samples. -/
theorem loop_iff {asgs : List (Name × F.Prog)} {last : F.Prog} {extra : List Name} {sr : Nat} {xs : List (Option Fl)} {ys : List Fl} :
    (∃ r, runM evalStep (formula F asgs last extra 0 (startVars sr)) xs = .ok r ∧ r.2 = ys.map some) ↔
      Computes F sr asgs last xs ys := by
  constructor
  · rintro ⟨r, hr, hy⟩
    obtain ⟨st, h0, -, h2⟩ := runM_states hr
    have hst : ∀ t, t ≤ xs.length → ∃ m, st t = formula F asgs last extra t m := by
      intro t
      induction t with
      | zero => intro _; exact ⟨_, h0⟩
      | succ t ih =>
        intro ht
        obtain ⟨m, hm⟩ := ih (by omega)
        obtain ⟨y, -, h3⟩ := h2 t xs[t] (List.getElem?_eq_getElem (by omega))
        rw [hm, step_iff] at h3
        obtain ⟨m', v, -, -, h4, -⟩ := h3
        exact ⟨m', h4⟩
    have hlen : ys.length = xs.length := by
      rw [← List.length_map (f := some), ← hy]
      exact runM_length hr
    refine ⟨hlen, fun t => (st t).map, starts_iff.mpr (by show (st 0).map = _; rw [h0]; rfl), fun t x hx => ?_⟩
    have ht := (List.getElem?_eq_some_iff.mp hx).1
    obtain ⟨m, hm⟩ := hst t (by omega)
    obtain ⟨y, h5, h3⟩ := h2 t x hx
    rw [hm, step_iff] at h3
    obtain ⟨m', v, h6, h7, h4, h8⟩ := h3
    refine ⟨given m x t, v, given_iff.mpr (by show _ = given (st t).map x t; rw [hm]; rfl),
      by show Assigns F asgs _ (st (t + 1)).map; rw [h4]; exact h6, by show F.eval last (st (t + 1)).map = _; rw [h4]; exact h7, ?_⟩
    rw [hy, h8, List.getElem?_map] at h5
    cases hyt : ys[t]? with
    | none => rw [hyt] at h5; cases h5
    | some w => rw [hyt] at h5; cases h5; rfl
  · rintro ⟨hlen, mem, h0, h1⟩
    rw [starts_iff] at h0
    have hr := runM_along (evalStep (F := F)) xs (fun t => formula F asgs last extra t (mem t)) (fun t => some (ys[t]?.getD (.fin 0))) 0
      (fun t x hx => by
        obtain ⟨m, v, h2, h3, h4, h5⟩ := h1 t x hx
        rw [given_iff] at h2
        subst h2
        simp only [Nat.zero_add]
        rw [step_iff]
        exact ⟨_, v, h3, h4, rfl, by rw [h5]; rfl⟩)
    simp only [h0] at hr
    refine ⟨_, hr, ?_⟩
    simp only [Nat.zero_add]
    apply List.ext_getElem?
    intro t
    rw [List.getElem?_map, List.getElem?_map]
    by_cases ht : t < xs.length
    · rw [List.getElem?_range ht, Option.map_some, List.getElem?_eq_getElem (show t < ys.length by omega)]
      rfl
    · rw [List.getElem?_eq_none (by simpa using ht), List.getElem?_eq_none (by omega)]
      rfl

/-- The loop keeps the formula and gives a sample each time. -/
theorem loop_shape {asgs : List (Name × F.Prog)} {last : F.Prog} {extra : List Name} {xs : List (Option Fl)} {t : Nat} {m : Name → Option Fl}
    {r : EvalNode F × List (Option Fl)} (h : runM evalStep (formula F asgs last extra t m) xs = .ok r) :
    (∃ t' m', r.1 = formula F asgs last extra t' m') ∧ ∃ ys : List Fl, r.2 = ys.map some ∧ ys.length = xs.length := by
  induction xs generalizing t m r with
  | nil => cases h; exact ⟨⟨t, m, rfl⟩, [], rfl, rfl⟩
  | cons x xs ih =>
    rw [runM] at h
    cases hq : evalStep (formula F asgs last extra t m) x with
    | error e => rw [hq] at h; cases h
    | ok q =>
      obtain ⟨m', v, -, -, h1, h2⟩ := step_iff.mp (show _ = Except.ok (q.1, q.2) from hq)
      rw [hq] at h
      simp only [h1] at h
      cases hw : runM evalStep (formula F asgs last extra (t + 1) m') xs with
      | error e => rw [hw] at h; cases h
      | ok w =>
        rw [hw] at h
        cases h
        obtain ⟨g1, ys, g2, g3⟩ := ih hw
        exact ⟨g1, Fl.conv f32 v :: ys, by rw [h2, g2]; rfl, by simp [g3]⟩

theorem new_text {code : Name} {asgs : List (Name × F.Prog)} {last : F.Prog} (h : FormulaText F code asgs last) (sr : Nat) :
    ∃ extra, EvalNode.new F sr code = .ok (formula F asgs last extra 0 (startVars sr)) := by
  obtain ⟨extra, h⟩ := compile_text h
  refine ⟨extra, ?_⟩
  rw [EvalNode.new, EvalNode.applyCode, h]
  rfl

theorem zip_some {ys o : List Fl} (h : ys.length = o.length) :
    List.zipWith (fun (y : Option Fl) old => y.getD old) (ys.map some) o = ys := by
  induction ys generalizing o with
  | nil => rfl
  | cons y ys ih =>
    cases o with
    | nil => cases h
    | cons a o =>
      simp only [List.length_cons, Nat.add_right_cancel_iff] at h
      simp only [List.map_cons, List.zipWith_cons_cons, Option.getD_some, ih h]

variable {libm : Libm} {ho : HashOrder} {N : Nat}

/-- The stream of a formula, block by block. -/
theorem blocks_eval {asgs : List (Name × F.Prog)} {last : F.Prog} {extra : List Name} {order : List Nat} {m : Name → Option Fl}
    (bs : List (Ins × List (Option Fl)))
    (hb : ∀ b ∈ bs, b.2.length = N ∧ ∀ o : Buf, o.length = N → evalItems order b.1 o = .ok b.2) (out : List Buf) (ho' : Shaped 1 N out) :
    chanResult 0 (runBlocks (procG ⟨libm, ho, scripts F R⟩) (.script order (.inl (formula F asgs last extra 0 m))) out (bs.map Prod.fst)) =
      loopResult (fun y => y.getD (.fin 0)) (runM evalStep (formula F asgs last extra 0 m) (bs.map Prod.snd).flatten) := by
  refine blocks_general (procG ⟨libm, ho, scripts F R⟩) (fun n => .script order (.inl n)) evalStep (fun y => y.getD (.fin 0))
    (fun n => ∃ t m, n = formula F asgs last extra t m) (Shaped 1 N) 0
    (fun ys out => out.set 0 (List.zipWith (fun (y : Option Fl) old => y.getD old) ys (out[0]?.getD []))) bs ?_ ?_ _ out ⟨0, m, rfl⟩ ho'
  · rintro s b out hbm ⟨t, m, rfl⟩ hg
    obtain ⟨o, rfl, hol⟩ := hg.one
    show reState _ (reState _ (procEval _ order _ _)) = _
    rw [procEval]
    simp only [chan, List.getElem?_cons_zero]
    rw [(hb b hbm).2 o hol]
    simp only
    cases runM evalStep (formula F asgs last extra t m) b.2 with
    | error e => rfl
    | ok r => rfl
  · rintro b s r out hbm ⟨t, m, rfl⟩ hg hr
    obtain ⟨o, rfl, hol⟩ := hg.one
    obtain ⟨⟨t', m', h1⟩, ys, h2, h3⟩ := loop_shape hr
    have hz : List.zipWith (fun (y : Option Fl) old => y.getD old) r.2 o = ys := by
      rw [h2]
      exact zip_some (by rw [h3, (hb b hbm).1, hol])
    refine ⟨⟨t', m', h1⟩, ?_, ?_⟩
    · simp only [List.getElem?_cons_zero, Option.getD_some, hz, List.set_cons_zero]
      exact ⟨rfl, by simp [h3, (hb b hbm).1]⟩
    · simp only [List.getElem?_cons_zero, Option.getD_some, hz, List.set_cons_zero]
      rw [h2, List.map_map]
      simp [Function.comp_def]

/-! ### Shape and wiring -/

theorem compile_length {ls : List Name} {r : List Name × List F.Prog} (h : compileLines F ls = .ok r) : r.2.length = ls.length := by
  induction ls generalizing r with
  | nil => cases h; rfl
  | cons l ls ih =>
    simp only [compileLines] at h
    split at h
    · cases h
    · split at h
      · cases h
      · next q hq => cases h; simp [ih hq]

theorem overwrite_length (o : Buf) (r : List (Option Fl)) : (overwrite o r).length = o.length := by
  fun_induction overwrite o r <;> simp_all

/-- Scripted nodes respect their buffers. -/
theorem scripts_shape : ExtShape ⟨libm, ho, scripts F R⟩ N fun _ => True := by
  refine ⟨fun _ _ _ _ _ => trivial, fun _ _ _ _ _ _ => trivial, ?_⟩
  intro s order ins b s' b' _ hi hb h
  refine ⟨trivial, ?_⟩
  have set0 : ∀ (o o' : Buf), b[0]? = some o → o'.length = o.length → BlockLen N (b.set 0 o') := by
    intro o o' ho hl x hx
    rcases List.mem_or_eq_of_mem_set hx with hx | rfl
    · exact hb x hx
    · rw [hl]
      exact hb o (List.mem_of_getElem? ho)
  have hch : ∀ {l : List Buf} {o : Buf}, chan l 0 = .ok o → l[0]? = some o := by
    intro l o h
    unfold chan at h
    split at h
    · next x hx => cases h; exact hx
    · cases h
  cases s with
  | inl n =>
    obtain ⟨n', h, -⟩ := reState_ok (show reState _ (procEval n order ins b) = _ from h)
    unfold procEval at h
    split at h
    · cases h
    · next o ho1 =>
      split at h
      · cases h
      · next xs hxs =>
        split at h
        · cases h
        · next r hr =>
          cases h
          have hol := hb o (List.mem_of_getElem? (hch ho1))
          have hxl : xs.length = N := by
            unfold evalItems at hxs
            split at hxs
            · cases hxs; simpa using hol
            · split at hxs
              · cases hxs
              · next bb hbb =>
                split at hxs
                · cases hxs
                · next x hx =>
                  cases hxs
                  rw [List.length_map]
                  have : ∃ e ∈ ins, e.2 = bb := by
                    unfold inputAt at hbb
                    split at hbb
                    · cases hbb
                    · split at hbb
                      · next e he => cases hbb; exact ⟨e, List.mem_of_find?_eq_some he, rfl⟩
                      · cases hbb
                  obtain ⟨e, he, rfl⟩ := this
                  exact hi e he x (List.mem_of_getElem? (hch hx))
          have hrl := runM_length hr
          refine ⟨by simp, set0 o _ (hch ho1) ?_⟩
          rw [List.length_zipWith, hrl, hxl, hol, Nat.min_self]
  | inr n =>
    obtain ⟨n', h, -⟩ := reState_ok (show reState _ (procMeta n order ins b) = _ from h)
    unfold procMeta at h
    split at h
    · cases h
    · split at h
      · cases h; exact ⟨rfl, hb⟩
      · split at h
        · cases h
        · next o ho1 =>
          cases h
          exact ⟨by simp, set0 o _ (hch ho1) (overwrite_length _ _)⟩

/-! ### Scripts -/

theorem overwrite_get (o : Buf) (r : List (Option Fl)) (t : Nat) (h : t < o.length) :
    (overwrite o r)[t]? = some ((r[t]?.join).getD (o[t])) := by
  induction o generalizing r t with
  | nil => simp at h
  | cons a o ih =>
    cases r with
    | nil => simp [overwrite, List.getElem?_eq_getElem h]
    | cons q r =>
      cases t with
      | zero => cases q <;> simp [overwrite]
      | succ t =>
        simp only [List.length_cons, Nat.add_lt_add_iff_right] at h
        cases q <;> simp [overwrite, ih r t h]

theorem laid_iff {o n : Buf} {r : List (Option Fl)} : Laid o r n ↔ n = overwrite o r := by
  have hj : ∀ t : Nat, (∃ v, r[t]? = some (some v) ∧ r[t]?.join = some v) ∨ ((∀ v, r[t]? ≠ some (some v)) ∧ r[t]?.join = none) := by
    intro t
    rcases r[t]? with - | - | v <;> simp
  constructor
  · rintro ⟨h1, h2⟩
    refine List.ext_getElem? fun t => ?_
    by_cases ht : t < o.length
    · rw [overwrite_get o r t ht]
      rcases hj t with ⟨v, h3, h4⟩ | ⟨h3, h4⟩
      · rw [(h2 t ht).1 v h3, h4]; rfl
      · rw [(h2 t ht).2 h3, h4, List.getElem?_eq_getElem ht]; rfl
    · rw [List.getElem?_eq_none (by omega), List.getElem?_eq_none (by rw [overwrite_length]; omega)]
  · rintro rfl
    refine ⟨overwrite_length o r, fun t ht => ?_⟩
    rw [overwrite_get o r t ht]
    rcases hj t with ⟨v, h3, h4⟩ | ⟨h3, h4⟩
    · rw [h4]
      refine ⟨fun w hw => ?_, fun h => absurd h3 (h v)⟩
      rw [h3] at hw
      simpa using hw
    · rw [h4]
      exact ⟨fun w hw => absurd hw (h3 w), fun _ => by rw [List.getElem?_eq_getElem ht]; rfl⟩

/-- The blocks that a script plays. -/
def metaRun (R : Rhai) (ast : R.Ast) : R.Scope → Buf → List (Option Buf) → List Buf
  | _, _, [] => []
  | s, o, i :: is =>
    let q := R.eval ast (inputSet R s i)
    let o' := match q.2 with | some r => overwrite o r | none => o
    o' :: metaRun R ast q.1 o' is

theorem metaRun_length {ast : R.Ast} (s : R.Scope) (o : Buf) (ins : List (Option Buf)) : (metaRun R ast s o ins).length = ins.length := by
  induction ins generalizing s o with
  | nil => rfl
  | cons i is ih => simp only [metaRun, List.length_cons, ih]

theorem metaRun_steps {ast : R.Ast} (s : R.Scope) (o : Buf) (ins : List (Option Buf)) :
    ∃ (scope : Nat → R.Scope) (out : Nat → Buf), scope 0 = s ∧ out 0 = o ∧
      ∀ (k : Nat) i, ins[k]? = some i → (metaRun R ast s o ins)[k]? = some (out (k + 1)) ∧ ∃ res,
        R.eval ast (inputSet R (scope k) i) = (scope (k + 1), res) ∧
        (∀ r, res = some r → Laid (out k) r (out (k + 1))) ∧ (res = none → out (k + 1) = out k) := by
  induction ins generalizing s o with
  | nil => exact ⟨fun _ => s, fun _ => o, rfl, rfl, fun k i h => by simp at h⟩
  | cons i is ih =>
    obtain ⟨scope, out, h1, h2, h3⟩ := ih (R.eval ast (inputSet R s i)).1
      (match (R.eval ast (inputSet R s i)).2 with | some r => overwrite o r | none => o)
    refine ⟨fun k => match k with | 0 => s | k + 1 => scope k, fun k => match k with | 0 => o | k + 1 => out k, rfl, rfl, ?_⟩
    intro k j hk
    cases k with
    | zero =>
      simp only [List.getElem?_cons_zero, Option.some.injEq] at hk
      subst hk
      refine ⟨by simp only [metaRun, List.getElem?_cons_zero, h2], (R.eval ast (inputSet R s i)).2, ?_, ?_⟩
      · show R.eval ast (inputSet R s i) = (scope 0, _)
        rw [h1]
      · show (∀ r, (R.eval ast (inputSet R s i)).2 = some r → Laid o r (out 0)) ∧ ((R.eval ast (inputSet R s i)).2 = none → out 0 = o)
        rw [h2]
        exact ⟨fun r h => by rw [h, laid_iff], fun h => by rw [h]⟩
    | succ k =>
      simp only [List.getElem?_cons_succ] at hk
      obtain ⟨h4, h5⟩ := h3 k j hk
      exact ⟨by simp only [metaRun, List.getElem?_cons_succ, h4], h5⟩

theorem metaPlays_run (N sr : Nat) (ast : R.Ast) (ins : List (Option Buf)) :
    MetaPlays R N sr ast ins (metaRun R ast (R.start sr) (List.replicate N (.fin 0)) ins) :=
  ⟨metaRun_length _ _ _, metaRun_steps _ _ _⟩

/-- The blocks of a script are determined. -/
theorem metaPlays_unique {N sr : Nat} {ast : R.Ast} {ins : List (Option Buf)} {o1 o2 : List Buf} (h1 : MetaPlays R N sr ast ins o1)
    (h2 : MetaPlays R N sr ast ins o2) : o1 = o2 := by
  obtain ⟨l1, s1, b1, i1, j1, k1⟩ := h1
  obtain ⟨l2, s2, b2, i2, j2, k2⟩ := h2
  have key : ∀ k : Nat, k ≤ ins.length → s1 k = s2 k ∧ b1 k = b2 k := by
    intro k
    induction k with
    | zero => intro _; exact ⟨i1.trans i2.symm, j1.trans j2.symm⟩
    | succ k ih =>
      intro hk
      obtain ⟨e1, e2⟩ := ih (by omega)
      obtain ⟨i, hi⟩ : ∃ i, ins[k]? = some i := ⟨ins[k], List.getElem?_eq_getElem (by omega)⟩
      obtain ⟨-, r1, f1, g1⟩ := k1 k i hi
      obtain ⟨-, r2, f2, g2⟩ := k2 k i hi
      rw [e1, f2] at f1
      obtain ⟨f3, f4⟩ := Prod.mk.inj f1
      subst f4
      refine ⟨f3.symm, ?_⟩
      cases r2 with
      | none =>
        rw [g1.2 rfl, g2.2 rfl, e2]
      | some r =>
        rw [laid_iff.mp (g1.1 r rfl), laid_iff.mp (g2.1 r rfl), e2]
  refine List.ext_getElem? fun k => ?_
  by_cases hk : k < ins.length
  · obtain ⟨i, hi⟩ : ∃ i, ins[k]? = some i := ⟨ins[k], List.getElem?_eq_getElem hk⟩
    rw [(k1 k i hi).1, (k2 k i hi).1, (key (k + 1) (by omega)).2]
  · rw [List.getElem?_eq_none (by omega), List.getElem?_eq_none (by omega)]

/-- One block of a script. -/
theorem proc_meta {libm : Libm} {ho : HashOrder} {ast : R.Ast} {order : List Nat} {i : Ins} {x : Option Buf}
    (hb : (x = none → i = []) ∧ ∀ v, x = some v → i ≠ [] ∧ ∃ bufs, inputAt i order 0 = .ok bufs ∧ chan bufs 0 = .ok v) (s : R.Scope) (o : Buf) :
    procG ⟨libm, ho, scripts F R⟩ (.script order (.inr ⟨ast, s⟩)) i [o] =
        .ok (.script order (.inr ⟨ast, (R.eval ast (inputSet R s x)).1⟩),
          [match (R.eval ast (inputSet R s x)).2 with | some r => overwrite o r | none => o]) := by
  have hstep : procMeta ⟨ast, s⟩ order i [o] =
      .ok (⟨ast, (R.eval ast (inputSet R s x)).1⟩,
        [match (R.eval ast (inputSet R s x)).2 with | some r => overwrite o r | none => o]) := by
    obtain ⟨h1, h2⟩ := hb
    have hs : metaScope (⟨ast, s⟩ : MetaNode R) order i = .ok (inputSet R s x) := by
      cases hx : x with
      | none => rw [h1 hx]; rfl
      | some x =>
        obtain ⟨h3, bufs, h4, h5⟩ := h2 x hx
        rw [metaScope, if_neg (by simpa using h3), h4]
        simp only [h5]
        rfl
    rw [procMeta, hs]
    simp only
    rcases hr : R.eval ast (inputSet R s x) with ⟨s', r⟩
    cases r with
    | none => rfl
    | some r => simp [chan]
  show reState _ (reState _ (procMeta _ order _ _)) = _
  rw [hstep]
  rfl

theorem blocks_meta {libm : Libm} {ho : HashOrder} {ast : R.Ast} {order : List Nat} (bs : List (Ins × Option Buf))
    (hb : ∀ b ∈ bs, (b.2 = none → b.1 = []) ∧ ∀ x, b.2 = some x → b.1 ≠ [] ∧ ∃ bufs, inputAt b.1 order 0 = .ok bufs ∧ chan bufs 0 = .ok x)
    (s : R.Scope) (o : Buf) :
    runBlocks (procG ⟨libm, ho, scripts F R⟩) (.script order (.inr ⟨ast, s⟩)) [o] (bs.map Prod.fst) =
      .ok ((metaRun R ast s o (bs.map Prod.snd)).map fun o => [o]) := by
  induction bs generalizing s o with
  | nil => rfl
  | cons b bs ih =>
    rw [List.map_cons, List.map_cons, runBlocks, proc_meta (F := F) (hb b (by simp))]
    simp only
    rw [ih fun b h => hb b (by simp [h])]
    rfl

end Verif.Script
