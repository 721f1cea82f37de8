import Verif.Lemmas.StreamPlay
import Verif.Lemmas.ScriptFirst

/-! Formulas treat blocks sample by sample (helpers). -/

namespace Verif
open Spec

theorem steps_runM {σ ι ο : Type} {f : σ → ι → Except Panic (σ × ο)} {s s' : σ} {xs : List ι} {ys : List ο}
    (h : Steps f s xs s' ys) : runM f s xs = .ok (s', ys) := by
  induction h with
  | nil s => rfl
  | cons h1 _ ih => simp only [runM, h1, ih]

/-! ### The node of the crate -/

variable {F : FastEval} {R : Rhai} {libm : Libm} {ho : HashOrder}

theorem statements_some {vars : List Name} : ∀ {ps : List F.Prog} {j : Nat} {m m' : Name → Option Fl} {y : Option Fl},
    ps ≠ [] → statements F vars j ps m = .ok (m', y) → ∃ v, y = some v
  | [], _, _, _, _, hne, _ => absurd rfl hne
  | p :: ps, j, m, m', y, _, h => by
    unfold statements at h
    split at h
    · cases h
    · split at h
      · cases h; exact ⟨_, rfl⟩
      · split at h
        · cases h
        · exact statements_some (by simp) h

/-- One sample of a formula. -/
def evalOne (F : FastEval) (R : Rhai) : EvalNode F ⊕ MetaNode R → Option Fl → Except Panic ((EvalNode F ⊕ MetaNode R) × Fl)
  | .inl n, x =>
    match evalStep n x with
    | .error e => .error e
    | .ok (n', y) => .ok (.inl n', y.getD (.fin 0))
  | s, _ => .ok (s, .fin 0)

theorem evalStep_some {n n' : EvalNode F} {x y : Option Fl} (hne : n.progs ≠ []) (h : evalStep n x = .ok (n', y)) :
    n'.progs = n.progs ∧ ∃ v, y = some v := by
  unfold evalStep at h
  dsimp only at h
  split at h
  · cases h
  · rename_i hs
    cases h
    exact ⟨rfl, statements_some hne hs⟩

theorem evalRun_some {R : Rhai} : ∀ {xs : List (Option Fl)} {n : EvalNode F} {r : EvalNode F × List (Option Fl)}, n.progs ≠ [] →
    runM evalStep n xs = .ok r → r.1.progs = n.progs ∧ (∀ y, y ∈ r.2 → ∃ v, y = some v) ∧
      Steps (evalOne F R) (.inl n) xs (.inl r.1) (r.2.map (fun y => y.getD (.fin 0)))
  | [], n, r, _, h => by cases h; exact ⟨rfl, fun y hy => (by cases hy), Steps.nil _⟩
  | x :: xs, n, r, hne, h => by
    unfold runM at h
    split at h
    · cases h
    · rename_i q h1
      obtain ⟨n1, y⟩ := q
      split at h
      · cases h
      · rename_i q hq
        cases h
        obtain ⟨e1, e2⟩ := evalStep_some hne h1
        obtain ⟨k1, k2, k3⟩ := evalRun_some (R := R) (e1 ▸ hne) hq
        refine ⟨k1.trans e1, ?_, .cons ?_ k3⟩
        · intro z hz
          rcases List.mem_cons.mp hz with rfl | hz
          · exact e2
          · exact k2 z hz
        · simp only [evalOne, h1]

theorem zipWith_laid : ∀ {r : List (Option Fl)} {o : Buf}, (∀ y, y ∈ r → ∃ v, y = some v) → r.length = o.length →
    List.zipWith (fun (y : Option Fl) old => y.getD old) r o = r.map (fun y => y.getD (.fin 0))
  | [], _, _, _ => by rw [List.zipWith_nil_left]; rfl
  | _ :: _, [], _, h => by cases h
  | y :: r, a :: o, h1, h2 => by
    obtain ⟨v, rfl⟩ := h1 y List.mem_cons_self
    rw [List.zipWith_cons_cons, List.map_cons, zipWith_laid (fun y hy => h1 y (List.mem_cons_of_mem _ hy)) (by simpa using h2)]
    rfl

theorem zipWith_ok : ∀ {r : List (Option Fl)} {o : Buf}, (∀ y, y ∈ r → ∃ v, y = some v) → (∀ v, some v ∈ r → v.Ok f32) →
    ∀ x, x ∈ List.zipWith (fun (y : Option Fl) old => y.getD old) r o → x.Ok f32
  | [], _, _, _, x, hx => by rw [List.zipWith_nil_left] at hx; cases hx
  | _ :: _, [], _, _, x, hx => by cases hx
  | y :: r, a :: o, h1, h2, x, hx => by
    obtain ⟨v, rfl⟩ := h1 y List.mem_cons_self
    rw [List.zipWith_cons_cons] at hx
    rcases List.mem_cons.mp hx with rfl | hx
    · exact h2 _ List.mem_cons_self
    · exact zipWith_ok (fun y hy => h1 y (List.mem_cons_of_mem _ hy)) (fun v hv => h2 v (List.mem_cons_of_mem _ hv)) x hx

theorem compileLines_ne {ls : List Name} {r : List Name × List F.Prog} (hne : ls ≠ []) (h : compileLines F ls = .ok r) : r.2 ≠ [] := by
  cases ls with
  | nil => exact absurd rfl hne
  | cons l ls =>
    unfold compileLines at h
    dsimp only at h
    split at h
    · cases h
    · split at h
      · cases h
      · cases h; simp

/-- The node of `eval` makes a step per sample. -/
theorem scripts_stream : ExtStream ⟨libm, ho, scripts F R⟩ := by
  refine ⟨fun s => match s with | .inl n => n.progs ≠ [] | .inr _ => False, evalOne F R, ?_, ?_⟩
  · intro code sr s h
    change (Sum.inl <$> EvalNode.new F sr code : Except Panic (EvalNode F ⊕ MetaNode R)) = .ok s at h
    cases hn : EvalNode.new F sr code with
    | error e => rw [hn] at h; cases h
    | ok n =>
      rw [hn] at h
      cases h
      unfold EvalNode.new EvalNode.applyCode at hn
      split at hn
      · cases hn
      · rename_i r hr
        cases hn
        refine compileLines_ne ?_ hr
        unfold splitOn
        split
        · simp
        · split
          · simp
          · split <;> simp
  · intro s o ins out s' out' hs h
    cases s with
    | inr n => exact hs.elim
    | inl n =>
      obtain ⟨n', h, hn'⟩ := reState_ok (show reState _ (procEval n o ins [out]) = _ from h)
      unfold procEval at h
      simp only [chan, List.getElem?_cons_zero, evalItems_first] at h
      cases hx : firstHeard o ins with
      | error e => rw [hx] at h; cases h
      | ok x =>
        rw [hx] at h
        cases x with
        | none =>
          dsimp only at h
          split at h
          · cases h
          · rename_i r hr
            cases h
            obtain ⟨k1, k2, k3⟩ := evalRun_some (R := R) hs hr
            refine ⟨hn' ▸ (show r.1.progs ≠ [] from k1 ▸ hs), none, _, rfl, rfl, zipWith_ok k2 (evalRun_single hr), ?_⟩
            intro _
            rw [zipWith_laid k2 (by rw [runM_length hr]; simp)]
            subst hn'
            rw [List.map_const'] at k3
            exact k3
        | some b =>
          dsimp only at h
          split at h
          · cases h
          · rename_i r hr
            cases h
            obtain ⟨k1, k2, k3⟩ := evalRun_some (R := R) hs hr
            refine ⟨hn' ▸ (show r.1.progs ≠ [] from k1 ▸ hs), some b, _, rfl, rfl, zipWith_ok k2 (evalRun_single hr), ?_⟩
            intro hb
            rw [zipWith_laid k2 (by rw [runM_length hr, List.length_map]; exact hb b rfl)]
            subst hn'
            exact k3

/-! ### Components -/

theorem eval_opens {P : Plat} {N : Nat} {env : Env} {code : Name} {l : List Nat} {ins : List Ins} {outs : List (List Buf)}
    (h : play P N env (.eval code) (l.map .index) ins = .ok outs) :
    ∃ s, P.ext.new false code env.sr = .ok s ∧
      runBlocks (procG P) (.script l s) [List.replicate N (.fin 0)] ins = .ok outs := by
  have hm : makeNode P N env.samples env.sr env.bpm env.seed (.eval code) =
      (match liftP (P.ext.new false code env.sr) with
        | .error e => (.error e : Except Stop (NodeData (GNode P) Buf × List Name))
        | .ok s => .ok (fresh N 1 (.script [] s), [])) := by
    show (liftP (P.ext.new false code env.sr) >>= fun s => _) = _
    cases liftP (P.ext.new false code env.sr) <;> rfl
  unfold play at h
  rw [hm] at h
  cases hs : P.ext.new false code env.sr with
  | error e => rw [hs] at h; cases h
  | ok s =>
    rw [hs] at h
    simp only [liftP] at h
    have := sendMsgs_index (P := P) (srcs := l) (n := .script [] s) trivial
    simp only [fresh] at h
    rw [this] at h
    dsimp only at h
    split at h
    · cases h
    · cases h
      rename_i r hr
      exact ⟨s, rfl, hr⟩

/-- The sample that a formula hears. -/
def heardIn (sel chans : List Nat) (fr : Frame) : Option Fl :=
  if chans.length = 0 then none else sel[0]?.map (fun j => samp fr j 0)

theorem heard_frames {N : Nat} {chans D sel : List Nat} {bufs : List (List Buf)} {ins : Ins} (hS : Slots N chans D bufs ins)
    (hs : ∀ j, j ∈ sel → j < chans.length) {x : Option Buf} (hx : firstHeard (sel.map (fun j => D.getD j 0)) ins = .ok x)
    {out : Buf} (ho : out.length = N) :
    (∀ b, x = some b → b.length = out.length) ∧
    heardEach out.length x = (slotFrames N bufs).map (heardIn sel chans) := by
  unfold firstHeard at hx
  have hl := hS.length_eq
  by_cases hc : chans.length = 0
  · have he : ins = [] := List.length_eq_zero_iff.mp (hl.trans hc)
    subst he
    cases hx
    refine ⟨fun b hb => (by cases hb), ?_⟩
    simp only [heardEach, slotFrames, List.map_map]
    apply List.ext_getElem (by simp [ho])
    intro i h1 h2
    simp [heardIn, hc]
  · have he : ins.isEmpty = false := by
      cases ins with
      | nil => exact absurd hl.symm hc
      | cons a l => rfl
    rw [he, hS.inputAt hs 0] at hx
    cases hk : sel[0]? with
    | none => rw [hk] at hx; cases hx
    | some j =>
      rw [hk] at hx
      simp only [Bool.false_eq_true, if_false] at hx
      split at hx
      · cases hx
      · rename_i b hb
        cases hx
        obtain ⟨g1, g2⟩ := chan_getD hb
        have hj : j < bufs.length := by
          have := hs j (List.mem_of_getElem? hk)
          rw [← hS.chans] at this
          simpa using this
        have hb' : b.length = N := by
          refine hS.size (bufs.getD j []) ?_ b g2
          rw [List.getD_eq_getElem?_getD, List.getElem?_eq_getElem hj]
          exact List.getElem_mem hj
        refine ⟨fun b' e => (by cases e; rw [hb', ho]), ?_⟩
        simp only [heardEach, slotFrames, List.map_map]
        rw [buf_map hb']
        apply List.map_congr_left
        intro t _
        simp only [Function.comp_apply, heardIn, hc, if_false, hk, Option.map_some]
        rw [samp_frames, g1]

theorem steps_map {σ ι κ ο : Type} {f : σ → ι → Except Panic (σ × ο)} {g : κ → ι} {s s' : σ} {xs : List ι} {ys : List ο}
    (h : Steps f s xs s' ys) : ∀ {zs : List κ}, xs = zs.map g → runM (fun s z => f s (g z)) s zs = .ok (s', ys) := by
  induction h with
  | nil s => intro zs hz; cases zs with | nil => rfl | cons _ _ => cases hz
  | cons h1 _ ih =>
    intro zs hz
    cases zs with
    | nil => cases hz
    | cons z zs =>
      rw [List.map_cons, List.cons.injEq] at hz
      obtain ⟨rfl, hz⟩ := hz
      simp only [runM, h1, ih hz]

theorem procG_script {P : Plat} {o : List Nat} {s : P.ext.State} {ins : Ins} {out : List Buf} {n : GNode P} {out' : List Buf}
    (h : procG P (.script o s) ins out = .ok (n, out')) : ∃ s', P.ext.proc s o ins out = .ok (s', out') ∧ n = .script o s' := by
  unfold procG reState at h
  dsimp only at h
  split at h
  · cases h
  · cases h; exact ⟨_, by assumption, rfl⟩

theorem eval_blocks {P : Plat} {T : P.ext.State → Prop} {f : P.ext.State → Option Fl → Except Panic (P.ext.State × Fl)}
    (hT : ∀ s o ins out s' out', T s → P.ext.proc s o ins [out] = .ok (s', out') → T s' ∧
      ∃ x ys, firstHeard o ins = .ok x ∧ out' = [ys] ∧ (∀ y, y ∈ ys → y.Ok f32) ∧
        ((∀ b, x = some b → b.length = out.length) →
          Steps f s (heardEach out.length x) s' ys))
    {N : Nat} {chans D sel : List Nat} (hs : ∀ j, j ∈ sel → j < chans.length) :
    ∀ {ins : List Ins} {bs : List (List (List Buf))} {s : P.ext.State} {out : Buf} {outs : List (List Buf)},
    List.Forall₂ (fun inp bufs => Slots N chans D bufs inp) ins bs → T s → out.length = N →
    runBlocks (procG P) (.script (sel.map (fun j => D.getD j 0)) s) [out] ins = .ok outs →
    ∃ s' ys, runM (fun s z => f s (heardIn sel chans z)) s (bs.flatMap (slotFrames N)) = .ok (s', ys) ∧
      stream N outs = ys.map (outFrame (fun _ => some id) 1) ∧ ∀ o, o ∈ outs → o.length = 1 := by
  intro ins bs s out outs hF
  induction hF generalizing s out outs with
  | nil => intro _ _ h; cases h; exact ⟨s, [], rfl, rfl, fun o ho => by cases ho⟩
  | @cons inp bufs ins bs hS _ ih =>
    intro ht ho h
    simp only [runBlocks] at h
    split at h
    · cases h
    · rename_i n' out' h1
      obtain ⟨s1, hp, rfl⟩ := procG_script h1
      obtain ⟨ht1, x, ys, hx, rfl, _, hst⟩ := hT _ _ _ _ _ _ ht hp
      obtain ⟨g1, g2⟩ := heard_frames hS hs hx ho
      have h2 := steps_map (g := heardIn sel chans) (hst g1) g2
      have hy : ys.length = N := by rw [runM_length h2]; simp [slotFrames]
      split at h
      · cases h
      · rename_i r hr
        cases h
        obtain ⟨s2, zs, h4, h5, h6⟩ := ih ht1 hy hr
        refine ⟨s2, ys ++ zs, ?_, ?_, ?_⟩
        · rw [List.flatMap_cons, runM_append, h2]
          simp only [h4]
        · simp only [stream, List.flatMap_cons] at h5 ⊢
          rw [h5, List.map_append]
          congr 1
          have := put_frames (w := fun _ => some id) (N := N) (C := 1) (ys := ys) (out := [ys])
            (fun c b _ hw => by cases hw) rfl hy
          rw [← this]
          simp [put]
        · intro o ho
          rcases List.mem_cons.mp ho with rfl | ho
          · rfl
          · exact h6 o ho

/-- A formula playing in blocks, as a loop over all the samples. -/
theorem eval_loop {P : Plat} (hx : ExtStream P) {env : Env} {code : Name} {sel chans : List Nat}
    (hs : ∀ j, j ∈ sel → j < chans.length) :
    (∃ C, ∃ (σ ο : Type) (s0 : σ) (f : σ → Frame → Except Panic (σ × ο)) (w : Nat → Option (ο → Fl)),
      ∀ N D bs ins msgs outs, 0 < N → List.Forall₂ (fun inp bufs => Slots N chans D bufs inp) ins bs →
        (∀ g, g ∈ msgs → IsWiring g) → (NotesInputs (.eval code) → msgs = (sel.map (fun j => D.getD j 0)).map .index) →
        play P N env (.eval code) msgs ins = .ok outs →
        ∃ s' ys, runM f s0 (bs.flatMap (slotFrames N)) = .ok (s', ys) ∧ stream N outs = ys.map (outFrame w C) ∧
          ∀ o, o ∈ outs → o.length = C) := by
  obtain ⟨T, f, t1, t2⟩ := hx
  cases hn : P.ext.new false code env.sr with
  | error e =>
    refine ⟨0, Unit, Unit, (), fun _ _ => .ok ((), ()), fun _ => none, ?_⟩
    intro N D bs ins msgs outs _ _ _ hm h
    rw [hm trivial] at h
    obtain ⟨s, h1, _⟩ := eval_opens h
    rw [hn] at h1
    cases h1
  | ok s =>
    refine ⟨1, P.ext.State, Fl, s, fun s z => f s (heardIn sel chans z), fun _ => some id, ?_⟩
    intro N D bs ins msgs outs _ hF _ hm h
    rw [hm trivial] at h
    obtain ⟨s1, h1, h2⟩ := eval_opens h
    rw [hn] at h1
    cases h1
    exact eval_blocks t2 hs hF (t1 _ _ _ hn) (by simp) h2

/-- A formula only emits f32 numbers. -/
theorem eval_single {P : Plat} (hx : ExtStream P) {N : Nat} {env : Env} {code : Name} {l : List Nat} {ins : List Ins}
    {outs : List (List Buf)} (h : play P N env (.eval code) (l.map .index) ins = .ok outs) :
    ∀ o, o ∈ outs → ∀ b, b ∈ o → ∀ x, x ∈ b → x.Ok f32 := by
  obtain ⟨T, f, t1, t2⟩ := hx
  obtain ⟨s, h1, h2⟩ := eval_opens h
  have ht := t1 _ _ _ h1
  clear h h1
  generalize List.replicate N (Fl.fin 0) = out at h2
  induction ins generalizing s out outs with
  | nil => cases h2; intro o ho; cases ho
  | cons inp ins ih =>
    simp only [runBlocks] at h2
    split at h2
    · cases h2
    · rename_i n' out' h1
      obtain ⟨s1, hp, rfl⟩ := procG_script h1
      obtain ⟨ht1, x, ys, hx, rfl, hok, _⟩ := t2 _ _ _ _ _ _ ht hp
      split at h2
      · cases h2
      · rename_i r hr
        cases h2
        intro o ho
        rcases List.mem_cons.mp ho with rfl | ho
        · intro b hb
          rw [List.mem_singleton.mp hb]
          exact hok
        · exact ih s1 ht1 _ hr o ho

end Verif
