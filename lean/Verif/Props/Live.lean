import Verif.Lemmas.Live
import Verif.Props.Osc
import Verif.Props.Arith
import Verif.Props.Filter
import Verif.Props.Source
import Verif.Lemmas.KernelRfl

/-! # Settings changed while playing (C71) -/

namespace Verif.Props
open Spec

variable {P : Plat} {N : Nat} {env : Env}

/-- A node with a loop that cannot fail. -/
theorem live_pure_inv {c : Comp} {d : NodeData (GNode P) Buf} {refs : List Name} {msgs : List (Msg Fl)} {μ π σ ι ο : Type} (wrap : π → σ → GNode P)
    (send : μ → List (Msg Fl)) (upd : π → μ → π) (f : π → σ → ι → σ × ο) (pr : ο → Fl) (inv : π → Prop) (good : List Buf → Prop) (ch : Nat)
    (put : List ο → List Buf → List Buf) (bs : List (μ × Ins × List ι)) (p : π) (s : σ)
    (h1 : makeNode P N env.samples env.sr env.bpm env.seed c = .ok (d, refs)) (h2 : sendMsgs d.node msgs = .ok (wrap p s))
    (Hi : ∀ b ∈ bs, ∀ p, inv p → inv (upd p b.1))
    (Hm : ∀ b ∈ bs, ∀ p s, sendMsgs (wrap p s) (send b.1) = .ok (wrap (upd p b.1) s))
    (H : ∀ p s b out, b ∈ bs → inv p → good out → procG P (wrap p s) b.2.1 out = .ok (wrap p (run (f p) s b.2.2).1, put (run (f p) s b.2.2).2 out))
    (Hput : ∀ p b s out, b ∈ bs → good out → good (put (run (f p) s b.2.2).2 out) ∧
      (put (run (f p) s b.2.2).2 out)[ch]? = some ((run (f p) s b.2.2).2.map pr))
    (hp : inv p) (hg : good d.buffers) :
    ∃ outs, playChanged P N env c msgs (bs.map fun b => (send b.1, b.2.1)) = .ok outs ∧
      channel ch outs = some ((run (fun s (q : π × ι) => f q.1 s q.2) s (withPar upd p bs).flatten).2.map pr) := by
  have h := live_general (P := P) wrap send upd (fun p s x => .ok (f p s x)) pr inv good ch put bs Hi Hm
    (fun p s b out hb hi ho => by rw [runM_pure, H p s b out hb hi ho]; rfl)
    (fun p b s r out hb ho hr => by
      rw [runM_pure] at hr
      cases hr
      exact Hput p b s out hb ho) p s d.buffers hp hg
  rw [runM_pure (fun s (q : π × ι) => f q.1 s q.2)] at h
  obtain ⟨o, g1, g2⟩ := chanResult_ok h
  exact ⟨o, live_ok h1 h2 g1, g2⟩

theorem live_pure {c : Comp} {d : NodeData (GNode P) Buf} {refs : List Name} {msgs : List (Msg Fl)} {μ π σ ι ο : Type} (wrap : π → σ → GNode P)
    (send : μ → List (Msg Fl)) (upd : π → μ → π) (f : π → σ → ι → σ × ο) (pr : ο → Fl) (good : List Buf → Prop) (ch : Nat)
    (put : List ο → List Buf → List Buf) (bs : List (μ × Ins × List ι)) (p : π) (s : σ)
    (h1 : makeNode P N env.samples env.sr env.bpm env.seed c = .ok (d, refs)) (h2 : sendMsgs d.node msgs = .ok (wrap p s))
    (Hm : ∀ b ∈ bs, ∀ p s, sendMsgs (wrap p s) (send b.1) = .ok (wrap (upd p b.1) s))
    (H : ∀ p s b out, b ∈ bs → good out → procG P (wrap p s) b.2.1 out = .ok (wrap p (run (f p) s b.2.2).1, put (run (f p) s b.2.2).2 out))
    (Hput : ∀ p b s out, b ∈ bs → good out → good (put (run (f p) s b.2.2).2 out) ∧
      (put (run (f p) s b.2.2).2 out)[ch]? = some ((run (f p) s b.2.2).2.map pr))
    (hg : good d.buffers) :
    ∃ outs, playChanged P N env c msgs (bs.map fun b => (send b.1, b.2.1)) = .ok outs ∧
      channel ch outs = some ((run (fun s (q : π × ι) => f q.1 s q.2) s (withPar upd p bs).flatten).2.map pr) :=
  live_pure_inv wrap send upd f pr (fun _ => True) good ch put bs p s h1 h2 (fun _ _ _ _ => trivial) Hm
    (fun p s b out hb _ ho => H p s b out hb ho) Hput trivial hg

/-! ### Oscillators -/

theorem oscillates_run {shape : Fl → Fl} {sr n : Nat} {freq : Nat → Fl} (zs : List (Fl × Unit)) (hl : zs.length = n)
    (hz : ∀ t : Nat, t < n → zs[t]? = some (freq t, ())) :
    Oscillates shape sr freq n (run (fun s (q : Fl × Unit) => (advance sr q.1 s, shape s)) (.fin 0) zs).2 := by
  obtain ⟨st, h0, -, h⟩ := run_states (fun s (q : Fl × Unit) => (advance sr q.1 s, shape s)) (.fin 0) zs
  refine ⟨by rw [run_length, hl], st, h0, fun t ht => ?_⟩
  obtain ⟨h1, h2⟩ := h t _ (hz t ht)
  refine ⟨h1, _, rfl, fun hp => ?_, fun hp => ?_⟩
  · rw [h2]
    simp only [advance, hp, if_true]
  · rw [h2]
    simp only [advance, hp]
    rfl

/-- The blocks of a source. -/
def unitBlocks (N : Nat) (bs : List Changes) : List (Changes × Ins × List Unit) := bs.map fun cs => (cs, [], List.replicate N ())

theorem unitBlocks_len (bs : List Changes) : ∀ b ∈ unitBlocks N bs, b.2.2.length = N := by
  intro b hb
  obtain ⟨cs, -, rfl⟩ := List.mem_map.mp hb
  simp

theorem unitBlocks_items (bs : List Changes) : ((unitBlocks N bs).map fun b => b.2.2).flatten = List.replicate (bs.length * N) () := by
  rw [unitBlocks, List.map_map]
  induction bs with
  | nil => simp
  | cons b bs ih => simp [ih, Nat.add_mul, Nat.add_comm]

theorem unitBlocks_steps (bs : List Changes) : (unitBlocks N bs).map (fun b => (changeMsgs b.1, b.2.1)) = changedSource bs := by
  simp [unitBlocks, changedSource, Function.comp_def]

theorem unitBlocks_fst (bs : List Changes) : (unitBlocks N bs).map Prod.fst = bs := by simp [unitBlocks, Function.comp_def]

theorem unitBlocks_len' (f : Fl) (bs : List Changes) : (withPar (newValue 0) f (unitBlocks N bs)).flatten.length = bs.length * N := by
  rw [← List.length_map (f := Prod.snd), withPar_items, unitBlocks_items]
  simp

theorem unitBlocks_at (f : Fl) (bs : List Changes) (t : Nat) (ht : t < bs.length * N) :
    (withPar (newValue 0) f (unitBlocks N bs)).flatten[t]? = some (setting 0 f bs (t / N), ()) := by
  rw [withPar_at (unitBlocks_len bs), unitBlocks_items, unitBlocks_fst, setting_eq, List.getElem?_replicate, if_pos ht]
  rfl

/-- The shape of an oscillator. -/
def waveShape : Wave → Fl → Fl
  | .saw => sawShape
  | .squ => squShape
  | .tri => triShape

/-- **C71 (part)**, oscillators: the frequency is the last one that was set, from the block on before which it was set, and the phase goes on. -/
theorem c71_oscillators_partial (w : Wave) (f : Fl) (bs : List Changes) :
    ∃ outs ys, playChanged P N env (waveComp w (.num f)) [] (changedSource bs) = .ok outs ∧ channel 0 outs = some ys ∧
      Oscillates (waveShape w) env.sr (fun t => setting 0 f bs (t / N)) (bs.length * N) ys := by
  obtain ⟨o, h1, h2⟩ := live_pure (P := P) (N := N) (env := env) (c := waveComp w (.num f)) (msgs := [])
    (fun f ph => .prim (.osc w ⟨f, ph, .fin 0, env.sr, []⟩)) changeMsgs (newValue 0) (fun f s (_ : Unit) => (advance env.sr f s, waveShape w s))
    id (Shaped 1 N) 0 (fun y _ => [y]) (unitBlocks N bs) f (.fin 0) (osc_make P N env w (.num f)) rfl
    (fun b _ p s => send_one (wrap := fun f => .prim (.osc w ⟨f, s, .fin 0, env.sr, []⟩)) (fun _ _ => rfl) (fun _ _ _ => rfl) p b.1)
    (fun p s b out hb ho => by
      obtain ⟨a, rfl, ha⟩ := ho.one
      obtain ⟨cs, -, rfl⟩ := List.mem_map.mp hb
      have := run_unit (oscStep w env.sr p) (fun _ _ _ => rfl) s a
      rw [ha] at this
      have hw : (fun s (_ : Unit) => (Except.ok (oscStep w env.sr p s (.fin 0)) : Except Panic _)) =
          fun s _ => .ok (advance env.sr p s, waveShape w s) := by
        funext s _
        cases w <;> rfl
      rw [hw, runM_pure (fun s (_ : Unit) => (advance env.sr p s, waveShape w s))] at this
      rw [Except.ok.inj this]
      rfl)
    (fun p b s out hb ho => ⟨⟨rfl, by simp [run_length, unitBlocks_len bs b hb]⟩, by simp⟩)
    (shaped_fresh N 1 (GNode.prim (P := P) (.osc w (Osc.new f env.sr))))
  rw [unitBlocks_steps] at h1
  rw [List.map_id] at h2
  exact ⟨o, _, h1, h2, oscillates_run _ (unitBlocks_len' f bs) (unitBlocks_at f bs)⟩

/-- **C71 (part)**, the sine. -/
theorem c71_sin_partial (f : Fl) (bs : List Changes) :
    ∃ outs ys, playChanged P N env (.sin (.num f)) [] (changedSource bs) = .ok outs ∧ channel 0 outs = some ys ∧
      Oscillates (sinShape P.libm) env.sr (fun t => setting 0 f bs (t / N)) (bs.length * N) ys := by
  obtain ⟨o, h1, h2⟩ := live_pure (P := P) (N := N) (env := env) (c := .sin (.num f)) (msgs := [])
    (fun f ph => .prim (.sin ⟨f, ph, .fin 0, env.sr, []⟩)) changeMsgs (newValue 0) (fun f s (_ : Unit) => (advance env.sr f s, sinShape P.libm s))
    id (Shaped 1 N) 0 (fun y _ => [y]) (unitBlocks N bs) f (.fin 0) (sin_make P N env (.num f)) rfl
    (fun b _ p s => send_one (wrap := fun f => .prim (.sin ⟨f, s, .fin 0, env.sr, []⟩)) (fun _ _ => rfl) (fun _ _ _ => rfl) p b.1)
    (fun p s b out hb ho => by
      obtain ⟨a, rfl, ha⟩ := ho.one
      obtain ⟨cs, -, rfl⟩ := List.mem_map.mp hb
      have hr : ∀ (a : Buf) (s : Fl), run (sinStep P.libm env.sr) s (a.map fun _ => p) =
          run (fun s (_ : Unit) => (advance env.sr p s, sinShape P.libm s)) s (List.replicate a.length ()) := by
        intro a
        induction a with
        | nil => intro s; rfl
        | cons x a ih => intro s; simp only [List.map_cons, run, List.length_cons, List.replicate_succ, ih]; rfl
      simp only [procG, procPrim, procSin, reState, hr, ha]
      rfl)
    (fun p b s out hb ho => ⟨⟨rfl, by simp [run_length, unitBlocks_len bs b hb]⟩, by simp⟩)
    (shaped_fresh N 1 (GNode.prim (P := P) (.sin (Osc.new f env.sr))))
  rw [unitBlocks_steps] at h1
  rw [List.map_id] at h2
  exact ⟨o, _, h1, h2, oscillates_run _ (unitBlocks_len' f bs) (unitBlocks_at f bs)⟩

/-! ### Impulses -/

/-- The frequencies an impulse train can have. -/
def ImpFreq (sr : Nat) (f : Fl) : Prop := f.isFinite = true ∧ 1 / 2 ^ 30 ≤ f.val ∧ f.val ≤ sr

/-- **C71 (part)**, `imp`: there is a click at sample `t` when `t` is a multiple of the period of the frequency in force. -/
theorem c71_imp_partial (f : Fl) (bs : List Changes) (hsr : env.sr ≤ 2 ^ 24) (hf : ImpFreq env.sr f)
    (hc : ∀ c ∈ bs, ∀ e ∈ c, e.1 = 0 → ImpFreq env.sr e.2) :
    ∃ outs ys, ∃ period : Fl → Nat, playChanged P N env (.imp (.num f)) [] (changedSource bs) = .ok outs ∧ channel 0 outs = some ys ∧
      (∀ g, ImpFreq env.sr g → 1 ≤ period g ∧ |(period g : ℚ) - env.sr / g.val| ≤ 1 + env.sr / g.val / 2 ^ 24) ∧
      ys.length = bs.length * N ∧
      ∀ t, t < bs.length * N → ys[t]? = some (if period (setting 0 f bs (t / N)) ∣ t then .fin 1 else .fin 0) := by
  obtain ⟨o, h1, h2⟩ := live_pure_inv (P := P) (N := N) (env := env) (c := .imp (.num f)) (msgs := [])
    (fun f c => .prim (.imp ⟨c, impPeriod env.sr f, env.sr, []⟩)) changeMsgs (newValue 0)
    (fun f c (_ : Unit) => (c + 1, if c % impPeriod env.sr f = 0 then .fin 1 else .fin 0))
    id (ImpFreq env.sr) (Shaped 1 N) 0 (fun y _ => [y]) (unitBlocks N bs) f 0 (imp_make P N env f) rfl
    (fun b hb p hp => by
      obtain ⟨cs, hcs, rfl⟩ := List.mem_map.mp hb
      exact newValue_mem _ hp (hc cs hcs))
    (fun b _ p s => send_one (wrap := fun f => .prim (.imp ⟨s, impPeriod env.sr f, env.sr, []⟩)) (fun _ _ => rfl) (fun _ _ _ => rfl) p b.1)
    (fun p s b out hb hp ho => by
      obtain ⟨a, rfl, ha⟩ := ho.one
      obtain ⟨cs, -, rfl⟩ := List.mem_map.mp hb
      have hp1 := (impPeriod_close hsr hp.1 hp.2.1 hp.2.2).1
      have h3 := runM_const (impStep (impPeriod env.sr p)) (fun c (_ : Unit) => impStep (impPeriod env.sr p) c (.fin 0)) (fun _ _ _ => rfl) s a
        (List.replicate N ()) (by simp [ha])
      have h4 : (fun c (_ : Unit) => impStep (impPeriod env.sr p) c (.fin 0)) =
          fun c _ => .ok (c + 1, if c % impPeriod env.sr p = 0 then .fin 1 else .fin 0) := by
        funext c _
        rw [impStep, if_neg (by omega)]
      rw [h4, runM_pure (fun c (_ : Unit) => (c + 1, if c % impPeriod env.sr p = 0 then Fl.fin 1 else .fin 0))] at h3
      simp only [procG, procPrim, procImp, h3]
      rfl)
    (fun p b s out hb ho => ⟨⟨rfl, by simp [run_length, unitBlocks_len bs b hb]⟩, by simp⟩) hf
    (shaped_fresh N 1 (GNode.prim (P := P) (.imp (Impulse.new env.sr f))))
  rw [unitBlocks_steps] at h1
  rw [List.map_id] at h2
  refine ⟨o, _, impPeriod env.sr, h1, h2, fun g hg => impPeriod_close hsr hg.1 hg.2.1 hg.2.2, by rw [run_length, unitBlocks_len'], fun t ht => ?_⟩
  obtain ⟨st, h0, -, h⟩ := run_states (fun c (q : Fl × Unit) => (c + 1, if c % impPeriod env.sr q.1 = 0 then Fl.fin 1 else .fin 0)) 0
    (withPar (newValue 0) f (unitBlocks N bs)).flatten
  have hst : ∀ t, t ≤ bs.length * N → st t = t := by
    intro t
    induction t with
    | zero => intro _; exact h0
    | succ t ih => intro ht; rw [(h t _ (unitBlocks_at f bs t (by omega))).2, ih (by omega)]
  rw [(h t _ (unitBlocks_at f bs t ht)).1, hst t (by omega)]
  simp only [Nat.dvd_iff_mod_eq_zero]

/-- A train of 3 impulses a second at 12 samples a second, changed to 4 before the third block. -/
example : ∃ (env : Env) (f : Fl) (bs : List Changes), env.sr ≤ 2 ^ 24 ∧ ImpFreq env.sr f ∧ (∀ c ∈ bs, ∀ e ∈ c, e.1 = 0 → ImpFreq env.sr e.2) ∧
    setting 0 f bs 1 = .fin 3 ∧ setting 0 f bs 2 = .fin 4 := by
  refine ⟨⟨[], 12, .fin 120, 0⟩, .fin 3, [[], [], [(0, .fin 4)]], by decide, ⟨rfl, by norm_num [Fl.val], by norm_num [Fl.val]⟩, ?_, rfl, rfl⟩
  intro c hc e he _
  simp only [List.mem_cons, List.not_mem_nil, or_false] at hc
  rcases hc with rfl | rfl | rfl
  · cases he
  · cases he
  · simp only [List.mem_cons, List.not_mem_nil, or_false] at he
    subst he
    exact ⟨rfl, by norm_num [Fl.val], by norm_num [Fl.val]⟩

/-- **C71 is false for `imp`**: its clock counts from the start and not from the last click, so that clicks at a distance of neither the old nor the new period
occur. At 12 samples a second and with 5 samples a block, a train of 3 impulses a second clicks every 4 samples; changed to 4 a second (every 3 samples) before the second block,
it clicks at the samples 0, 4, 6 and 9. -/
theorem c71_imp_counterexample (P : Plat) :
    playChanged P 5 ⟨[], 12, .fin 120, 0⟩ (.imp (.num (.fin 3))) [] (changedSource [[], [(0, .fin 4)]]) =
      .ok [[[.fin 1, .fin 0, .fin 0, .fin 0, .fin 1]], [[.fin 0, .fin 1, .fin 0, .fin 0, .fin 1]]] := by
  kernel_rfl

/-! ### Constants -/

/-- **C71 (part)**, constants: every sample has the value that was set last. -/
theorem c71_constsig_partial (v : Fl) (bs : List Changes) :
    ∃ outs ys, playChanged P N env (.constsig v) [] (changedSource bs) = .ok outs ∧ channel 0 outs = some ys ∧
      ys.length = bs.length * N ∧ ∀ t, t < bs.length * N → ys[t]? = some (setting 0 v bs (t / N)) := by
  obtain ⟨o, h1, h2⟩ := live_pure (P := P) (N := N) (env := env) (c := .constsig v) (msgs := [])
    (fun v (s : Nat) => .prim (.constSig { ConstSig.new v env.sr with step := s })) changeMsgs (newValue 0) (fun v s (_ : Unit) => (s + 1, v))
    id (Shaped 1 N) 0 (fun y _ => [y]) (unitBlocks N bs) v 0 rfl rfl
    (fun b _ p s => send_one (wrap := fun v => .prim (.constSig { ConstSig.new v env.sr with step := s })) (fun _ _ => rfl) (fun _ _ _ => rfl) p b.1)
    (fun p s b out hb ho => by
      obtain ⟨a, rfl, ha⟩ := ho.one
      obtain ⟨cs, -, rfl⟩ := List.mem_map.mp hb
      have hr : ∀ (n s : Nat), run (fun (s : Nat) (_ : Unit) => (s + 1, p)) s (List.replicate n ()) = (s + n, List.replicate n p) := by
        intro n
        induction n with
        | zero => intro s; rfl
        | succ n ih => intro s; simp only [List.replicate_succ, run, ih]; rw [Nat.add_assoc, Nat.add_comm 1]
      simp only [procG, procPrim, procConstSig, reState, hr, ConstSig.new, List.map_const', ha])
    (fun p b s out hb ho => ⟨⟨rfl, by simp [run_length, unitBlocks_len bs b hb]⟩, by simp⟩)
    (shaped_fresh N 1 (GNode.prim (P := P) (.constSig (ConstSig.new v env.sr))))
  rw [unitBlocks_steps] at h1
  rw [List.map_id] at h2
  refine ⟨o, _, h1, h2, by rw [run_length, unitBlocks_len'], fun t ht => ?_⟩
  obtain ⟨st, -, -, h⟩ := run_states (fun s (q : Fl × Unit) => (s + 1, q.1)) 0 (withPar (newValue 0) v (unitBlocks N bs)).flatten
  exact (h t _ (unitBlocks_at v bs t ht)).1

/-! ### Nodes with an input -/

/-- The blocks of a node with an input. -/
def inBlocks (k : Nat) (mono : Bool) (bs : List (Changes × List (Fl × Fl))) : List (Changes × Ins × List (Fl × Fl)) :=
  bs.map fun b => (b.1, [(k, bufsOf mono b.2)], b.2)

variable {k : Nat} {mono : Bool} {bs : List (Changes × List (Fl × Fl))}

theorem inBlocks_len (hs : Sized N (bs.map Prod.snd)) : ∀ b ∈ inBlocks k mono bs, b.2.2.length = N := by
  intro b hb
  obtain ⟨x, hx, rfl⟩ := List.mem_map.mp hb
  exact hs _ (List.mem_map_of_mem hx)

theorem inBlocks_items : ((inBlocks k mono bs).map fun b => b.2.2) = bs.map Prod.snd := by simp [inBlocks, Function.comp_def]

theorem inBlocks_steps : (inBlocks k mono bs).map (fun b => (changeMsgs b.1, b.2.1)) = changedFrom k mono bs := by
  simp [inBlocks, changedFrom, Function.comp_def]

theorem inBlocks_fst : (inBlocks k mono bs).map Prod.fst = bs.map Prod.fst := by simp [inBlocks, Function.comp_def]

/-- **C71 (part)**, `mul` and `add`: the number that was set last is applied to the samples of both channels. -/
theorem c71_arith_partial (isMul : Bool) (v : Fl) (hs : Sized N (bs.map Prod.snd)) :
    ∃ outs ls rs, playChanged P N env (arithComp isMul (.num v)) [.index k] (changedFrom k mono bs) = .ok outs ∧
      channel 0 outs = some ls ∧ channel 1 outs = some rs ∧
      ls.length = (bs.map Prod.snd).flatten.length ∧ rs.length = (bs.map Prod.snd).flatten.length ∧
      ∀ (t : Nat) x, (bs.map Prod.snd).flatten[t]? = some x →
        ls[t]? = some (arithOp isMul x.1 (setting 0 v (bs.map Prod.fst) (t / N))) ∧
        rs[t]? = some (arithOp isMul (rightVal mono x) (setting 0 v (bs.map Prod.fst) (t / N))) := by
  have hmsg : ∀ b ∈ inBlocks k mono bs, ∀ (p : Fl) (s : Unit), sendMsgs (arithNode P isMul ⟨p, [k]⟩) (changeMsgs b.1) =
      .ok (arithNode P isMul ⟨newValue 0 p b.1, [k]⟩) := fun b _ p s =>
    send_one (wrap := fun v => arithNode P isMul ⟨v, [k]⟩) (fun _ _ => by cases isMul <;> rfl) (fun _ _ _ => by cases isMul <;> rfl) p b.1
  have hproc : ∀ (p : Fl) (s : Unit) (b : Changes × Ins × List (Fl × Fl)) (out : List Buf), b ∈ inBlocks k mono bs → out.length = 2 →
      procG P (arithNode P isMul ⟨p, [k]⟩) b.2.1 out =
        .ok (arithNode P isMul ⟨p, [k]⟩, [b.2.2.map fun x => arithOp isMul x.1 p, b.2.2.map fun x => arithOp isMul (rightVal mono x) p]) := by
    intro p s b out hb ho
    obtain ⟨x, -, rfl⟩ := List.mem_map.mp hb
    obtain ⟨a, c, rfl⟩ := List.length_eq_two.mp ho
    rw [arith_proc, applyOp_one]
  have hrun : ∀ (f : Fl × Fl → Fl × Fl) (s : Unit) (x : List (Fl × Fl)), run (fun (_ : Unit) x => ((), f x)) s x = ((), x.map f) := by
    intro f s x
    induction x with
    | nil => rfl
    | cons y x ih => simp [run, ih]
  have key : ∀ (ch : Nat) (pr : Fl × Fl → Fl), (∀ y : List (Fl × Fl), [y.map Prod.fst, y.map Prod.snd][ch]? = some (y.map pr)) → _ :=
    fun ch pr hpr => live_pure (P := P) (N := N) (env := env) (c := arithComp isMul (.num v)) (msgs := [.index k])
    (fun p (_ : Unit) => arithNode P isMul ⟨p, [k]⟩) changeMsgs (newValue 0)
    (fun p _ (x : Fl × Fl) => ((), (arithOp isMul x.1 p, arithOp isMul (rightVal mono x) p))) pr (fun o => o.length = 2) ch
    (fun y _ => [y.map Prod.fst, y.map Prod.snd]) (inBlocks k mono bs) v () (arith_make P N env isMul (.num v) [k]).1
    (arith_make P N env isMul (.num v) [k]).2 hmsg
    (fun p s b out hb ho => by
      rw [hproc p s b out hb ho, hrun fun x => (arithOp isMul x.1 p, arithOp isMul (rightVal mono x) p)]
      simp [Function.comp_def])
    (fun p b s out hb ho => ⟨rfl, hpr _⟩) (shaped_fresh N 2 (arithNode P isMul (arith v))).1
  obtain ⟨o, h1, h2⟩ := key 0 Prod.fst fun _ => rfl
  obtain ⟨o', h1', h3⟩ := key 1 Prod.snd fun _ => rfl
  rw [h1] at h1'
  cases h1'
  rw [inBlocks_steps] at h1
  have hat := fun t => withPar_at (upd := newValue 0) (p := v) (inBlocks_len (k := k) (mono := mono) hs) t
  simp only [inBlocks_items, inBlocks_fst, setting_eq] at hat
  have hlen : (withPar (newValue 0) v (inBlocks k mono bs)).flatten.length = (bs.map Prod.snd).flatten.length := by
    rw [← List.length_map (f := Prod.snd), withPar_items, inBlocks_items]
  obtain ⟨st, -, -, h⟩ := run_states (fun (_ : Unit) (q : Fl × Fl × Fl) => ((), (arithOp isMul q.2.1 q.1, arithOp isMul (rightVal mono q.2) q.1))) ()
    (withPar (newValue 0) v (inBlocks k mono bs)).flatten
  refine ⟨o, _, _, h1, h2, h3, by rw [List.length_map, run_length, hlen], by rw [List.length_map, run_length, hlen], fun t x hx => ?_⟩
  have := (h t _ (by rw [hat, hx]; rfl)).1
  rw [List.getElem?_map, List.getElem?_map, this]
  exact ⟨rfl, rfl⟩

/-- A node with one output channel that runs a loop over the left channel of its only input. -/
theorem live_lefts {c : Comp} {d : NodeData (GNode P) Buf} {refs : List Name} {π σ : Type} (wrap : π → σ → GNode P) (upd : π → Changes → π)
    (f : π → σ → Fl → σ × Fl) (p : π) (s : σ) (h1 : makeNode P N env.samples env.sr env.bpm env.seed c = .ok (d, refs))
    (hd : ∃ b, d.buffers = [b]) (h2 : sendMsgs d.node [.index k] = .ok (wrap p s))
    (Hm : ∀ cs p s, sendMsgs (wrap p s) (changeMsgs cs) = .ok (wrap (upd p cs) s))
    (H : ∀ p s x b, procG P (wrap p s) [(k, bufsOf mono x)] [b] =
      .ok (wrap p (run (f p) s (x.map Prod.fst)).1, [(run (f p) s (x.map Prod.fst)).2])) (hs : Sized N (bs.map Prod.snd)) :
    ∃ outs zs, playChanged P N env c [.index k] (changedFrom k mono bs) = .ok outs ∧
      channel 0 outs = some (run (fun s (q : π × Fl) => f q.1 s q.2) s zs).2 ∧ zs.map Prod.snd = lefts (bs.map Prod.snd) ∧
      ∀ t q, zs[t]? = some q → q.1 = ((bs.map Prod.fst).take (t / N + 1)).foldl upd p := by
  obtain ⟨o, g1, g2⟩ := live_pure (P := P) (N := N) (env := env) (c := c) (msgs := [.index k]) wrap changeMsgs upd
    (fun p s (x : Fl × Fl) => f p s x.1) id (fun o => ∃ b, o = [b]) 0 (fun y _ => [y]) (inBlocks k mono bs) p s h1 h2
    (fun b _ p s => Hm b.1 p s)
    (fun p s b out hb ho => by
      obtain ⟨x, -, rfl⟩ := List.mem_map.mp hb
      obtain ⟨b, rfl⟩ := ho
      rw [run_lefts (f p)]
      exact H p s _ b)
    (fun p b s out hb ho => ⟨⟨_, rfl⟩, by simp⟩) hd
  rw [inBlocks_steps] at g1
  have hmap : ∀ (l : List (π × (Fl × Fl))) (s : σ), run (fun s (q : π × (Fl × Fl)) => f q.1 s q.2.1) s l =
      run (fun s (q : π × Fl) => f q.1 s q.2) s (l.map fun q => (q.1, q.2.1)) := by
    intro l
    induction l with
    | nil => intro s; rfl
    | cons q l ih => intro s; simp only [run, List.map_cons, ih]
  rw [hmap, List.map_id] at g2
  have hitems := withPar_items (upd := upd) (p := p) (bs := inBlocks k mono bs)
  rw [inBlocks_items] at hitems
  refine ⟨o, _, g1, g2, ?_, fun t q hq => ?_⟩
  · rw [lefts, ← hitems, List.map_map, List.map_map]
    rfl
  · rw [List.getElem?_map, withPar_at (inBlocks_len hs), inBlocks_fst] at hq
    cases hx : ((inBlocks k mono bs).map fun b => b.2.2).flatten[t]? with
    | none => rw [hx] at hq; cases hq
    | some x => rw [hx] at hq; cases hq; rfl

/-- **C71 (part)**, `onepole`: the equation of the filter with the coefficients of the rate that was set last, over all blocks. -/
theorem c71_onepole_partial (rate : Fl) (hs : Sized N (bs.map Prod.snd)) :
    ∃ outs ys, playChanged P N env (.onepole (.num rate)) [.index k] (changedFrom k mono bs) = .ok outs ∧ channel 0 outs = some ys ∧
      OnePoleEq (fun t => .fin 1 -. pole P.libm (setting 0 rate (bs.map Prod.fst) (t / N)))
        (fun t => pole P.libm (setting 0 rate (bs.map Prod.fst) (t / N))) (lefts (bs.map Prod.snd)) ys := by
  obtain ⟨o, zs, h1, h2, h3, h4⟩ := live_lefts (P := P) (N := N) (env := env) (k := k) (mono := mono) (bs := bs) (c := .onepole (.num rate))
    (fun r y => .prim (.onepole ⟨.fin 1 -. pole P.libm r, pole P.libm r, y, [k]⟩)) (newValue 0)
    (fun r => poleStep (.fin 1 -. pole P.libm r) (pole P.libm r)) rate (.fin 0) rfl ⟨_, rfl⟩ rfl
    (fun cs p s => send_one (wrap := fun r => .prim (.onepole ⟨.fin 1 -. pole P.libm r, pole P.libm r, s, [k]⟩)) (fun _ _ => rfl) (fun _ _ _ => rfl) p cs)
    (fun p s x b => by
      simp only [procG, procPrim, procOnePole, chan_bufsOf]
      rfl) hs
  refine ⟨o, _, h1, h2, ?_⟩
  obtain ⟨st, h0, -, h⟩ := run_states (fun s (q : Fl × Fl) => poleStep (.fin 1 -. pole P.libm q.1) (pole P.libm q.1) s q.2) (.fin 0) zs
  have hlen : zs.length = (lefts (bs.map Prod.snd)).length := by rw [← h3, List.length_map]
  refine ⟨by rw [run_length, hlen], ?_⟩
  have hst : ∀ t, t ≤ zs.length → st t =
      before (run (fun s (q : Fl × Fl) => poleStep (.fin 1 -. pole P.libm q.1) (pole P.libm q.1) s q.2) (.fin 0) zs).2 t 1 := by
    intro t
    cases t with
    | zero => intro _; rw [h0, before_start]
    | succ t =>
      intro ht
      obtain ⟨g1, g2⟩ := h t _ (List.getElem?_eq_getElem (show t < zs.length by omega))
      rw [g2, before_succ, before_zero, getD_of g1]
      rfl
  intro t ht
  have hz := List.getElem?_eq_getElem (show t < zs.length by omega)
  obtain ⟨g1, -⟩ := h t _ hz
  have hx : (lefts (bs.map Prod.snd))[t]? = some zs[t].2 := by rw [← h3, List.getElem?_map, hz]; rfl
  have h5 := h4 t _ hz
  rw [setting_eq] at h5
  rw [g1, before_zero, getD_of hx, ← hst t (by omega)]
  simp only [← h5]
  rfl

/-- **C71 (part)**, `rhpf`: the equation of C56 with the cutoff and the q that were set last. -/
theorem c71_rhpf_partial (hsr : env.sr = 44100) (cutoff q : Fl) (hs : Sized N (bs.map Prod.snd)) :
    ∃ outs ys, playChanged P N env (.rhpf (.num cutoff) q) [.index k] (changedFrom k mono bs) = .ok outs ∧ channel 0 outs = some ys ∧
      LaggingEq (fun t => highPass P.libm env.sr (setting 0 cutoff (bs.map Prod.fst) (t / N)) (setting 1 q (bs.map Prod.fst) (t / N)))
        (lefts (bs.map Prod.snd)) ys := by
  obtain ⟨o, zs, h1, h2, h3, h4⟩ := live_lefts (P := P) (N := N) (env := env) (k := k) (mono := mono) (bs := bs) (c := .rhpf (.num cutoff) q)
    (fun p m => .prim (.rhpf ⟨p.1, p.2, m, 44100, [k]⟩)) newPair
    (fun p => biquadStep (rhpfCoef P.libm p.1 p.2 44100)) (cutoff, q) Biquad.zero rfl ⟨_, rfl⟩ rfl
    (fun cs p s => send_pair (wrap := fun p => .prim (.rhpf ⟨p.1, p.2, s, 44100, [k]⟩)) (fun _ _ => rfl) (fun _ _ => rfl) (fun _ _ _ => rfl) p cs)
    (fun p s x b => by
      simp only [procG, procPrim, procRhpf, chan_bufsOf]
      rfl) hs
  refine ⟨o, _, h1, h2, ?_⟩
  have h := runM_pure (fun s (q : (Fl × Fl) × Fl) => biquadStep (rhpfCoef P.libm q.1.1 q.1.2 44100) s q.2) Biquad.zero zs
  obtain ⟨st, h0, _, hst⟩ := runM_states h
  have := biquad_eq (mem := id) (inp := Prod.snd) h rfl
    (fun t => rhpfCoef P.libm (setting 0 cutoff (bs.map Prod.fst) (t / N)) (setting 1 q (bs.map Prod.fst) (t / N)) 44100) st h0 (fun t x hx => by
    obtain ⟨y, g1, g2⟩ := hst t x hx
    have := h4 t x hx
    rw [pair_eq] at this
    refine ⟨y, g1, g2, ?_⟩
    have g3 := Except.ok.inj g2
    rw [this] at g3
    exact g3)
  rw [h3] at this
  rw [hsr]
  exact this

/-- **C71 (part)**, `lpf`. -/
theorem c71_lpf_partial (cutoff q : Fl) (hs : Sized N (bs.map Prod.snd)) :
    ∃ outs ys, playChanged P N env (.lpf (.num cutoff) q) [.index k] (changedFrom k mono bs) = .ok outs ∧ channel 0 outs = some ys ∧
      LaggingEq (fun t => lowPass P.libm env.sr (setting 0 cutoff (bs.map Prod.fst) (t / N)) (setting 1 q (bs.map Prod.fst) (t / N)))
        (lefts (bs.map Prod.snd)) ys := by
  obtain ⟨o, zs, h1, h2, h3, h4⟩ := live_lefts (P := P) (N := N) (env := env) (k := k) (mono := mono) (bs := bs) (c := .lpf (.num cutoff) q)
    (fun p (m : Nat × Biquad) => .prim (.rlpf ⟨[], .fin 1, .fin 120, env.sr, p.1, p.2, m.2, m.1, [k]⟩)) newPair
    (fun p m x => ((m.1 + 1, (biquadStep (rlpfCoef P.libm p.1 p.2 env.sr) m.2 x).1), (biquadStep (rlpfCoef P.libm p.1 p.2 env.sr) m.2 x).2))
    (cutoff, q) (0, Biquad.zero) rfl ⟨_, rfl⟩ rfl
    (fun cs p s => send_pair (wrap := fun p => .prim (.rlpf ⟨[], .fin 1, .fin 120, env.sr, p.1, p.2, s.2, s.1, [k]⟩))
      (fun _ _ => rfl) (fun _ _ => rfl) (fun _ _ _ => rfl) p cs)
    (fun p s x b => by
      simp only [procG, procPrim, procRlpf, chan_bufsOf, bind, Except.bind]
      have hr : ∀ (xs : List Fl) (m : Nat × Biquad), runM (rlpfStep P.libm ⟨[], .fin 1, .fin 120, env.sr, p.1, p.2, s.2, s.1, [k]⟩) (p.1, m.1, m.2) xs =
          .ok ((p.1, (run (fun (m : Nat × Biquad) x => ((m.1 + 1, (biquadStep (rlpfCoef P.libm p.1 p.2 env.sr) m.2 x).1),
            (biquadStep (rlpfCoef P.libm p.1 p.2 env.sr) m.2 x).2)) m xs).1),
            (run (fun (m : Nat × Biquad) x => ((m.1 + 1, (biquadStep (rlpfCoef P.libm p.1 p.2 env.sr) m.2 x).1),
            (biquadStep (rlpfCoef P.libm p.1 p.2 env.sr) m.2 x).2)) m xs).2) := by
        intro xs
        induction xs with
        | nil => intro m; rfl
        | cons y xs ih =>
          intro m
          have := ih (m.1 + 1, (biquadStep (rlpfCoef P.libm p.1 p.2 env.sr) m.2 y).1)
          simp only [runM, run, rlpfStep, patternValue, bind, Except.bind] at this ⊢
          rw [this]
      rw [hr _ s]
      rfl) hs
  refine ⟨o, _, h1, h2, ?_⟩
  have h := runM_pure (fun (m : Nat × Biquad) (q : (Fl × Fl) × Fl) => ((m.1 + 1, (biquadStep (rlpfCoef P.libm q.1.1 q.1.2 env.sr) m.2 q.2).1),
    (biquadStep (rlpfCoef P.libm q.1.1 q.1.2 env.sr) m.2 q.2).2)) (0, Biquad.zero) zs
  obtain ⟨st, h0, _, hst⟩ := runM_states h
  have := biquad_eq (mem := Prod.snd) (inp := Prod.snd) h rfl
    (fun t => rlpfCoef P.libm (setting 0 cutoff (bs.map Prod.fst) (t / N)) (setting 1 q (bs.map Prod.fst) (t / N)) env.sr) st h0 (fun t x hx => by
    obtain ⟨y, g1, g2⟩ := hst t x hx
    have := h4 t x hx
    rw [pair_eq] at this
    refine ⟨y, g1, g2, ?_⟩
    have g3 := Except.ok.inj g2
    rw [this] at g3
    simp only [Prod.mk.injEq] at g3
    rw [← g3.2, ← congrArg Prod.snd g3.1])
  rw [h3] at this
  exact this

/-! ### Delay lines -/

/-- **C71 is false for delay lines**: a message empties them, even if the delay stays the same. A delay of 3 samples has received 1 and 2, is then set to 3 samples again, and
plays silence instead of 1 and 2. -/
theorem c71_delayn_counterexample (P : Plat) :
    playChanged P 2 ⟨[], 44100, .fin 120, 0⟩ (.delayn (.nat 3)) [.index 7]
      (changedFrom 7 true [([], [(.fin 1, .fin 0), (.fin 2, .fin 0)]), ([(0, .fin 3)], [(.fin 3, .fin 0), (.fin 4, .fin 0)]), ([], [(.fin 5, .fin 0), (.fin 6, .fin 0)])]) =
      .ok [[[.fin 0, .fin 0], [.fin 0, .fin 0]], [[.fin 0, .fin 0], [.fin 0, .fin 0]], [[.fin 0, .fin 3], [.fin 0, .fin 3]]] ∧
    playChanged P 2 ⟨[], 44100, .fin 120, 0⟩ (.delayn (.nat 3)) [.index 7]
      (changedFrom 7 true [([], [(.fin 1, .fin 0), (.fin 2, .fin 0)]), ([], [(.fin 3, .fin 0), (.fin 4, .fin 0)]), ([], [(.fin 5, .fin 0), (.fin 6, .fin 0)])]) =
      .ok [[[.fin 0, .fin 0], [.fin 0, .fin 0]], [[.fin 0, .fin 1], [.fin 0, .fin 1]], [[.fin 2, .fin 3], [.fin 2, .fin 3]]] := by
  constructor <;> kernel_rfl

/-! ### Examples -/

/-- A sawtooth at 8 samples a second, changed from 1 to 2 oscillations a second before its second block (a change of another parameter has no effect):
the phase goes on from 1/4. -/
example : playChanged Demo.plat 2 ⟨[], 8, .fin 120, 0⟩ (.saw (.num (.fin 1))) [] (changedSource [[], [(0, .fin 3), (0, .fin 2), (1, .fin 5)], []]) =
    .ok [[[.fin (-1), .fin (-3 / 4)]], [[.fin (-1 / 2), .fin 0]], [[.fin (1 / 2), .fin 1]]] := by kernel_rfl

example : setting 0 (.fin 1) [[], [(0, .fin 3), (0, .fin 2), (1, .fin 5)], []] 0 = .fin 1 ∧
    setting 0 (.fin 1) [[], [(0, .fin 3), (0, .fin 2), (1, .fin 5)], []] 2 = .fin 2 := ⟨rfl, rfl⟩

example : playChanged Demo.plat 2 ⟨[], 8, .fin 120, 0⟩ (.constsig (.fin 1)) [] (changedSource [[], [(0, .fin 3)]]) =
    .ok [[[.fin 1, .fin 1]], [[.fin 3, .fin 3]]] := by kernel_rfl

/-- A number that is applied to an input, changed before the second block. -/
example : playChanged Demo.plat 2 ⟨[], 8, .fin 120, 0⟩ (.mul (.num (.fin 2))) [.index 7]
      (changedFrom 7 false [([], [(.fin 1, .fin 3), (.fin 2, .fin 4)]), ([(0, .fin 3)], [(.fin 1, .fin 3), (.fin 2, .fin 4)])]) =
    .ok [[[.fin 2, .fin 4], [.fin 6, .fin 8]], [[.fin 3, .fin 6], [.fin 9, .fin 12]]] := by kernel_rfl

example : Sized 2 ([(([] : Changes), [(Fl.fin 1, Fl.fin 3), (.fin 2, .fin 4)]), ([(0, .fin 3)], [(.fin 1, .fin 3), (.fin 2, .fin 4)])].map Prod.snd) := by
  intro x hx
  simp only [List.map_cons, List.map_nil, List.mem_cons, List.not_mem_nil, or_false] at hx
  rcases hx with rfl | rfl <;> rfl

end Verif.Props
