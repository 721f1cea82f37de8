import Verif.Lemmas.LiveScript
import Verif.Props.Script

/-! # Scripted nodes whose code is changed while they play (C69, C70) -/

namespace Verif.Props
open Spec Script

variable {F : FastEval} {R : Rhai} {libm : Libm} {ho : HashOrder} {N : Nat} {env : Env}

/-- What a node plays that was built. -/
theorem script_lives {c : Comp} {n : EvalNode F ⊕ MetaNode R}
    (h : makeNode ⟨libm, ho, scripts F R⟩ N env.samples env.sr env.bpm env.seed c = .ok (fresh N 1 (.script [] n), []))
    (msgs : List (Msg Fl)) (steps : List (List (Msg Fl) × Ins)) :
    playChanged ⟨libm, ho, scripts F R⟩ N env c msgs steps =
      match sendMsgs (P := ⟨libm, ho, scripts F R⟩) (.script [] n) msgs with
      | .error e => .error (.panic e)
      | .ok n =>
        match liveBlocks ⟨libm, ho, scripts F R⟩ n (List.replicate 1 (List.replicate N (.fin 0))) steps with
        | .error e => .error (.panic e)
        | .ok r => .ok r := by
  simp only [playChanged, h]
  have h1 : (fresh N 1 (GNode.script [] n) : NodeData (GNode ⟨libm, ho, scripts F R⟩) Buf).node = .script [] n := rfl
  have h2 : (fresh N 1 (GNode.script [] n) : NodeData (GNode ⟨libm, ho, scripts F R⟩) Buf).buffers =
    List.replicate 1 (List.replicate N (.fin 0)) := rfl
  rw [h1, h2]
  generalize sendMsgs (P := ⟨libm, ho, scripts F R⟩) (GNode.script [] n) msgs = q
  cases q with
  | error e => rfl
  | ok n =>
    show (match liveBlocks ⟨libm, ho, scripts F R⟩ n (List.replicate 1 (List.replicate N (.fin 0))) steps with
      | .error e => Except.error (Stop.panic e)
      | .ok r => .ok r) = _
    rfl

/-! ### Formulas -/

theorem evalBy_plays {code : Name} {asgs : List (Name × F.Prog)} {last : F.Prog} (ht : FormulaText F code asgs last)
    {msgs : List (Msg Fl)} {order : List Nat}
    (hm : ∀ extra, sendMsgs (P := ⟨libm, ho, scripts F R⟩) (.script [] (.inl (formula F asgs last extra 0 (startVars env.sr)))) msgs =
      .ok (.script order (.inl (formula F asgs last extra 0 (startVars env.sr)))))
    (bs : List (News F × Ins × List (Option Fl))) (hc : ∀ b ∈ bs, ∀ e ∈ b.1, FormulaText F e.1 e.2.1 e.2.2)
    (hb : ∀ b ∈ bs, b.2.2.length = N ∧ ∀ o : Buf, o.length = N → evalItems order b.2.1 o = .ok b.2.2) (ys : List Fl) :
    (∃ outs, playChanged ⟨libm, ho, scripts F R⟩ N env (.eval code) msgs (bs.map fun b => (b.1.map fun e => .setToSymbol 0 e.1, b.2.1)) = .ok outs ∧
        channel 0 outs = some ys) ↔
      ComputesBy F env.sr (fun t => inEffect (asgs, last) (bs.map fun b => b.1.map Prod.snd) (t / N)) (bs.map fun b => b.2.2).flatten ys := by
  obtain ⟨extra, hn⟩ := new_text ht env.sr
  have hp : ∀ outs, playChanged ⟨libm, ho, scripts F R⟩ N env (.eval code) msgs (bs.map fun b => (b.1.map fun e => .setToSymbol 0 e.1, b.2.1)) = .ok outs ↔
      liveBlocks ⟨libm, ho, scripts F R⟩ (.script order (.inl (heldNode ⟨asgs, last, extra⟩ (0, startVars env.sr))))
        (List.replicate 1 (List.replicate N (.fin 0))) (bs.map fun b => (b.1.map fun e => .setToSymbol 0 e.1, b.2.1)) = .ok outs := by
    intro outs
    rw [script_lives (eval_make hn)]
    rw [hm extra]
    simp only
    show (match liveBlocks ⟨libm, ho, scripts F R⟩ (.script order (.inl (heldNode ⟨asgs, last, extra⟩ (0, startVars env.sr))))
        (List.replicate 1 (List.replicate N (.fin 0))) (bs.map fun b => (b.1.map fun e => .setToSymbol 0 e.1, b.2.1)) with
      | .error e => Except.error (Stop.panic e)
      | .ok r => .ok r) = .ok outs ↔ _
    cases liveBlocks ⟨libm, ho, scripts F R⟩ _ _ _ with
    | error e => simp
    | ok r => simp
  simp only [hp]
  have hbl := blocks_evalBy (R := R) (libm := libm) (ho := ho) (N := N) (order := order) (p := ⟨asgs, last, extra⟩) (m := startVars env.sr) bs hc hb
    (List.replicate 1 (List.replicate N (.fin 0))) (shaped_fresh N 1 ())
  have hcode : ∀ (t : Nat) z, (withPar heldAfter ⟨asgs, last, extra⟩ bs).flatten[t]? = some z →
      (z.1.asgs, z.1.last) = inEffect (asgs, last) (bs.map fun b => b.1.map Prod.snd) (t / N) := by
    intro t z hz
    rw [withPar_at fun b h => (hb b h).1] at hz
    obtain ⟨x, -, rfl⟩ := Option.map_eq_some_iff.mp hz
    have := heldAfter_inEffect (⟨asgs, last, extra⟩ : Held F) (bs.map Prod.fst) (t / N)
    rw [List.map_map] at this
    exact this
  have hl := loopBy_iff (sr := env.sr) (ys := ys) hcode
  rw [withPar_items] at hl
  rw [← hl]
  constructor
  · rintro ⟨outs, h1, h2⟩
    rw [h1] at hbl
    simp only [chanResult, h2] at hbl
    cases hr : runM (fun s (q : Held F × Option Fl) => stepBy q.1 s q.2) (0, startVars env.sr) (withPar heldAfter ⟨asgs, last, extra⟩ bs).flatten with
    | error e => rw [hr] at hbl; cases hbl
    | ok r =>
      rw [hr] at hbl
      refine ⟨r, rfl, ?_⟩
      obtain ⟨zs, h3, -⟩ := stepBy_shape hr
      simp only [loopResult, Except.ok.injEq, Option.some.injEq, h3, List.map_map] at hbl
      rw [hbl, h3]
      simp [Function.comp_def]
  · rintro ⟨r, hr, hy⟩
    rw [hr] at hbl
    refine chanResult_ok (hbl.trans ?_)
    simp only [loopResult, hy, List.map_map]
    simp [Function.comp_def]

/-- **C69 (part).** `eval` with an input, whose code is changed by messages between the blocks: every sample is computed by the formula that was sent last; the variables and
the number of the sample go on. -/
theorem c69_changed_partial {code : Name} {asgs : List (Name × F.Prog)} {last : F.Prog} (ht : FormulaText F code asgs last)
    (k : Nat) (mono : Bool) (bs : List (News F × List (Fl × Fl))) (hc : ∀ b ∈ bs, ∀ e ∈ b.1, FormulaText F e.1 e.2.1 e.2.2)
    (hs : Sized N (bs.map Prod.snd)) (ys : List Fl) :
    (∃ outs, playChanged ⟨libm, ho, scripts F R⟩ N env (.eval code) [.index k] (codesFrom k mono (bs.map fun b => (b.1.map Prod.fst, b.2))) = .ok outs ∧
        channel 0 outs = some ys) ↔
      ComputesBy F env.sr (fun t => inEffect (asgs, last) (bs.map fun b => b.1.map Prod.snd) (t / N))
        ((bs.map Prod.snd).flatten.map fun p => some p.1) ys := by
  have h := evalBy_plays (R := R) (libm := libm) (ho := ho) (N := N) (env := env) ht (msgs := [.index k]) (order := [k])
    (fun extra => rfl) (bs.map fun b => (b.1, [(k, bufsOf mono b.2)], b.2.map fun p => some p.1)) (by
      intro b hb
      obtain ⟨x, hx, rfl⟩ := List.mem_map.mp hb
      exact hc x hx) (by
      intro b hb
      obtain ⟨x, hx, rfl⟩ := List.mem_map.mp hb
      refine ⟨by simp [hs x.2 (List.mem_map_of_mem hx)], fun o _ => ?_⟩
      have h1 : inputAt [(k, bufsOf mono x.2)] [k] 0 = .ok (bufsOf mono x.2) := by simp [inputAt]
      simp only [evalItems, List.isEmpty_cons, h1]
      cases mono <;> simp [bufsOf, chan, Function.comp_def]) ys
  rw [List.map_map, List.map_map, List.map_map] at h
  rw [codesFrom, List.map_map, List.map_flatten, List.map_map]
  simp only [Function.comp_def, List.map_map] at h ⊢
  exact h

/-- **C69 (part).** The same without an input. -/
theorem c69_changed_source_partial {code : Name} {asgs : List (Name × F.Prog)} {last : F.Prog} (ht : FormulaText F code asgs last)
    (bs : List (News F)) (hc : ∀ b ∈ bs, ∀ e ∈ b, FormulaText F e.1 e.2.1 e.2.2) (ys : List Fl) :
    (∃ outs, playChanged ⟨libm, ho, scripts F R⟩ N env (.eval code) [] (codesSource (bs.map fun b => b.map Prod.fst)) = .ok outs ∧
        channel 0 outs = some ys) ↔
      ComputesBy F env.sr (fun t => inEffect (asgs, last) (bs.map fun b => b.map Prod.snd) (t / N)) (List.replicate (bs.length * N) none) ys := by
  have h := evalBy_plays (R := R) (libm := libm) (ho := ho) (N := N) (env := env) ht (msgs := []) (order := [])
    (fun extra => rfl) (bs.map fun b => (b, [], List.replicate N none)) (by
      intro b hb
      obtain ⟨x, hx, rfl⟩ := List.mem_map.mp hb
      exact hc x hx) (by
      intro b hb
      obtain ⟨x, hx, rfl⟩ := List.mem_map.mp hb
      refine ⟨by simp, fun o ho => ?_⟩
      simp only [evalItems, List.isEmpty_nil, if_true, Except.ok.injEq]
      rw [← ho]
      exact List.map_const') ys
  rw [List.map_map, List.map_map, List.map_map] at h
  have e : (bs.map fun _ => List.replicate N (none : Option Fl)).flatten = List.replicate (bs.length * N) none := by
    rw [List.map_const', List.flatten_replicate_replicate]
  simp only [Function.comp_def, e] at h
  rw [codesSource, List.map_map]
  simp only [Function.comp_def, List.map_map] at h ⊢
  exact h

/-- **C69 is false for texts that are no formula, also while playing**: the message panics. -/
theorem c69_changed_unreadable {code s : Name} {ss : List Name} (hc : HasStatements code ss) (hs : s ∈ ss) (hu : Unreadable F s) (order : List Nat)
    (n : EvalNode F) : msgG ⟨libm, ho, scripts F R⟩ (.script order (.inl n)) (.setToSymbol 0 code) = .error .missing := by
  have h1 : (scripts F R).set (.inl n) 0 code = .error .missing := by
    show Sum.inl <$> n.applyCode code = _
    rw [EvalNode.applyCode, hc.1, splitOn_join hc.2.1 hc.2.2, compile_rejected ⟨s, hs, ?_⟩]
    · rfl
    · rcases hu.2 with ⟨h1, h2⟩ | ⟨l, r, rfl, h1, h2, h3⟩
      · rw [cutAssign_none h1]
        exact h2
      · rw [List.append_assoc, cutAssign_some h1 h2]
        exact h3
  simp only [msgG, h1]
  rfl

/-! ### Scripts -/

theorem metaBy_plays {code : Name} {ast : R.Ast} (hc : (R.compile code).getD R.empty = ast) {msgs : List (Msg Fl)} {order : List Nat}
    (hm : sendMsgs (P := ⟨libm, ho, scripts F R⟩) (.script [] (.inr ⟨ast, R.start env.sr⟩)) msgs =
      .ok (.script order (.inr ⟨ast, R.start env.sr⟩)))
    (bs : List (List Name × Ins × Option Buf))
    (hb : ∀ b ∈ bs, (b.2.2 = none → b.2.1 = []) ∧ ∀ x, b.2.2 = some x → b.2.1 ≠ [] ∧ ∃ bufs, inputAt b.2.1 order 0 = .ok bufs ∧ chan bufs 0 = .ok x) :
    ∃ outs, playChanged ⟨libm, ho, scripts F R⟩ N env (.metaScript code) msgs (bs.map fun b => (b.1.map fun t => .setToSymbol 0 t, b.2.1)) =
        .ok (outs.map fun o => [o]) ∧
      MetaPlaysBy R N env.sr (inEffect ast (bs.map fun b => b.1.filterMap R.compile)) (bs.map fun b => b.2.2) outs := by
  have hp := blocks_metaBy (F := F) (libm := libm) (ho := ho) bs hb ast (R.start env.sr) (List.replicate N (.fin 0))
  have hm' : sendMsgs (P := ⟨libm, ho, scripts F R⟩) (.script [] (.inr (.new R env.sr code))) msgs =
      .ok (.script order (.inr ⟨ast, R.start env.sr⟩)) := by
    rw [MetaNode.new, hc]
    exact hm
  refine ⟨metaRunBy R ast (R.start env.sr) (List.replicate N (.fin 0)) (bs.map fun b => (b.1, b.2.2)), ?_, ?_⟩
  · rw [script_lives meta_make, hm']
    simp only
    rw [show List.replicate 1 (List.replicate N (Fl.fin 0)) = [List.replicate N (.fin 0)] from rfl, hp]
  · refine ⟨by rw [metaRunBy_length, List.length_map, List.length_map], ?_⟩
    have := metaRunBy_steps ast (R.start env.sr) (List.replicate N (.fin 0)) (bs.map fun b => (b.1, b.2.2))
    rw [List.map_map, List.map_map] at this
    exact this

/-- Whatever is played is what the scripts say. -/
theorem metaBy_iff {code : Name} {msgs : List (Msg Fl)} {steps : List (List (Msg Fl) × Ins)} {ast : Nat → R.Ast} {ins : List (Option Buf)}
    (h : ∃ outs, playChanged ⟨libm, ho, scripts F R⟩ N env (.metaScript code) msgs steps = .ok (outs.map fun o => [o]) ∧ MetaPlaysBy R N env.sr ast ins outs)
    (outs : List Buf) :
    playChanged ⟨libm, ho, scripts F R⟩ N env (.metaScript code) msgs steps = .ok (outs.map fun o => [o]) ↔ MetaPlaysBy R N env.sr ast ins outs := by
  obtain ⟨o, h1, h2⟩ := h
  rw [h1, Except.ok.injEq, (List.map_injective_iff.mpr fun a b (h : [a] = [b]) => by simpa using h).eq_iff]
  constructor
  · rintro rfl; exact h2
  · intro h3; exact metaPlaysBy_unique h2 h3

/-- **C70 (part).** `meta` with an input, whose code is changed by messages between the blocks: the script in force is the last one sent that compiles, and it finds the
variables that the scripts before left behind. A script that does not compile changes nothing. The node never panics. -/
theorem c70_changed_partial {code : Name} {ast : R.Ast} (hc : R.compile code = some ast) (k : Nat) (mono : Bool)
    (bs : List (List Name × List (Fl × Fl))) :
    (∃ outs, playChanged ⟨libm, ho, scripts F R⟩ N env (.metaScript code) [.index k] (codesFrom k mono bs) = .ok (outs.map fun o => [o]) ∧
      MetaPlaysBy R N env.sr (inEffect ast (bs.map fun b => b.1.filterMap R.compile)) (bs.map fun b => some (b.2.map Prod.fst)) outs) ∧
    ∀ outs, playChanged ⟨libm, ho, scripts F R⟩ N env (.metaScript code) [.index k] (codesFrom k mono bs) = .ok (outs.map fun o => [o]) ↔
      MetaPlaysBy R N env.sr (inEffect ast (bs.map fun b => b.1.filterMap R.compile)) (bs.map fun b => some (b.2.map Prod.fst)) outs := by
  have h := metaBy_plays (F := F) (libm := libm) (ho := ho) (N := N) (env := env) (code := code) (ast := ast) (by rw [hc]; rfl)
    (msgs := [.index k]) (order := [k]) rfl (bs.map fun b => (b.1, [(k, bufsOf mono b.2)], some (b.2.map Prod.fst))) (by
      intro b hb
      obtain ⟨x, hx, rfl⟩ := List.mem_map.mp hb
      refine ⟨fun h => by simp at h, fun y hy => ⟨by simp, bufsOf mono x.2, by simp [inputAt], ?_⟩⟩
      simp only [Option.some.injEq] at hy
      subst hy
      cases mono <;> rfl)
  rw [List.map_map, List.map_map, List.map_map] at h
  exact ⟨h, metaBy_iff h⟩

/-- **C70 (part).** The same without an input. -/
theorem c70_changed_source_partial {code : Name} {ast : R.Ast} (hc : R.compile code = some ast) (bs : List (List Name)) :
    (∃ outs, playChanged ⟨libm, ho, scripts F R⟩ N env (.metaScript code) [] (codesSource bs) = .ok (outs.map fun o => [o]) ∧
      MetaPlaysBy R N env.sr (inEffect ast (bs.map fun b => b.filterMap R.compile)) (bs.map fun _ => none) outs) ∧
    ∀ outs, playChanged ⟨libm, ho, scripts F R⟩ N env (.metaScript code) [] (codesSource bs) = .ok (outs.map fun o => [o]) ↔
      MetaPlaysBy R N env.sr (inEffect ast (bs.map fun b => b.filterMap R.compile)) (bs.map fun _ => none) outs := by
  have h := metaBy_plays (F := F) (libm := libm) (ho := ho) (N := N) (env := env) (code := code) (ast := ast) (by rw [hc]; rfl)
    (msgs := []) (order := []) rfl (bs.map fun b => (b, [], none)) (by
      intro b hb
      obtain ⟨x, hx, rfl⟩ := List.mem_map.mp hb
      exact ⟨fun _ => rfl, fun y hy => by simp at hy⟩)
  rw [List.map_map, List.map_map, List.map_map] at h
  exact ⟨h, metaBy_iff h⟩

/-! ### Examples -/

/-- A running sum that becomes the number of the sample and then the sum again: the sum goes on where it was, and so does the number. -/
example : playChanged scriptPlat 2 ⟨[], 44100, .fin 120, 0⟩ (.eval c!" x :=x+in;x") [.index 7] (codesFrom 7 true
      [([], [(.fin 1, .fin 0), (.fin 2, .fin 0)]), ([c!"phase"], [(.fin 1, .fin 0), (.fin 2, .fin 0)]),
        ([c!"y", c!" x :=x+in;x"], [(.fin 3, .fin 0), (.fin 4, .fin 0)])]) =
    .ok [[[.fin 1, .fin 3]], [[.fin 2, .fin 3]], [[.fin 6, .fin 10]]] := by kernel_rfl

example : ∃ bs : List (News Demo.fasteval × List (Fl × Fl)), FormulaText Demo.fasteval c!" x :=x+in;x" [(c!"x", c!"x+in")] c!"x" ∧
    (∀ b ∈ bs, ∀ e ∈ b.1, FormulaText Demo.fasteval e.1 e.2.1 e.2.2) ∧ Sized 1 (bs.map Prod.snd) ∧
    inEffect ([(c!"x", c!"x+in")], c!"x") (bs.map fun b => b.1.map Prod.snd) 1 = ([], c!"phase") := by
  refine ⟨[([], [(.fin 1, .fin 0)]), ([(c!"phase", [], c!"phase")], [(.fin 1, .fin 0)])], demo_text, ?_, ?_, rfl⟩
  · intro b hb e he
    simp only [List.mem_cons, List.not_mem_nil, or_false] at hb
    rcases hb with rfl | rfl
    · cases he
    · simp only [List.mem_cons, List.not_mem_nil, or_false] at he
      subst he
      exact .last ⟨by decide, by decide, rfl⟩
  · intro x hx
    simp only [List.map_cons, List.map_nil, List.mem_cons, List.not_mem_nil, or_false] at hx
    rcases hx with rfl | rfl <;> rfl

/-- A script that does not compile (`ehco`) changes nothing; the counter goes on while another script plays. -/
example : playChanged scriptPlat 2 ⟨[], 44100, .fin 120, 0⟩ (.metaScript c!"count") [.index 7] (codesFrom 7 true
      [([], [(.fin 5, .fin 0), (.fin 6, .fin 0)]), ([c!"ehco"], [(.fin 5, .fin 0), (.fin 6, .fin 0)]),
        ([c!"echo", c!"ehco"], [(.fin 5, .fin 0), (.fin 6, .fin 0)]), ([c!"count"], [(.fin 5, .fin 0), (.fin 6, .fin 0)])]) =
    .ok [[[.fin 0, .fin 0]], [[.fin 1, .fin 1]], [[.fin 5, .fin 6]], [[.fin 3, .fin 3]]] := by kernel_rfl

end Verif.Props
