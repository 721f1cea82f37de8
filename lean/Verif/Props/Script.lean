import Verif.Lemmas.Script
import Verif.Spec.Demo
import Verif.Lemmas.KernelRfl

/-! # Scripted nodes (C69, C70) -/

namespace Verif.Props
open Spec Script

variable {F : FastEval} {R : Rhai} {libm : Libm} {ho : HashOrder} {N : Nat}

theorem eval_make {env : Env} {code : Name} {n : EvalNode F} (h : EvalNode.new F env.sr code = .ok n) :
    makeNode ⟨libm, ho, scripts F R⟩ N env.samples env.sr env.bpm env.seed (.eval code) = .ok (fresh N 1 (.script [] (.inl n)), []) := by
  show (do let s ← liftP ((scripts F R).new false code env.sr); _) = _
  rw [show (scripts F R).new false code env.sr = .inl <$> EvalNode.new F env.sr code from rfl, h]
  rfl

/-- What a node plays that was built. -/
theorem script_plays {env : Env} {c : Comp} {n : EvalNode F ⊕ MetaNode R}
    (h : makeNode ⟨libm, ho, scripts F R⟩ N env.samples env.sr env.bpm env.seed c = .ok (fresh N 1 (.script [] n), []))
    (msgs : List (Msg Fl)) (ins : List Ins) :
    play ⟨libm, ho, scripts F R⟩ N env c msgs ins =
      match sendMsgs (P := ⟨libm, ho, scripts F R⟩) (.script [] n) msgs with
      | .error e => .error (.panic e)
      | .ok n =>
        match runBlocks (procG ⟨libm, ho, scripts F R⟩) n (List.replicate 1 (List.replicate N (.fin 0))) ins with
        | .error e => .error (.panic e)
        | .ok r => .ok r := by
  simp only [play, h]
  have h1 : (fresh N 1 (GNode.script [] n) : NodeData (GNode ⟨libm, ho, scripts F R⟩) Buf).node = .script [] n := rfl
  have h2 : (fresh N 1 (GNode.script [] n) : NodeData (GNode ⟨libm, ho, scripts F R⟩) Buf).buffers =
    List.replicate 1 (List.replicate N (.fin 0)) := rfl
  rw [h1, h2]
  generalize sendMsgs (P := ⟨libm, ho, scripts F R⟩) (GNode.script [] n) msgs = q
  cases q with
  | error e => rfl
  | ok n =>
    show (match runBlocks (procG ⟨libm, ho, scripts F R⟩) n (List.replicate 1 (List.replicate N (.fin 0))) ins with
      | .error e => Except.error (Stop.panic e)
      | .ok r => .ok r) = _
    rfl

/-- What is heard of a formula on blocks whose samples are known. -/
theorem eval_plays {env : Env} {code : Name} {asgs : List (Name × F.Prog)} {last : F.Prog} (ht : FormulaText F code asgs last)
    {msgs : List (Msg Fl)} {order : List Nat}
    (hm : ∀ extra, sendMsgs (P := ⟨libm, ho, scripts F R⟩) (.script [] (.inl (formula F asgs last extra 0 (startVars env.sr)))) msgs =
      .ok (.script order (.inl (formula F asgs last extra 0 (startVars env.sr)))))
    (bs : List (Ins × List (Option Fl)))
    (hb : ∀ b ∈ bs, b.2.length = N ∧ ∀ o : Buf, o.length = N → evalItems order b.1 o = .ok b.2) (ys : List Fl) :
    (∃ outs, play ⟨libm, ho, scripts F R⟩ N env (.eval code) msgs (bs.map Prod.fst) = .ok outs ∧ channel 0 outs = some ys) ↔
      Computes F env.sr asgs last (bs.map Prod.snd).flatten ys := by
  obtain ⟨extra, hn⟩ := new_text ht env.sr
  have hp : ∀ outs, play ⟨libm, ho, scripts F R⟩ N env (.eval code) msgs (bs.map Prod.fst) = .ok outs ↔
      runBlocks (procG ⟨libm, ho, scripts F R⟩) (.script order (.inl (formula F asgs last extra 0 (startVars env.sr))))
        (List.replicate 1 (List.replicate N (.fin 0))) (bs.map Prod.fst) = .ok outs := by
    intro outs
    rw [script_plays (eval_make hn)]
    rw [hm extra]
    simp only
    cases runBlocks (procG ⟨libm, ho, scripts F R⟩) _ _ _ with
    | error e => simp
    | ok r => simp
  simp only [hp]
  have hbl := blocks_eval (R := R) (libm := libm) (ho := ho) (asgs := asgs) (last := last) (extra := extra) (order := order)
    (m := startVars env.sr) bs hb (List.replicate 1 (List.replicate N (.fin 0))) (shaped_fresh N 1 ())
  rw [← loop_iff (extra := extra)]
  constructor
  · rintro ⟨outs, h1, h2⟩
    rw [h1] at hbl
    simp only [chanResult, h2] at hbl
    cases hr : runM evalStep (formula F asgs last extra 0 (startVars env.sr)) (bs.map Prod.snd).flatten with
    | error e => rw [hr] at hbl; cases hbl
    | ok r =>
      rw [hr] at hbl
      refine ⟨r, rfl, ?_⟩
      obtain ⟨-, zs, h3, -⟩ := loop_shape hr
      simp only [loopResult, Except.ok.injEq, Option.some.injEq, h3, List.map_map] at hbl
      rw [hbl, h3]
      simp [Function.comp_def]
  · rintro ⟨r, hr, hy⟩
    rw [hr] at hbl
    refine chanResult_ok (hbl.trans ?_)
    simp only [loopResult, hy, List.map_map]
    simp [Function.comp_def]

/-- **C69 (part).** `eval` with an input: what is heard is the formula, computed sample by sample. In particular it does not
depend on the length of the blocks. -/
theorem c69_eval_partial {env : Env} {code : Name} {asgs : List (Name × F.Prog)} {last : F.Prog} (ht : FormulaText F code asgs last)
    (k : Nat) (mono : Bool) (xs : List (List (Fl × Fl))) (hs : Sized N xs) (ys : List Fl) :
    (∃ outs, play ⟨libm, ho, scripts F R⟩ N env (.eval code) [.index k] (oneFrom k mono xs) = .ok outs ∧ channel 0 outs = some ys) ↔
      Computes F env.sr asgs last (xs.flatten.map fun p => some p.1) ys := by
  have h := eval_plays (R := R) (libm := libm) (ho := ho) (N := N) (env := env) ht (msgs := [.index k]) (order := [k])
    (fun extra => rfl) (xs.map fun x => ([(k, bufsOf mono x)], x.map fun p => some p.1)) (by
      intro b hb
      obtain ⟨x, hx, rfl⟩ := List.mem_map.mp hb
      refine ⟨by simp [hs x hx], fun o _ => ?_⟩
      have h1 : inputAt [(k, bufsOf mono x)] [k] 0 = .ok (bufsOf mono x) := by simp [inputAt]
      simp only [evalItems, List.isEmpty_cons, h1]
      cases mono <;> simp [bufsOf, chan, Function.comp_def]) ys
  rw [List.map_map, List.map_map] at h
  rw [oneFrom, List.map_flatten]
  exact h

/-- **C69 (part).** `eval` without an input. -/
theorem c69_source_partial {env : Env} {code : Name} {asgs : List (Name × F.Prog)} {last : F.Prog} (ht : FormulaText F code asgs last)
    (n : Nat) (ys : List Fl) :
    (∃ outs, play ⟨libm, ho, scripts F R⟩ N env (.eval code) [] (noInput n) = .ok outs ∧ channel 0 outs = some ys) ↔
      Computes F env.sr asgs last (List.replicate (n * N) none) ys := by
  have h := eval_plays (R := R) (libm := libm) (ho := ho) (N := N) (env := env) ht (msgs := []) (order := [])
    (fun extra => rfl) (List.replicate n ([], List.replicate N none)) (by
      intro b hb
      obtain rfl := List.eq_of_mem_replicate hb
      refine ⟨by simp, fun o ho => ?_⟩
      simp only [evalItems, List.isEmpty_nil, if_true, Except.ok.injEq]
      rw [← ho]
      exact List.map_const') ys
  rw [List.map_replicate, List.map_replicate, List.flatten_replicate_replicate] at h
  exact h

/-! ### Texts that are no formula -/

theorem compile_rejected {ls : List Name}
    (h : ∃ l ∈ ls, F.parse (match cutAssign l with | some p => p.2 | none => l) = none) : compileLines F ls = .error .missing := by
  induction ls with
  | nil => obtain ⟨l, hl, -⟩ := h; cases hl
  | cons l ls ih =>
    obtain ⟨x, hx, hp⟩ := h
    simp only [compileLines]
    rcases List.mem_cons.mp hx with rfl | hx
    · split
      · rfl
      · next h => exact absurd (hp.symm.trans h) (by simp)
    · split
      · rfl
      · rw [ih ⟨x, hx, hp⟩]

theorem new_rejected {code s : Name} {ss : List Name} (hc : HasStatements code ss) (hs : s ∈ ss) (hu : Unreadable F s) (sr : Nat) :
    EvalNode.new F sr code = .error .missing := by
  rw [EvalNode.new, EvalNode.applyCode, hc.1, splitOn_join hc.2.1 hc.2.2, compile_rejected ⟨s, hs, ?_⟩]
  rcases hu.2 with ⟨h1, h2⟩ | ⟨l, r, rfl, h1, h2, h3⟩
  · rw [cutAssign_none h1]
    exact h2
  · rw [List.append_assoc, cutAssign_some h1 h2]
    exact h3

/-- **C69 is false for texts that are no formula**: they are not reported as an error, the engine panics. A text that is no formula is
one with a statement that fasteval rejects. -/
theorem c69_unreadable {code s : Name} {ss : List Name} (hc : HasStatements code ss) (hs : s ∈ ss) (hu : Unreadable F s)
    (parse : Name → Except Panic (Option (Ast Comp))) (e : Engine (glicol ⟨libm, ho, scripts F R⟩ N parse)) (he : e.ast = none)
    (text name : Name) (hp : parse text = .ok (some [(name, [.eval code])])) (τ : TableOrder) :
    e.updateWithCode τ text = .error .missing := by
  have hm : makeNode ⟨libm, ho, scripts F R⟩ N e.samples e.sr e.bpm e.seed (.eval code) = .error (.panic .missing) := by
    show (do let s ← liftP ((scripts F R).new false code e.sr); _) = _
    rw [show (scripts F R).new false code e.sr = .inl <$> EvalNode.new F e.sr code from rfl, new_rejected hc hs hu]
    rfl
  unfold Engine.updateWithCode
  rw [show (glicol ⟨libm, ho, scripts F R⟩ N parse).parse text = _ from hp]
  show e.updateAst τ _ = _
  unfold Engine.updateAst
  simp only [he, diffAll, diffChain, Option.bind_none, enumFrom, addNodes]
  rw [show (glicol ⟨libm, ho, scripts F R⟩ N parse).make e.samples e.sr e.bpm e.seed (.eval code) = _ from hm]
  rfl

/-- A semicolon at the end is enough, since fasteval does not accept the empty text. -/
theorem c69_last_semicolon (hF : F.parse [] = none) {code : Name} {ss : List Name} (hc : HasStatements code ss)
    (parse : Name → Except Panic (Option (Ast Comp))) (e : Engine (glicol ⟨libm, ho, scripts F R⟩ N parse)) (he : e.ast = none)
    (text name : Name) (hp : parse text = .ok (some [(name, [.eval (code ++ [';'])])])) (τ : TableOrder) :
    e.updateWithCode τ text = .error .missing := by
  have hj : ∀ ss : List Name, ss ≠ [] → join ';' (ss ++ [[]]) = join ';' ss ++ [';'] := by
    intro ss
    induction ss with
    | nil => intro h; exact absurd rfl h
    | cons s ss ih =>
      intro _
      cases ss with
      | nil => simp [join]
      | cons t ss =>
        have := ih (by simp)
        simp only [List.cons_append] at this ⊢
        rw [join, this, join]
        simp
  refine c69_unreadable (s := []) (ss := ss ++ [[]]) ⟨?_, by simp, ?_⟩ (by simp) ⟨by simp, .inl ⟨by simp, hF⟩⟩ parse e he text name hp τ
  · rw [hj ss hc.2.1, ← hc.1]
  · intro s hs
    rcases List.mem_append.mp hs with h | h
    · exact hc.2.2 s h
    · simp at h; simp [h]

/-! ### Statements without a name -/

theorem compile_names {ls : List Name} {r : List Name × List F.Prog} (h : compileLines F ls = .ok r) :
    r.1.length = (ls.filter fun l => (cutAssign l).isSome).length := by
  induction ls generalizing r with
  | nil => cases h; rfl
  | cons l ls ih =>
    simp only [compileLines] at h
    split at h
    · cases h
    · split at h
      · cases h
      · next q hq =>
        cases h
        cases hl : cutAssign l with
        | none => simp [hl, ih hq]
        | some c => simp [hl, ih hq]

theorem statements_short {vars : List Name} {ps : List F.Prog} {j : Nat} {m : Name → Option Fl} (h : vars.length + 1 < j + ps.length)
    (hj : j ≤ vars.length) : ∃ p, statements F vars j ps m = .error p := by
  induction ps generalizing j m with
  | nil => simp at h; omega
  | cons p ps ih =>
    rw [statements]
    split
    · exact ⟨_, rfl⟩
    · split
      · simp at h; omega
      · split
        · exact ⟨_, rfl⟩
        · next q ps _ x hx =>
          refine ih ?_ ?_
          · simp at h ⊢; omega
          · have := (List.getElem?_eq_some_iff.mp hx).1
            omega

/-- **C69 is false for statements without a name**: when a statement before the last has no `:=`, the first sample panics. -/
theorem c69_nameless {env : Env} {code : Name} {ss : List Name} {last : Name} (hc : HasStatements code (ss ++ [last]))
    (hs : ∃ s ∈ ss, ¬ c!":=" <:+: s) (hl : ¬ c!":=" <:+: last) (msgs : List (Msg Fl)) (hm : ∀ g ∈ msgs, ∃ i, g = .index i)
    (i : Ins) (is : List Ins) (hN : 0 < N) (hi : ∀ e ∈ i, BlockLen N e.2) :
    ∃ p, play ⟨libm, ho, scripts F R⟩ N env (.eval code) msgs (i :: is) = .error (.panic p) := by
  have hsp : splitOn ';' code = ss ++ [last] := by rw [hc.1, splitOn_join hc.2.1 hc.2.2]
  cases hr : compileLines F (ss ++ [last]) with
  | error e =>
    have hn : EvalNode.new F env.sr code = .error e := by rw [EvalNode.new, EvalNode.applyCode, hsp, hr]
    refine ⟨e, ?_⟩
    rw [play]
    have : makeNode ⟨libm, ho, scripts F R⟩ N env.samples env.sr env.bpm env.seed (.eval code) = .error (.panic e) := by
      show (do let s ← liftP ((scripts F R).new false code env.sr); _) = _
      rw [show (scripts F R).new false code env.sr = .inl <$> EvalNode.new F env.sr code from rfl, hn]
      rfl
    rw [this]
  | ok r =>
    have hlen := compile_length hr
    have hvar := compile_names hr
    have hshort : r.1.length + 1 < r.2.length := by
      rw [hlen, hvar, List.filter_append, List.length_append, List.length_append]
      have h1 : (List.filter (fun l => (cutAssign l).isSome) [last]).length = 0 := by simp [cutAssign_none hl]
      have h2 : (List.filter (fun l => (cutAssign l).isSome) ss).length < ss.length := by
        rw [List.length_filter_lt_length_iff_exists]
        obtain ⟨s, hs1, hs2⟩ := hs
        exact ⟨s, hs1, by simp [cutAssign_none hs2]⟩
      simp only [List.length_singleton]
      omega
    have hn : EvalNode.new F env.sr code = .ok ⟨0, r.1, startVars env.sr, r.2⟩ := by
      rw [EvalNode.new, EvalNode.applyCode, hsp, hr]; rfl
    have hmsgs : ∀ (msgs : List (Msg Fl)), (∀ g ∈ msgs, ∃ i, g = .index i) → ∀ order, ∃ o,
        sendMsgs (P := ⟨libm, ho, scripts F R⟩) (.script order (.inl ⟨0, r.1, startVars env.sr, r.2⟩)) msgs =
          .ok (.script o (.inl ⟨0, r.1, startVars env.sr, r.2⟩)) := by
      intro msgs
      induction msgs with
      | nil => intro _ o; exact ⟨o, rfl⟩
      | cons g gs ih =>
        intro h order
        obtain ⟨i, rfl⟩ := h g (by simp)
        exact ih (fun g hg => h g (by simp [hg])) (order ++ [i])
    obtain ⟨order, ho1⟩ := hmsgs msgs hm []
    have hproc : ∃ p, procG ⟨libm, ho, scripts F R⟩ (.script order (.inl ⟨0, r.1, startVars env.sr, r.2⟩)) i
        [List.replicate N (.fin 0)] = .error p := by
      have : ∃ p, procEval (⟨0, r.1, startVars env.sr, r.2⟩ : EvalNode F) order i [List.replicate N (.fin 0)] = .error p := by
        rw [procEval]
        simp only [chan, List.getElem?_cons_zero]
        cases hx : evalItems order i (List.replicate N (.fin 0)) with
        | error e => exact ⟨e, rfl⟩
        | ok xs =>
          have hxl : xs.length = N := by
            unfold evalItems at hx
            split at hx
            · cases hx; simp
            · split at hx
              · cases hx
              · next bb hbb =>
                split at hx
                · cases hx
                · next x hx' =>
                  cases hx
                  rw [List.length_map]
                  unfold inputAt at hbb
                  split at hbb
                  · cases hbb
                  · split at hbb
                    · next e he =>
                      cases hbb
                      refine hi e (List.mem_of_find?_eq_some he) x ?_
                      unfold chan at hx'
                      split at hx'
                      · next y hy => cases hx'; exact List.mem_of_getElem? hy
                      · cases hx'
                    · cases hbb
          cases xs with
          | nil => simp at hxl; omega
          | cons x xs =>
            obtain ⟨p, hp⟩ := statements_short (F := F) (vars := r.1) (ps := r.2) (j := 0)
              (m := given (startVars env.sr) x 0) (by omega) (by omega)
            have : evalStep (⟨0, r.1, startVars env.sr, r.2⟩ : EvalNode F) x = .error p := by
              have key : evalStep (⟨0, r.1, startVars env.sr, r.2⟩ : EvalNode F) x =
                  match statements F r.1 0 r.2 (given (startVars env.sr) x 0) with
                  | .error e => .error e
                  | .ok (m', y) => .ok (⟨1, r.1, m', r.2⟩, y) := by cases x <;> rfl
              rw [key, hp]
            refine ⟨p, ?_⟩
            simp only [runM, this]
      obtain ⟨p, hp⟩ := this
      refine ⟨p, ?_⟩
      show reState _ (reState _ (procEval _ order _ _)) = _
      rw [hp]
      rfl
    obtain ⟨p, hp⟩ := hproc
    refine ⟨p, ?_⟩
    rw [script_plays (eval_make hn)]
    rw [ho1]
    simp only [runBlocks]
    rw [show List.replicate 1 (List.replicate N (Fl.fin 0)) = [List.replicate N (.fin 0)] from rfl, hp]

/-! ### New code by message -/

/-- Code that is sent by message before playing is played as if it had been written. -/
theorem c69_message {env : Env} {old new : Name} {n : EvalNode F} (h : EvalNode.new F env.sr old = .ok n) {n' : EvalNode F}
    (h' : EvalNode.new F env.sr new = .ok n') (msgs : List (Msg Fl)) (ins : List Ins) :
    play ⟨libm, ho, scripts F R⟩ N env (.eval old) (.setToSymbol 0 new :: msgs) ins =
      play ⟨libm, ho, scripts F R⟩ N env (.eval new) msgs ins := by
  have hmsg : n.set 0 new = .ok n' := by
    rw [EvalNode.new, EvalNode.applyCode] at h h'
    show n.applyCode new = _
    rw [EvalNode.applyCode]
    cases h1 : compileLines F (splitOn ';' old) with
    | error e => rw [h1] at h; cases h
    | ok r =>
      rw [h1] at h
      cases h
      cases h2 : compileLines F (splitOn ';' new) with
      | error e => rw [h2] at h'; cases h'
      | ok q =>
        rw [h2] at h'
        cases h'
        rfl
  have : sendMsgs (P := ⟨libm, ho, scripts F R⟩) (.script [] (.inl n)) (.setToSymbol 0 new :: msgs) =
      sendMsgs (P := ⟨libm, ho, scripts F R⟩) (.script [] (.inl n')) msgs := by
    rw [sendMsgs]
    have : msgG ⟨libm, ho, scripts F R⟩ (.script [] (.inl n)) (.setToSymbol 0 new) = .ok (.script [] (.inl n')) := by
      have h1 : (scripts F R).set (.inl n) 0 new = .ok (.inl n') := by
        show Sum.inl <$> n.set 0 new = _
        rw [hmsg]
        rfl
      simp only [msgG, h1]
      rfl
    rw [this]
  rw [script_plays (eval_make h), script_plays (eval_make h'), this]

/-! ### Scripts -/

theorem meta_make {env : Env} {code : Name} :
    makeNode ⟨libm, ho, scripts F R⟩ N env.samples env.sr env.bpm env.seed (.metaScript code) =
      .ok (fresh N 1 (.script [] (.inr (.new R env.sr code))), []) := rfl

theorem meta_plays {env : Env} {code : Name} {ast : R.Ast} (hc : (R.compile code).getD R.empty = ast) {msgs : List (Msg Fl)} {order : List Nat}
    (hm : sendMsgs (P := ⟨libm, ho, scripts F R⟩) (.script [] (.inr ⟨ast, R.start env.sr⟩)) msgs =
      .ok (.script order (.inr ⟨ast, R.start env.sr⟩)))
    (bs : List (Ins × Option Buf))
    (hb : ∀ b ∈ bs, (b.2 = none → b.1 = []) ∧ ∀ x, b.2 = some x → b.1 ≠ [] ∧ ∃ bufs, inputAt b.1 order 0 = .ok bufs ∧ chan bufs 0 = .ok x)
    (outs : List Buf) :
    play ⟨libm, ho, scripts F R⟩ N env (.metaScript code) msgs (bs.map Prod.fst) = .ok (outs.map fun o => [o]) ↔
      MetaPlays R N env.sr ast (bs.map Prod.snd) outs := by
  have hp := blocks_meta (F := F) (libm := libm) (ho := ho) (ast := ast) bs hb (R.start env.sr) (List.replicate N (.fin 0))
  have hm' : sendMsgs (P := ⟨libm, ho, scripts F R⟩) (.script [] (.inr (.new R env.sr code))) msgs =
      .ok (.script order (.inr ⟨ast, R.start env.sr⟩)) := by
    rw [MetaNode.new, hc]
    exact hm
  rw [script_plays meta_make, hm']
  simp only
  rw [show List.replicate 1 (List.replicate N (Fl.fin 0)) = [List.replicate N (.fin 0)] from rfl, hp]
  simp only [Except.ok.injEq]
  rw [(List.map_injective_iff.mpr fun a b (h : [a] = [b]) => by simpa using h).eq_iff]
  constructor
  · rintro rfl
    exact metaPlays_run N env.sr ast _
  · intro h
    exact metaPlays_unique (metaPlays_run N env.sr ast _) h

theorem meta_some {env : Env} {code : Name} {ast : R.Ast} {msgs : List (Msg Fl)} {ins : List Ins} {bs : List (Option Buf)}
    (h : ∀ outs, play ⟨libm, ho, scripts F R⟩ N env (.metaScript code) msgs ins = .ok (outs.map fun o => [o]) ↔
      MetaPlays R N env.sr ast bs outs) :
    ∃ outs, play ⟨libm, ho, scripts F R⟩ N env (.metaScript code) msgs ins = .ok (outs.map fun o => [o]) ∧
      MetaPlays R N env.sr ast bs outs :=
  ⟨_, (h _).mpr (metaPlays_run N env.sr ast bs), metaPlays_run N env.sr ast bs⟩

/-- **C70 (part).** `meta` with an input: what is heard is what the script returns block by block, and the node never panics. -/
theorem c70_meta_partial {env : Env} {code : Name} {ast : R.Ast} (hc : R.compile code = some ast) (k : Nat) (mono : Bool)
    (xs : List (List (Fl × Fl))) :
    (∃ outs, play ⟨libm, ho, scripts F R⟩ N env (.metaScript code) [.index k] (oneFrom k mono xs) = .ok (outs.map fun o => [o]) ∧
      MetaPlays R N env.sr ast (xs.map fun x => some (x.map Prod.fst)) outs) ∧
    ∀ outs, play ⟨libm, ho, scripts F R⟩ N env (.metaScript code) [.index k] (oneFrom k mono xs) = .ok (outs.map fun o => [o]) ↔
      MetaPlays R N env.sr ast (xs.map fun x => some (x.map Prod.fst)) outs := by
  have h : ∀ outs, play ⟨libm, ho, scripts F R⟩ N env (.metaScript code) [.index k] (oneFrom k mono xs) = .ok (outs.map fun o => [o]) ↔
      MetaPlays R N env.sr ast (xs.map fun x => some (x.map Prod.fst)) outs := by
    intro outs
    have h := meta_plays (F := F) (libm := libm) (ho := ho) (N := N) (env := env) (code := code) (ast := ast) (by rw [hc]; rfl)
      (msgs := [.index k]) (order := [k]) rfl (xs.map fun x => ([(k, bufsOf mono x)], some (x.map Prod.fst))) (by
        intro b hb
        obtain ⟨x, hx, rfl⟩ := List.mem_map.mp hb
        refine ⟨fun h => by simp at h, fun y hy => ⟨by simp, bufsOf mono x, by simp [inputAt], ?_⟩⟩
        simp only [Option.some.injEq] at hy
        subst hy
        cases mono <;> rfl) outs
    rw [List.map_map, List.map_map] at h
    exact h
  exact ⟨meta_some h, h⟩

/-- **C70 (part).** `meta` without an input. -/
theorem c70_source_partial {env : Env} {code : Name} {ast : R.Ast} (hc : R.compile code = some ast) (n : Nat) :
    (∃ outs, play ⟨libm, ho, scripts F R⟩ N env (.metaScript code) [] (noInput n) = .ok (outs.map fun o => [o]) ∧
      MetaPlays R N env.sr ast (List.replicate n none) outs) ∧
    ∀ outs, play ⟨libm, ho, scripts F R⟩ N env (.metaScript code) [] (noInput n) = .ok (outs.map fun o => [o]) ↔
      MetaPlays R N env.sr ast (List.replicate n none) outs := by
  have h : ∀ outs, play ⟨libm, ho, scripts F R⟩ N env (.metaScript code) [] (noInput n) = .ok (outs.map fun o => [o]) ↔
      MetaPlays R N env.sr ast (List.replicate n none) outs := by
    intro outs
    have h := meta_plays (F := F) (libm := libm) (ho := ho) (N := N) (env := env) (code := code) (ast := ast) (by rw [hc]; rfl)
      (msgs := []) (order := []) rfl (List.replicate n ([], none)) (by
        intro b hb
        obtain rfl := List.eq_of_mem_replicate hb
        exact ⟨fun _ => rfl, fun y hy => by simp at hy⟩) outs
    rw [List.map_replicate, List.map_replicate] at h
    exact h
  exact ⟨meta_some h, h⟩

/-- **C70 (part).** A script that computes a whole block of numbers from its input, whatever it remembers, is a function of blocks. -/
theorem c70_function_partial {env : Env} {code : Name} {ast : R.Ast} (hc : R.compile code = some ast) (f : Buf → Buf)
    (hf : ∀ s x, (R.eval ast (R.setInput s x)).2 = some ((f x).map some)) (hN : ∀ x, x.length = N → (f x).length = N)
    (k : Nat) (mono : Bool) (xs : List (List (Fl × Fl))) (hs : Sized N xs) :
    play ⟨libm, ho, scripts F R⟩ N env (.metaScript code) [.index k] (oneFrom k mono xs) =
      .ok (xs.map fun x => [f (x.map Prod.fst)]) := by
  obtain ⟨outs, h1, h2, scope, out, h3, h4, h5⟩ := (c70_meta_partial (F := F) (libm := libm) (ho := ho) (N := N) (env := env) hc k mono xs).1
  rw [h1]
  have hlen : ∀ t : Nat, t ≤ xs.length → (out t).length = N ∧ ∀ x, 0 < t → xs[t - 1]? = some x → out t = f (x.map Prod.fst) := by
    intro t
    induction t with
    | zero => intro _; exact ⟨by rw [h4]; simp, fun x h => by omega⟩
    | succ t ih =>
      intro ht
      have hx : xs[t]? = some xs[t] := List.getElem?_eq_getElem (by omega)
      obtain ⟨-, res, h6, h7, -⟩ := h5 t (some (xs[t].map Prod.fst)) (by rw [List.getElem?_map, hx]; rfl)
      have h8 := hf (scope t) (xs[t].map Prod.fst)
      rw [show R.setInput (scope t) (xs[t].map Prod.fst) = inputSet R (scope t) (some (xs[t].map Prod.fst)) from rfl, h6] at h8
      obtain ⟨l1, l2⟩ := h7 _ h8
      have hfl : (f (xs[t].map Prod.fst)).length = N := hN _ (by rw [List.length_map]; exact hs _ (List.mem_of_getElem? hx))
      have hol := (ih (by omega)).1
      refine ⟨l1.trans hol, fun x _ hx' => ?_⟩
      rw [Nat.add_sub_cancel, hx] at hx'
      cases hx'
      refine List.ext_getElem? fun i => ?_
      by_cases hi : i < N
      · rw [List.getElem?_eq_getElem (l := f _) (by omega)]
        exact (l2 i (by omega)).1 _ (by rw [List.getElem?_map, List.getElem?_eq_getElem (by omega)]; rfl)
      · rw [List.getElem?_eq_none (by omega), List.getElem?_eq_none (by omega)]
  congr 1
  refine List.ext_getElem? fun t => ?_
  rw [List.getElem?_map, List.getElem?_map]
  rw [List.length_map] at h2
  by_cases ht : t < xs.length
  · have hx : xs[t]? = some xs[t] := List.getElem?_eq_getElem ht
    rw [(h5 t (some (xs[t].map Prod.fst)) (by rw [List.getElem?_map, hx]; rfl)).1, hx]
    simp only [Option.map_some, Option.some.injEq]
    rw [(hlen (t + 1) (by omega)).2 xs[t] (by omega) hx]
  · rw [List.getElem?_eq_none (l := outs) (by omega), List.getElem?_eq_none (l := xs) (by omega)]
    rfl

/-- **C70 is false for code that does not compile**: nothing is reported, the node is built and is silent (`hR`: the empty script does not
return an array). -/
theorem c70_bad_code (hR : ∀ s, (R.eval R.empty s).2 = none) {code : Name} (hc : R.compile code = none)
    {env : Env} (k : Nat) (mono : Bool) (xs : List (List (Fl × Fl))) :
    play ⟨libm, ho, scripts F R⟩ N env (.metaScript code) [.index k] (oneFrom k mono xs) =
      .ok (xs.map fun _ => [List.replicate N (.fin 0)]) := by
  have h := blocks_meta (F := F) (libm := libm) (ho := ho) (ast := R.empty) (order := [k])
    (xs.map fun x => ([(k, bufsOf mono x)], some (x.map Prod.fst))) (by
        intro b hb
        obtain ⟨x, hx, rfl⟩ := List.mem_map.mp hb
        refine ⟨fun h => by simp at h, fun y hy => ⟨by simp, bufsOf mono x, by simp [inputAt], ?_⟩⟩
        simp only [Option.some.injEq] at hy
        subst hy
        cases mono <;> rfl) (R.start env.sr) (List.replicate N (.fin 0))
  have hrun : ∀ (bs : List (Option Buf)) s o, metaRun R R.empty s o bs = bs.map fun _ => o := by
    intro bs
    induction bs with
    | nil => intro s o; rfl
    | cons b bs ih => intro s o; simp only [metaRun, hR, ih, List.map_cons]
  have hm : sendMsgs (P := ⟨libm, ho, scripts F R⟩) (.script [] (.inr (.new R env.sr code))) [.index k] =
      .ok (.script [k] (.inr ⟨R.empty, R.start env.sr⟩)) := by
    rw [MetaNode.new, hc]
    rfl
  rw [hrun, List.map_map, List.map_map, List.map_map, List.map_map] at h
  rw [script_plays meta_make, hm]
  simp only
  rw [show List.replicate 1 (List.replicate N (Fl.fin 0)) = [List.replicate N (.fin 0)] from rfl, oneFrom]
  rw [show xs.map (fun x => [(k, bufsOf mono x)]) = xs.map (Prod.fst ∘ fun x => ([(k, bufsOf mono x)], some (x.map Prod.fst))) from rfl, h]
  rfl

/-! ### Witnesses -/

/-- The platform of the examples. -/
def scriptPlat : Plat := ⟨Demo.libm, .ident, scripts Demo.fasteval Demo.rhai⟩

/-- **C69 is false for a name given to the last statement**: `x:=x+1` does not set `x`, while `x:=x+1;x` does. -/
theorem c69_last_name_counterexample :
    play scriptPlat 2 ⟨[], 44100, .fin 120, 0⟩ (.eval c!"x:=x+1") [] (noInput 2) = .ok [[[.fin 1, .fin 1]], [[.fin 1, .fin 1]]] ∧
    play scriptPlat 2 ⟨[], 44100, .fin 120, 0⟩ (.eval c!"x:=x+1;x") [] (noInput 2) = .ok [[[.fin 1, .fin 2]], [[.fin 3, .fin 4]]] := by
  constructor <;> kernel_rfl

/-- **C70 is false for a script that fails**: the block before it is played again, forever. -/
theorem c70_failing_counterexample (n : Nat) :
    play scriptPlat 2 ⟨[], 44100, .fin 120, 0⟩ (.metaScript c!"once") [] (noInput n) = .ok (List.replicate n [[.fin 1, .fin 1]]) := by
  have h := (c70_source_partial (F := Demo.fasteval) (libm := Demo.libm) (ho := .ident) (N := 2) (env := ⟨[], 44100, .fin 120, 0⟩)
    (show Demo.rhai.compile c!"once" = some c!"once" from rfl) n).2 (List.replicate n [.fin 1, .fin 1])
  rw [List.map_replicate] at h
  refine h.mpr ⟨by simp, fun k => ((k, []) : Nat × Buf), fun k => if k = 0 then [.fin 0, .fin 0] else [.fin 1, .fin 1], rfl, rfl, ?_⟩
  intro k i hi
  obtain ⟨hk, -⟩ := List.getElem?_eq_some_iff.mp hi
  rw [List.length_replicate] at hk
  rw [List.getElem?_replicate_of_lt hk] at hi ⊢
  cases hi
  refine ⟨by simp, _, rfl, ?_⟩
  cases k with
  | zero =>
    refine ⟨fun r hr => ?_, fun hr => (nomatch hr)⟩
    cases hr
    rw [laid_iff]
    rfl
  | succ k =>
    exact ⟨fun r hr => (nomatch hr), fun _ => by simp⟩

/-- **C70 is false for a short array**: the rest of the block is what was played before, not silence. -/
theorem c70_short_counterexample :
    play scriptPlat 2 ⟨[], 44100, .fin 120, 0⟩ (.metaScript c!"short") [] (noInput 2) = .ok [[[.fin 1, .fin 1]], [[.fin 2, .fin 1]]] := by
  kernel_rfl

/-! ### Examples -/

theorem demo_text : FormulaText Demo.fasteval c!" x :=x+in;x" [(c!"x", c!"x+in")] c!"x" :=
  .assign (a := c!" ") (x := c!"x") (b := c!" ") (s := c!"x+in") (by simp [BlankText]) (by simp [VarName]) (by simp [BlankText])
    ⟨by decide, by decide, rfl⟩ (.last ⟨by decide, by decide, rfl⟩)

/-- A running sum. -/
example : Computes Demo.fasteval 44100 [(c!"x", c!"x+in")] c!"x" [some (.fin 1), some (.fin 2), some (.fin 3), some (.fin 4)]
    [.fin 1, .fin 3, .fin 6, .fin 10] :=
  (c69_eval_partial (R := Demo.rhai) (libm := Demo.libm) (ho := .ident) (N := 2) (env := ⟨[], 44100, .fin 120, 0⟩) demo_text 7 true
    [[(.fin 1, .fin 0), (.fin 2, .fin 0)], [(.fin 3, .fin 0), (.fin 4, .fin 0)]] (by simp [Sized]) _).mp
    ⟨[[[.fin 1, .fin 3]], [[.fin 6, .fin 10]]], by kernel_rfl, rfl⟩

/-- Without an input the same formula panics: `in` is not set. -/
example : ∀ ys, ¬ Computes Demo.fasteval 44100 [(c!"x", c!"x+in")] c!"x" (List.replicate (1 * 2) none) ys := by
  intro ys h
  obtain ⟨outs, h, -⟩ := (c69_source_partial (R := Demo.rhai) (libm := Demo.libm) (ho := .ident) (N := 2)
    (env := ⟨[], 44100, .fin 120, 0⟩) demo_text 1 ys).mpr h
  have : play scriptPlat 2 ⟨[], 44100, .fin 120, 0⟩ (.eval c!" x :=x+in;x") [] (noInput 1) = .error (.panic .missing) := by kernel_rfl
  exact absurd (h.symm.trans this) (by simp)

example : HasStatements c!"x+1;y+1" [c!"x+1", c!"y+1"] ∧ Unreadable Demo.fasteval c!"y+1" :=
  ⟨⟨rfl, by simp, by decide⟩, by decide, .inl ⟨by decide, rfl⟩⟩

example : HasStatements c!"x+1;y;x" ([c!"x+1", c!"y"] ++ [c!"x"]) ∧ ¬ c!":=" <:+: c!"y" ∧ ¬ c!":=" <:+: c!"x" :=
  ⟨⟨rfl, by simp, by decide⟩, by decide, by decide⟩

example : play scriptPlat 2 ⟨[], 44100, .fin 120, 0⟩ (.eval c!"x") [.setToSymbol 0 c!"phase"] (noInput 2) =
    .ok [[[.fin 0, .fin 1]], [[.fin 2, .fin 3]]] := by kernel_rfl

example : play scriptPlat 2 ⟨[], 44100, .fin 120, 0⟩ (.metaScript c!"count") [] (noInput 3) =
    .ok [[[.fin 0, .fin 0]], [[.fin 1, .fin 1]], [[.fin 2, .fin 2]]] := by kernel_rfl

/-- A function of blocks. -/
example (env : Env) (k : Nat) (mono : Bool) (xs : List (List (Fl × Fl))) (hs : Sized 2 xs) :
    play scriptPlat 2 env (.metaScript c!"echo") [.index k] (oneFrom k mono xs) = .ok (xs.map fun x => [x.map Prod.fst]) :=
  c70_function_partial (f := fun x => x) (show Demo.rhai.compile c!"echo" = some c!"echo" from rfl) (fun _ _ => rfl) (fun _ h => h) k mono xs hs

example : (∀ s, (Demo.rhai.eval Demo.rhai.empty s).2 = none) ∧ Demo.rhai.compile c!"ehco" = none := ⟨fun _ => rfl, rfl⟩

end Verif.Props
