import Verif.Spec.Settings
import Verif.Lemmas.Table

/-! Steps of the engine read seed, sample rate and samples only to make nodes. -/

namespace Verif.Props.Settings
open Verif Spec Verif.Spec.Settings Verif.Spec.PagePlay

section
variable {L : Lang}

/-- The engine with other settings. -/
def env (w : List (Name × L.Smp)) (r v : Nat) (e : Engine L) : Engine L := { e with samples := w, sr := r, seed := v }

theorem addNodes_congr {mk mk' : L.Comp → Except Stop (L.Data × List Name)} {name : Name} {l : List (Nat × L.Comp)}
    (h : ∀ p ∈ l, mk p.2 = mk' p.2) : addNodes mk name l = addNodes mk' name l := by
  induction l with
  | nil => rfl
  | cons p l ih =>
    obtain ⟨i, c⟩ := p
    simp only [addNodes, h (i, c) List.mem_cons_self, ih (fun q hq => h q (List.mem_cons_of_mem _ hq))]

theorem mem_enumFrom {β : Type} {l : List β} {n : Nat} {p : Nat × β} (h : p ∈ enumFrom n l) : p.2 ∈ l := by
  induction l generalizing n with
  | nil => cases h
  | cons b l ih =>
    rcases List.mem_cons.mp h with rfl | h
    · exact List.mem_cons_self
    · exact List.mem_cons_of_mem _ (ih h)

theorem diffAll_congr {mk mk' : L.Comp → Except Stop (L.Data × List Name)} {old : Option (Ast L.Comp)} {new : Ast L.Comp}
    (h : ∀ k comps, (k, comps) ∈ new → ∀ c ∈ comps, mk c = mk' c) : diffAll mk old new = diffAll mk' old new := by
  induction new with
  | nil => rfl
  | cons x new ih =>
    obtain ⟨name, comps⟩ := x
    have h1 := h name comps List.mem_cons_self
    have hc : diffChain mk old name comps = diffChain mk' old name comps := by
      unfold diffChain
      split
      · exact addNodes_congr (fun p hp => h1 _ (mem_enumFrom hp))
      · rename_i o _
        rw [addNodes_congr (mk := mk) (mk' := mk') (fun p hp => h1 _ (mem_enumFrom (List.mem_filter.mp hp).1))]
    simp only [diffAll, hc, ih (fun k cs hk => h k cs (List.mem_cons_of_mem _ hk))]

/-- Nothing is built for chains whose components are all there already. -/
theorem diffAll_kept {mk mk' : L.Comp → Except Stop (L.Data × List Name)} {old : Ast L.Comp} {new : Ast L.Comp}
    (h : ∀ k comps, (k, comps) ∈ new → ∃ o, lookup old k = some o ∧ ∀ c ∈ comps, ∃ x ∈ o, L.compEq x c = true) :
    diffAll mk (some old) new = diffAll mk' (some old) new := by
  induction new with
  | nil => rfl
  | cons x new ih =>
    obtain ⟨name, comps⟩ := x
    obtain ⟨o, ho, h1⟩ := h name comps List.mem_cons_self
    have hc : diffChain mk (some old) name comps = diffChain mk' (some old) name comps := by
      have hf : (enumFrom 0 comps).filter (fun p => !o.any (fun c => L.compEq c p.2)) = [] := by
        rw [List.filter_eq_nil_iff]
        intro p hp
        obtain ⟨y, hy, he⟩ := h1 _ (mem_enumFrom hp)
        simp only [Bool.not_eq_true', Bool.not_eq_false, List.any_eq_true]
        exact ⟨y, hy, he⟩
      unfold diffChain
      simp only [Option.bind, ho, hf, addNodes]
    simp only [diffAll, hc, ih (fun k cs hk => h k cs (List.mem_cons_of_mem _ hk))]

theorem env_updateAst (w : List (Name × L.Smp)) (r v : Nat) (τ : TableOrder) (new : Ast L.Comp) (e : Engine L)
    (h : diffAll (L.make w r e.bpm v) e.ast new = diffAll (L.make e.samples e.sr e.bpm e.seed) e.ast new) :
    Engine.updateAst τ (env w r v e) new = (Engine.updateAst τ e new).map (fun x => (env w r v x.1, x.2)) := by
  unfold Engine.updateAst
  simp only [env, oldKeys]
  rw [h]
  cases diffAll (L.make e.samples e.sr e.bpm e.seed) e.ast new with
  | error s => cases s <;> rfl
  | ok diff =>
    simp only [bind, Except.bind]
    cases dropChains new (match e.ast with | none => [] | some o => o.map Prod.fst) e.index with
    | error p => rfl
    | ok r1 =>
      obtain ⟨t1, gone1⟩ := r1
      simp only
      cases dropNodes diff.removes.reverse t1 with
      | error p => rfl
      | ok r2 =>
        obtain ⟨t2, gone2⟩ := r2
        simp only
        cases insertNodes diff.adds e.graph t2 with
        | error p => rfl
        | ok r3 =>
          obtain ⟨g3, t3, created⟩ := r3
          simp only
          cases refCheck t3 new (diff.refpairs.flatMap (·.1)) with
          | some r => rfl
          | none =>
            simp only
            cases connectPairs (τ.ord t3) diff.refpairs [] (removeAll g3 (gone1 ++ gone2)).clearEdges with
            | error p => rfl
            | ok r4 =>
              obtain ⟨g5, bad⟩ := r4
              cases bad with
              | some x => rfl
              | none =>
                simp only
                cases connectTable e.dest (τ.ord t3) g5 <;> rfl

theorem env_update (w : List (Name × L.Smp)) (r v : Nat) (τ : TableOrder) (code : Name) (e : Engine L)
    (h : ∀ new, L.parse code = .ok (some new) → ∀ k comps, (k, comps) ∈ new → ∀ c ∈ comps,
      L.make w r e.bpm v c = L.make e.samples e.sr e.bpm e.seed c) :
    Engine.updateWithCode τ (env w r v e) code = (Engine.updateWithCode τ e code).map (fun x => (env w r v x.1, x.2)) := by
  unfold Engine.updateWithCode
  simp only [bind, Except.bind]
  cases hp : L.parse code with
  | error p => rfl
  | ok x =>
    cases x with
    | none => rfl
    | some new => exact env_updateAst w r v τ new e (diffAll_congr (h new hp))

theorem env_copyInput (w : List (Name × L.Smp)) (r v : Nat) (e : Engine L) (ch : Nat) (b : List L.Num) :
    (env w r v e).copyInput ch b = (e.copyInput ch b).map (env w r v) := by
  unfold Engine.copyInput
  simp only [env, bind, Except.bind]
  cases lookup e.index inputName with
  | none => rfl
  | some nodes =>
    simp only
    cases nodes[0]? with
    | none => rfl
    | some i =>
      simp only
      cases e.graph.modify i _ <;> rfl

theorem env_copyInputs (w : List (Name × L.Smp)) (r v : Nat) (e : Engine L) (buf : List (List L.Num)) :
    (env w r v e).copyInputs buf = (e.copyInputs buf).map (env w r v) := by
  unfold Engine.copyInputs
  split
  · rfl
  · exact env_copyInput ..
  · simp only [bind, Except.bind, env_copyInput]
    cases e.copyInput 0 _ with
    | error p => rfl
    | ok e1 => exact env_copyInput ..

theorem env_nextBlock (w : List (Name × L.Smp)) (r v : Nat) (ho : HashOrder) (buf : List (List L.Num)) (e : Engine L) :
    (env w r v e).nextBlock ho buf = (e.nextBlock ho buf).map (fun x => (env w r v x.1, x.2)) := by
  unfold Engine.nextBlock
  simp only [bind, Except.bind, env_copyInputs]
  cases e.copyInputs buf with
  | error p => rfl
  | ok e1 =>
    simp only [Except.map, env]
    cases process L.proc ho e1.graph e1.dest with
    | error p => rfl
    | ok g =>
      simp only
      cases g.node? e1.dest <;> rfl

theorem env_setBpm (w : List (Name × L.Smp)) (r v : Nat) (e : Engine L) (b : L.Num) :
    (env w r v e).setBpm b = (e.setBpm b).map (env w r v) := by
  unfold Engine.setBpm
  simp only [env, bind, Except.bind]
  cases sendAll (L := L) (.setBPM b) e.graph.slots <;> rfl

theorem env_command (w : List (Name × L.Smp)) (r v : Nat) (e : Engine L) (cmd : Name) :
    (env w r v e).command cmd = (e.command cmd).map (env w r v) := by
  unfold Engine.command
  cases parseCommand L cmd with
  | none => rfl
  | some x =>
    obtain ⟨chain, pos, m⟩ := x
    simp only [Engine.deliver, env, bind, Except.bind]
    cases lookup e.index chain with
    | none => rfl
    | some nodes =>
      simp only
      cases nodes[pos]? with
      | none => rfl
      | some i =>
        simp only
        cases sendTo e.graph i m <;> rfl

theorem env_sendMsg (w : List (Name × L.Smp)) (r v : Nat) (e : Engine L) (msg : Name) :
    (env w r v e).sendMsg msg = (e.sendMsg msg).map (env w r v) := by
  unfold Engine.sendMsg
  simp only
  generalize (splitOn ';' (msg.filter (fun c => !isWhitespace c))).filter (fun c => !c.isEmpty) = cmds
  induction cmds generalizing e with
  | nil => rfl
  | cons c cmds ih =>
    simp only [List.foldlM_cons, bind, Except.bind, env_command]
    cases e.command c with
    | error p => rfl
    | ok e1 => exact ih e1

/-- Settings `w r v` differ from those of `e` at most in `S`. -/
structure Off (S : Setting → Bool) (w : List (Name × L.Smp)) (r v : Nat) (e : Engine L) : Prop where
  seed : S .seed = false → v = e.seed
  rate : S .rate = false → r = e.sr
  sample : ∀ n, S (.sample n) = false → lookup w n = lookup e.samples n

end

section
variable {P : Plat} {N : Nat} {parse : Name → Except Panic (Option (Ast Comp))}

theorem select_congr {s s' : List (Name × Sample)} {es : Events}
    (h : ∀ n, (∃ t, (EventValue.sym n, t) ∈ es ∨ ∃ v, (EventValue.num v, t) ∈ es ∧ n = []) → lookup s n = lookup s' n) :
    selectSamples s es = selectSamples s' es := by
  induction es with
  | nil => rfl
  | cons x es ih =>
    obtain ⟨v, t⟩ := x
    have ih := ih (fun n ⟨t, ht⟩ => h n ⟨t, ht.imp (List.mem_cons_of_mem _) (fun ⟨v, hv, e⟩ => ⟨v, List.mem_cons_of_mem _ hv, e⟩)⟩)
    unfold selectSamples
    cases v with
    | num v => simp only [h [] ⟨t, .inr ⟨v, List.mem_cons_self, rfl⟩⟩, ih]
    | sym s => simp only [h s ⟨t, .inl List.mem_cons_self⟩, ih]

/-- What a component does not use does not change its node. -/
theorem make_congr (S : Setting → Bool) {w s : List (Name × Sample)} {r sr v seed : Nat} {bpm : Fl} {c : Comp}
    (h1 : S .seed = false → v = seed) (h2 : S .rate = false → r = sr)
    (h3 : ∀ n, S (.sample n) = false → lookup w n = lookup s n)
    (hu : ∀ x, S x = true → ¬ Uses c x) : makeNode P N w r bpm v c = makeNode P N s sr bpm seed c := by
  have g1 : Uses c .seed → v = seed := fun hx => h1 (by
    cases hS : S .seed with
    | false => rfl
    | true => exact absurd hx (hu _ hS))
  have g2 : Uses c .rate → r = sr := fun hx => h2 (by
    cases hS : S .rate with
    | false => rfl
    | true => exact absurd hx (hu _ hS))
  have g3 : ∀ n, Uses c (.sample n) → lookup w n = lookup s n := fun n hx => h3 n (by
    cases hS : S (.sample n) with
    | false => rfl
    | true => exact absurd hx (hu _ hS))
  cases c with
  | choose l => obtain rfl := g1 trivial; rfl
  | sp y =>
    obtain rfl := g2 trivial
    have := g3 y rfl
    simp only [makeNode, makePrim, this]
  | psampler es span =>
    obtain rfl := g2 trivial
    cases span with
    | none => rfl
    | some q =>
      have := select_congr g3
      simp only [makeNode, makePrim, this]
  | mul _ | add _ | pan _ | noise _ | speed _ | get _ | mix _ | balance _ _ | rhpf _ _ | onepole _ | bd _ | hh _ | sn _
  | sawsynth _ _ | squsynth _ _ | trisynth _ _ | plate _ => rfl
  | delayn d => cases d <;> rfl
  | lpf c q => obtain rfl := g2 trivial; cases c <;> rfl
  | _ => obtain rfl := g2 trivial; rfl

end
end Verif.Props.Settings
