import Verif.Lemmas.Settings
import Verif.Props.TrackAmp
import Verif.Lemmas.KernelRfl
import Verif.Spec.Demo

/-! # What the settings of the engine are for (C80)

Seed, sample rate and samples are read when a node is made, and by the components that use them only. -/

namespace Verif.Props.Settings
open Verif Spec Verif.Spec.Settings Verif.Spec.PagePlay Verif.PagePlay

section
variable {L : Lang}

theorem off_of {S : Setting → Bool} {w : List (Name × L.Smp)} {r v : Nat} {e e' : Engine L}
    (h : Off S w r v e) (he : e' = env e.samples e.sr e.seed e') : Off S w r v e' := by
  have h1 : e'.seed = e.seed := congrArg (fun x => x.seed) he
  have h2 : e'.sr = e.sr := congrArg (fun x => x.sr) he
  have h3 : e'.samples = e.samples := congrArg (fun x => x.samples) he
  exact ⟨fun h' => h1 ▸ h.seed h', fun h' => h2 ▸ h.rate h', fun n h' => h3 ▸ h.sample n h'⟩

theorem update_settings {τ : TableOrder} {code : Name} {e e' : Engine L} {a : Option EngineError}
    (h : e.updateWithCode τ code = .ok (e', a)) : e' = env e.samples e.sr e.seed e' := by
  have := env_update (L := L) e.samples e.sr e.seed τ code e (fun _ _ _ _ _ _ _ => rfl)
  rw [show env e.samples e.sr e.seed e = e from rfl, h] at this
  simp only [Except.map, Except.ok.injEq, Prod.mk.injEq, and_true] at this
  exact this

theorem block_settings {ho : HashOrder} {buf : List (List L.Num)} {e e' : Engine L} {a : List (List L.Num)}
    (h : e.nextBlock ho buf = .ok (e', a)) : e' = env e.samples e.sr e.seed e' := by
  have := env_nextBlock e.samples e.sr e.seed ho buf e
  rw [show env e.samples e.sr e.seed e = e from rfl, h] at this
  simp only [Except.map, Except.ok.injEq, Prod.mk.injEq, and_true] at this
  exact this

theorem msg_settings {msg : Name} {e e' : Engine L}
    (h : e.sendMsg msg = .ok e') : e' = env e.samples e.sr e.seed e' := by
  have := env_sendMsg e.samples e.sr e.seed e msg
  rw [show env e.samples e.sr e.seed e = e from rfl, h] at this
  simp only [Except.map, Except.ok.injEq] at this
  exact this

theorem bpm_settings {b : L.Num} {e e' : Engine L}
    (h : e.setBpm b = .ok e') : e' = env e.samples e.sr e.seed e' := by
  have := env_setBpm e.samples e.sr e.seed e b
  rw [show env e.samples e.sr e.seed e = e from rfl, h] at this
  simp only [Except.map, Except.ok.injEq] at this
  exact this

/-- The programs among the calls build the same nodes under settings that differ in `S` only. -/
def SameNodes (S : Setting → Bool) (ops : List (Op L)) : Prop :=
  ∀ τ code p, Op.update τ code ∈ ops → L.parse code = .ok (some p) → ∀ k comps, (k, comps) ∈ p → ∀ c ∈ comps,
    ∀ (e : Engine L) w r v, Off S w r v e → L.make w r e.bpm v c = L.make e.samples e.sr e.bpm e.seed c

theorem sameNodes_tail {S : Setting → Bool} {op : Op L} {ops : List (Op L)}
    (h : SameNodes S (op :: ops)) : SameNodes S ops :=
  fun τ code p hm => h τ code p (List.mem_cons_of_mem _ hm)

/-- Two engines that differ in unused settings only. -/
theorem gets_off (S : Setting → Bool) (ops : List (Op L)) (hu : SameNodes S ops)
    (e : Engine L) (w : List (Name × L.Smp)) (r v : Nat) (h : Off S w r v e) :
    gets e ops = gets (env w r v e) (without S ops) := by
  induction ops generalizing e w r v with
  | nil => rfl
  | cons op ops ih =>
    have ih := ih (sameNodes_tail hu)
    cases op with
    | update τ code =>
      have hmk := env_update w r v τ code e (fun p hp k comps hk c hc =>
        hu τ code p List.mem_cons_self hp k comps hk c hc e w r v h)
      rw [show without S (Op.update τ code :: ops) = .update τ code :: without S ops from rfl]
      simp only [gets]
      rw [hmk]
      cases hx : Engine.updateWithCode τ e code with
      | error p => rfl
      | ok x => simp only [Except.map]; rw [← ih _ _ _ _ (off_of h (update_settings hx))]
    | nextBlock ho buf =>
      rw [show without S (Op.nextBlock ho buf :: ops) = .nextBlock ho buf :: without S ops from rfl]
      simp only [gets]
      rw [env_nextBlock]
      cases hx : e.nextBlock ho buf with
      | error p => rfl
      | ok x => simp only [Except.map]; rw [← ih _ _ _ _ (off_of h (block_settings hx))]
    | sendMsg msg =>
      rw [show without S (Op.sendMsg msg :: ops) = .sendMsg msg :: without S ops from rfl]
      simp only [gets, Op.apply]
      rw [env_sendMsg]
      cases hx : e.sendMsg msg with
      | error p => rfl
      | ok x => exact ih _ _ _ _ (off_of h (msg_settings hx))
    | setBpm b =>
      rw [show without S (Op.setBpm b :: ops) = .setBpm b :: without S ops from rfl]
      simp only [gets, Op.apply]
      rw [env_setBpm]
      cases hx : e.setBpm b with
      | error p => rfl
      | ok x => exact ih _ _ _ _ (off_of h (bpm_settings hx))
    | setTrackAmp b =>
      exact ih (e.setTrackAmp b) w r v ⟨h.seed, h.rate, h.sample⟩
    | reset =>
      refine ih e.reset [] r 42 ⟨fun _ => rfl, h.rate, fun _ _ => rfl⟩
    | setSr b =>
      cases hS : S .rate with
      | true =>
        rw [show without S (Op.setSr b :: ops) = without S ops by simp [without, about, hS]]
        exact ih (e.setSr b) w r v ⟨h.seed, fun h' => absurd (hS.symm.trans h') (by decide), h.sample⟩
      | false =>
        rw [show without S (Op.setSr b :: ops) = .setSr b :: without S ops by simp [without, about, hS]]
        exact ih (e.setSr b) w b v ⟨h.seed, fun _ => rfl, h.sample⟩
    | setSeed b =>
      cases hS : S .seed with
      | true =>
        rw [show without S (Op.setSeed b :: ops) = without S ops by simp [without, about, hS]]
        exact ih (e.setSeed b) w r v ⟨fun h' => absurd (hS.symm.trans h') (by decide), h.rate, h.sample⟩
      | false =>
        rw [show without S (Op.setSeed b :: ops) = .setSeed b :: without S ops by simp [without, about, hS]]
        exact ih (e.setSeed b) w r b ⟨fun _ => rfl, h.rate, h.sample⟩
    | addSample n s =>
      cases hS : S (.sample n) with
      | true =>
        rw [show without S (Op.addSample n s :: ops) = without S ops by simp [without, about, hS]]
        refine ih (e.addSample n s) w r v ⟨h.seed, h.rate, fun m hm => ?_⟩
        have hne : m ≠ n := fun hmn => by rw [hmn, hS] at hm; cases hm
        rw [h.sample m hm]
        exact (lookup_insert.trans (if_neg (Ne.symm hne))).symm
      | false =>
        rw [show without S (Op.addSample n s :: ops) = .addSample n s :: without S ops by simp [without, about, hS]]
        refine ih (e.addSample n s) (insert w n s) r v ⟨h.seed, h.rate, fun m hm => ?_⟩
        by_cases hmn : m = n
        · subst hmn
          exact (lookup_insert.trans (if_pos rfl)).trans (lookup_insert.trans (if_pos rfl)).symm
        · exact (lookup_insert.trans (if_neg (Ne.symm hmn))).trans ((h.sample m hm).trans (lookup_insert.trans (if_neg (Ne.symm hmn))).symm)

/-- Re-sending and changing a setting can be exchanged. -/
theorem resend_settings {e : Engine L} {a new : Ast L.Comp} (ha : e.ast = some a) {code : Name} (hp : L.parse code = .ok (some new))
    (hk : ∀ k comps, (k, comps) ∈ new → ∃ o, lookup a k = some o ∧ ∀ c ∈ comps, ∃ x ∈ o, L.compEq x c = true)
    (τ : TableOrder) (w : List (Name × L.Smp)) (r v : Nat) :
    Engine.updateWithCode τ (env w r v e) code = (Engine.updateWithCode τ e code).map (fun x => (env w r v x.1, x.2)) := by
  unfold Engine.updateWithCode
  simp only [bind, Except.bind, hp]
  refine env_updateAst w r v τ new e ?_
  rw [ha]
  exact diffAll_kept hk

theorem gets_setting {e : Engine L} {op : Op L} {s : Setting} (h : about op = some s) :
    ∃ f : Engine L → Engine L, (∀ e ops, gets e (op :: ops) = gets (f e) ops) ∧
      ∀ e, ∃ w r v, f e = env w r v e ∧ ∀ e', e' = env e.samples e.sr e.seed e' → f e' = env w r v e' := by
  cases op with
  | setSr b =>
    refine ⟨fun e => e.setSr b, fun _ _ => rfl, fun e => ⟨e.samples, b, e.seed, rfl, fun e' he => ?_⟩⟩
    exact congrArg (fun x => Engine.setSr x b) he
  | setSeed b =>
    refine ⟨fun e => e.setSeed b, fun _ _ => rfl, fun e => ⟨e.samples, e.sr, b, rfl, fun e' he => ?_⟩⟩
    exact congrArg (fun x => Engine.setSeed x b) he
  | addSample n b =>
    refine ⟨fun e => e.addSample n b, fun _ _ => rfl, fun e => ⟨insert e.samples n b, e.sr, e.seed, rfl, fun e' he => ?_⟩⟩
    exact congrArg (fun x => Engine.addSample x n b) he
  | _ => cases h

end

section
variable {P : Plat} {N : Nat} {parse : Name → Except Panic (Option (Ast Comp))}

/-- **C80**: calls about settings that no program sent afterwards uses can be left out of any history, of any engine, without any
difference in what the caller gets. -/
theorem c80_unused_settings (S : Setting → Bool) (e : Engine (glicol P N parse)) (ops : List (Op (glicol P N parse)))
    (h : Unused S ops) : gets e ops = gets e (without S ops) :=
  gets_off S ops (fun τ code p hm hp k comps hk c hc _ _ _ _ ho =>
    make_congr S ho.seed ho.rate ho.sample (h τ code p hm hp k comps hk c hc)) e e.samples e.sr e.seed
    ⟨fun _ => rfl, fun _ => rfl, fun _ _ => rfl⟩

/-- **C80**: what plays goes on the same when the seed, the sample rate or samples, also those it plays, are changed: up to the next program
such calls make no difference. -/
theorem c80_what_plays_is_fixed (e : Engine (glicol P N parse)) (ops : List (Op (glicol P N parse)))
    (h : ∀ τ code, Op.update τ code ∉ ops) : gets e ops = gets e (without (fun _ => true) ops) :=
  c80_unused_settings _ e ops (fun τ code _ hm => absurd hm (h τ code))

/-- **C80**: sending a program again whose components are all there does not bring new settings into force: it makes no difference whether
the setting is changed before or after. -/
theorem c80_resending_keeps_settings {e : Engine (glicol P N parse)} {a new : Ast Comp} (ha : e.ast = some a) {code : Name}
    (hp : parse code = .ok (some new))
    (hk : ∀ k comps, (k, comps) ∈ new → ∃ o, lookup a k = some o ∧ ∀ c ∈ comps, ∃ x ∈ o, Comp.eq x c = true)
    (τ : TableOrder) {op : Op (glicol P N parse)} {s : Setting} (hs : about op = some s) (ops : List (Op (glicol P N parse))) :
    gets e (op :: .update τ code :: ops) = gets e (.update τ code :: op :: ops) := by
  obtain ⟨f, hf, hg⟩ := gets_setting (e := e) hs
  obtain ⟨w, r, v, h1, h2⟩ := hg e
  have hr := resend_settings (L := glicol P N parse) ha hp hk τ w r v
  rw [hf, h1]
  simp only [gets]
  rw [hr]
  cases hx : Engine.updateWithCode τ e code with
  | error p => rfl
  | ok x =>
    simp only [Except.map]
    rw [hf, h2 x.1 (update_settings hx)]

end

/-- `gets` with fuel for the search through the graph, for the witnesses. -/
def getsFuel {L : Lang} (e : Engine L) : List (Op L) → Option (List (Gets L))
  | [] => some []
  | .update τ code :: ops =>
    match e.updateWithCode τ code with
    | .error _ => some [.panicked]
    | .ok (e', r) => (getsFuel e' ops).map (.answer r :: ·)
  | .nextBlock ho buf :: ops =>
    match nextBlockFuel 1000 ho e buf with
    | none => none
    | some (.error _) => some [.panicked]
    | some (.ok (e', out)) => (getsFuel e' ops).map (.block out :: ·)
  | op :: ops =>
    match op.apply e with
    | .error _ => some [.panicked]
    | .ok e' => getsFuel e' ops

theorem getsFuel_spec {L : Lang} {e : Engine L} {ops : List (Op L)} {r : List (Gets L)} (h : getsFuel e ops = some r) : gets e ops = r := by
  induction ops generalizing e r with
  | nil => cases h; rfl
  | cons op ops ih =>
    cases op with
    | update τ code =>
      simp only [getsFuel] at h
      simp only [gets]
      cases hx : Engine.updateWithCode τ e code with
      | error p => rw [hx] at h; cases h; rfl
      | ok x =>
        rw [hx] at h
        simp only [Option.map_eq_some_iff] at h
        obtain ⟨y, hy, rfl⟩ := h
        simp only [ih hy]
    | nextBlock ho buf =>
      simp only [getsFuel] at h
      simp only [gets]
      cases hx : nextBlockFuel 1000 ho e buf with
      | none => rw [hx] at h; cases h
      | some x =>
        rw [nextBlockFuel_spec hx]
        rw [hx] at h
        cases x with
        | error p => cases h; rfl
        | ok x =>
          simp only [Option.map_eq_some_iff] at h
          obtain ⟨y, hy, rfl⟩ := h
          simp only [ih hy]
    | _ =>
      simp only [getsFuel] at h
      simp only [gets]
      split at h
      · rename_i p hx
        cases h
        rw [hx]
      · rename_i e' hx
        rw [hx]
        exact ih h

/-- A program that is sent again goes on at the sample rate of its nodes; a new one runs at the new rate: at 2 samples in a second `imp 1`
fires every 2 samples, and still does so when the rate is 4 and the program is sent again. -/
theorem c80_rate_of_new_nodes (P : Plat) (fe : Name → Option Fl) :
    gets (Engine.new (glicol P 4 (Parse.parse fe)) 4)
      [.setSr 2, .update .ident c!"o: imp 1", .setSr 4, .update .ident c!"o: imp 1", .nextBlock .ident []] =
      [.answer none, .answer none, .block (List.replicate 2 [.fin 1, .fin 0, .fin 1, .fin 0])] ∧
    gets (Engine.new (glicol P 4 (Parse.parse fe)) 4) [.setSr 4, .update .ident c!"o: imp 1", .nextBlock .ident []] =
      [.answer none, .block (List.replicate 2 [.fin 1, .fin 0, .fin 0, .fin 0])] :=
  ⟨getsFuel_spec (by kernel_rfl), getsFuel_spec (by kernel_rfl)⟩

/-- A platform whose random numbers differ with the seed. -/
def seedPlat : Plat := ⟨{ Demo.libm with noise := fun s _ => if s = 1 then .fin (1 / 2) else .fin (-1 / 2) }, .ident, Demo.ext⟩

/-- The seed does count for `choose`, so the condition of `c80_unused_settings` cannot be dropped: with another seed another value is chosen. -/
theorem c80_choose_uses_seed (fe : Name → Option Fl) :
    gets (Engine.new (glicol seedPlat 1 (Parse.parse fe)) 1) [.setSeed 1, .update .ident c!"o: choose 1 2", .nextBlock .ident []] =
      [.answer none, .block [[.fin 2], [.fin 0]]] ∧
    gets (Engine.new (glicol seedPlat 1 (Parse.parse fe)) 1)
      (without (· == .seed) [.setSeed 1, .update .ident c!"o: choose 1 2", .nextBlock .ident []]) =
      [.answer none, .block [[.fin 1], [.fin 0]]] :=
  ⟨getsFuel_spec (by kernel_rfl), getsFuel_spec (by kernel_rfl)⟩

/-- A case of `c80_unused_settings`: while `o: constsig 3 >> mul 2` plays, another seed is set and a sample is loaded. -/
example (P : Plat) (fe : Name → Option Fl) : ∃ ops : List (Op (glicol P 2 (Parse.parse fe))),
    ops = [.setSeed 7, .update .ident c!"o: constsig 3 >> mul 2", .addSample c!"bd" ⟨[.fin 1], 1, 44100⟩, .nextBlock .ident []] ∧
    Unused (fun s => s == .seed || s == .sample c!"bd") ops ∧
    without (fun s => s == .seed || s == .sample c!"bd") ops = [.update .ident c!"o: constsig 3 >> mul 2", .nextBlock .ident []] ∧
    gets (Engine.new _ 2) ops = [.answer none, .block [[.fin 6, .fin 6], [.fin 6, .fin 6]]] := by
  refine ⟨_, rfl, ?_, rfl, getsFuel_spec (by kernel_rfl)⟩
  intro τ code p hm hp k comps hk c hc s hs
  simp only [List.mem_cons, List.not_mem_nil, or_false, reduceCtorEq, false_or, Op.update.injEq] at hm
  obtain ⟨rfl, rfl⟩ := hm
  have : Parse.parse fe c!"o: constsig 3 >> mul 2" = .ok (some [(c!"o", [.constsig (.fin 3), .mul (.num (.fin 2))])]) := by kernel_rfl
  rw [this] at hp
  cases hp
  simp only [List.mem_cons, List.not_mem_nil, or_false, Prod.mk.injEq] at hk
  obtain ⟨rfl, rfl⟩ := hk
  simp only [List.mem_cons, List.not_mem_nil, or_false] at hc
  simp only [Bool.or_eq_true, beq_iff_eq] at hs
  rcases hc with rfl | rfl <;> rcases hs with rfl | rfl <;> simp [Uses]

/-- A case of `c80_resending_keeps_settings`: the text is sent again. -/
example (P : Plat) (fe : Name → Option Fl) : ∃ a : Ast Comp,
    ((Engine.new (glicol P 4 (Parse.parse fe)) 4).updateWithCode .ident c!"o: imp 1").toOption.map (fun x => (x.1.ast, x.2)) = some (some a, none) ∧
    Parse.parse fe c!"o: imp 1" = .ok (some a) ∧
    ∀ k comps, (k, comps) ∈ a → ∃ o, lookup a k = some o ∧ ∀ c ∈ comps, ∃ x ∈ o, Comp.eq x c = true := by
  refine ⟨[(c!"o", [.imp (.num (.fin 1))])], by kernel_rfl, by kernel_rfl, ?_⟩
  intro k comps hk
  simp only [List.mem_cons, List.not_mem_nil, or_false, Prod.mk.injEq] at hk
  obtain ⟨rfl, rfl⟩ := hk
  exact ⟨_, rfl, by decide⟩

end Verif.Props.Settings
