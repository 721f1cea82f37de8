import Verif.Lemmas.Sim
import Verif.Lemmas.Message

/-! Engines that differ only in the names of their chains (helpers for C83). -/

namespace Verif.Rename
open Verif Spec Verif.Sim

/-- A table with other keys. -/
def keysTo {β : Type} (ρ : Name → Name) (t : List (Name × β)) : List (Name × β) := t.map (fun p => (ρ p.1, p.2))

/-- A map of names that is one to one and keeps the marks the engine looks at. -/
structure Good (ρ : Name → Name) : Prop where
  inj : ∀ a b, ρ a = ρ b → a = b
  tilde : ∀ a, hasTilde (ρ a) = hasTilde a
  dots : ∀ a, hasDots (ρ a) = hasDots a
  input : ρ inputName = inputName

theorem lookup_inj {ρ : Name → Name} (hi : ∀ a b, ρ a = ρ b → a = b) {β : Type} (t : List (Name × β)) (k : Name) : lookup (keysTo ρ t) (ρ k) = lookup t k := by
  induction t with
  | nil => rfl
  | cons p t ih =>
    obtain ⟨k', v⟩ := p
    show (if ρ k' = ρ k then some v else lookup (keysTo ρ t) (ρ k)) = if k' = k then some v else lookup t k
    by_cases h : k' = k
    · rw [if_pos h, if_pos (by rw [h])]
    · rw [if_neg h, if_neg (fun h' => h (hi _ _ h')), ih]

variable {ρ : Name → Name} (hρ : Good ρ)

section
variable {β : Type}
include hρ

theorem lookup_keys (t : List (Name × β)) (k : Name) : lookup (keysTo ρ t) (ρ k) = lookup t k := lookup_inj hρ.inj t k

theorem assign_keys (t : List (Name × β)) (k : Name) (v : β) : assign (keysTo ρ t) (ρ k) v = keysTo ρ (assign t k v) := by
  induction t with
  | nil => rfl
  | cons p t ih =>
    obtain ⟨k', v'⟩ := p
    show (if ρ k' = ρ k then (ρ k', v) :: keysTo ρ t else (ρ k', v') :: assign (keysTo ρ t) (ρ k) v) =
      keysTo ρ (if k' = k then (k', v) :: t else (k', v') :: assign t k v)
    by_cases h : k' = k
    · rw [if_pos h, if_pos (by rw [h])]; rfl
    · rw [if_neg h, if_neg (fun h' => h (hρ.inj _ _ h')), ih]; rfl

theorem insert_keys (t : List (Name × β)) (k : Name) (v : β) : insert (keysTo ρ t) (ρ k) v = keysTo ρ (insert t k v) := by
  unfold Verif.insert
  rw [lookup_keys hρ]
  cases lookup t k with
  | none => simp only [keysTo, List.map_append, List.map_cons, List.map_nil]
  | some _ => exact assign_keys hρ t k v

theorem erase_keys (t : List (Name × β)) (k : Name) : erase (keysTo ρ t) (ρ k) = keysTo ρ (erase t k) := by
  unfold erase keysTo
  rw [List.filter_map]
  congr 1
  apply List.filter_congr
  intro p _
  simp only [Function.comp]
  by_cases h : p.1 = k
  · simp only [h]
  · simp only [h, show ¬ ρ p.1 = ρ k from fun h' => h (hρ.inj _ _ h')]

end

variable {L : Lang} (cren : L.Comp → L.Comp) {R : L.Node → L.Node → Prop}

/-- A program with other names. -/
def astTo (ρ : Name → Name) (cren : L.Comp → L.Comp) (a : Ast L.Comp) : Ast L.Comp := a.map (fun p => (ρ p.1, p.2.map cren))

/-- An error with other names. -/
def errTo (ρ : Name → Name) : EngineError → EngineError
  | .nonExistReference n => .nonExistReference (ρ n)
  | x => x

/-- Components with other names behave as before. -/
structure GoodLang (L : Lang) (ρ : Name → Name) (cren : L.Comp → L.Comp) (R : L.Node → L.Node → Prop) : Prop where
  eq : ∀ a b, L.compEq (cren a) (cren b) = L.compEq a b
  refs : ∀ c, L.refs (cren c) = (L.refs c).map ρ
  make : ∀ smp sr b seed c, ESim (fun x y => DSim R x.1 y.1 ∧ y.2 = x.2.map ρ) (L.make smp sr b seed c) (L.make smp sr b seed (cren c))
  stop : ∀ smp sr b seed c x, L.make smp sr b seed c = .error (.err x) → errTo ρ x = x
  made : ∀ smp sr b seed c d rs, L.make smp sr b seed c = .ok (d, rs) → ∀ r ∈ rs, r ∈ L.refs c

theorem lookup_ast (hρ : Good ρ) (a : Ast L.Comp) (k : Name) : lookup (astTo ρ cren a) (ρ k) = (lookup a k).map (List.map cren) := by
  have : astTo ρ cren a = keysTo ρ (a.map (fun p => (p.1, p.2.map cren))) := by
    simp only [astTo, keysTo, List.map_map]; rfl
  rw [this, lookup_keys hρ]
  induction a with
  | nil => rfl
  | cons p a ih =>
    obtain ⟨k', v⟩ := p
    show (if k' = k then some (v.map cren) else lookup (a.map (fun p => (p.1, p.2.map cren))) k) = Option.map (List.map cren) (if k' = k then some v else lookup a k)
    split
    · rfl
    · exact ih (by simp only [astTo, keysTo, List.map_map]; rfl)

theorem enumFrom_map {α β : Type} (f : α → β) (l : List α) (n : Nat) : enumFrom n (l.map f) = (enumFrom n l).map (fun p => (p.1, f p.2)) := by
  induction l generalizing n with
  | nil => rfl
  | cons a l ih => simp only [List.map_cons, enumFrom, ih]

/-- Differences with other names that insert related nodes. -/
structure DiffTo (ρ : Name → Name) (R : L.Node → L.Node → Prop) (d d' : Diff L) : Prop where
  removes : d'.removes = keysTo ρ d.removes
  refpairs : d'.refpairs = d.refpairs.map (fun p => (p.1.map ρ, ρ p.2.1, p.2.2))
  adds : List.Forall₂ (fun x y => y.1 = ρ x.1 ∧ x.2.1 = y.2.1 ∧ DSim R x.2.2 y.2.2) d.adds d'.adds

/-- Two results: the same failure up to names, or related. -/
inductive SSim {α β : Type} (ρ : Name → Name) (A : α → β → Prop) : Except Stop α → Except Stop β → Prop
  | ok {a : α} {b : β} : A a b → SSim ρ A (.ok a) (.ok b)
  | err (x : EngineError) : SSim ρ A (.error (.err x)) (.error (.err (errTo ρ x)))
  | panic (p : Panic) : SSim ρ A (.error (.panic p)) (.error (.panic p))

theorem SSim.bind {α β α' β' : Type} {A : α → β → Prop} {B : α' → β' → Prop} {x : Except Stop α} {y : Except Stop β}
    {f : α → Except Stop α'} {g : β → Except Stop β'} (h : SSim ρ A x y) (hf : ∀ a b, A a b → SSim ρ B (f a) (g b)) :
    SSim ρ B (x >>= f) (y >>= g) := by
  cases h with
  | ok h => exact hf _ _ h
  | err x => exact .err x
  | panic p => exact .panic p

variable {cren} (hG : GoodLang L ρ cren R)

section
variable {smp : List (Name × L.Smp)} {sr : Nat} {b : L.Num} {seed : Nat}
include hG

theorem make_ssim (c : L.Comp) : SSim ρ (fun x y => DSim R x.1 y.1 ∧ y.2 = x.2.map ρ) (L.make smp sr b seed c) (L.make smp sr b seed (cren c)) := by
  have h1 := hG.make smp sr b seed c
  have h2 := hG.stop smp sr b seed c
  generalize L.make smp sr b seed c = x, L.make smp sr b seed (cren c) = y at h1 h2
  cases h1 with
  | ok h => exact .ok h
  | err x =>
    cases x with
    | panic p => exact .panic p
    | err x =>
      have := SSim.err (A := fun (x y : L.Data × List Name) => DSim R x.1 y.1 ∧ y.2 = x.2.map ρ) (ρ := ρ) x
      rw [h2 x rfl] at this
      exact this

theorem addNodes_to (name : Name) : ∀ (l : List (Nat × L.Comp)),
    SSim ρ (DiffTo ρ R) (addNodes (L.make smp sr b seed) name l) (addNodes (L.make smp sr b seed) (ρ name) (l.map (fun p => (p.1, cren p.2))))
  | [] => .ok ⟨rfl, rfl, .nil⟩
  | (i, c) :: l => by
    simp only [List.map_cons, addNodes]
    refine (make_ssim hG c).bind (fun x y hxy => ?_)
    obtain ⟨nd, rs⟩ := x
    obtain ⟨nd', rs'⟩ := y
    obtain ⟨h1, h2⟩ := hxy
    simp only at h2
    subst h2
    refine (addNodes_to name l).bind (fun d d' hd => .ok ⟨hd.removes, ?_, .cons ⟨rfl, rfl, h1⟩ hd.adds⟩)
    simp only [hd.refpairs, List.isEmpty_map, List.map_append]
    cases rs <;> rfl

theorem findEq_to (c : L.Comp) (new : List L.Comp) :
    findEq L.compEq (cren c) (new.map cren) = (findEq L.compEq c new).map (fun p => (p.1, cren p.2)) := by
  unfold findEq
  rw [enumFrom_map, List.find?_map]
  congr 1
  congr 1
  funext p
  exact hG.eq c p.2

theorem diffOld_to (name : Name) (new : List L.Comp) : ∀ (l : List (Nat × L.Comp)),
    diffOld L (ρ name) (new.map cren) (l.map (fun p => (p.1, cren p.2))) =
      ((diffOld L name new l).1.map (fun p => (p.1.map ρ, ρ p.2.1, p.2.2)), keysTo ρ (diffOld L name new l).2)
  | [] => rfl
  | (i, c) :: l => by
    simp only [List.map_cons, diffOld, diffOld_to name new l, findEq_to hG]
    cases findEq L.compEq c new with
    | none => rfl
    | some p =>
      obtain ⟨j, c'⟩ := p
      simp only [Option.map_some, hG.refs, List.isEmpty_map, List.map_append]
      cases L.refs c' <;> rfl

theorem diffChain_to (hρ : Good ρ) (old : Option (Ast L.Comp)) (name : Name) (new : List L.Comp) :
    SSim ρ (DiffTo ρ R) (diffChain (L.make smp sr b seed) old name new)
      (diffChain (L.make smp sr b seed) (old.map (astTo ρ cren)) (ρ name) (new.map cren)) := by
  unfold diffChain
  have : (old.map (astTo ρ cren)).bind (fun o => lookup o (ρ name)) = (old.bind (fun o => lookup o name)).map (List.map cren) := by
    cases old with
    | none => rfl
    | some o => exact lookup_ast cren hρ o name
  rw [this]
  cases old.bind (fun o => lookup o name) with
  | none =>
    simp only [Option.map_none, enumFrom_map]
    exact addNodes_to hG name _
  | some oc =>
    simp only [Option.map_some, enumFrom_map, diffOld_to hG, List.filter_map]
    have hf : ((fun p : Nat × L.Comp => !(oc.map cren).any (fun c => L.compEq c p.2)) ∘ fun p : Nat × L.Comp => (p.1, cren p.2)) =
        fun p : Nat × L.Comp => !oc.any (fun c => L.compEq c p.2) := by
      funext p
      simp only [Function.comp, List.any_map]
      congr 2
      funext c
      exact hG.eq c p.2
    rw [hf]
    refine (addNodes_to hG name _).bind (fun d d' hd => .ok ⟨?_, ?_, hd.adds⟩)
    · simp only [hd.removes, keysTo, List.map_append]
    · simp only [hd.refpairs, List.map_append]

theorem diffAll_to (hρ : Good ρ) (old : Option (Ast L.Comp)) : ∀ (new : Ast L.Comp),
    SSim ρ (DiffTo ρ R) (diffAll (L.make smp sr b seed) old new)
      (diffAll (L.make smp sr b seed) (old.map (astTo ρ cren)) (astTo ρ cren new))
  | [] => .ok ⟨rfl, rfl, .nil⟩
  | (name, comps) :: new => by
    simp only [astTo, List.map_cons, diffAll]
    refine (diffChain_to hG hρ old name comps).bind (fun d1 d1' h1 => ?_)
    refine (diffAll_to hρ old new).bind (fun d2 d2' h2 => .ok ⟨?_, ?_, List.rel_append h1.adds h2.adds⟩)
    · simp only [Diff.append, h1.removes, h2.removes, keysTo, List.map_append]
    · simp only [Diff.append, h1.refpairs, h2.refpairs, List.map_append]

end

/-- A result with other keys in its table. -/
def tabTo {α : Type} (ρ : Name → Name) (x y : Table × α) : Prop := y.1 = keysTo ρ x.1 ∧ x.2 = y.2

theorem dropChains_to (hρ : Good ρ) (cren : L.Comp → L.Comp) (new : Ast L.Comp) : ∀ (ks : List Name) (t : Table),
    ESim (tabTo ρ) (dropChains new ks t) (dropChains (astTo ρ cren new) (ks.map ρ) (keysTo ρ t))
  | [], t => .ok ⟨rfl, rfl⟩
  | k :: ks, t => by
    simp only [List.map_cons, dropChains, lookup_ast cren hρ, Option.isSome_map, lookup_keys hρ]
    split
    · exact dropChains_to hρ cren new ks t
    · cases lookup t k with
      | none => exact .err _
      | some idxs =>
        simp only [erase_keys hρ]
        refine (dropChains_to hρ cren new ks (erase t k)).bind (fun x y hxy => ?_)
        obtain ⟨t1, m1⟩ := x
        obtain ⟨t2, m2⟩ := y
        obtain ⟨h1, h2⟩ := hxy
        exact .ok ⟨h1, congrArg (idxs ++ ·) h2⟩

theorem dropNodes_to (hρ : Good ρ) : ∀ (l : List (Name × Nat)) (t : Table),
    ESim (tabTo ρ) (dropNodes l t) (dropNodes (keysTo ρ l) (keysTo ρ t))
  | [], t => .ok ⟨rfl, rfl⟩
  | (k, pos) :: l, t => by
    simp only [keysTo, List.map_cons, dropNodes]
    have := lookup_keys hρ t k
    simp only [keysTo] at this
    rw [this]
    cases lookup t k with
    | none => exact dropNodes_to hρ l t
    | some chain =>
      simp only
      cases chain[pos]? with
      | none => exact .err _
      | some i =>
        simp only
        have := assign_keys hρ t k (chain.eraseIdx pos)
        simp only [keysTo] at this
        rw [this]
        refine (dropNodes_to hρ l (assign t k (chain.eraseIdx pos))).bind (fun x y hxy => ?_)
        obtain ⟨t1, m1⟩ := x
        obtain ⟨t2, m2⟩ := y
        obtain ⟨h1, h2⟩ := hxy
        exact .ok ⟨h1, congrArg (i :: ·) h2⟩

theorem insertNodes_to (hρ : Good ρ) {as as' : List (Name × Nat × L.Data)}
    (ha : List.Forall₂ (fun x y => y.1 = ρ x.1 ∧ x.2.1 = y.2.1 ∧ DSim R x.2.2 y.2.2) as as') : ∀ (t : Table) {g g' : Graph L.Data},
    GSim R g g' → ESim (fun x y => GSim R x.1 y.1 ∧ tabTo ρ x.2 y.2) (insertNodes as g t) (insertNodes as' g' (keysTo ρ t)) := by
  induction ha with
  | nil => exact fun t g g' h => .ok ⟨h, rfl, rfl⟩
  | @cons x y as as' hxy _ ih =>
    obtain ⟨k, pos, nd⟩ := x
    obtain ⟨k', pos', nd'⟩ := y
    obtain ⟨rfl, rfl, hd⟩ := hxy
    intro t g g' h
    obtain ⟨h1, h2⟩ := h.addNode hd
    unfold insertNodes
    simp only at h1 h2
    rcases hx : g.addNode nd with ⟨g1, i⟩
    rcases hy : g'.addNode nd' with ⟨g1', i'⟩
    rw [hx, hy] at h1 h2
    simp only at h1 h2
    subst h2
    simp only [lookup_keys hρ]
    cases lookup t k with
    | none =>
      simp only [insert_keys hρ]
      refine (ih _ h1).bind (fun a b hab => ?_)
      obtain ⟨a1, a2, a3⟩ := a
      obtain ⟨b1, b2, b3⟩ := b
      obtain ⟨h3, h4, h5⟩ := hab
      exact .ok ⟨h3, h4, congrArg (i :: ·) h5⟩
    | some chain =>
      simp only [assign_keys hρ]
      split
      · refine (ih _ h1).bind (fun a b hab => ?_)
        obtain ⟨a1, a2, a3⟩ := a
        obtain ⟨b1, b2, b3⟩ := b
        obtain ⟨h3, h4, h5⟩ := hab
        exact .ok ⟨h3, h4, congrArg (i :: ·) h5⟩
      · exact .err _

theorem refCheck_to (hρ : Good ρ) (cren : L.Comp → L.Comp) (t : Table) (new : Ast L.Comp) : ∀ (rs : List Name), (∀ r ∈ rs, hasDots r = false) →
    refCheck (keysTo ρ t) (astTo ρ cren new) (rs.map ρ) = (refCheck t new rs).map ρ
  | [], _ => rfl
  | r :: rs, h => by
    simp only [List.map_cons, refCheck, hρ.dots, h r List.mem_cons_self, lookup_ast cren hρ, lookup_keys hρ, Option.isSome_map,
      refCheck_to hρ cren t new rs (fun r hr => h r (List.mem_cons_of_mem _ hr)), Bool.false_eq_true, if_false]
    split
    · rfl
    · rfl

theorem refSources_to (hρ : Good ρ) (t : Table) (r : Name) (h : hasDots r = false) : refSources (keysTo ρ t) (ρ r) = refSources t r := by
  unfold refSources
  rw [hρ.dots, h, lookup_keys hρ, if_neg Bool.false_ne_true, if_neg Bool.false_ne_true]

theorem connectRefs_to (hρ : Good ρ) (hN : NodeSim L R) (t : Table) (b : Nat) : ∀ (rs : List Name), (∀ r ∈ rs, hasDots r = false) →
    ∀ {g g' : Graph L.Data}, GSim R g g' → ESim (GSim R) (connectRefs t g b rs) (connectRefs (keysTo ρ t) g' b (rs.map ρ))
  | [], _, _, _, h => .ok h
  | r :: rs, hd, g, g', h => by
    simp only [List.map_cons, connectRefs]
    rw [refSources_to hρ t r (hd r List.mem_cons_self)]
    cases refSources t r with
    | error e => exact .err e
    | ok srcs => exact (connectAll_sim hN b srcs h).bind (fun _ _ h => connectRefs_to hρ hN t b rs (fun r hr => hd r (List.mem_cons_of_mem _ hr)) h)

theorem connectPairs_to (hρ : Good ρ) (hN : NodeSim L R) (t : Table) : ∀ (ps : List RefPair) (done : List Nat) {g g' : Graph L.Data},
    (∀ p ∈ ps, ∀ r ∈ p.1, hasDots r = false) → GSim R g g' →
    ESim (fun x y => GSim R x.1 y.1 ∧ y.2 = x.2.map (errTo ρ)) (connectPairs t ps done g)
      (connectPairs (keysTo ρ t) (ps.map (fun p => (p.1.map ρ, ρ p.2.1, p.2.2))) done g')
  | [], _, _, _, _, h => .ok ⟨h, rfl⟩
  | (refs, name, pos) :: rest, done, g, g', hd, h => by
    simp only [List.map_cons, connectPairs, lookup_keys hρ]
    cases lookup t name with
    | none => exact .ok ⟨h, rfl⟩
    | some chain =>
      simp only
      cases chain[pos]? with
      | none => exact .err _
      | some b =>
        exact (resetOnce_sim hN done b h).bind (fun _ _ h => (connectRefs_to hρ hN t b refs (hd _ List.mem_cons_self) h).bind
          (fun _ _ h => connectPairs_to hρ hN t rest _ (fun p hp => hd p (List.mem_cons_of_mem _ hp)) h))

theorem connectTable_to (hρ : Good ρ) (hN : NodeSim L R) (dest : Nat) : ∀ (t : Table) {g g' : Graph L.Data}, GSim R g g' →
    ESim (GSim R) (connectTable dest t g) (connectTable dest (keysTo ρ t) g')
  | [], _, _, h => .ok h
  | (k, chain) :: rest, _, _, h => by
    refine (connectChain_sim hN chain h).bind (fun g1 g1' h => ?_)
    have : connectOut dest (ρ k) chain g1' = connectOut dest k chain g1' := by
      unfold connectOut
      rw [hρ.tilde]
    simp only [this]
    exact (connectOut_sim hN dest k chain h).bind (fun _ _ h => connectTable_to hρ hN dest rest h)

/-- The same engine with other names and related nodes. -/
structure Renamed (ρ : Name → Name) (cren : L.Comp → L.Comp) (R : L.Node → L.Node → Prop) (e e' : Engine L) : Prop where
  N : e.N = e'.N
  graph : GSim R e.graph e'.graph
  dest : e.dest = e'.dest
  input : e.input = e'.input
  ast : e'.ast = e.ast.map (astTo ρ cren)
  index : e'.index = keysTo ρ e.index
  backup : e'.backup = keysTo ρ e.backup
  samples : e.samples = e'.samples
  bpm : e.bpm = e'.bpm
  sr : e.sr = e'.sr
  seed : e.seed = e'.seed

/-- The references of the differences are references of the new components. -/
theorem addNodes_refs (hG : GoodLang L ρ cren R) {smp : List (Name × L.Smp)} {sr : Nat} {b : L.Num} {seed : Nat} (name : Name) : ∀ {l : List (Nat × L.Comp)} {d : Diff L},
    addNodes (L.make smp sr b seed) name l = .ok d → ∀ p ∈ d.refpairs, ∀ r ∈ p.1, ∃ q ∈ l, r ∈ L.refs q.2
  | [], d, h => by cases h; intro p hp; cases hp
  | (i, c) :: l, d, h => by
    simp only [addNodes] at h
    rw [except_bind_ok] at h
    obtain ⟨⟨nd, rs⟩, h1, h⟩ := h
    rw [except_bind_ok] at h
    obtain ⟨d', h2, h⟩ := h
    cases h
    intro p hp r hr
    rcases List.mem_append.mp hp with hp | hp
    · split at hp
      · cases hp
      · cases List.mem_singleton.mp hp
        exact ⟨(i, c), List.mem_cons_self, hG.made _ _ _ _ _ _ _ h1 r hr⟩
    · obtain ⟨q, hq, hr⟩ := addNodes_refs hG name h2 p hp r hr
      exact ⟨q, List.mem_cons_of_mem _ hq, hr⟩

theorem diffOld_refs (name : Name) (new : List L.Comp) : ∀ (l : List (Nat × L.Comp)), ∀ p ∈ (diffOld L name new l).1, ∀ r ∈ p.1,
    ∃ c ∈ new, r ∈ L.refs c
  | [], p, hp => by cases hp
  | (i, c) :: l, p, hp => by
    simp only [diffOld] at hp
    cases hx : findEq L.compEq c new with
    | none =>
      rw [hx] at hp
      exact diffOld_refs name new l p hp
    | some x =>
      obtain ⟨j, c'⟩ := x
      rw [hx] at hp
      rcases List.mem_append.mp hp with hp | hp
      · split at hp
        · cases hp
        · cases List.mem_singleton.mp hp
          intro r hr
          exact ⟨c', mem_enumFrom (List.mem_of_find?_eq_some hx), hr⟩
      · exact diffOld_refs name new l p hp

theorem diffAll_refs (hG : GoodLang L ρ cren R) {smp : List (Name × L.Smp)} {sr : Nat} {b : L.Num} {seed : Nat} (old : Option (Ast L.Comp)) : ∀ {new : Ast L.Comp} {d : Diff L},
    diffAll (L.make smp sr b seed) old new = .ok d → ∀ p ∈ d.refpairs, ∀ r ∈ p.1, ∃ k comps, (k, comps) ∈ new ∧ ∃ c ∈ comps, r ∈ L.refs c
  | [], d, h => by cases h; intro p hp; cases hp
  | (name, comps) :: new, d, h => by
    simp only [diffAll] at h
    rw [except_bind_ok] at h
    obtain ⟨d1, h1, h⟩ := h
    rw [except_bind_ok] at h
    obtain ⟨d2, h2, h⟩ := h
    cases h
    intro p hp r hr
    rcases List.mem_append.mp hp with hp | hp
    · refine ⟨name, comps, List.mem_cons_self, ?_⟩
      unfold diffChain at h1
      split at h1
      · obtain ⟨q, hq, hr⟩ := addNodes_refs hG name h1 p hp r hr
        exact ⟨q.2, mem_enumFrom hq, hr⟩
      · simp only at h1
        rw [except_bind_ok] at h1
        obtain ⟨d3, h3, h1⟩ := h1
        cases h1
        rcases List.mem_append.mp hp with hp | hp
        · exact diffOld_refs name comps _ p hp r hr
        · obtain ⟨q, hq, hr⟩ := addNodes_refs hG name h3 p hp r hr
          exact ⟨q.2, mem_enumFrom (List.mem_filter.mp hq).1, hr⟩
    · obtain ⟨k, cs, hk, hc⟩ := diffAll_refs hG old h2 p hp r hr
      exact ⟨k, cs, List.mem_cons_of_mem _ hk, hc⟩

/-- What an update gives with other names. -/
def UpTo (ρ : Name → Name) (cren : L.Comp → L.Comp) (R : L.Node → L.Node → Prop) (x y : Engine L × Option EngineError) : Prop :=
  Renamed ρ cren R x.1 y.1 ∧ y.2 = x.2.map (errTo ρ)

theorem oldKeys_to {e e' : Engine L} (h : e'.ast = e.ast.map (astTo ρ cren)) : oldKeys e' = (oldKeys e).map ρ := by
  unfold oldKeys
  rw [h]
  cases e.ast with
  | none => rfl
  | some o => simp only [Option.map_some, astTo, List.map_map]; rfl

theorem updateAst_to (hρ : Good ρ) (hN : NodeSim L R) (hG : GoodLang L ρ cren R) {e e' : Engine L} (h : Renamed ρ cren R e e')
    (τ τ' : TableOrder) (hτ : ∀ t, τ'.ord (keysTo ρ t) = keysTo ρ (τ.ord t)) (new : Ast L.Comp)
    (hd : ∀ k comps, (k, comps) ∈ new → ∀ c ∈ comps, ∀ r ∈ L.refs c, hasDots r = false) :
    ESim (UpTo ρ cren R) (e.updateAst τ new) (e'.updateAst τ' (astTo ρ cren new)) := by
  have hk : oldKeys { e' with temp := [] } = (oldKeys { e with temp := [] }).map ρ := oldKeys_to h.ast
  unfold Engine.updateAst
  have h0 := diffAll_to hG hρ (smp := e.samples) (sr := e.sr) (b := e.bpm) (seed := e.seed) e.ast new
  have hr := fun d => diffAll_refs hG (smp := e.samples) (sr := e.sr) (b := e.bpm) (seed := e.seed) e.ast (new := new) (d := d)
  simp only
  rw [hk, ← h.samples, ← h.sr, ← h.bpm, ← h.seed, h.ast, h.index]
  generalize diffAll (L.make e.samples e.sr e.bpm e.seed) e.ast new = u,
    diffAll (L.make e.samples e.sr e.bpm e.seed) (e.ast.map (astTo ρ cren)) (astTo ρ cren new) = v at h0 hr
  cases h0 with
  | err x => exact .ok ⟨⟨h.N, h.graph, h.dest, h.input, rfl, rfl, h.backup, rfl, rfl, rfl, rfl⟩, rfl⟩
  | panic p => exact .err p
  | @ok d d' h0 =>
    simp only
    have hdots : ∀ p ∈ d.refpairs, ∀ r ∈ p.1, hasDots r = false := by
      intro p hp r hrp
      obtain ⟨k, comps, h1, c, h2, h3⟩ := hr d rfl p hp r hrp
      exact hd k comps h1 c h2 r h3
    have hrev : d'.removes.reverse = keysTo ρ d.removes.reverse := by rw [h0.removes]; simp only [keysTo, List.map_reverse]
    have hfl : d'.refpairs.flatMap (·.1) = (d.refpairs.flatMap (·.1)).map ρ := by
      rw [h0.refpairs]
      simp only [List.flatMap_map, List.map_flatMap]
    rw [hrev, hfl]
    refine (dropChains_to hρ cren new _ e.index).bind (fun r1 r1' h1 => ?_)
    obtain ⟨t1, gone1⟩ := r1
    obtain ⟨t1', gone1'⟩ := r1'
    obtain ⟨h1, h1'⟩ := h1
    simp only at h1 h1'
    subst h1 h1'
    refine (dropNodes_to hρ d.removes.reverse t1).bind (fun r2 r2' h2 => ?_)
    obtain ⟨t2, gone2⟩ := r2
    obtain ⟨t2', gone2'⟩ := r2'
    obtain ⟨h2, h2'⟩ := h2
    simp only at h2 h2'
    subst h2 h2'
    refine (insertNodes_to hρ h0.adds t2 h.graph).bind (fun a b hab => ?_)
    obtain ⟨g3, t3, cr⟩ := a
    obtain ⟨g3', t3', cr'⟩ := b
    obtain ⟨hg3, h3, h3'⟩ := hab
    simp only at h3 h3' hg3
    subst h3 h3'
    simp only
    rw [refCheck_to hρ cren t3 new _ (by
      intro r hrm
      obtain ⟨p, hp, hrm⟩ := List.mem_flatMap.mp hrm
      exact hdots p hp r hrm)]
    cases refCheck t3 new (d.refpairs.flatMap (·.1)) with
    | some r => exact .ok ⟨⟨h.N, removeAll_sim cr hg3, h.dest, h.input, rfl, h.backup, h.backup, rfl, rfl, rfl, rfl⟩, rfl⟩
    | none =>
      simp only [Option.map_none]
      rw [hτ, h0.refpairs]
      refine (connectPairs_to hρ hN (τ.ord t3) d.refpairs [] hdots (removeAll_sim (gone1 ++ gone2) hg3).clearEdges).bind (fun a b hab => ?_)
      obtain ⟨g5, bad⟩ := a
      obtain ⟨g5', bad'⟩ := b
      obtain ⟨hg5, h3⟩ := hab
      simp only at h3 hg5
      subst h3
      cases bad with
      | some x => exact .ok ⟨⟨h.N, hg5, h.dest, h.input, rfl, rfl, h.backup, rfl, rfl, rfl, rfl⟩, rfl⟩
      | none =>
        simp only [Option.map_none]
        rw [← h.dest]
        refine (connectTable_to hρ hN e.dest (τ.ord t3) hg5).bind (fun a b hab => ?_)
        exact .ok ⟨⟨h.N, hab, rfl, h.input, rfl, rfl, rfl, rfl, rfl, rfl, rfl⟩, rfl⟩

theorem copyInput_to (hρ : Good ρ) {e e' : Engine L} (h : Renamed ρ cren R e e') (ch : Nat) (b : List L.Num) :
    ESim (Renamed ρ cren R) (e.copyInput ch b) (e'.copyInput ch b) := by
  unfold Engine.copyInput
  have : lookup e'.index inputName = lookup e.index inputName := by
    rw [h.index]
    conv => lhs; rw [← hρ.input]
    exact lookup_keys hρ _ _
  rw [this]
  cases lookup e.index inputName with
  | none => exact .err _
  | some nodes =>
    simp only
    cases nodes[0]? with
    | none => exact .err _
    | some i =>
      simp only
      refine (h.graph.modify i (fun d d' hd => ?_)).bind
        (fun g g' hg => .ok ⟨h.N, hg, h.dest, h.input, h.ast, h.index, h.backup, h.samples, h.bpm, h.sr, h.seed⟩)
      rw [← hd.2]
      cases d.buffers[ch]? with
      | none => exact .err _
      | some b0 =>
        simp only
        split
        · exact .ok ⟨hd.1, rfl⟩
        · exact .err _

theorem copyInputs_to (hρ : Good ρ) {e e' : Engine L} (h : Renamed ρ cren R e e') (buf : List (List L.Num)) :
    ESim (Renamed ρ cren R) (e.copyInputs buf) (e'.copyInputs buf) := by
  unfold Engine.copyInputs
  split
  · exact .ok h
  · exact copyInput_to hρ h _ _
  · exact (copyInput_to hρ h 0 _).bind (fun a b hab => copyInput_to hρ hab 1 _)

theorem nextBlock_to (hρ : Good ρ) (hN : NodeSim L R) {e e' : Engine L} (h : Renamed ρ cren R e e') (ho : HashOrder) (buf : List (List L.Num)) :
    ESim (fun x y => Renamed ρ cren R x.1 y.1 ∧ x.2 = y.2) (e.nextBlock ho buf) (e'.nextBlock ho buf) := by
  unfold Engine.nextBlock
  refine (copyInputs_to hρ h buf).bind (fun a b h1 => ?_)
  rw [h1.dest]
  refine (h1.graph.process hN.proc ho b.dest).bind (fun g g' hg => ?_)
  have h4 := hg.node b.dest
  generalize g.node? b.dest = x, g'.node? b.dest = y at h4
  cases h4 with
  | none => exact .err _
  | some hd => exact .ok ⟨⟨h1.N, hg, rfl, h1.input, h1.ast, h1.index, h1.backup, h1.samples, h1.bpm, h1.sr, h1.seed⟩, hd.2⟩

/-- One command, given its fields. -/
def runFields (e : Engine L) : List Name → Except Panic (Engine L)
  | chain :: cpos :: ppos :: value :: _ =>
    e.deliver chain ((parseUInt (2 ^ 64 - 1) cpos).getD 0) (valueMsg L ((parseUInt 255 ppos).getD 0) value)
  | _ => .ok e

theorem command_fields (e : Engine L) (cmd : Name) : e.command cmd = runFields e (splitOn ',' cmd) := by
  unfold Engine.command parseCommand runFields
  cases splitOn ',' cmd with
  | nil => rfl
  | cons a l =>
    cases l with
    | nil => rfl
    | cons b l =>
      cases l with
      | nil => rfl
      | cons c l => cases l <;> rfl

theorem sendMsg_fields (e : Engine L) (t : Name) :
    e.sendMsg t = ((splitOn ';' (t.filter (fun c => !isWhitespace c))).map (splitOn ',')).foldlM runFields e := by
  unfold Engine.sendMsg
  simp only
  generalize splitOn ';' (t.filter (fun c => !isWhitespace c)) = cmds
  induction cmds generalizing e with
  | nil => rfl
  | cons c cmds ih =>
    simp only [List.map_cons, List.foldlM_cons, ← command_fields]
    cases c with
    | nil =>
      rw [List.filter_cons_of_neg (by decide), ih]
      rfl
    | cons x c =>
      rw [List.filter_cons_of_pos rfl, List.foldlM_cons]
      congr 1
      funext e
      exact ih e

theorem runFields_to (hρ : Good ρ) (hN : NodeSim L R) {e e' : Engine L} (h : Renamed ρ cren R e e') (chain : Name) (fields : List Name) :
    ESim (Renamed ρ cren R) (runFields e (chain :: fields)) (runFields e' (ρ chain :: fields)) := by
  unfold runFields
  split
  · rename_i c cpos ppos value rest heq
    cases heq
    simp only [Engine.deliver]
    rw [h.index, lookup_keys hρ]
    cases lookup e.index chain with
    | none => exact .ok h
    | some nodes =>
      simp only
      cases nodes[(parseUInt (2 ^ 64 - 1) cpos).getD 0]? with
      | none => exact .err _
      | some i =>
        exact (msg_modify hN h.graph i _).bind
          (fun g g' hg => .ok ⟨h.N, hg, h.dest, h.input, h.ast, rfl, h.backup, h.samples, h.bpm, h.sr, h.seed⟩)
  · rename_i hx
    split
    · rename_i c cpos ppos value rest heq
      cases heq
      exact absurd rfl (hx chain cpos ppos value rest)
    · exact .ok h

theorem runAll_to (hρ : Good ρ) (hN : NodeSim L R) : ∀ (cmds : List (List Name)), (∀ fs ∈ cmds, fs ≠ []) → ∀ {e e' : Engine L}, Renamed ρ cren R e e' →
    ESim (Renamed ρ cren R) (cmds.foldlM runFields e)
      ((cmds.map (fun fs => match fs with | [] => [] | chain :: fields => ρ chain :: fields)).foldlM runFields e')
  | [], _, _, _, h => .ok h
  | [] :: _, hne, _, _, _ => absurd rfl (hne _ List.mem_cons_self)
  | (chain :: fields) :: cmds, hne, e, e', h => by
    simp only [List.map_cons, List.foldlM_cons]
    exact (runFields_to hρ hN h chain fields).bind (fun a b hab => runAll_to hρ hN cmds (fun fs hf => hne fs (List.mem_cons_of_mem _ hf)) hab)

theorem sendMsg_to (hρ : Good ρ) (hN : NodeSim L R) {e e' : Engine L} (h : Renamed ρ cren R e e') {t t' : Name} {cmds : List (List Name)}
    (h1 : Splits t cmds) (h2 : Splits t' (cmds.map (fun fs => match fs with | [] => [] | chain :: fields => ρ chain :: fields))) :
    ESim (Renamed ρ cren R) (e.sendMsg t) (e'.sendMsg t') := by
  rw [sendMsg_fields, sendMsg_fields]
  have hw : (fun c : Char => !isWhitespace c) = fun c => !decide (c.toNat ∈ whiteSpace) := by
    funext c
    rw [whitespace_iff]
  rw [hw, ← splits_eq h1, ← splits_eq h2]
  exact runAll_to hρ hN cmds h1.nonempty.2 h

theorem new_to (hρ : Good ρ) (hN : NodeSim L R) (N : Nat) : Renamed ρ cren R (Engine.new L N) (Engine.new L N) := by
  have h := new_sim hN N
  refine ⟨rfl, h.graph, rfl, rfl, rfl, ?_, ?_, rfl, rfl, rfl, rfl⟩ <;>
  · simp only [Engine.new, contextGraph, keysTo, List.map_cons, List.map_nil, hρ.input]

theorem reset_to (hN : NodeSim L R) {e e' : Engine L} (h : Renamed ρ cren R e e') : Renamed ρ cren R e.reset e'.reset :=
  ⟨h.N, ⟨.cons (.some ⟨hN.sum2, by simp only [freshData, h.N]⟩) (.cons (.some ⟨hN.pass, by simp only [freshData, h.N]⟩) .nil), rfl, rfl⟩,
    rfl, rfl, rfl, rfl, rfl, rfl, rfl, h.sr, rfl⟩

theorem setBpm_to (hN : NodeSim L R) {e e' : Engine L} (h : Renamed ρ cren R e e') (v : L.Num) :
    ESim (Renamed ρ cren R) (e.setBpm v) (e'.setBpm v) :=
  (sendAll_sim hN _ h.graph.slots).bind (fun s s' hs => .ok
    ⟨h.N, ⟨hs, h.graph.free, h.graph.edges⟩, h.dest, h.input, h.ast, h.index, h.backup, h.samples, rfl, h.sr, h.seed⟩)

end Verif.Rename
