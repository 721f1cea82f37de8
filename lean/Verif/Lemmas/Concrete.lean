import Verif.Make
import Verif.Lemmas.CompEq
import Verif.Props.Engine

/-! The concrete language satisfies the laws the engine theorems ask for (helpers). -/

namespace Verif
open Spec

variable {P : Plat} {N : Nat} {parse : Name → Except Panic (Option (Ast Comp))}

/-! ### Equality of components -/

theorem glicol_eqLaws (P : Plat) (N : Nat) (parse : Name → Except Panic (Option (Ast Comp))) :
    EqLaws (glicol P N parse) := ⟨Comp.eq_symm, Comp.eq_trans⟩

/-! ### References -/

theorem NumRef.refs_eq {a b : NumRef} (h : a.eq b = true) : a.refs = b.refs := by
  cases a <;> cases b <;> simp_all [NumRef.eq, NumRef.refs]

theorem listEq_flatMap {α β : Type} {eq : α → α → Bool} {f : α → List β}
    (hf : ∀ a b, eq a b = true → f a = f b) : ∀ {l m : List α}, listEq eq l m = true →
    l.flatMap f = m.flatMap f := by
  intro l
  induction l with
  | nil => intro m h; cases m <;> simp_all [listEq]
  | cons a l ih =>
    intro m h
    cases m with
    | nil => simp [listEq] at h
    | cons b m =>
      simp only [listEq, Bool.and_eq_true] at h
      simp only [List.flatMap_cons, hf _ _ h.1, ih h.2]

theorem Comp.refs_eq (a b : Comp) (h : Comp.eq a b = true) : a.refs = b.refs := by
  have hs : ∀ {l m : List (Fl × NatRef)},
      listEq (fun x y => Fl.beq x.1 y.1 && decide (x.2 = y.2)) l m = true →
      l.flatMap (fun x => x.2.refs) = m.flatMap (fun x => x.2.refs) := by
    intro l m h
    refine listEq_flatMap ?_ h
    intro x y h
    simp only [Bool.and_eq_true, decide_eq_true_eq] at h
    rw [h.2]
  have ha : ∀ {l m : List NumRef}, listEq NumRef.eq l m = true →
      l.flatMap NumRef.refs = m.flatMap NumRef.refs :=
    fun h => listEq_flatMap (eq := NumRef.eq) (f := NumRef.refs) (fun _ _ x => NumRef.refs_eq x) h
  have hn := @NumRef.refs_eq
  have hl : ∀ {s t : Signal} {q r : Fl}, s.eq t = true → (Comp.lpf s q).refs = (Comp.lpf t r).refs := by
    intro s t q r h
    cases s <;> cases t <;> simp_all [Signal.eq, Comp.refs]
  revert h
  fun_cases Comp.eq a b <;> intro h <;>
    (try simp only [Bool.and_eq_true, decide_eq_true_eq, beq_iff_eq, Bool.false_eq_true] at h) <;>
    first
      | exact hl h.1
      | simp only [Comp.refs] <;> grind

theorem seqRefs_mem (e : List (Fl × NatRef)) (r : Name) :
    r ∈ seqRefs e ↔ r ∈ (Comp.seq e).refs := by
  have h : ∀ (e : List (Fl × NatRef)) (acc : List Name),
      r ∈ e.foldl (fun acc e => match e.2 with
        | .nat _ => acc
        | .ref r => if acc.contains r then acc else acc ++ [r]) acc ↔
      r ∈ acc ∨ r ∈ e.flatMap (fun x => x.2.refs) := by
    intro e
    induction e with
    | nil => simp
    | cons x e ih =>
      intro acc
      rw [List.foldl_cons, ih, List.flatMap_cons, List.mem_append]
      obtain ⟨t, v⟩ := x
      cases v with
      | nat n => simp [NatRef.refs]
      | ref q =>
        simp only [NatRef.refs, List.mem_singleton, List.contains_iff_mem]
        by_cases hq : q ∈ acc
        · simp only [hq, if_true]
          constructor
          · rintro (h | h)
            · exact .inl h
            · exact .inr (.inr h)
          · rintro (h | rfl | h)
            · exact .inl h
            · exact .inl hq
            · exact .inr h
        · simp only [hq, if_false, List.mem_append, List.mem_singleton]
          exact or_assoc
  exact (h e []).trans (by simp [Comp.refs])

theorem makeRefs_mem (c : Comp) (r : Name) : r ∈ makeRefs c ↔ r ∈ c.refs := by
  cases c <;> first | exact Iff.rfl | exact seqRefs_mem _ r

/-- What the constructor returns as references. -/
theorem makeNode_refs {samples : List (Name × Sample)} {sr : Nat} {bpm : Fl} {seed : Nat} {c : Comp}
    {nd : NodeData (GNode P) Buf} {rs : List Name}
    (h : makeNode P N samples sr bpm seed c = .ok (nd, rs)) : rs = makeRefs c := by
  unfold makeNode at h
  split at h
  · rename_i x _
    cases x with
    | error e => cases h
    | ok x => cases h; rfl
  · split at h
    · rename_i x _
      cases x with
      | error e => cases h
      | ok x => cases h; rfl
    · split at h
      · rename_i code _ _
        generalize P.ext.new true code sr = x at h
        cases x with
        | error e => cases h
        | ok x => cases h; rfl
      · rename_i code _ _
        generalize P.ext.new false code sr = x at h
        cases x with
        | error e => cases h
        | ok x => cases h; rfl
      · cases h

theorem glicol_refLaws (P : Plat) (N : Nat) (parse : Name → Except Panic (Option (Ast Comp))) :
    Props.RefLaws (glicol P N parse) := by
  refine ⟨?_, ?_⟩
  · intro smp sr bpm seed c nd rs h r
    rw [makeNode_refs h]
    exact makeRefs_mem c r
  · intro a b h r
    show r ∈ a.refs ↔ r ∈ b.refs
    rw [Comp.refs_eq a b h]

/-! ### Wiring messages -/

theorem orderMsg_ok {resets : Bool} {o : List Nat} {m : Msg Fl} (h : UpdateWiring m) :
    ∃ o', orderMsg resets o m = .ok o' := by
  cases m with
  | index i => exact ⟨_, rfl⟩
  | indexOrder p i =>
    have hp : p = 0 := h
    subst hp
    exact ⟨i :: o, by simp [orderMsg]⟩
  | resetOrder => exact ⟨_, rfl⟩
  | setToNumber p v => exact ⟨_, rfl⟩
  | setToSymbol p v => exact ⟨_, rfl⟩
  | setBPM v => exact ⟨_, rfl⟩

/-- The node inside a graph node takes part in the wiring by keeping a list of its inputs, which is
emptied on request. (The others ignore the messages or never empty the list.) -/
def Prim.keepsOrder : Prim → Bool
  | .pass | .sum | .sum2 | .constSig _ | .imp _ | .noise _ | .points _ => false
  | _ => true

/-- The list of inputs of a node that keeps one. -/
def Prim.order : Prim → List Nat
  | .pass | .sum | .sum2 => []
  | .mul a | .add a | .speed a | .pan a => a.order
  | .constSig c => c.order
  | .imp i => i.order
  | .noise n => n.order
  | .balance o => o
  | .delayn d => d.order
  | .delayms d => d.order
  | .osc _ o | .sin o => o.order
  | .envperc e => e.order
  | .adsr e => e.order
  | .onepole f => f.order
  | .rhpf f => f.order
  | .rlpf f => f.order
  | .apf f => f.order
  | .seq s => s.order
  | .arrange a => a.order
  | .choose c => c.order
  | .points p => p.order
  | .sampler s => s.order
  | .psampler p => p.order
  | .msgSynth s => s.order
  | .patSynth s => s.order

/-- A wiring message changes nothing but the list of inputs. -/
theorem msgPrim_wiring {m : Libm} {n n' : Prim} {g : Msg Fl} (hg : IsWiring g)
    (h : msgPrim m n g = .ok n') : n'.keepsOrder = n.keepsOrder ∧
      (n.keepsOrder = true → orderMsg true n.order g = .ok n'.order) := by
  have key : ∀ {α : Type} {f : List Nat → α} {b : Bool} {o : List Nat} {c : α → Prim},
      c <$> (do let o ← orderMsg b o g; .ok (f o)) = Except.ok n' →
      ∃ o', orderMsg b o g = .ok o' ∧ n' = c (f o') := by
    intro α f b o c h
    generalize orderMsg b o g = x at h
    cases x with
    | error e => cases h
    | ok o' => cases h; exact ⟨o', rfl, rfl⟩
  have key' : ∀ {b : Bool} {o : List Nat} {c : List Nat → Prim},
      c <$> orderMsg b o g = Except.ok n' → ∃ o', orderMsg b o g = .ok o' ∧ n' = c o' := by
    intro b o c h
    generalize orderMsg b o g = x at h
    cases x with
    | error e => cases h
    | ok o' => cases h; exact ⟨o', rfl, rfl⟩
  cases g with
  | setToNumber p v => exact absurd hg (by simp [IsWiring])
  | setToSymbol p v => exact absurd hg (by simp [IsWiring])
  | setBPM v => exact absurd hg (by simp [IsWiring])
  | index i =>
    cases n <;> first
      | (cases h; exact ⟨rfl, fun _ => rfl⟩)
      | (cases h; exact ⟨rfl, fun hk => by cases hk⟩)
      | (obtain ⟨o', h1, rfl⟩ := key h
         refine ⟨rfl, ?_⟩
         first | (intro _; exact h1) | simp [Prim.keepsOrder])
      | (obtain ⟨o', h1, rfl⟩ := key' h
         exact ⟨rfl, fun _ => h1⟩)
  | indexOrder p i =>
    cases n <;> first
      | (cases h; exact ⟨rfl, fun _ => rfl⟩)
      | (cases h; exact ⟨rfl, fun hk => by cases hk⟩)
      | (obtain ⟨o', h1, rfl⟩ := key h
         refine ⟨rfl, ?_⟩
         first | (intro _; exact h1) | simp [Prim.keepsOrder])
      | (obtain ⟨o', h1, rfl⟩ := key' h
         exact ⟨rfl, fun _ => h1⟩)
  | resetOrder =>
    cases n <;> first
      | (cases h; exact ⟨rfl, fun _ => rfl⟩)
      | (cases h; exact ⟨rfl, fun hk => by cases hk⟩)
      | (obtain ⟨o', h1, rfl⟩ := key h
         refine ⟨rfl, ?_⟩
         first | (intro _; exact h1) | simp [Prim.keepsOrder])
      | (obtain ⟨o', h1, rfl⟩ := key' h
         exact ⟨rfl, fun _ => h1⟩)

theorem msgPrim_total {m : Libm} {n : Prim} {g : Msg Fl} (hg : UpdateWiring g) :
    ∃ n', msgPrim m n g = .ok n' := by
  have key : ∀ {α : Type} {f : List Nat → α} {b : Bool} {o : List Nat} {c : α → Prim},
      ∃ n', c <$> (do let o ← orderMsg b o g; .ok (f o)) = Except.ok n' := by
    intro α f b o c
    obtain ⟨o', ho⟩ := orderMsg_ok (resets := b) (o := o) hg
    rw [ho]
    exact ⟨_, rfl⟩
  have key' : ∀ {b : Bool} {o : List Nat} {c : List Nat → Prim},
      ∃ n', c <$> orderMsg b o g = Except.ok n' := by
    intro b o c
    obtain ⟨o', ho⟩ := orderMsg_ok (resets := b) (o := o) hg
    rw [ho]
    exact ⟨_, rfl⟩
  cases g with
  | setToNumber p v => exact absurd hg (by simp [UpdateWiring])
  | setToSymbol p v => exact absurd hg (by simp [UpdateWiring])
  | setBPM v => exact absurd hg (by simp [UpdateWiring])
  | index i => cases n <;> first | exact ⟨_, rfl⟩ | exact key | exact key'
  | indexOrder p i => cases n <;> first | exact ⟨_, rfl⟩ | exact key | exact key'
  | resetOrder => cases n <;> first | exact ⟨_, rfl⟩ | exact key | exact key'

theorem scriptMsg_wiring {o : List Nat} {s : P.ext.State} {g : Msg Fl} (hg : IsWiring g) :
    msgG P (.script o s) g = (do
      let o ← orderMsg true o g
      .ok (.script o s)) := by
  cases g <;> first | exact hg.elim | rfl

theorem compoundMsg_wiring {m : Libm} {c : Compound} {g : Msg Fl} (hg : IsWiring g) :
    c.msg m g = (do
      let o ← orderMsg (c.kind == .plate) c.order g
      .ok { c with order := o }) := by
  obtain ⟨k, _⟩ := c
  cases g <;> first | exact hg.elim | (cases k <;> rfl)

theorem UpdateWiring.wiring {g : Msg Fl} (h : UpdateWiring g) : IsWiring g := by
  cases g <;> first | trivial | exact h.elim

theorem glicol_wiringTotal : WiringTotal (glicol P N parse) := by
  intro n g hg
  show ∃ n', msgG P n g = .ok n'
  cases n with
  | prim n =>
    obtain ⟨n', h⟩ := msgPrim_total (m := P.libm) (n := n) hg
    exact ⟨.prim n', by simp only [msgG, h]; rfl⟩
  | compound c =>
    obtain ⟨o', h⟩ := orderMsg_ok (resets := c.kind == .plate) (o := c.order) hg
    refine ⟨.compound { c with order := o' }, ?_⟩
    simp only [msgG, compoundMsg_wiring (UpdateWiring.wiring hg), h]
    rfl
  | script o s =>
    obtain ⟨o', h⟩ := orderMsg_ok (resets := true) (o := o) hg
    exact ⟨.script o' s, by rw [scriptMsg_wiring (UpdateWiring.wiring hg), h]; rfl⟩

/-! ### The list of inputs -/

/-- The nodes that keep a list of their inputs. -/
def GNode.keepsOrder : GNode P → Prop
  | .prim n => n.keepsOrder = true
  | .compound _ => True
  | .script .. => True

/-- The nodes that empty this list on request. -/
def GNode.empties : GNode P → Prop
  | .prim n => n.keepsOrder = true
  | .compound c => c.kind = .plate
  | .script .. => True

/-- The list of inputs of a node. -/
def GNode.order : GNode P → List Nat
  | .prim n => n.order
  | .compound c => c.order
  | .script o _ => o

theorem msgG_wiring {n n' : GNode P} {g : Msg Fl} (hg : IsWiring g) (h : msgG P n g = .ok n') :
    (n'.keepsOrder ↔ n.keepsOrder) ∧ (n'.empties ↔ n.empties) ∧
    (n.keepsOrder → (g = .resetOrder → n.empties) → orderMsg true n.order g = .ok n'.order) := by
  cases n with
  | prim n =>
    simp only [msgG] at h
    cases hr : msgPrim P.libm n g with
    | error e => rw [hr] at h; cases h
    | ok n1 =>
      rw [hr] at h
      cases h
      have := msgPrim_wiring hg hr
      exact ⟨by simp only [GNode.keepsOrder, this.1], by simp only [GNode.empties, this.1],
        fun hk _ => this.2 hk⟩
  | compound c =>
    simp only [msgG, compoundMsg_wiring hg] at h
    cases hr : orderMsg (c.kind == .plate) c.order g with
    | error e => rw [hr] at h; cases h
    | ok o' =>
      rw [hr] at h
      cases h
      refine ⟨Iff.rfl, Iff.rfl, ?_⟩
      intro _ hk
      have key : ∀ b, (g = .resetOrder → b = true) → orderMsg b c.order g = .ok o' →
          orderMsg true c.order g = .ok o' := by
        intro b hb h
        cases g with
        | resetOrder => rw [hb rfl] at h; exact h
        | _ => exact h
      exact key _ (fun h => by have := hk h; simpa [GNode.empties] using this) hr
  | script o s =>
    rw [scriptMsg_wiring hg] at h
    cases hr : orderMsg true o g with
    | error e => rw [hr] at h; cases h
    | ok o' =>
      rw [hr] at h
      cases h
      exact ⟨Iff.rfl, Iff.rfl, fun _ _ => hr⟩

theorem glicol_orderLaws (P : Plat) (N : Nat) (parse : Name → Except Panic (Option (Ast Comp))) :
    OrderLaws (glicol P N parse) GNode.keepsOrder GNode.empties GNode.order := by
  refine ⟨?_, ?_, ?_, ?_⟩
  · intro n n' m hm h
    have := msgG_wiring hm h
    exact ⟨this.1, this.2.1⟩
  · intro n n' a hk h
    have := (msgG_wiring (g := .index a) trivial h).2.2 hk (by simp)
    simp only [orderMsg, Except.ok.injEq] at this
    exact this.symm
  · intro n n' a hk h
    have := (msgG_wiring (g := .indexOrder 0 a) trivial h).2.2 hk (by simp)
    simp only [orderMsg, Nat.zero_le, if_true, List.insertIdx_zero, Except.ok.injEq] at this
    exact this.symm
  · intro n n' hk hr h
    have := (msgG_wiring (g := .resetOrder) trivial h).2.2 hk (fun _ => hr)
    simp only [orderMsg, if_true, Except.ok.injEq] at this
    exact this.symm

end Verif
