import Verif.Lemmas.OrderHead
import Verif.Lemmas.PlaceInv

/-! Which node belongs to which component (helpers for C73). -/

namespace Verif
open Spec Props

variable {P : Plat} {N : Nat} {parse : Name → Except Panic (Option (Ast Comp))}

/-- The components that take their signal from the left, the first of their list of inputs. -/
def Comp.effect : Comp → Bool
  | .constsig _ | .noise _ | .points .. | .get _ | .imp _ | .mix _ => false
  | _ => true

/-- The components that can be modulated, and forget their old inputs when they are wired anew. -/
def Comp.modulated : Comp → Bool
  | .constsig _ | .noise _ | .points .. | .eval _ | .metaScript _ | .get _ | .imp _ | .mix _ => false
  | .delayms _ | .bd _ | .sn _ | .hh _ | .sawsynth _ _ | .squsynth _ _ | .trisynth _ _ | .plate _ => false
  | _ => true

/-- Arrangements read inputs other than the first even without references. -/
def Comp.isArrange : Comp → Bool
  | .arrange _ => true
  | _ => false

/-- References that do not send inputs to a list. -/
def Comp.isGet : Comp → Bool
  | .get _ => true
  | _ => false

/-- What the node of a component is, as far as the wiring is concerned. -/
structure Kin (c : Comp) (n : GNode P) : Prop where
  effect : c.effect = true → n.keepsOrder
  head : c.effect = true → c.isArrange = false → c.refs = [] → n.headOnly
  modulated : c.modulated = true → n.empties ∧ n.blind
  get : c.isGet = true → n = .prim .pass

theorem Comp.eq_class {a b : Comp} (h : a.eq b = true) : a.effect = b.effect ∧ a.modulated = b.modulated ∧
    a.isArrange = b.isArrange ∧ a.isGet = b.isGet := by
  revert h
  fun_cases Comp.eq a b <;> intro h <;> first
    | exact ⟨rfl, rfl, rfl, rfl⟩
    | cases h

theorem makePrim_kin {m : Libm} {samples : List (Name × Sample)} {sr : Nat} {bpm : Fl} {seed : Nat}
    {c : Comp} {ch : Nat} {n : Prim} (h : makePrim m samples sr bpm seed c = some (.ok (ch, n))) :
    Kin (P := P) c (.prim n) := by
  cases c with
  | psampler e span =>
    cases span with
    | none => cases h
    | some v =>
      have h := Option.some.inj h
      rw [except_bind_ok] at h
      obtain ⟨l, _, h⟩ := h
      cases h
      exact ⟨fun _ => rfl, fun _ _ _ => trivial, fun _ => ⟨rfl, rfl⟩, fun h => by cases h⟩
  | points ps span looping =>
    have h := Option.some.inj h
    rw [except_bind_ok] at h
    obtain ⟨p, _, h⟩ := h
    cases h
    exact ⟨fun h => (by cases h), fun h => (by cases h), fun h => (by cases h), fun h => (by cases h)⟩
  | patternSynth s span =>
    have h := Option.some.inj h
    rw [except_bind_ok] at h
    obtain ⟨p, _, h⟩ := h
    cases h
    exact ⟨fun _ => rfl, fun _ _ _ => trivial, fun _ => ⟨rfl, rfl⟩, fun h => by cases h⟩
  | apfmsgain d g =>
    have h := Option.some.inj h
    rw [except_bind_ok] at h
    obtain ⟨p, _, h⟩ := h
    cases h
    exact ⟨fun _ => rfl, fun _ _ _ => trivial, fun _ => ⟨rfl, rfl⟩, fun h => by cases h⟩
  | sp s =>
    have h := Option.some.inj h
    split at h
    · cases h
    · rw [except_bind_ok] at h
      obtain ⟨p, _, h⟩ := h
      cases h
      exact ⟨fun _ => rfl, fun _ _ _ => trivial, fun _ => ⟨rfl, rfl⟩, fun h => by cases h⟩
  | lpf s q =>
    cases s <;> cases h <;> (exact ⟨fun _ => rfl, fun _ _ _ => trivial, fun _ => ⟨rfl, rfl⟩, fun h => by cases h⟩)
  | delayn p =>
    cases p <;> (cases h; exact ⟨fun _ => rfl, fun _ _ _ => trivial, fun _ => ⟨rfl, rfl⟩, fun h => by cases h⟩)
  | seq e =>
    cases h
    exact ⟨fun _ => rfl, fun _ _ h => h, fun _ => ⟨rfl, rfl⟩, fun h => by cases h⟩
  | arrange e =>
    cases h
    exact ⟨fun _ => rfl, fun _ h => (by cases h), fun _ => ⟨rfl, rfl⟩, fun h => by cases h⟩
  | get r =>
    cases h
    exact ⟨fun h => (by cases h), fun h => (by cases h), fun h => (by cases h), fun _ => rfl⟩
  | _ => first
    | (cases h; done)
    | (cases h; exact ⟨fun _ => rfl, fun _ _ _ => trivial, fun _ => ⟨rfl, rfl⟩, fun h => by cases h⟩)
    | (cases h; exact ⟨fun _ => rfl, fun _ _ _ => trivial, fun h => (by cases h), fun h => (by cases h)⟩)
    | (cases h; exact ⟨fun h => (by cases h), fun h => (by cases h), fun h => (by cases h), fun h => (by cases h)⟩)

theorem makeCompound_plain {m : Libm} {c : Comp} (h : (makeCompound m N c).isSome = true) :
    c.modulated = false ∧ c.isGet = false := by
  revert h
  cases c <;> intro h <;> first
    | exact ⟨rfl, rfl⟩
    | cases h

theorem makeNode_kin {samples : List (Name × Sample)} {sr : Nat} {bpm : Fl} {seed : Nat} {c : Comp}
    {nd : NodeData (GNode P) Buf} {rs : List Name}
    (h : makeNode P N samples sr bpm seed c = .ok (nd, rs)) : Kin c nd.node := by
  unfold makeNode at h
  split at h
  · rename_i r hp
    rw [except_bind_ok] at h
    obtain ⟨⟨ch, n⟩, rfl, h⟩ := h
    cases h
    exact makePrim_kin hp
  · split at h
    · rename_i r hp
      rw [except_bind_ok] at h
      obtain ⟨k, hk, h⟩ := h
      cases h
      obtain ⟨h1, h2⟩ := makeCompound_plain (m := P.libm) (N := N) (c := c) (by rw [hp]; rfl)
      exact ⟨fun _ => trivial, fun _ _ _ => trivial, fun h => (by rw [h1] at h; cases h),
        fun h => (by rw [h2] at h; cases h)⟩
    · split at h
      · rw [except_bind_ok] at h
        obtain ⟨s, _, h⟩ := h
        cases h
        exact ⟨fun _ => trivial, fun _ _ _ => trivial, fun h => (by cases h), fun h => (by cases h)⟩
      · rw [except_bind_ok] at h
        obtain ⟨s, _, h⟩ := h
        cases h
        exact ⟨fun _ => trivial, fun _ _ _ => trivial, fun h => (by cases h), fun h => (by cases h)⟩
      · cases h

theorem Kin.same {c : Comp} {n n' : GNode P} (h : Kin c n) (hs : n.sameKind n') : Kin c n' :=
  ⟨fun x => hs.1.mpr (h.effect x), fun x y z => hs.2.2.1 (h.head x y z),
    fun x => ⟨hs.2.1.mpr (h.modulated x).1, hs.2.2.2.1.mpr (h.modulated x).2⟩, fun x => hs.2.2.2.2 (h.get x)⟩

theorem kin_kept : Kept (glicol P N parse) Kin := by
  refine ⟨?_, ?_, ?_, ?_⟩
  · intro smp sr bpm seed c nd rs h
    exact makeNode_kin h
  · intro o c n h hk
    obtain ⟨h1, h2, h3, h4⟩ := Comp.eq_class h
    have h5 := Comp.refs_eq o c h
    exact ⟨fun x => hk.effect (h1.trans x), fun x y z => hk.head (h1.trans x) (h3.trans y) (h5.trans z),
      fun x => hk.modulated (h2.trans x), fun x => hk.get (h4.trans x)⟩
  · intro c n g n' hk h
    exact hk.same (msgG_kind h)
  · intro c n ins b n' b' hk h
    exact hk.same (procG_kind h).1

theorem order_drift : Drift (glicol P N parse) (fun n n' : GNode P => n'.order = n.order ∧
    (n'.keepsOrder ↔ n.keepsOrder) ∧ (n'.empties ↔ n.empties)) := by
  refine ⟨fun _ => ⟨rfl, Iff.rfl, Iff.rfl⟩, ?_, ?_, ?_⟩
  · intro a b c h1 h2
    exact ⟨h2.1.trans h1.1, h2.2.1.trans h1.2.1, h2.2.2.trans h1.2.2⟩
  · intro n g n' hg h
    exact ⟨msgG_quiet hg h, (msgG_kind h).1, (msgG_kind h).2.1⟩
  · intro n ins b n' b' h
    exact ⟨(procG_kind h).2, (procG_kind h).1.1, (procG_kind h).1.2.1⟩

end Verif
