import Verif.Lemmas.Kin
import Verif.Lemmas.Channels
import Verif.Props.Arith

/-! The nodes of the operators stay what they are (helpers for C50 and C52). -/

namespace Verif
open Spec Props

variable {P : Plat} {N : Nat} {parse : Name → Except Panic (Option (Ast Comp))}

/-- 1 for `mul`, 2 for `add`, 3 for `balance`, 4 for nodes that pass their input on, 0 for others. -/
def Prim.opTag : Prim → Nat
  | .mul _ => 1
  | .add _ => 2
  | .balance _ => 3
  | .pass => 4
  | _ => 0

/-- The same for all nodes. -/
def GNode.opTag : GNode P → Nat
  | .prim n => n.opTag
  | _ => 0

/-- The same for components. -/
def Comp.opTag : Comp → Nat
  | .mul _ => 1
  | .add _ => 2
  | .balance _ _ => 3
  | .get _ => 4
  | _ => 0

theorem msgPrim_opTag {m : Libm} {n n' : Prim} {g : Msg Fl} (h : msgPrim m n g = .ok n') : n'.opTag = n.opTag := by
  cases n <;> first
    | (cases h; rfl)
    | (obtain ⟨a, k, rfl⟩ := map_ok h
       rfl)

theorem procPrim_opTag {m : Libm} {n n' : Prim} {ins : Ins} {out o : List Buf}
    (h : procPrim m n ins out = .ok (n', o)) : n'.opTag = n.opTag := by
  cases n <;> first
    | (cases h; rfl)
    | (cases sameNode_node h; rfl)
    | (obtain ⟨s, _, rfl⟩ := reState_node h; rfl)

theorem msgG_opTag {n n' : GNode P} {g : Msg Fl} (h : msgG P n g = .ok n') : n'.opTag = n.opTag := by
  cases n with
  | prim n =>
    obtain ⟨a, k, rfl⟩ := map_ok h
    exact msgPrim_opTag k
  | compound c =>
    obtain ⟨a, k, rfl⟩ := map_ok h
    rfl
  | script o s =>
    simp only [msgG] at h
    split at h
    · obtain ⟨a, k, rfl⟩ := map_ok h
      rfl
    · rw [except_bind_ok] at h
      obtain ⟨_, _, h⟩ := h
      cases h
      rfl

theorem procG_opTag {n n' : GNode P} {ins : Ins} {out o : List Buf} (h : procG P n ins out = .ok (n', o)) :
    n'.opTag = n.opTag := by
  cases n with
  | prim n =>
    simp only [procG] at h
    cases hr : procPrim P.libm n ins out with
    | error e => rw [hr] at h; cases h
    | ok r =>
      obtain ⟨n1, o1⟩ := r
      rw [hr] at h
      cases h
      exact procPrim_opTag hr
  | compound c =>
    simp only [procG] at h
    cases hr : procCompound P.libm P.ho c ins out with
    | error e => rw [hr] at h; cases h
    | ok r =>
      rw [hr] at h
      cases h
      rfl
  | script o s =>
    simp only [procG] at h
    cases hr : P.ext.proc s o ins out with
    | error e => rw [hr] at h; cases h
    | ok r =>
      rw [hr] at h
      cases h
      rfl

theorem makePrim_opTag {m : Libm} {samples : List (Name × Sample)} {sr : Nat} {bpm : Fl} {seed : Nat}
    {c : Comp} {ch : Nat} {n : Prim} (h : makePrim m samples sr bpm seed c = some (.ok (ch, n))) :
    n.opTag = c.opTag ∧ (n.opTag ≠ 0 → ch = 2) := by
  cases c with
  | psampler e span =>
    cases span with
    | none => cases h
    | some v =>
      have h := Option.some.inj h
      rw [except_bind_ok] at h
      obtain ⟨l, _, h⟩ := h
      cases h
      exact ⟨rfl, fun h => absurd rfl h⟩
  | points ps span looping =>
    have h := Option.some.inj h
    rw [except_bind_ok] at h
    obtain ⟨p, _, h⟩ := h
    cases h
    exact ⟨rfl, fun h => absurd rfl h⟩
  | patternSynth s span =>
    have h := Option.some.inj h
    rw [except_bind_ok] at h
    obtain ⟨p, hp, h⟩ := h
    cases h
    exact ⟨rfl, fun h => absurd rfl h⟩
  | sp sym =>
    have h := Option.some.inj h
    split at h
    · cases h
    · rw [except_bind_ok] at h
      obtain ⟨p, hp, h⟩ := h
      cases h
      exact ⟨rfl, fun h => absurd rfl h⟩
  | lpf s q => cases s <;> cases h <;> exact ⟨rfl, fun h => absurd rfl h⟩
  | apfmsgain d g =>
    have h := Option.some.inj h
    rw [except_bind_ok] at h
    obtain ⟨p, hp, h⟩ := h
    cases h
    exact ⟨rfl, fun h => absurd rfl h⟩
  | delayn p => cases p <;> cases h <;> exact ⟨rfl, fun h => absurd rfl h⟩
  | _ => cases h <;> first | exact ⟨rfl, fun h => absurd rfl h⟩ | exact ⟨rfl, fun _ => rfl⟩

theorem makePrim_op {m : Libm} {samples : List (Name × Sample)} {sr : Nat} {bpm : Fl} {seed : Nat}
    {c : Comp} (h : makePrim m samples sr bpm seed c = none) : c.opTag = 0 := by
  cases c <;> first | rfl | cases h

theorem makeNode_opTag {samples : List (Name × Sample)} {sr : Nat} {bpm : Fl} {seed : Nat} {c : Comp}
    {nd : NodeData (GNode P) Buf} {rs : List Name} (h : makeNode P N samples sr bpm seed c = .ok (nd, rs)) :
    nd.node.opTag = c.opTag ∧ (nd.node.opTag ≠ 0 → nd.buffers.length = 2) := by
  have hf : ∀ ch (n : GNode P), (fresh N ch n).buffers.length = ch := by intro ch n; simp [fresh]
  unfold makeNode at h
  split at h
  · rename_i r hp
    rw [except_bind_ok] at h
    obtain ⟨⟨ch, n⟩, rfl, h⟩ := h
    cases h
    rw [hf]
    exact makePrim_opTag hp
  · rename_i hp
    rw [makePrim_op hp]
    split at h
    · rw [except_bind_ok] at h
      obtain ⟨k, hk, h⟩ := h
      cases h
      exact ⟨rfl, fun h => absurd rfl h⟩
    · split at h
      · rw [except_bind_ok] at h
        obtain ⟨s, hs, h⟩ := h
        cases h
        exact ⟨rfl, fun h => absurd rfl h⟩
      · rw [except_bind_ok] at h
        obtain ⟨s, hs, h⟩ := h
        cases h
        exact ⟨rfl, fun h => absurd rfl h⟩
      · cases h

theorem Comp.eq_opTag {a b : Comp} (h : a.eq b = true) : a.opTag = b.opTag := by
  revert h
  fun_cases Comp.eq a b <;> intro h <;> first
    | rfl
    | cases h

theorem opTag_kept : Kept (glicol P N parse) (fun c n => GNode.opTag (P := P) n = Comp.opTag c) :=
  ⟨fun _ _ _ _ _ _ _ h => (makeNode_opTag h).1, fun _ _ _ h hk => hk.trans (Comp.eq_opTag h),
    fun _ _ _ _ hk h => (msgG_opTag h).trans hk, fun _ _ _ _ _ _ hk h => (procG_opTag h).trans hk⟩

/-- The nodes of operators have two channels. -/
theorem op_pair {T : P.ext.State → Prop} (hx : ExtShape P N T) (hL : ParserWf (glicol P N parse))
    {e : Engine (glicol P N parse)} (h : Reachable _ e) (hN : e.N = N) :
    ∀ (i : Nat) d, e.graph.node? i = some d → GNode.opTag (P := P) d.node ≠ 0 → d.buffers.length = 2 := by
  have hs : Shape (glicol P N parse) N (GShape P N T) := glicol_shape hx
  have hi := hs.inv
  have hJ : NodeInv (glicol P N parse) N (fun _ _ => True)
      (fun d => InShape N (GShape P N T) d ∧ (GNode.opTag (P := P) d.node ≠ 0 → d.buffers.length = 2)) (fun _ _ => True)
      (fun _ _ => True) := by
    refine ⟨⟨hi.sum2, fun _ => rfl⟩, ⟨hi.pass, fun _ => rfl⟩, ?_, ?_, ?_, ?_, ?_, ?_, fun _ _ _ _ _ _ _ _ => trivial⟩
    · intro e τ code p k cs c nd rs h1 h2 h3 h4 h5 h6 h
      exact ⟨hi.make e τ code p k cs c nd rs h1 h2 h3 h4 h5 h6 h, (makeNode_opTag (P := P) (N := N) (c := c) h).2⟩
    · intro d m n h hw hm
      exact ⟨hi.wire d m n h.1 hw hm, fun hk => h.2 (by rw [← msgG_opTag (P := P) hm]; exact hk)⟩
    · intro d m n h hu hg hm
      exact ⟨⟨(hi.user d m n h.1 hu hg hm).1, fun hk => h.2 (by rw [← msgG_opTag (P := P) hm]; exact hk)⟩, fun _ _ => trivial⟩
    · intro e v h1 h2 d n h hm
      exact ⟨hi.bpm e v h1 h2 d n h.1 hm, fun hk => h.2 (by rw [← msgG_opTag (P := P) hm]; exact hk)⟩
    · intro d ch b b0 h hb hl
      exact ⟨hi.copy d ch b b0 h.1 hb hl, by simpa using h.2⟩
    · intro d ins n' b' h hin hnd hF hp
      have hlen := hs.proc d.node ins d.buffers n' b' h.1.1 (by
        intro e he
        obtain ⟨dk, k1, k2⟩ := hin e.1 e.2 he
        rw [← k2]
        exact k1.1.2) h.1.2 hp
      refine ⟨⟨hlen.1, hlen.2.2⟩, fun hk => ?_⟩
      rw [hlen.2.1]
      exact h.2 (by rw [← procG_opTag (P := P) hp]; exact hk)
  intro i d hd
  exact (nodeInv_reach hL hJ (reachable_by h) hN (fun _ _ _ _ _ _ _ _ _ _ _ _ _ _ _ _ => trivial)
    (fun _ _ _ _ _ _ _ _ _ _ _ => trivial) i d hd).2

/-- The program in force comes from a text. -/
theorem ast_parsed {L : Lang} (hL : ParserWf L) {e : Engine L} (hr : Reachable L e) {a : Ast L.Comp} (h : e.ast = some a) :
    ∃ code, L.parse code = .ok (some a) := by
  induction hr with
  | new N => cases h
  | @step e e1 op hr happ ih =>
    have hI := inv_reachable hL hr
    have quiet : QuietOp op → ∃ code, L.parse code = .ok (some a) := by
      intro hq
      have hD : Drift L (fun _ _ => True) := ⟨fun _ => trivial, fun _ _ _ _ _ => trivial, fun _ _ _ _ _ => trivial, fun _ _ _ _ _ _ => trivial⟩
      exact ih ((hD.each_quiet hq happ).1 ▸ h)
    cases op with
    | update τ code =>
      simp only [Op.apply, except_bind_ok] at happ
      obtain ⟨⟨e2, r⟩, h1, happ⟩ := happ
      cases happ
      unfold Engine.updateWithCode at h1
      rw [except_bind_ok] at h1
      obtain ⟨p, hp, h1⟩ := h1
      split at h1
      · cases h1; exact ih h
      · rename_i new
        have hw := hL code new hp
        cases r with
        | none =>
          obtain ⟨diff, t1, gone1, t2, gone2, g3, cr, g5, hacc⟩ := accepted hI hw h1
          rw [congrArg Engine.ast hacc.eq] at h
          cases h
          exact ⟨code, hp⟩
        | some x =>
          have hs := (sameEngine_of_rejected hI hw h1).1
          rw [hs.ast] at h
          exact ih h
    | reset => cases happ; cases h
    | _ => exact quiet trivial

end Verif
