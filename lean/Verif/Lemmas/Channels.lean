import Verif.Lemmas.Dest
import Verif.Lemmas.Shape
import Verif.Lemmas.SafeMake

/-! Every node has one or two channels; the output sums and the input passes on (helpers). -/

namespace Verif
open Spec

variable {P : Plat} {N : Nat} {parse : Name → Except Panic (Option (Ast Comp))}

/-- One or two channels of `N` samples. -/
def Wide (N : Nat) (bs : List Buf) : Prop := (bs.length = 1 ∨ bs.length = 2) ∧ ∀ b, b ∈ bs → b.length = N

theorem makePrim_wide {m : Libm} {samples : List (Name × Sample)} {sr : Nat} {bpm : Fl} {seed : Nat}
    {c : Comp} {ch : Nat} {n : Prim} (h : makePrim m samples sr bpm seed c = some (.ok (ch, n))) : ch = 1 ∨ ch = 2 := by
  cases c with
  | psampler e span =>
    cases span with
    | none => cases h
    | some v =>
      have h := Option.some.inj h
      rw [except_bind_ok] at h
      obtain ⟨l, _, h⟩ := h
      cases h
      simp
  | points ps span looping =>
    have h := Option.some.inj h
    rw [except_bind_ok] at h
    obtain ⟨p, _, h⟩ := h
    cases h
    simp
  | patternSynth s span =>
    have h := Option.some.inj h
    rw [except_bind_ok] at h
    obtain ⟨p, hp, h⟩ := h
    cases h
    simp
  | sp sym =>
    have h := Option.some.inj h
    split at h
    · cases h
    · rw [except_bind_ok] at h
      obtain ⟨p, hp, h⟩ := h
      cases h
      simp
  | lpf s q => cases s <;> cases h <;> simp
  | apfmsgain d g =>
    have h := Option.some.inj h
    rw [except_bind_ok] at h
    obtain ⟨p, hp, h⟩ := h
    cases h
    simp
  | delayn p => cases p <;> cases h <;> simp
  | _ => cases h <;> simp

theorem makeNode_wide {samples : List (Name × Sample)} {sr : Nat} {bpm : Fl} {seed : Nat} {c : Comp}
    {nd : NodeData (GNode P) Buf} {rs : List Name}
    (h : makeNode P N samples sr bpm seed c = .ok (nd, rs)) : nd.buffers.length = 1 ∨ nd.buffers.length = 2 := by
  have hf : ∀ ch (n : GNode P), (fresh N ch n).buffers.length = ch := by intro ch n; simp [fresh]
  unfold makeNode at h
  split at h
  · rename_i r hp
    rw [except_bind_ok] at h
    obtain ⟨⟨ch, n⟩, rfl, h⟩ := h
    cases h
    rw [hf]
    exact makePrim_wide hp
  · split at h
    · rw [except_bind_ok] at h
      obtain ⟨k, hk, h⟩ := h
      cases h
      rw [hf]
      exact .inr rfl
    · split at h
      · rw [except_bind_ok] at h
        obtain ⟨s, hs, h⟩ := h
        cases h
        rw [hf]
        exact .inl rfl
      · rw [except_bind_ok] at h
        obtain ⟨s, hs, h⟩ := h
        cases h
        rw [hf]
        exact .inl rfl
      · cases h

/-- All nodes of an engine have one or two channels of the block length. -/
theorem wide_reach {T : P.ext.State → Prop} (hx : ExtShape P N T) (hL : ParserWf (glicol P N parse))
    {e : Engine (glicol P N parse)} (h : Reachable _ e) (hN : e.N = N) :
    ∀ (i : Nat) d, e.graph.node? i = some d → Wide N d.buffers := by
  have hs : Shape (glicol P N parse) N (GShape P N T) := glicol_shape hx
  have hi := hs.inv
  have hJ : NodeInv (glicol P N parse) N (fun _ _ => True)
      (fun d => InShape N (GShape P N T) d ∧ (d.buffers.length = 1 ∨ d.buffers.length = 2)) (fun _ _ => True)
      (fun _ _ => True) := by
    refine ⟨⟨hi.sum2, .inr rfl⟩, ⟨hi.pass, .inr rfl⟩, ?_, ?_, ?_, ?_, ?_, ?_, fun _ _ _ _ _ _ _ _ => trivial⟩
    · intro e τ code p k cs c nd rs h1 h2 h3 h4 h5 h6 h
      exact ⟨hi.make e τ code p k cs c nd rs h1 h2 h3 h4 h5 h6 h, makeNode_wide (P := P) (N := N) (c := c) h⟩
    · intro d m n h hw hm
      exact ⟨hi.wire d m n h.1 hw hm, h.2⟩
    · intro d m n h hu hg hm
      exact ⟨⟨(hi.user d m n h.1 hu hg hm).1, h.2⟩, fun _ _ => trivial⟩
    · intro e v h1 h2 d n h hm
      exact ⟨hi.bpm e v h1 h2 d n h.1 hm, h.2⟩
    · intro d ch b b0 h hb hl
      exact ⟨hi.copy d ch b b0 h.1 hb hl, by simpa using h.2⟩
    · intro d ins n' b' h hin hnd hF hp
      have hlen := hs.proc d.node ins d.buffers n' b' h.1.1 (by
        intro e he
        obtain ⟨dk, k1, k2⟩ := hin e.1 e.2 he
        rw [← k2]
        exact k1.1.2) h.1.2 hp
      exact ⟨⟨hlen.1, hlen.2.2⟩, by rw [hlen.2.1]; exact h.2⟩
  intro i d hd
  have := nodeInv_reach hL hJ (reachable_by h) hN (fun _ _ _ _ _ _ _ _ _ _ _ _ _ _ _ _ => trivial)
    (fun _ _ _ _ _ _ _ _ _ _ _ => trivial) i d hd
  exact ⟨this.2, this.1.2⟩

theorem sum2From_length {ins : Ins} : ∀ {b o : List Buf} {k : Nat}, sum2From ins k b = .ok o → o.length = b.length
  | [], _, _, h => by cases h; rfl
  | x :: b, o, k, h => by
    unfold sum2From at h
    rw [except_bind_ok] at h
    obtain ⟨c, _, h⟩ := h
    rw [except_bind_ok] at h
    obtain ⟨cs, h1, h⟩ := h
    cases h
    simp [sum2From_length h1]

theorem pass_length {ins : Ins} {b : List Buf} (h : b.length = 2) : (procPass ins b).length = 2 := by
  unfold procPass passBufs
  split
  · exact h
  · split
    · rfl
    · simp; omega

theorem stays_sum2 : Stays (glicol P N parse) (fun d => d.node = .prim .sum2 ∧ d.buffers.length = 2) := by
  refine ⟨?_, ?_, ?_⟩
  · rintro ⟨_, b⟩ m n ⟨rfl, hl⟩ h
    refine ⟨?_, hl⟩
    have h : msgG P (.prim .sum2) m = .ok n := h
    cases m <;> (cases h; rfl)
  · rintro ⟨_, b⟩ ch x ⟨rfl, hl⟩
    exact ⟨rfl, by simpa using hl⟩
  · rintro ⟨_, b⟩ ins n' b' ⟨rfl, hl⟩ h
    have h : procG P (.prim .sum2) ins b = .ok (n', b') := h
    simp only [procG, procPrim] at h
    cases hp : procSum2 ins b with
    | error e => rw [hp] at h; cases h
    | ok o =>
      rw [hp] at h
      cases h
      refine ⟨rfl, ?_⟩
      exact (sum2From_length hp).trans hl

/-- The node of the output sums. -/
theorem dest_sum2 (hL : ParserWf (glicol P N parse)) {e : Engine (glicol P N parse)} (h : Reachable _ e) :
    ∀ d, e.graph.node? e.dest = some d → d.node = .prim .sum2 ∧ d.buffers.length = 2 := by
  exact stays_sum2.dest hL ⟨rfl, rfl⟩ h rfl

theorem stays_pass : Stays (glicol P N parse) (fun d => d.node = .prim .pass ∧ d.buffers.length = 2) := by
  refine ⟨?_, ?_, ?_⟩
  · rintro ⟨_, b⟩ m n ⟨rfl, hl⟩ h
    refine ⟨?_, hl⟩
    have h : msgG P (.prim .pass) m = .ok n := h
    cases m <;> (cases h; rfl)
  · rintro ⟨_, b⟩ ch x ⟨rfl, hl⟩
    exact ⟨rfl, by simpa using hl⟩
  · rintro ⟨_, b⟩ ins n' b' ⟨rfl, hl⟩ h
    have h : procG P (.prim .pass) ins b = .ok (n', b') := h
    simp only [procG, procPrim] at h
    cases h
    refine ⟨rfl, ?_⟩
    exact pass_length hl

end Verif
