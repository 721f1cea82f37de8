import Verif.Spec.Life
import Verif.Lemmas.SafeG

/-! What a change of tempo does to a node (helpers for C15). -/

namespace Verif
open Spec Props

/-- A node in whose state the tempo occurs. -/
def Prim.tempo : Prim → Bool
  | .seq _ | .constSig _ | .points _ => true
  | _ => false

theorem procPrim_tempo {m : Libm} {n n' : Prim} {ins : Ins} {out o : List Buf}
    (h : procPrim m n ins out = .ok (n', o)) (hn : n.tempo = false) : n'.tempo = false := by
  cases n <;> first
    | (cases hn; done)
    | (cases h; rfl)
    | (cases sameNode_node h; rfl)
    | (obtain ⟨s, hs, rfl⟩ := reState_node h; rfl)

theorem msgPrim_tempo {m : Libm} {n n' : Prim} {g : Msg Fl}
    (h : msgPrim m n g = .ok n') (hn : n.tempo = false) : n'.tempo = false := by
  cases n <;> first
    | (cases hn; done)
    | (cases h; rfl)
    | (obtain ⟨s, k, rfl⟩ := map_ok h; rfl)

theorem msgPrim_tempo_same {m : Libm} {n : Prim} {v : Fl} (hn : n.tempo = false) :
    msgPrim m n (.setBPM v) = .ok n := by
  cases n <;> first
    | (cases hn; done)
    | rfl

/-- A node whose state does not contain the tempo. -/
def GNode.steady {P : Plat} : GNode P → Prop
  | .prim n => n.tempo = false
  | .compound _ => True
  | .script .. => True

theorem procG_steady {P : Plat} {n n' : GNode P} {ins : Ins} {out o : List Buf}
    (h : procG P n ins out = .ok (n', o)) (hn : n.steady) : n'.steady := by
  cases n with
  | prim n =>
    simp only [procG] at h
    cases k : procPrim P.libm n ins out with
    | error e => rw [k] at h; cases h
    | ok r => rw [k] at h; cases h; exact procPrim_tempo k hn
  | compound c =>
    simp only [procG] at h
    cases k : procCompound P.libm P.ho c ins out with
    | error e => rw [k] at h; cases h
    | ok r => rw [k] at h; cases h; trivial
  | script o s => obtain ⟨s', k, rfl⟩ := reState_ok h; trivial

theorem msgG_steady {P : Plat} {n n' : GNode P} {g : Msg Fl} (h : msgG P n g = .ok n') (hn : n.steady) :
    n'.steady := by
  cases n with
  | prim n => obtain ⟨s, k, rfl⟩ := map_ok h; exact msgPrim_tempo k hn
  | compound c => obtain ⟨s, k, rfl⟩ := map_ok h; trivial
  | script o s =>
    unfold msgG at h
    dsimp only at h
    split at h
    · obtain ⟨a, k, rfl⟩ := map_ok h
      trivial
    · rw [except_bind_ok] at h
      obtain ⟨o', _, h⟩ := h
      cases h
      trivial

theorem msgG_steady_same {P : Plat} {n : GNode P} {v : Fl} (hn : n.steady) :
    msgG P n (.setBPM v) = .ok n := by
  cases n with
  | prim n => simp only [msgG, msgPrim_tempo_same hn]; rfl
  | compound c => simp only [msgG, compoundMsg_bpm]; rfl
  | script o s => rfl

/-! ### The counting loop of the sequencer -/

/-- A loop that counts and ignores what was in the buffer. -/
theorem runM_blind {f : Nat → Except Panic Fl} {k : Nat} {xs ys : Buf} (h : xs.length = ys.length) :
    runM (fun k (_ : Fl) => do let v ← f k; .ok (k + 1, v)) k xs =
      runM (fun k (_ : Fl) => do let v ← f k; .ok (k + 1, v)) k ys := by
  induction xs generalizing k ys with
  | nil =>
    cases ys with
    | nil => rfl
    | cons _ _ => cases h
  | cons x xs ih =>
    cases ys with
    | nil => cases h
    | cons y ys =>
      simp only [runM]
      have := ih (k := k + 1) (Nat.succ.inj h)
      cases f k with
      | error e => rfl
      | ok v =>
        simp only [bind, Except.bind] at this ⊢
        rw [this]

theorem runM_blind_ok {f : Nat → Except Panic Fl} {k : Nat} {xs : Buf} {r : Nat × Buf}
    (h : runM (fun k (_ : Fl) => do let v ← f k; .ok (k + 1, v)) k xs = .ok r) :
    r.1 = k + xs.length ∧ r.2.length = xs.length := by
  induction xs generalizing k r with
  | nil => cases h; exact ⟨rfl, rfl⟩
  | cons x xs ih =>
    simp only [runM, bind, Except.bind] at h
    split at h
    · cases h
    · rename_i q hq
      split at hq
      · cases hq
      · cases hq
        split at h
        · cases h
        · rename_i w hw
          cases h
          obtain ⟨h1, h2⟩ := ih hw
          simp only [h1, List.length_cons, h2]
          exact ⟨by omega, trivial⟩

/-- Output buffers of which the sequencer overwrites the first. -/
def SeqOuts (o o' : List Buf) : Prop :=
  o = o' ∨ ∃ b b' rest, o = b :: rest ∧ o' = b' :: rest ∧ b.length = b'.length

/-- The block depends on the previous content of the first buffer only through its length. -/
theorem procSeq_outs {m : Libm} {s : Sequencer} {ins : Ins} {o o' : List Buf} (h : SeqOuts o o') :
    procSeq m s ins o = procSeq m s ins o' := by
  rcases h with rfl | ⟨b, b', rest, rfl, rfl, hl⟩
  · rfl
  · cases ins with
    | nil =>
      simp only [procSeq]
      rw [runM_blind hl]
    | cons i is =>
      simp only [procSeq]
      congr 1; funext first; congr 1; funext fb; congr 1; funext sp
      rw [runM_blind (f := fun k => seqSample m _ k (seqValue (i :: is) s.refOrder s.order _ (k - s.step)) s.events
        (.fin 0)) hl]

/-- A sequencer at another tempo, after a block: the states differ in the tempo alone. -/
theorem procSeq_step {m : Libm} {s s1 s2 : Sequencer} {v : Fl} {ins : Ins} {o o' o1 o2 : List Buf}
    (h : SeqOuts o o') (h1 : procSeq m s ins o = .ok (s1, o1))
    (h2 : procSeq m { s with bpm := v } ins o' = .ok (s2, o2)) :
    s2 = { s1 with bpm := v } ∧ s1.bpm = s.bpm ∧ SeqOuts o1 o2 := by
  rw [← procSeq_outs h] at h2
  cases o with
  | nil =>
    cases ins with
    | nil => cases h1
    | cons i is =>
      simp only [procSeq, except_bind_ok] at h1
      obtain ⟨_, _, _, _, _, _, h1⟩ := h1
      cases h1
  | cons b rest =>
    cases ins with
    | nil =>
      simp only [procSeq, except_bind_ok] at h1 h2
      obtain ⟨⟨k, y⟩, h1, e1⟩ := h1
      obtain ⟨⟨k', y'⟩, h2, e2⟩ := h2
      cases e1; cases e2
      obtain ⟨a1, a2⟩ := runM_blind_ok h1
      obtain ⟨b1, b2⟩ := runM_blind_ok h2
      dsimp only at a1 a2 b1 b2
      refine ⟨by rw [a1, b1], rfl, .inr ⟨_, _, _, rfl, rfl, by rw [a2, b2]⟩⟩
    | cons i is =>
      simp only [procSeq, except_bind_ok] at h1 h2
      obtain ⟨f, f1, fb, f2, sp, f3, ⟨k, y⟩, h1, e1⟩ := h1
      obtain ⟨f', f1', fb', f2', sp', f3', ⟨k', y'⟩, h2, e2⟩ := h2
      rw [f1] at f1'; cases f1'
      rw [f2] at f2'; cases f2'
      rw [f3] at f3'; cases f3'
      cases e1; cases e2
      obtain ⟨a1, a2⟩ := runM_blind_ok (f := fun k => seqSample m _ k
        (seqValue (i :: is) s.refOrder s.order _ (k - s.step)) s.events (.fin 0)) h1
      obtain ⟨b1, b2⟩ := runM_blind_ok (f := fun k => seqSample m _ k
        (seqValue (i :: is) s.refOrder s.order _ (k - s.step)) s.events (.fin 0)) h2
      dsimp only at a1 a2 b1 b2
      refine ⟨by rw [a1, b1], rfl, .inr ⟨_, _, _, rfl, rfl, by rw [a2, b2]⟩⟩

/-! ### Nodes that differ in the tempo alone -/

/-- The second node, with its buffers, is the first one at tempo `v`. -/
inductive AtTempo {P : Plat} (v : Fl) : GNode P → List Buf → GNode P → List Buf → Prop
  | steady (n : GNode P) (o : List Buf) : n.steady → AtTempo v n o n o
  | const (c : ConstSig) (w : Fl) (o : List Buf) :
      AtTempo v (.prim (.constSig c)) o (.prim (.constSig { c with bpm := w })) o
  | seq (s : Sequencer) (o o' : List Buf) : SeqOuts o o' →
      AtTempo v (.prim (.seq s)) o (.prim (.seq { s with bpm := v })) o'

theorem reState_inv {σ ν : Type} {f : σ → ν} {r : Except Panic (σ × List Buf)} {n : ν} {o : List Buf}
    (h : reState f r = .ok (n, o)) : ∃ s, r = .ok (s, o) ∧ n = f s := by
  cases r with
  | error e => cases h
  | ok b => cases h; exact ⟨_, rfl, rfl⟩

theorem AtTempo.block {P : Plat} {v : Fl} {n n' n1 n2 : GNode P} {o o' o1 o2 : List Buf} {ins : Ins}
    (h : AtTempo v n o n' o') (h1 : procG P n ins o = .ok (n1, o1)) (h2 : procG P n' ins o' = .ok (n2, o2)) :
    AtTempo v n1 o1 n2 o2 := by
  cases h with
  | steady _ _ hn =>
    rw [h1] at h2; cases h2
    exact .steady _ _ (procG_steady h1 hn)
  | const c w =>
    cases o with
    | nil => cases h1
    | cons b rest => cases h1; cases h2; exact .const _ w _
  | seq s _ _ ho =>
    obtain ⟨p1, k1, rfl⟩ := reState_inv h1
    obtain ⟨s1, l1, rfl⟩ := reState_inv k1
    obtain ⟨p2, k2, rfl⟩ := reState_inv h2
    obtain ⟨s2, l2, rfl⟩ := reState_inv k2
    obtain ⟨rfl, hb, ho'⟩ := procSeq_step ho l1 l2
    exact .seq _ _ _ ho'

theorem AtTempo.msg {P : Plat} {v : Fl} {n n' n1 n2 : GNode P} {o o' : List Buf} {g : Msg Fl}
    (hg : (Ev.msg g).isTempo = false)
    (h : AtTempo v n o n' o') (h1 : msgG P n g = .ok n1) (h2 : msgG P n' g = .ok n2) :
    AtTempo v n1 o n2 o' := by
  cases h with
  | steady _ _ hn =>
    rw [h1] at h2; cases h2
    exact .steady _ _ (msgG_steady h1 hn)
  | const c w =>
    obtain ⟨p1, k1, rfl⟩ := map_ok h1
    obtain ⟨s1, l1, rfl⟩ := map_ok k1
    obtain ⟨p2, k2, rfl⟩ := map_ok h2
    obtain ⟨s2, l2, rfl⟩ := map_ok k2
    have : ∃ w', s2 = { s1 with bpm := w' } := by
      unfold ConstSig.msg at l1 l2
      split at l1
      · cases l1; cases l2; exact ⟨_, rfl⟩
      · cases hg
      · rename_i hx hy
        split at l2
        · exact (hx _ rfl).elim
        · cases hg
        · simp only [except_bind_ok] at l1 l2
          obtain ⟨a, ha, l1⟩ := l1
          obtain ⟨b, hb, l2⟩ := l2
          rw [ha] at hb; cases hb; cases l1; cases l2
          exact ⟨_, rfl⟩
    obtain ⟨w', rfl⟩ := this
    exact .const _ _ _
  | seq s _ _ ho =>
    obtain ⟨p1, k1, rfl⟩ := map_ok h1
    obtain ⟨s1, l1, rfl⟩ := map_ok k1
    obtain ⟨p2, k2, rfl⟩ := map_ok h2
    obtain ⟨s2, l2, rfl⟩ := map_ok k2
    have : s2 = { s1 with bpm := v } := by
      unfold Sequencer.msg at l1 l2
      split at l1
      · cases hg
      · split at l2
        · cases hg
        · simp only [except_bind_ok] at l1 l2
          obtain ⟨a, ha, l1⟩ := l1
          obtain ⟨b, hb, l2⟩ := l2
          rw [ha] at hb; cases hb; cases l1; cases l2
          rfl
    subst this
    exact .seq _ _ _ ho

theorem AtTempo.tempo {P : Plat} {v w : Fl} {n n' n1 : GNode P} {o o' : List Buf}
    (h : AtTempo v n o n' o') (h1 : msgG P n (.setBPM w) = .ok n1) : AtTempo v n1 o n' o' := by
  cases h with
  | steady _ _ hn =>
    rw [msgG_steady_same hn] at h1; cases h1
    exact .steady _ _ hn
  | const c u => cases h1; exact .const { c with bpm := w } u _
  | seq s _ _ ho => cases h1; exact .seq { s with bpm := w } _ _ ho

/-- Through the same events, the second one missing the changes of tempo. -/
theorem AtTempo.live {P : Plat} {v : Fl} {evs : List Ev} {n n' n1 n2 : GNode P}
    {o o' o1 o2 : List Buf} {r1 r2 : List (List Buf)} (h : AtTempo v n o n' o')
    (h1 : live n o evs = .ok ((n1, o1), r1))
    (h2 : live n' o' (evs.filter (fun e => !e.isTempo)) = .ok ((n2, o2), r2)) :
    AtTempo v n1 o1 n2 o2 := by
  induction evs generalizing n n' o o' r1 r2 with
  | nil => cases h1; cases h2; exact h
  | cons e evs ih =>
    cases e with
    | block i =>
      rw [List.filter_cons_of_pos (by rfl)] at h2
      simp only [Spec.live] at h1 h2
      split at h1
      · cases h1
      · rename_i q1
        split at h1
        · cases h1
        · rename_i w1
          cases h1
          split at h2
          · cases h2
          · rename_i q2
            split at h2
            · cases h2
            · rename_i w2
              cases h2
              exact ih (h.block q1 q2) w1 w2
    | msg g =>
      by_cases hg : (Ev.msg g).isTempo = false
      · rw [List.filter_cons_of_pos (by rw [hg]; rfl)] at h2
        simp only [Spec.live] at h1 h2
        split at h1
        · cases h1
        · rename_i q1
          split at h2
          · cases h2
          · rename_i q2
            exact ih (h.msg hg q1 q2) h1 h2
      · rw [List.filter_cons_of_neg (by simpa using hg)] at h2
        cases g <;> first
          | (exact absurd rfl hg)
          | skip
        simp only [Spec.live] at h1
        split at h1
        · cases h1
        · rename_i q1
          exact ih (h.tempo q1) h1 h2

/-! ### Nodes that sound the same -/

/-- Nodes of which nobody can hear the difference. -/
inductive Alike {P : Plat} : GNode P → List Buf → GNode P → List Buf → Prop
  | refl (n : GNode P) (o : List Buf) : Alike n o n o
  | const (c : ConstSig) (w : Fl) (o : List Buf) :
      Alike (.prim (.constSig c)) o (.prim (.constSig { c with bpm := w })) o
  | seq (s : Sequencer) (o o' : List Buf) : SeqOuts o o' → Alike (.prim (.seq s)) o (.prim (.seq s)) o'

theorem alike_block {P : Plat} {n n' : GNode P} {o o' : List Buf} {ins : Ins} (h : Alike n o n' o') :
    (∃ e, procG P n ins o = .error e ∧ procG P n' ins o' = .error e) ∨
    ∃ n1 n2 o1, procG P n ins o = .ok (n1, o1) ∧ procG P n' ins o' = .ok (n2, o1) ∧ Alike n1 o1 n2 o1 := by
  cases h with
  | refl =>
    cases k : procG P n ins o with
    | error e => exact .inl ⟨e, rfl, rfl⟩
    | ok r => exact .inr ⟨_, _, _, rfl, rfl, .refl _ _⟩
  | const c w =>
    cases o with
    | nil => exact .inl ⟨_, rfl, rfl⟩
    | cons b rest => exact .inr ⟨_, _, _, rfl, rfl, .const _ w _⟩
  | seq s _ _ ho =>
    have : procG P (.prim (.seq s)) ins o = procG P (.prim (.seq s)) ins o' := by
      simp only [procG, procPrim, procSeq_outs ho]
    rw [this]
    cases k : procG P (.prim (.seq s)) ins o' with
    | error e => exact .inl ⟨e, rfl, rfl⟩
    | ok r => exact .inr ⟨_, _, _, rfl, rfl, .refl _ _⟩

theorem alike_msg {P : Plat} {n n' : GNode P} {o o' : List Buf} {g : Msg Fl} (h : Alike n o n' o') :
    (∃ e, msgG P n g = .error e ∧ msgG P n' g = .error e) ∨
    ∃ n1 n2, msgG P n g = .ok n1 ∧ msgG P n' g = .ok n2 ∧ Alike n1 o n2 o' := by
  cases h with
  | refl =>
    cases k : msgG P n g with
    | error e => exact .inl ⟨e, rfl, rfl⟩
    | ok r => exact .inr ⟨_, _, rfl, rfl, .refl _ _⟩
  | const c w =>
    cases g with
    | setToNumber i v =>
      cases i with
      | zero => exact .inr ⟨_, _, rfl, rfl, .const { c with val := v } w _⟩
      | succ i => exact .inr ⟨_, _, rfl, rfl, .const c w _⟩
    | setToSymbol => exact .inr ⟨_, _, rfl, rfl, .const c w _⟩
    | setBPM v => exact .inr ⟨_, _, rfl, rfl, .refl _ _⟩
    | index i => exact .inr ⟨_, _, rfl, rfl, .const { c with order := _ } w _⟩
    | resetOrder => exact .inr ⟨_, _, rfl, rfl, .const c w _⟩
    | indexOrder p i =>
      simp only [msgG, msgPrim, ConstSig.msg]
      cases orderMsg false c.order (.indexOrder p i) with
      | error e => exact .inl ⟨e, rfl, rfl⟩
      | ok r => exact .inr ⟨_, _, rfl, rfl, .const { c with order := r } w _⟩
  | seq s _ _ ho =>
    simp only [msgG, msgPrim]
    cases s.msg g with
    | error e => exact .inl ⟨e, rfl, rfl⟩
    | ok r => exact .inr ⟨_, _, rfl, rfl, .seq _ _ _ ho⟩

theorem alike_sound {P : Plat} {n n' : GNode P} {o o' : List Buf} (h : Alike n o n' o') (evs : List Ev) :
    sound n o evs = sound n' o' evs := by
  induction evs generalizing n n' o o' with
  | nil => rfl
  | cons e evs ih =>
    cases e with
    | block i =>
      simp only [sound, live]
      rcases alike_block (ins := i) h with ⟨e, h1, h2⟩ | ⟨n1, n2, o1, h1, h2, h3⟩
      · rw [h1, h2]
      · rw [h1, h2]
        have := ih h3
        simp only [sound] at this
        dsimp only
        generalize live n1 o1 evs = x at this
        generalize live n2 o1 evs = y at this
        cases x <;> cases y <;>
          simp only [Except.map, Except.ok.injEq, Except.error.injEq, reduceCtorEq] at this ⊢
        · rw [this]
        · rw [this]
    | msg g =>
      simp only [sound, live]
      rcases alike_msg (g := g) h with ⟨e, h1, h2⟩ | ⟨n1, n2, h1, h2, h3⟩
      · rw [h1, h2]
      · rw [h1, h2]
        exact ih h3

/-- After the change of tempo nobody hears the difference. -/
theorem AtTempo.change {P : Plat} {v : Fl} {n n' : GNode P} {o o' : List Buf} (h : AtTempo v n o n' o') :
    ∃ n1, msgG P n (.setBPM v) = .ok n1 ∧ Alike n1 o n' o' := by
  cases h with
  | steady _ _ hn => exact ⟨_, msgG_steady_same hn, .refl _ _⟩
  | const c w => exact ⟨_, rfl, .const { c with bpm := v } w _⟩
  | seq s _ _ ho => exact ⟨_, rfl, .seq _ _ _ ho⟩

end Verif
