import Verif.Lemmas.Nodes
import Verif.Lemmas.Loop
import Verif.Spec.Stream
import Verif.Lemmas.Table

/-! The samples that the nodes hand on are f32 numbers (helpers). -/

namespace Verif

/-- An f32 number. -/
abbrev Sg (x : Fl) : Prop := x.Ok f32

/-- Buffers of f32 numbers. -/
def SgBufs (o : List Buf) : Prop := ∀ b, b ∈ o → ∀ x, x ∈ b → Sg x

section Fl
open Fl

theorem sg_add (a b : Fl) : Sg (a +. b) := by
  unfold Sg
  cases a <;> cases b <;> simp only [Fl.add] <;> try first | trivial | exact round_ok
  split <;> trivial

theorem sg_sub (a b : Fl) : Sg (a -. b) := sg_add _ _

theorem sg_mul (a b : Fl) : Sg (a *. b) := by
  unfold Sg
  cases a <;> cases b <;> simp only [Fl.mul] <;> try first | trivial | exact round_ok
  all_goals split <;> trivial

theorem sg_div (a b : Fl) : Sg (a /. b) := by
  have h0 : (Fl.fin 0).Ok f32 := ⟨Fmt.rep_zero, by simpa using Fmt.maxFin_nonneg⟩
  unfold Sg
  cases a <;> cases b <;> simp only [Fl.div] <;> try trivial
  all_goals (repeat' split) <;> first | trivial | exact h0 | exact round_ok

theorem sg_zero : Sg (.fin 0) := ⟨Fmt.rep_zero, by simpa using Fmt.maxFin_nonneg⟩

theorem sg_one : Sg (.fin 1) := by
  have : (Fl.fin 1) = Fl.round f32 false 1 := by decide +kernel
  rw [this]; exact round_ok

theorem sg_neg_one : Sg (.fin (-1)) := by
  have : (Fl.fin (-1)) = Fl.round f32 false (-1) := by decide +kernel
  rw [this]; exact round_ok

theorem sg_ofNat (n : Nat) : Sg (Fl.ofNat f32 n) := round_ok

theorem sg_lit (x : ℚ) : Sg (Fl.lit f32 x) := round_ok

theorem sg_conv (x : Fl) : Sg (Fl.conv f32 x) := by
  cases x <;> simp only [Fl.conv, Sg] <;> first | trivial | exact round_ok

end Fl

theorem SgBufs.nil : SgBufs [] := fun b hb => by cases hb

theorem SgBufs.cons {b : Buf} {o : List Buf} : SgBufs (b :: o) ↔ (∀ x, x ∈ b → Sg x) ∧ SgBufs o := by
  simp [SgBufs]

theorem SgBufs.append {a b : List Buf} (ha : SgBufs a) (hb : SgBufs b) : SgBufs (a ++ b) := by
  intro x hx
  rcases List.mem_append.mp hx with h | h
  · exact ha x h
  · exact hb x h

theorem SgBufs.take {a : List Buf} (ha : SgBufs a) (n : Nat) : SgBufs (a.take n) :=
  fun x hx => ha x (List.mem_of_mem_take hx)

theorem SgBufs.drop {a : List Buf} (ha : SgBufs a) (n : Nat) : SgBufs (a.drop n) :=
  fun x hx => ha x (List.mem_of_mem_drop hx)

theorem SgBufs.replicate (ch N : Nat) : SgBufs (List.replicate ch (List.replicate N (.fin 0))) := by
  intro b hb x hx
  rw [List.eq_of_mem_replicate hb] at hx
  rw [List.eq_of_mem_replicate hx]
  exact sg_zero

theorem sg_chan {bs : List Buf} {k : Nat} {b : Buf} (hb : SgBufs bs) (h : chan bs k = .ok b) : ∀ x, x ∈ b → Sg x := by
  unfold chan at h
  split at h
  · rename_i b' h'
    cases h
    exact hb b (List.mem_of_getElem? h')
  · cases h

/-- All inputs are f32 numbers. -/
def SgIns (ins : Ins) : Prop := ∀ e, e ∈ ins → SgBufs e.2

theorem sg_inputAt {ins : Ins} {order : List Nat} {k : Nat} {b : List Buf} (hi : SgIns ins) (h : inputAt ins order k = .ok b) :
    SgBufs b := by
  unfold inputAt at h
  split at h
  · cases h
  · split at h
    · rename_i e he
      cases h
      exact hi e (List.mem_of_find?_eq_some he)
    · cases h

theorem sg_silent (b : Buf) : ∀ x, x ∈ silent b → Sg x := by
  intro x hx
  obtain ⟨_, _, rfl⟩ := List.mem_map.mp hx
  exact sg_zero

theorem sg_zipWith {f : Fl → Fl → Fl} (hf : ∀ a b, Sg (f a b)) (a b : Buf) : ∀ x, x ∈ List.zipWith f a b → Sg x := by
  intro x hx
  induction a generalizing b with
  | nil => cases hx
  | cons u a ih =>
    cases b with
    | nil => cases hx
    | cons v b =>
      rcases List.mem_cons.mp hx with rfl | hx
      · exact hf _ _
      · exact ih b hx

theorem sg_map {α : Type} {f : α → Fl} (hf : ∀ a, Sg (f a)) (a : List α) : ∀ x, x ∈ a.map f → Sg x := by
  intro x hx
  obtain ⟨_, _, rfl⟩ := List.mem_map.mp hx
  exact hf _

/-- A loop whose every output is an f32 number. -/
theorem sg_run {σ ι : Type} {f : σ → ι → σ × Fl} (hf : ∀ s x, Sg (f s x).2) : ∀ (s : σ) (l : List ι), ∀ x, x ∈ (run f s l).2 → Sg x
  | s, [], x, hx => by cases hx
  | s, y :: l, x, hx => by
    rcases List.mem_cons.mp hx with rfl | hx
    · exact hf _ _
    · exact sg_run hf _ l x hx

/-- A loop with an invariant whose every output has a property. -/
theorem runM_all {σ ι ο : Type} {f : σ → ι → Except Panic (σ × ο)} {I : σ → Prop} {A : ι → Prop} {Q : ο → Prop}
    (hf : ∀ s x s' y, I s → A x → f s x = .ok (s', y) → I s' ∧ Q y) : ∀ (l : List ι) (s s' : σ) (ys : List ο), I s →
    (∀ x, x ∈ l → A x) → runM f s l = .ok (s', ys) → I s' ∧ ∀ y, y ∈ ys → Q y
  | [], s, s', ys, hs, _, h => by
    unfold runM at h
    cases h
    exact ⟨hs, fun y hy => by cases hy⟩
  | x :: l, s, s', ys, hs, hl, h => by
    unfold runM at h
    split at h
    · cases h
    · rename_i r hr
      split at h
      · cases h
      · rename_i q hq
        cases h
        obtain ⟨h1, h2⟩ := hf s x r.1 r.2 hs (hl x (by simp)) hr
        obtain ⟨h3, h4⟩ := runM_all hf l r.1 q.1 q.2 h1 (fun y hy => hl y (by simp [hy])) hq
        refine ⟨h3, ?_⟩
        intro y hy
        rcases List.mem_cons.mp hy with rfl | hy
        · exact h2
        · exact h4 y hy

theorem sg_runM {σ ι : Type} {f : σ → ι → Except Panic (σ × Fl)} (hf : ∀ s x s' y, f s x = .ok (s', y) → Sg y) {l : List ι}
    {s s' : σ} {ys : Buf} (h : runM f s l = .ok (s', ys)) : ∀ y, y ∈ ys → Sg y :=
  (runM_all (I := fun _ => True) (A := fun _ => True) (Q := Sg) (fun s x s' y _ _ h => ⟨trivial, hf s x s' y h⟩) l s s' ys
    trivial (fun _ _ => trivial) h).2

/-! ### State -/

/-- A line filled with f32 numbers. -/
def Ring.Sg (r : Ring) : Prop := ∀ x, x ∈ r.data → Verif.Sg x

/-- The numbers kept by a node that it hands on without computing are f32 numbers. -/
def Prim.Sg : Prim → Prop
  | .constSig c => Verif.Sg c.val
  | .speed a => Verif.Sg a.val
  | .delayn d => d.buf.Sg
  | .delayms d => ∀ r, r ∈ d.buf → r.Sg
  | .adsr e => Verif.Sg e.sustain
  | .choose c => ∀ x, x ∈ c.notes → Verif.Sg x
  | .points p => ∀ x, x ∈ p.points → Verif.Sg x.2
  | _ => True

theorem ring_push {r r' : Ring} {x y : Fl} (hr : r.Sg) (hx : Sg x) (h : r.push x = .ok (r', y)) : r'.Sg ∧ Sg y := by
  unfold Ring.push at h
  split at h
  · cases h
  · rename_i old ho
    cases h
    refine ⟨?_, hr _ (List.mem_of_getElem? ho)⟩
    intro z hz
    rcases List.mem_or_eq_of_mem_set hz with hz | rfl
    · exact hr z hz
    · exact hx

theorem ring_zero (n : Nat) : Ring.Sg ⟨List.replicate n (.fin 0), 0⟩ := by
  intro x hx
  rw [List.eq_of_mem_replicate hx]
  exact sg_zero

theorem sg_passBufs {i o : List Buf} (hi : SgBufs i) (ho : SgBufs o) : SgBufs (passBufs i o) := by
  unfold passBufs
  split
  · rw [SgBufs.cons] at *
    exact ⟨hi.1, SgBufs.cons.mpr ⟨hi.1, .nil⟩⟩
  · exact (hi.take _).append (ho.drop _)

theorem sg_addBuf (a b : Buf) : ∀ x, x ∈ addBuf a b → Sg x := sg_zipWith sg_add a b

theorem sg_sum2Chan {ins : Ins} {ch : Nat} {b o : Buf} (h : sum2Chan ins ch b = .ok o) : ∀ x, x ∈ o → Sg x := by
  unfold sum2Chan at h
  have key : ∀ (l : Ins) (acc : Buf), (∀ x, x ∈ acc → Sg x) → (l.foldlM (fun acc i =>
      match i.2[ch]? with
      | some x => .ok (addBuf acc x)
      | none => do
        let x ← chan i.2 0
        .ok (addBuf acc x)) acc : Except Panic Buf) = .ok o → ∀ x, x ∈ o → Sg x := by
    intro l
    induction l with
    | nil => intro acc ha h; cases h; exact ha
    | cons i l ih =>
      intro acc ha h
      rw [List.foldlM_cons, except_bind_ok] at h
      obtain ⟨acc', h1, h2⟩ := h
      refine ih acc' ?_ h2
      split at h1
      · cases h1; exact sg_addBuf _ _
      · rw [except_bind_ok] at h1
        obtain ⟨_, _, h1⟩ := h1
        cases h1; exact sg_addBuf _ _
  exact key ins _ (sg_silent b) h

theorem sg_sum2 {ins : Ins} : ∀ {out o : List Buf} {k : Nat}, sum2From ins k out = .ok o → SgBufs o
  | [], _, _, h => by cases h; exact .nil
  | x :: b, o, k, h => by
    unfold sum2From at h
    rw [except_bind_ok] at h
    obtain ⟨c, h0, h⟩ := h
    rw [except_bind_ok] at h
    obtain ⟨cs, h1, h⟩ := h
    cases h
    exact SgBufs.cons.mpr ⟨sg_sum2Chan h0, sg_sum2 h1⟩

theorem sg_sum (ins : Ins) (out : List Buf) : SgBufs (procSum ins out) := by
  intro b hb
  unfold procSum at hb
  rw [List.mem_mapIdx] at hb
  obtain ⟨ch, hlt, rfl⟩ := hb
  have key : ∀ (l : Ins) (acc : Buf), (∀ x, x ∈ acc → Sg x) → ∀ x, x ∈ l.foldl (fun acc i =>
      match i.2[ch]? with | some x => addBuf acc x | none => acc) acc → Sg x := by
    intro l
    induction l with
    | nil => intro acc ha; exact ha
    | cons i l ih =>
      intro acc ha
      rw [List.foldl_cons]
      refine ih _ ?_
      split
      · exact sg_addBuf _ _
      · exact ha
  exact key ins _ (sg_silent _)

theorem sg_setRight {rest : List Buf} {r : Buf} (h : SgBufs rest) (hr : ∀ x, x ∈ r → Sg x) : SgBufs (setRight rest r) := by
  unfold setRight
  split
  · exact .nil
  · exact SgBufs.cons.mpr ⟨hr, (SgBufs.cons.mp h).2⟩

theorem sg_applyOp {op : Fl → Fl → Fl} (hop : ∀ a b, Sg (op a b)) {order : List Nat} {v : Fl} {ins : Ins} {out o : List Buf}
    (ho : SgBufs out) (h : applyOp op order v ins out = .ok o) : SgBufs o := by
  unfold applyOp at h
  split at h
  · cases h
  · rw [SgBufs.cons] at ho
    split at h
    · rw [except_bind_ok] at h
      obtain ⟨m0, _, h⟩ := h
      cases h
      exact SgBufs.cons.mpr ⟨sg_map (fun x => hop x v) _, sg_setRight ho.2 (sg_map (fun x => hop x v) _)⟩
    · simp only [except_bind_ok] at h
      obtain ⟨_, _, _, _, m0, _, r0, _, h⟩ := h
      cases h
      exact SgBufs.cons.mpr ⟨sg_zipWith hop _ _, sg_setRight ho.2 (sg_zipWith hop _ _)⟩
    · cases h
      exact SgBufs.cons.mpr ho

theorem sg_setStereo {out o : List Buf} {l r : Buf} (ho : SgBufs out) (hl : ∀ x, x ∈ l → Sg x) (hr : ∀ x, x ∈ r → Sg x)
    (h : setStereo out l r = .ok o) : SgBufs o := by
  unfold setStereo at h
  split at h
  · cases h
    rw [SgBufs.cons, SgBufs.cons] at ho
    exact SgBufs.cons.mpr ⟨hl, SgBufs.cons.mpr ⟨hr, ho.2.2⟩⟩
  · cases h

theorem sg_pan {m : Libm} {a : Arith} {ins : Ins} {out o : List Buf} (ho : SgBufs out) (h : procPan m a ins out = .ok o) :
    SgBufs o := by
  unfold procPan at h
  split at h
  · rw [except_bind_ok] at h
    obtain ⟨x, _, h⟩ := h
    exact sg_setStereo ho (sg_map (fun _ => sg_mul _ _) _) (sg_map (fun _ => sg_mul _ _) _) h
  · simp only [except_bind_ok] at h
    obtain ⟨_, _, _, _, r, _, x, _, h⟩ := h
    exact sg_setStereo ho (sg_zipWith (fun _ _ => sg_mul _ _) _ _) (sg_zipWith (fun _ _ => sg_mul _ _) _ _) h

theorem sg_balance {order : List Nat} {ins : Ins} {out o : List Buf} (hi : SgIns ins) (ho : SgBufs out)
    (h : procBalance order ins out = .ok o) : SgBufs o := by
  unfold procBalance at h
  split at h
  · simp only [except_bind_ok] at h
    obtain ⟨l, h1, r, h2, l0, h3, r0, h4, h⟩ := h
    exact sg_setStereo ho (sg_chan (sg_inputAt hi h1) h3) (sg_chan (sg_inputAt hi h2) h4) h
  · cases h; exact ho

theorem sg_noiseBufs {m : Libm} {seed : Nat} : ∀ (out : List Buf) (k : Nat), SgBufs (noiseBufs m seed k out).2
  | [], _ => .nil
  | b :: out, k => SgBufs.cons.mpr ⟨sg_run (fun _ _ => sg_conv _) _ _, sg_noiseBufs out _⟩

theorem sg_delayn {d d' : DelayN} {ins : Ins} {out o : List Buf} (hd : d.buf.Sg) (hi : SgIns ins) (ho : SgBufs out)
    (h : procDelayN d ins out = .ok (d', o)) : d'.buf.Sg ∧ SgBufs o := by
  unfold procDelayN at h
  split at h
  · rename_i i main
    have hm : SgBufs main := hi _ (List.mem_singleton.mpr rfl)
    split at h
    · cases h; exact ⟨hd, sg_passBufs hm ho⟩
    · split at h
      · cases h
      · rename_i b rest
        rw [SgBufs.cons] at ho
        simp only [except_bind_ok] at h
        obtain ⟨x, h1, ⟨r, y⟩, h2, h⟩ := h
        cases h
        obtain ⟨k1, k2⟩ := runM_all (I := Ring.Sg) (A := Sg) (Q := Sg) (fun s x s' y hs hx h => ring_push hs hx h) x d.buf r y
          hd (sg_chan hm h1) h2
        refine ⟨k1, SgBufs.cons.mpr ⟨k2, ?_⟩⟩
        split
        · exact SgBufs.cons.mpr ⟨k2, .nil⟩
        · exact ho.2
  · cases h; exact ⟨hd, ho⟩

theorem sg_delayMsPlain : ∀ {rs rs' : List Ring} {out xs o : List Buf}, (∀ r, r ∈ rs → r.Sg) → SgBufs xs → SgBufs out →
    delayMsPlain rs out xs = .ok (rs', o) → (∀ r, r ∈ rs' → r.Sg) ∧ SgBufs o := by
  intro rs
  induction rs with
  | nil =>
    intro rs' out xs o hr hx ho h
    unfold delayMsPlain at h
    cases h; exact ⟨hr, ho⟩
  | cons r rs ih =>
    intro rs' out xs o hr hx ho h
    unfold delayMsPlain at h
    split at h
    · rename_i r1 rs1 b out1 x xs1 heq
      cases heq
      simp only [except_bind_ok] at h
      obtain ⟨⟨r2, y⟩, h1, ⟨rs2, ys⟩, h2, h⟩ := h
      cases h
      rw [SgBufs.cons] at hx ho
      obtain ⟨k1, k2⟩ := runM_all (I := Ring.Sg) (A := Sg) (Q := Sg) (fun s x s' y hs hx h => ring_push hs hx h) _ _ _ _
        (hr _ (by simp)) hx.1 h1
      obtain ⟨k3, k4⟩ := ih (fun r h => hr r (by simp [h])) hx.2 ho.2 h2
      exact ⟨List.forall_mem_cons.mpr ⟨k1, k3⟩, SgBufs.cons.mpr ⟨k2, k4⟩⟩
    · cases h; exact ⟨hr, ho⟩

theorem modStep_sg {r r' : Ring} {a : (Nat × Fl) × Fl} {y : Fl} (hr : r.Sg) (ha : Sg a.2) (h : modStep r a = .ok (r', y)) :
    r'.Sg ∧ Sg y := by
  unfold modStep at h
  rw [except_bind_ok] at h
  obtain ⟨u, _, h⟩ := h
  split at h
  · cases h
  · simp only [except_bind_ok] at h
    obtain ⟨v, _, ⟨r2, z⟩, h2, h⟩ := h
    cases h
    exact ⟨(ring_push hr ha h2).1, sg_add _ _⟩

theorem sg_delayMsMod {pos : List (Nat × Fl)} : ∀ {rs rs' : List Ring} {out xs o : List Buf}, (∀ r, r ∈ rs → r.Sg) → SgBufs xs →
    SgBufs out → delayMsMod pos rs out xs = .ok (rs', o) → (∀ r, r ∈ rs' → r.Sg) ∧ SgBufs o := by
  intro rs
  induction rs with
  | nil =>
    intro rs' out xs o hr hx ho h
    unfold delayMsMod at h
    cases h; exact ⟨hr, ho⟩
  | cons r rs ih =>
    intro rs' out xs o hr hx ho h
    unfold delayMsMod at h
    split at h
    · rename_i r1 rs1 b out1 x xs1 heq
      cases heq
      simp only [except_bind_ok] at h
      obtain ⟨⟨r2, y⟩, h1, ⟨rs2, ys⟩, h2, h⟩ := h
      cases h
      rw [SgBufs.cons] at hx ho
      obtain ⟨k1, k2⟩ := runM_all (I := Ring.Sg) (A := fun a : (Nat × Fl) × Fl => Sg a.2) (Q := Sg)
        (fun s x s' y hs hx h => modStep_sg hs hx h) _ _ _ _ (hr _ (by simp)) (fun a ha => hx.1 _ (List.of_mem_zip ha).2) h1
      obtain ⟨k3, k4⟩ := ih (fun r h => hr r (by simp [h])) hx.2 ho.2 h2
      exact ⟨List.forall_mem_cons.mpr ⟨k1, k3⟩, SgBufs.cons.mpr ⟨k2, k4⟩⟩
    · cases h; exact ⟨hr, ho⟩

theorem sg_delayms {d d' : DelayMs} {ins : Ins} {out o : List Buf} (hd : ∀ r, r ∈ d.buf → r.Sg) (hi : SgIns ins)
    (ho : SgBufs out) (h : procDelayMs d ins out = .ok (d', o)) : (∀ r, r ∈ d'.buf → r.Sg) ∧ SgBufs o := by
  unfold procDelayMs at h
  split at h
  · cases h
  · rename_i i main more
    have hm : SgBufs main := hi _ (List.mem_cons_self)
    split at h
    · cases h; exact ⟨hd, ho⟩
    · split at h
      · split at h
        · split at h
          · cases h
          · rw [except_bind_ok] at h
            obtain ⟨x, hx, h⟩ := h
            cases h
            exact ⟨hd, SgBufs.cons.mpr ⟨sg_chan hm hx, (SgBufs.cons.mp ho).2⟩⟩
        · rw [except_bind_ok] at h
          obtain ⟨⟨b, y⟩, h1, h⟩ := h
          cases h
          exact sg_delayMsPlain hd hm ho h1
      · simp only [except_bind_ok] at h
        obtain ⟨m2, h1, r2, h2, md, h3, pos, h4, ⟨b, y⟩, h5, h⟩ := h
        cases h
        exact sg_delayMsMod hd (sg_inputAt hi h1) ho h5
      · cases h; exact ⟨hd, ho⟩

theorem sg_wave (w : Wave) (p : Fl) : Sg (w.at p) := by
  cases w with
  | saw => exact sg_sub _ _
  | squ =>
    show Sg (if _ then _ else _)
    split
    · exact sg_one
    · exact sg_neg_one
  | tri => exact sg_mul _ _

theorem sg_osc {w : Wave} {o o' : Osc} {ins : Ins} {out r : List Buf} (ho : SgBufs out) (h : procOsc w o ins out = .ok (o', r)) :
    SgBufs r := by
  unfold procOsc at h
  split at h
  · split at h
    · cases h
    · cases h
      exact SgBufs.cons.mpr ⟨sg_run (fun _ _ => sg_wave _ _) _ _, (SgBufs.cons.mp ho).2⟩
  · split at h
    · cases h
    · simp only [except_bind_ok] at h
      obtain ⟨md, _, x, _, h⟩ := h
      cases h
      exact SgBufs.cons.mpr ⟨sg_run (fun _ _ => sg_wave _ _) _ _, (SgBufs.cons.mp ho).2⟩
  · cases h; exact ho

theorem sg_sin {m : Libm} (hm : Spec.Libm32 m) {o o' : Osc} {ins : Ins} {out r : List Buf} (ho : SgBufs out)
    (h : procSin m o ins out = .ok (o', r)) : SgBufs r := by
  have hs : ∀ (sr : Nat) (p : Fl) (l : List Fl) (out : List Buf), SgBufs (out.map (fun _ => (run (sinStep m sr) p l).2)) := by
    intro sr p l out b hb
    obtain ⟨_, _, rfl⟩ := List.mem_map.mp hb
    exact sg_run (fun _ _ => hm.sin _) _ _
  unfold procSin at h
  split at h
  · split at h
    · cases h; exact .nil
    · cases h; exact hs _ _ _ _
  · simp only [except_bind_ok] at h
    obtain ⟨md, _, x, _, h⟩ := h
    cases h; exact hs _ _ _ _
  · cases h; exact ho

theorem sg_envperc {e e' : EnvPerc} {ins : Ins} {out o : List Buf} (ho : SgBufs out) (h : procEnvPerc e ins out = .ok (e', o)) :
    SgBufs o := by
  unfold procEnvPerc at h
  split at h
  · simp only [except_bind_ok] at h
    obtain ⟨_, _, i, _, x, _, h⟩ := h
    split at h
    · cases h
    · cases h
      exact SgBufs.cons.mpr ⟨sg_run (fun _ _ => sg_mul _ _) _ _, (SgBufs.cons.mp ho).2⟩
  · cases h; exact ho

theorem sg_adsrStep {a d r : Nat} {sus : Fl} (hs : Sg sus) {s s' : AdsrState} {x y : Fl}
    (h : adsrStep a d r sus s x = .ok (s', y)) : Sg y := by
  unfold adsrStep at h
  rw [except_bind_ok] at h
  obtain ⟨y', h1, h⟩ := h
  cases h
  unfold adsrValue at h1
  split at h1
  · unfold adsrHeld at h1
    split at h1
    · split at h1
      · cases h1; exact sg_zero
      · cases h1; exact sg_mul _ _
    · rw [except_bind_ok] at h1
      obtain ⟨t, _, h1⟩ := h1
      split at h1
      · split at h1
        · cases h1; exact hs
        · cases h1; exact sg_add _ _
      · cases h1; exact hs
  · split at h1
    · cases h1
      unfold adsrRelease
      split
      · exact sg_zero
      · exact sg_mul _ _
    · cases h1; exact sg_zero

theorem sg_adsr {e e' : Adsr} {ins : Ins} {out o : List Buf} (hs : Sg e.sustain) (ho : SgBufs out)
    (h : procAdsr e ins out = .ok (e', o)) : Sg e'.sustain ∧ SgBufs o := by
  unfold procAdsr at h
  split at h
  · simp only [except_bind_ok] at h
    obtain ⟨i, _, x, _, h⟩ := h
    split at h
    · cases h
    · rw [except_bind_ok] at h
      obtain ⟨⟨s, y⟩, h1, h⟩ := h
      cases h
      have hy := sg_runM (fun s x s' y h => sg_adsrStep hs h) h1
      refine ⟨hs, SgBufs.cons.mpr ⟨hy, ?_⟩⟩
      split
      · exact SgBufs.cons.mpr ⟨hy, .nil⟩
      · exact (SgBufs.cons.mp ho).2
  · cases h; exact ⟨hs, ho⟩

theorem sg_onepole {m : Libm} {f f' : OnePole} {ins : Ins} {out o : List Buf} (ho : SgBufs out)
    (h : procOnePole m f ins out = .ok (f', o)) : SgBufs o := by
  unfold procOnePole at h
  split at h
  · split at h
    · cases h
    · rw [except_bind_ok] at h
      obtain ⟨x, _, h⟩ := h
      cases h
      exact SgBufs.cons.mpr ⟨sg_run (fun _ _ => sg_add _ _) _ _, (SgBufs.cons.mp ho).2⟩
  · split at h
    · cases h
    · simp only [except_bind_ok] at h
      obtain ⟨_, _, _, _, x, _, y, _, h⟩ := h
      cases h
      exact SgBufs.cons.mpr ⟨sg_run (fun _ _ => sg_add _ _) _ _, (SgBufs.cons.mp ho).2⟩
  · cases h; exact ho

theorem sg_rhpf {m : Libm} {f f' : Rhpf} {ins : Ins} {out o : List Buf} (ho : SgBufs out)
    (h : procRhpf m f ins out = .ok (f', o)) : SgBufs o := by
  unfold procRhpf at h
  split at h
  · split at h
    · cases h
    · rw [except_bind_ok] at h
      obtain ⟨x, _, h⟩ := h
      cases h
      exact SgBufs.cons.mpr ⟨sg_run (fun _ _ => sg_sub _ _) _ _, (SgBufs.cons.mp ho).2⟩
  · split at h
    · cases h
    · simp only [except_bind_ok] at h
      obtain ⟨_, _, _, _, c, _, c0, _, x, _, h⟩ := h
      cases h
      exact SgBufs.cons.mpr ⟨sg_run (fun _ _ => sg_sub _ _) _ _, (SgBufs.cons.mp ho).2⟩
  · cases h; exact ho

theorem sg_rlpf {m : Libm} {f f' : Rlpf} {ins : Ins} {out o : List Buf} (ho : SgBufs out)
    (h : procRlpf m f ins out = .ok (f', o)) : SgBufs o := by
  unfold procRlpf at h
  split at h
  · split at h
    · cases h
    · simp only [except_bind_ok] at h
      obtain ⟨x, _, ⟨s, y⟩, h1, h⟩ := h
      cases h
      refine SgBufs.cons.mpr ⟨sg_runM ?_ h1, (SgBufs.cons.mp ho).2⟩
      intro s x s' y h
      unfold rlpfStep at h
      rw [except_bind_ok] at h
      obtain ⟨c, _, h⟩ := h
      cases h
      exact sg_sub _ _
  · split at h
    · cases h
    · simp only [except_bind_ok] at h
      obtain ⟨_, _, _, _, c, _, c0, _, x, _, h⟩ := h
      cases h
      exact SgBufs.cons.mpr ⟨sg_run (fun _ _ => sg_sub _ _) _ _, (SgBufs.cons.mp ho).2⟩
  · cases h; exact ho

theorem sg_apf {f f' : Apf} {ins : Ins} {out o : List Buf} (ho : SgBufs out)
    (h : procApf f ins out = .ok (f', o)) : SgBufs o := by
  unfold procApf at h
  split at h
  · split at h
    · cases h
    · simp only [except_bind_ok] at h
      obtain ⟨_, _, x, _, ⟨s, y⟩, h1, h⟩ := h
      cases h
      refine SgBufs.cons.mpr ⟨sg_runM ?_ h1, (SgBufs.cons.mp ho).2⟩
      intro s x s' y h
      unfold apfStep at h
      simp only [except_bind_ok] at h
      obtain ⟨_, _, _, _, ⟨_, _⟩, _, ⟨_, _⟩, _, h⟩ := h
      cases h
      exact sg_add _ _
  · split at h
    · cases h
    · simp only [except_bind_ok] at h
      obtain ⟨_, _, _, _, x, _, md, _, ⟨s, y⟩, h1, h⟩ := h
      cases h
      refine SgBufs.cons.mpr ⟨sg_runM ?_ h1, (SgBufs.cons.mp ho).2⟩
      intro s x s' y h
      unfold apfModStep at h
      simp only [except_bind_ok] at h
      obtain ⟨_, _, _, _, _, _, ⟨_, _⟩, _, ⟨_, _⟩, _, h⟩ := h
      cases h
      exact sg_add _ _
  · cases h; exact ho

theorem sg_seqSample {m : Libm} (hm : Spec.Libm32 m) {bar : Fl} {step : Nat} {value : NatRef → Except Panic Fl} :
    ∀ {es : List (Fl × NatRef)} {a v : Fl}, Sg a → seqSample m bar step value es a = .ok v → Sg v
  | [], a, v, ha, h => by cases h; exact ha
  | e :: es, a, v, ha, h => by
    unfold seqSample at h
    split at h
    · cases h
    · split at h
      · rw [except_bind_ok] at h
        obtain ⟨x, _, h⟩ := h
        refine sg_seqSample hm ?_ h
        unfold seqPitch
        split
        · exact sg_zero
        · exact hm.powf _ _
      · exact sg_seqSample hm ha h

theorem sg_seq {m : Libm} (hm : Spec.Libm32 m) {s s' : Sequencer} {ins : Ins} {out o : List Buf} (ho : SgBufs out)
    (h : procSeq m s ins out = .ok (s', o)) : SgBufs o := by
  unfold procSeq at h
  split at h
  · split at h
    · cases h
    · rw [except_bind_ok] at h
      obtain ⟨⟨k, y⟩, h1, h⟩ := h
      cases h
      refine SgBufs.cons.mpr ⟨sg_runM ?_ h1, (SgBufs.cons.mp ho).2⟩
      intro s x s' y h
      rw [except_bind_ok] at h
      obtain ⟨v, hv, h⟩ := h
      cases h
      exact sg_seqSample hm sg_zero hv
  · simp only [except_bind_ok] at h
    obtain ⟨_, _, fb, _, sp, _, h⟩ := h
    split at h
    · cases h
    · rw [except_bind_ok] at h
      obtain ⟨⟨k, y⟩, h1, h⟩ := h
      cases h
      refine SgBufs.cons.mpr ⟨sg_runM ?_ h1, (SgBufs.cons.mp ho).2⟩
      intro s x s' y h
      rw [except_bind_ok] at h
      obtain ⟨v, hv, h⟩ := h
      cases h
      exact sg_seqSample hm sg_zero hv

theorem sg_inputSample {ins : Ins} {order : List Nat} {j i : Nat} {x : Fl} (hi : SgIns ins)
    (h : inputSample ins order j i = .ok x) : Sg x := by
  unfold inputSample at h
  simp only [except_bind_ok] at h
  obtain ⟨src, h1, b, h2, h⟩ := h
  split at h
  · cases h
  · rename_i y hy
    cases h
    exact sg_chan (sg_inputAt hi h1) h2 _ (List.mem_of_getElem? hy)

theorem sg_arrRun {a : Arrange} {ins : Ins} (hi : SgIns ins) : ∀ {old : Buf} {i st s : Nat} {r : Buf}, (∀ x, x ∈ old → Sg x) →
    arrRun a ins i st old = .ok (s, r) → ∀ x, x ∈ r → Sg x
  | [], i, st, s, r, ho, h => by cases h; exact ho
  | o :: old, i, st, s, r, ho, h => by
    unfold arrRun at h
    rw [except_bind_ok] at h
    obtain ⟨hit, _, h⟩ := h
    rw [List.forall_mem_cons] at ho
    split at h
    · cases h; exact List.forall_mem_cons.mpr ho
    · simp only [except_bind_ok] at h
      obtain ⟨x, hx, ⟨s', r'⟩, h1, h⟩ := h
      cases h
      exact List.forall_mem_cons.mpr ⟨sg_inputSample hi hx, sg_arrRun hi ho.2 h1⟩
    · simp only [except_bind_ok] at h
      obtain ⟨x, hx, ⟨s', r'⟩, h1, h⟩ := h
      cases h
      exact List.forall_mem_cons.mpr ⟨sg_inputSample hi hx, sg_arrRun hi ho.2 h1⟩
    · rw [except_bind_ok] at h
      obtain ⟨⟨s', r'⟩, h1, h⟩ := h
      cases h
      exact List.forall_mem_cons.mpr ⟨ho.1, sg_arrRun hi ho.2 h1⟩

theorem sg_arrange {a a' : Arrange} {ins : Ins} {out o : List Buf} (hi : SgIns ins) (ho : SgBufs out)
    (h : procArrange a ins out = .ok (a', o)) : SgBufs o := by
  unfold procArrange at h
  split at h
  · cases h
  · rw [except_bind_ok] at h
    obtain ⟨⟨s, y⟩, h1, h⟩ := h
    cases h
    rw [SgBufs.cons] at ho
    exact SgBufs.cons.mpr ⟨sg_arrRun hi ho.1 h1, ho.2⟩

theorem sg_choose {m : Libm} {c c' : Choose} {out o : List Buf} (hc : ∀ x, x ∈ c.notes → Sg x) (ho : SgBufs out)
    (h : procChoose m c out = .ok (c', o)) : (∀ x, x ∈ c'.notes → Sg x) ∧ SgBufs o := by
  unfold procChoose at h
  split at h
  · cases h
  · split at h
    · cases h; exact ⟨hc, ho⟩
    · simp only at h
      split at h
      · cases h
      · rename_i v hv
        cases h
        exact ⟨hc, SgBufs.cons.mpr ⟨sg_map (fun _ => hc _ (List.mem_of_getElem? hv)) _, (SgBufs.cons.mp ho).2⟩⟩

theorem sg_pointsOnce {ck : Bool} {ps : List (Nat × Fl)} {pos : Nat} {v : Fl} (hp : ∀ x, x ∈ ps → Sg x.2)
    (h : pointsOnce ck ps pos = .ok v) : Sg v := by
  have key : ∀ index : Nat, (match ps[index]?, ps[index + 1]? with
      | some a, some b => (.ok (lerpPoint (Fl.ofNat f32 pos) (Fl.ofNat f32 a.1)
          (Fl.ofNat f32 b.1 -. Fl.ofNat f32 a.1) a.2 b.2) : Except Panic Fl)
      | _, _ =>
        match ps.getLast? with
        | none => .error .missing
        | some a => .ok a.2) = .ok v → Sg v := by
    intro index h
    split at h
    · cases h; exact sg_add _ _
    · split at h
      · cases h
      · rename_i a ha
        cases h
        exact hp _ (List.mem_of_getLast? ha)
  unfold pointsOnce at h
  simp only at h
  split at h
  · exact key _ h
  · split at h
    · cases h
    · exact key _ h
  · exact key _ h

theorem sg_pointsLoop {ps : List (Nat × Fl)} {bar step : Nat} {v : Fl} (h : pointsLoop ps bar step = .ok v) : Sg v := by
  unfold pointsLoop at h
  split at h
  · cases h
  · simp only at h
    split at h
    · cases h; exact sg_add _ _
    · cases h

theorem sg_points {m : Libm} {p p' : Points} {out o : List Buf} (hp : ∀ x, x ∈ p.points → Sg x.2) (ho : SgBufs out)
    (h : procPoints m p out = .ok (p', o)) : (∀ x, x ∈ p'.points → Sg x.2) ∧ SgBufs o := by
  unfold procPoints at h
  split at h
  · cases h; exact ⟨hp, ho⟩
  · split at h
    · cases h
    · rw [except_bind_ok] at h
      obtain ⟨⟨k, y⟩, h1, h⟩ := h
      cases h
      refine ⟨hp, SgBufs.cons.mpr ⟨sg_runM ?_ h1, (SgBufs.cons.mp ho).2⟩⟩
      intro s x s' y h
      simp only at h
      split at h
      · rw [except_bind_ok] at h
        obtain ⟨v, hv, h⟩ := h
        cases h
        exact sg_pointsLoop hv
      · rw [except_bind_ok] at h
        obtain ⟨v, hv, h⟩ := h
        cases h
        exact sg_pointsOnce hp hv

/-- A pair of f32 numbers. -/
def SgPair (o : Fl × Fl) : Prop := Sg o.1 ∧ Sg o.2

theorem sg_addVoice {s : Sample} {pos : Fl} {o o' : Fl × Fl} (ho : SgPair o) (h : addVoice s pos o = .ok (some o')) : SgPair o' := by
  unfold addVoice at h
  split at h
  · rw [except_bind_ok] at h
    obtain ⟨v, _, h⟩ := h
    cases h
    exact ⟨sg_add _ _, sg_add _ _⟩
  · split at h
    · rw [except_bind_ok] at h
      obtain ⟨r, _, h⟩ := h
      split at h
      · cases h; exact ho
      · cases h; exact ⟨sg_add _ _, sg_add _ _⟩
    · cases h

theorem sg_playVoices {s : Sample} {clock : Nat} : ∀ {vs r : List Voice} {o o' : Fl × Fl}, SgPair o →
    playVoices s clock vs o = .ok (r, o') → SgPair o'
  | [], r, o, o', ho, h => by cases h; exact ho
  | v :: vs, r, o, o', ho, h => by
    unfold playVoices at h
    split at h
    · cases h
    · split at h
      · simp only [except_bind_ok] at h
        obtain ⟨o1, h1, ⟨r1, o2⟩, h2, h⟩ := h
        cases h
        refine sg_playVoices ?_ h2
        cases o1 with
        | none => exact ho
        | some o1 => exact sg_addVoice ho h1
      · exact sg_playVoices ho h

theorem sg_pairs {ys : List (Fl × Fl)} {rest : List Buf} (hy : ∀ y, y ∈ ys → SgPair y) (hr : SgBufs rest) :
    SgBufs (ys.map (·.1) :: ys.map (·.2) :: rest) := by
  refine SgBufs.cons.mpr ⟨?_, SgBufs.cons.mpr ⟨?_, hr⟩⟩
  · intro x hx
    obtain ⟨y, h, rfl⟩ := List.mem_map.mp hx
    exact (hy y h).1
  · intro x hx
    obtain ⟨y, h, rfl⟩ := List.mem_map.mp hx
    exact (hy y h).2

theorem sg_sampler {s s' : Sampler} {ins : Ins} {out o : List Buf} (ho : SgBufs out) (h : procSampler s ins out = .ok (s', o)) :
    SgBufs o := by
  unfold procSampler at h
  split at h
  · rw [SgBufs.cons, SgBufs.cons] at ho
    split at h
    · simp only [except_bind_ok] at h
      obtain ⟨x, _, ⟨s1, y⟩, h1, h⟩ := h
      cases h
      refine sg_pairs ?_ ho.2.2
      refine (runM_all (I := fun _ => True) (A := fun _ => True) (Q := SgPair) ?_ _ _ _ _ trivial (fun _ _ => trivial) h1).2
      intro s x s' y _ _ h
      unfold samplerStep at h
      rw [except_bind_ok] at h
      obtain ⟨⟨r, o⟩, h1, h⟩ := h
      cases h
      exact ⟨trivial, sg_playVoices ⟨sg_zero, sg_zero⟩ h1⟩
    · cases h
      exact SgBufs.cons.mpr ⟨sg_silent _, SgBufs.cons.mpr ⟨sg_silent _, ho.2.2⟩⟩
  · cases h

theorem sg_psPlay {step : Nat} : ∀ {vs r : List (Sample × Voice)} {b : Bool} {o o' : Fl × Fl}, SgPair o →
    psPlay step vs o = .ok (b, r, o') → SgPair o'
  | [], r, b, o, o', ho, h => by cases h; exact ho
  | v :: vs, r, b, o, o', ho, h => by
    unfold psPlay at h
    split at h
    · cases h
    · split at h
      · split at h
        · cases h
        · cases h; exact ho
        · rename_i o1 h1
          rw [except_bind_ok] at h
          obtain ⟨⟨b1, r1, o2⟩, h2, h⟩ := h
          cases h
          exact sg_psPlay (sg_addVoice ho h1) h2
      · rw [except_bind_ok] at h
        obtain ⟨⟨b1, r1, o2⟩, h2, h⟩ := h
        cases h
        exact sg_psPlay ho h2

theorem sg_psRun : ∀ {n : Nat} {p p' : PSampler} {y : List (Fl × Fl)}, psRun n p = .ok (p', y) → ∀ x, x ∈ y → SgPair x
  | 0, p, p', y, h => by cases h; intro x hx; cases hx
  | n + 1, p, p', y, h => by
    unfold psRun at h
    simp only [except_bind_ok] at h
    obtain ⟨new, _, ⟨b, r, o⟩, h1, h⟩ := h
    have ho := sg_psPlay ⟨sg_zero, sg_zero⟩ h1
    cases b with
    | true =>
      cases h
      refine List.forall_mem_cons.mpr ⟨ho, ?_⟩
      intro x hx
      rw [List.eq_of_mem_replicate hx]
      exact ⟨sg_zero, sg_zero⟩
    | false =>
      simp only [Bool.false_eq_true, if_false, except_bind_ok] at h
      obtain ⟨⟨p1, y1⟩, h2, h⟩ := h
      cases h
      exact List.forall_mem_cons.mpr ⟨ho, sg_psRun h2⟩

theorem sg_psampler {p p' : PSampler} {out o : List Buf} (ho : SgBufs out) (h : procPSampler p out = .ok (p', o)) : SgBufs o := by
  unfold procPSampler at h
  split at h
  · rw [except_bind_ok] at h
    obtain ⟨⟨p1, y⟩, h1, h⟩ := h
    cases h
    rw [SgBufs.cons, SgBufs.cons] at ho
    exact sg_pairs (sg_psRun h1) ho.2.2
  · cases h

theorem sg_synthVoices {amp : Nat → Fl} {dur sr step : Nat} : ∀ (vs : List SVoice) (o : Fl), Sg o →
    Sg (synthVoices amp dur sr step vs o).2
  | [], o, ho => ho
  | v :: vs, o, ho => by
    unfold synthVoices
    split
    · exact sg_synthVoices vs _ (sg_add _ _)
    · exact sg_synthVoices vs o ho

theorem sg_msgSynth {m : Libm} {s s' : MsgSynth} {out o : List Buf} (ho : SgBufs out) (h : procMsgSynth m s out = .ok (s', o)) :
    SgBufs o := by
  unfold procMsgSynth at h
  split at h
  · cases h
  · cases h
    exact SgBufs.cons.mpr ⟨sg_run (f := msgSynthStep m) (fun _ _ => sg_synthVoices _ _ sg_zero) _ _, (SgBufs.cons.mp ho).2⟩

theorem sg_patSynth {m : Libm} {s s' : PatternSynth} {ins : Ins} {out o : List Buf} (ho : SgBufs out)
    (h : procPatSynth m s ins out = .ok (s', o)) : SgBufs o := by
  unfold procPatSynth at h
  split at h
  · split at h
    · cases h
    · rw [except_bind_ok] at h
      obtain ⟨⟨s1, y⟩, h1, h⟩ := h
      cases h
      refine SgBufs.cons.mpr ⟨sg_runM ?_ h1, (SgBufs.cons.mp ho).2⟩
      intro s x s' y h
      unfold patSynthStep at h
      rw [except_bind_ok] at h
      obtain ⟨new, _, h⟩ := h
      cases h
      exact sg_synthVoices _ _ sg_zero
  · cases h; exact ho

theorem sg_speed {a : Arith} {out o : List Buf} (ha : Sg a.val) (ho : SgBufs out) (h : procSpeed a out = .ok o) : SgBufs o := by
  unfold procSpeed at h
  split at h
  · cases h
  · cases h
  · cases h
    exact SgBufs.cons.mpr ⟨List.forall_mem_cons.mpr ⟨ha, sg_silent _⟩, (SgBufs.cons.mp ho).2⟩

theorem sg_imp {s s' : Impulse} {out o : List Buf} (ho : SgBufs out) (h : procImp s out = .ok (s', o)) : SgBufs o := by
  unfold procImp at h
  split at h
  · cases h
  · rw [except_bind_ok] at h
    obtain ⟨⟨c, y⟩, h1, h⟩ := h
    cases h
    refine SgBufs.cons.mpr ⟨sg_runM ?_ h1, (SgBufs.cons.mp ho).2⟩
    intro s x s' y h
    unfold impStep at h
    split at h
    · cases h
    · cases h
      split
      · exact sg_one
      · exact sg_zero

theorem sg_constSig {c c' : ConstSig} {out o : List Buf} (hc : Sg c.val) (ho : SgBufs out) (h : procConstSig c out = .ok (c', o)) :
    Sg c'.val ∧ SgBufs o := by
  unfold procConstSig at h
  split at h
  · cases h
  · cases h
    exact ⟨hc, SgBufs.cons.mpr ⟨sg_map (fun _ => hc) _, (SgBufs.cons.mp ho).2⟩⟩

theorem sameNode_out {ν : Type} {n n' : ν} {r : Except Panic (List Buf)} {o : List Buf} (h : sameNode n r = .ok (n', o)) :
    n' = n ∧ r = .ok o := by
  unfold sameNode at h
  split at h
  · cases h
  · cases h; exact ⟨rfl, rfl⟩

theorem reState_out {σ ν : Type} {f : σ → ν} {r : Except Panic (σ × List Buf)} {n' : ν} {o : List Buf}
    (h : reState f r = .ok (n', o)) : ∃ s, n' = f s ∧ r = .ok (s, o) := by
  unfold reState at h
  split at h
  · cases h
  · cases h; exact ⟨_, rfl, rfl⟩

/-- A node hands on f32 numbers, if it gets and holds f32 numbers. -/
theorem sg_procPrim {m : Libm} (hm : Spec.Libm32 m) {n n' : Prim} {ins : Ins} {out o : List Buf} (hn : n.Sg) (hi : SgIns ins)
    (ho : SgBufs out) (h : procPrim m n ins out = .ok (n', o)) : n'.Sg ∧ SgBufs o := by
  cases n <;> simp only [procPrim] at h
  case pass =>
    cases h
    refine ⟨trivial, ?_⟩
    unfold procPass
    split
    · exact ho
    · exact sg_passBufs (hi _ List.mem_cons_self) ho
  case sum => cases h; exact ⟨trivial, sg_sum _ _⟩
  case sum2 => obtain ⟨rfl, h1⟩ := sameNode_out h; exact ⟨trivial, sg_sum2 h1⟩
  case mul a => obtain ⟨rfl, h1⟩ := sameNode_out h; exact ⟨trivial, sg_applyOp sg_mul ho h1⟩
  case add a => obtain ⟨rfl, h1⟩ := sameNode_out h; exact ⟨trivial, sg_applyOp sg_add ho h1⟩
  case constSig c => obtain ⟨s, rfl, h1⟩ := reState_out h; exact sg_constSig hn ho h1
  case imp i => obtain ⟨s, rfl, h1⟩ := reState_out h; exact ⟨trivial, sg_imp ho h1⟩
  case noise s => cases h; exact ⟨trivial, sg_noiseBufs _ _⟩
  case speed a => obtain ⟨rfl, h1⟩ := sameNode_out h; exact ⟨hn, sg_speed hn ho h1⟩
  case pan a => obtain ⟨rfl, h1⟩ := sameNode_out h; exact ⟨trivial, sg_pan ho h1⟩
  case balance l => obtain ⟨rfl, h1⟩ := sameNode_out h; exact ⟨trivial, sg_balance hi ho h1⟩
  case delayn d => obtain ⟨s, rfl, h1⟩ := reState_out h; exact sg_delayn hn hi ho h1
  case delayms d => obtain ⟨s, rfl, h1⟩ := reState_out h; exact sg_delayms hn hi ho h1
  case osc w d => obtain ⟨s, rfl, h1⟩ := reState_out h; exact ⟨trivial, sg_osc ho h1⟩
  case sin d => obtain ⟨s, rfl, h1⟩ := reState_out h; exact ⟨trivial, sg_sin hm ho h1⟩
  case envperc d => obtain ⟨s, rfl, h1⟩ := reState_out h; exact ⟨trivial, sg_envperc ho h1⟩
  case adsr d => obtain ⟨s, rfl, h1⟩ := reState_out h; exact sg_adsr hn ho h1
  case onepole d => obtain ⟨s, rfl, h1⟩ := reState_out h; exact ⟨trivial, sg_onepole ho h1⟩
  case rhpf d => obtain ⟨s, rfl, h1⟩ := reState_out h; exact ⟨trivial, sg_rhpf ho h1⟩
  case rlpf d => obtain ⟨s, rfl, h1⟩ := reState_out h; exact ⟨trivial, sg_rlpf ho h1⟩
  case apf d => obtain ⟨s, rfl, h1⟩ := reState_out h; exact ⟨trivial, sg_apf ho h1⟩
  case seq d => obtain ⟨s, rfl, h1⟩ := reState_out h; exact ⟨trivial, sg_seq hm ho h1⟩
  case arrange d => obtain ⟨s, rfl, h1⟩ := reState_out h; exact ⟨trivial, sg_arrange hi ho h1⟩
  case choose d => obtain ⟨s, rfl, h1⟩ := reState_out h; exact sg_choose hn ho h1
  case points d => obtain ⟨s, rfl, h1⟩ := reState_out h; exact sg_points hn ho h1
  case sampler d => obtain ⟨s, rfl, h1⟩ := reState_out h; exact ⟨trivial, sg_sampler ho h1⟩
  case psampler d => obtain ⟨s, rfl, h1⟩ := reState_out h; exact ⟨trivial, sg_psampler ho h1⟩
  case msgSynth d => obtain ⟨s, rfl, h1⟩ := reState_out h; exact ⟨trivial, sg_msgSynth ho h1⟩
  case patSynth d => obtain ⟨s, rfl, h1⟩ := reState_out h; exact ⟨trivial, sg_patSynth ho h1⟩

end Verif
