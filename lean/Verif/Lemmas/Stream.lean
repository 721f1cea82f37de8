import Verif.Lemmas.Inputs
import Verif.Lemmas.SetOrder
import Verif.Spec.Stream

/-! Nodes that treat a block sample by sample (helpers). -/

namespace Verif
open Spec

/-- One sample of each channel of each input. -/
abbrev Frame := List (List Fl)

/-- The frames of a block of inputs. -/
def slotFrames (N : Nat) (bufs : List (List Buf)) : List Frame :=
  (List.range N).map (fun t => bufs.map (fun o => frame o t))

/-- The results of a loop written to the channels `w` says; the others are kept. -/
def put {ο : Type} (w : Nat → Option (ο → Fl)) (ys : List ο) (out : List Buf) : List Buf :=
  out.mapIdx (fun c b => match w c with | some f => ys.map f | none => b)

/-- The node with another list of inputs, also for the nodes that keep one they never read. -/
def Prim.reorder (l : List Nat) : Prim → Prim
  | .constSig c => .constSig { c with order := l }
  | .imp i => .imp { i with order := l }
  | .noise n => .noise { n with order := l }
  | .points p => .points { p with order := l }
  | n => n.setOrder l

/-- The inputs `ins` are the blocks `bufs` of the nodes `D`, in any order. -/
structure Slots (N : Nat) (chans : List Nat) (D : List Nat) (bufs : List (List Buf)) (ins : Ins) : Prop where
  nodup : D.Nodup
  len : D.length = bufs.length
  chans : bufs.map List.length = chans
  size : ∀ o, o ∈ bufs → ∀ b, b ∈ o → b.length = N
  perm : ins.Perm (D.zip bufs)
  ok : ∀ o, o ∈ bufs → ∀ b, b ∈ o → ∀ x, x ∈ b → x.Ok f32

/-- Primitive node `n` with inputs of `chans` channels, `sel` telling which of them it has noted, and with `C` channels
of output treats blocks sample by sample. -/
def PrimLoop (m : Libm) (n : Prim) (sel chans : List Nat) (C : Nat) : Prop :=
  ∃ (σ ο : Type) (wrap : List Nat → σ → Prim) (s0 : σ) (f : σ → Frame → Except Panic (σ × ο)) (w : Nat → Option (ο → Fl)),
    (∀ l, wrap l s0 = n.reorder l) ∧
    ∀ N D bufs ins out l s r, 0 < N → Slots N chans D bufs ins → out.length = C → (∀ b, b ∈ out → b.length = N) →
      (n.keepsOrder = true → l = sel.map (fun j => D.getD j 0)) →
      procPrim m (wrap l s) ins out = .ok r →
      ∃ s' ys, runM f s (slotFrames N bufs) = .ok (s', ys) ∧ r = (wrap l s', put w ys out)

/-! ### Tools -/

theorem runM_over {σ ι κ ο : Type} (f : σ → ι → Except Panic (σ × ο)) (F : κ → ι) (s : σ) (l : List κ) :
    runM f s (l.map F) = runM (fun s t => f s (F t)) s l := by
  induction l generalizing s with
  | nil => rfl
  | cons x l ih => simp only [List.map_cons, runM, ih]

theorem run_over {σ ι κ ο : Type} (f : σ → ι → σ × ο) (F : κ → ι) (s : σ) (l : List κ) :
    run f s (l.map F) = run (fun s t => f s (F t)) s l := by
  induction l generalizing s with
  | nil => rfl
  | cons x l ih => simp only [List.map_cons, run, ih]

theorem buf_range {b : Buf} {N : Nat} (h : b.length = N) : b = (List.range N).map (fun t => b.getD t (.fin 0)) := by
  apply List.ext_getElem?
  intro t
  by_cases ht : t < N
  · rw [List.getElem?_map, List.getElem?_range ht]
    simp only [Option.map_some, List.getD_eq_getElem?_getD]
    rw [List.getElem?_eq_getElem (by omega)]
    rfl
  · rw [List.getElem?_eq_none (by omega), List.getElem?_eq_none (by simpa using Nat.le_of_not_lt ht)]

/-- A loop over a channel as a loop over the frames. -/
theorem runM_frames {σ ο : Type} {f : σ → Fl → Except Panic (σ × ο)} {g : σ → Frame → Except Panic (σ × ο)} {N : Nat}
    {bufs : List (List Buf)} {b : Buf} (hb : b.length = N)
    (h : ∀ s t, g s (bufs.map (fun o => frame o t)) = f s (b.getD t (.fin 0))) (s : σ) :
    runM g s (slotFrames N bufs) = runM f s b := by
  rw [slotFrames, runM_over]
  conv_rhs => rw [buf_range hb, runM_over]
  simp only [h]

theorem run_frames {σ ο : Type} {f : σ → Fl → σ × ο} {g : σ → Frame → Except Panic (σ × ο)} {N : Nat}
    {bufs : List (List Buf)} {b : Buf} (hb : b.length = N)
    (h : ∀ s t, g s (bufs.map (fun o => frame o t)) = .ok (f s (b.getD t (.fin 0)))) (s : σ) :
    runM g s (slotFrames N bufs) = .ok (run f s b) := by
  rw [runM_frames (f := fun s x => .ok (f s x)) hb h, runM_pure]

theorem run_frames2 {σ ο : Type} {f : σ → Fl × Fl → σ × ο} {g : σ → Frame → Except Panic (σ × ο)} {N : Nat}
    {bufs : List (List Buf)} {a b : Buf} (ha : a.length = N) (hb : b.length = N)
    (h : ∀ s t, g s (bufs.map (fun o => frame o t)) = .ok (f s (a.getD t (.fin 0), b.getD t (.fin 0)))) (s : σ) :
    runM g s (slotFrames N bufs) = .ok (run f s (a.zip b)) := by
  rw [slotFrames, runM_over]
  conv_rhs => rw [buf_range ha, buf_range hb, List.zip_map', run_over, ← runM_pure]
  simp only [h]

theorem runM_frames2 {σ ο : Type} {f : σ → Fl × Fl → Except Panic (σ × ο)} {g : σ → Frame → Except Panic (σ × ο)} {N : Nat}
    {bufs : List (List Buf)} {a b : Buf} (ha : a.length = N) (hb : b.length = N)
    (h : ∀ s t, g s (bufs.map (fun o => frame o t)) = f s (a.getD t (.fin 0), b.getD t (.fin 0))) (s : σ) :
    runM g s (slotFrames N bufs) = runM f s (a.zip b) := by
  rw [slotFrames, runM_over]
  conv_rhs => rw [buf_range ha, buf_range hb, List.zip_map', runM_over]
  simp only [h]

/-- A loop that has no state. -/
theorem map_frames {ο : Type} {g : Unit → Frame → Except Panic (Unit × ο)} {N : Nat} {bufs : List (List Buf)} {h : Nat → ο}
    (hg : ∀ t, g () (bufs.map (fun o => frame o t)) = .ok ((), h t)) :
    runM g () (slotFrames N bufs) = .ok ((), (List.range N).map h) := by
  rw [slotFrames, runM_over]
  simp only [hg]
  generalize List.range N = l
  induction l with
  | nil => rfl
  | cons x l ih => simp only [runM, ih, List.map_cons]

/-- The only input. -/
theorem Slots.one {N c : Nat} {D : List Nat} {bufs : List (List Buf)} {ins : Ins} (h : Slots N [c] D bufs ins) :
    ∃ d o, D = [d] ∧ bufs = [o] ∧ ins = [(d, o)] ∧ o.length = c ∧ ∀ b, b ∈ o → b.length = N := by
  obtain ⟨h1, h2, h3, h4, h5, _⟩ := h
  match bufs, h3 with
  | [o], h3 =>
    match D, h2 with
    | [d], _ =>
      refine ⟨d, o, rfl, rfl, List.perm_singleton.mp h5, by simpa using h3, h4 o (by simp)⟩

theorem Slots.none {N : Nat} {D : List Nat} {bufs : List (List Buf)} {ins : Ins} (h : Slots N [] D bufs ins) :
    ins = [] ∧ bufs = [] := by
  obtain ⟨h1, h2, h3, h4, h5, _⟩ := h
  have : bufs = [] := by simpa using h3
  subst this
  simp only [List.zip_nil_right, List.perm_nil] at h5
  exact ⟨h5, rfl⟩

theorem Slots.two {N c e : Nat} {D : List Nat} {bufs : List (List Buf)} {ins : Ins} (h : Slots N [c, e] D bufs ins) :
    ∃ d1 d2 o1 o2, D = [d1, d2] ∧ d1 ≠ d2 ∧ bufs = [o1, o2] ∧ (ins = [(d1, o1), (d2, o2)] ∨ ins = [(d2, o2), (d1, o1)]) ∧
      o1.length = c ∧ o2.length = e ∧ (∀ b, b ∈ o1 → b.length = N) ∧ ∀ b, b ∈ o2 → b.length = N := by
  obtain ⟨h1, h2, h3, h4, h5, _⟩ := h
  match bufs, h3 with
  | [o1, o2], h3 =>
    match D, h2 with
    | [d1, d2], _ =>
      simp only [List.map_cons, List.map_nil, List.cons.injEq, and_true] at h3
      refine ⟨d1, d2, o1, o2, rfl, by simpa using h1, rfl, ?_, h3.1, h3.2, h4 o1 (by simp), h4 o2 (by simp)⟩
      simp only [List.zip_cons_cons, List.zip_nil_right] at h5
      have hl : ins.length = 2 := by simpa using h5.length_eq
      match ins, hl with
      | [a, b], _ =>
        rcases List.Perm.mem_iff h5 |>.mp (show a ∈ [a, b] by simp) |> List.mem_cons.mp with rfl | ha
        · left
          have := (List.perm_cons _).mp h5
          rw [List.perm_singleton.mp this]
        · right
          have ha : a = (d2, o2) := by simpa using ha
          subst ha
          have h6 := h5.trans (List.Perm.swap _ _ _)
          have := (List.perm_cons _).mp h6
          rw [List.perm_singleton.mp this]

theorem Slots.length_eq {N : Nat} {chans D : List Nat} {bufs : List (List Buf)} {ins : Ins} (h : Slots N chans D bufs ins) :
    ins.length = chans.length := by
  rw [h.perm.length_eq, List.length_zip, h.len, ← h.chans]; simp

/-- What is found under the number of a noted input. -/
theorem Slots.inputAt {N : Nat} {chans D : List Nat} {bufs : List (List Buf)} {ins : Ins} (h : Slots N chans D bufs ins)
    {sel : List Nat} (hs : ∀ j, j ∈ sel → j < chans.length) (k : Nat) :
    inputAt ins (sel.map (fun j => D.getD j 0)) k =
      match sel[k]? with
      | .none => .error .indexOutOfBounds
      | some j => .ok (bufs.getD j []) := by
  unfold Verif.inputAt
  rw [List.getElem?_map]
  cases hk : sel[k]? with
  | none => rfl
  | some j =>
    simp only [Option.map_some]
    have hj := hs j (List.mem_of_getElem? hk)
    have hb : j < bufs.length := by rw [← h.chans] at hj; simpa using hj
    have hd : j < D.length := by rw [h.len]; exact hb
    have hmem : (D.getD j 0, bufs.getD j []) ∈ ins := by
      rw [h.perm.mem_iff, List.mem_iff_getElem?]
      refine ⟨j, ?_⟩
      rw [List.getElem?_zip_eq_some]
      simp [List.getD_eq_getElem?_getD, List.getElem?_eq_getElem hd, List.getElem?_eq_getElem hb]
    have hnd : (ins.map Prod.fst).Nodup := by
      have hp := h.perm.map Prod.fst
      rw [hp.nodup_iff, List.map_fst_zip (by rw [h.len])]
      exact h.nodup
    have hfind : ins.find? (fun e => e.1 == D.getD j 0) = some (D.getD j 0, bufs.getD j []) := by
      clear h hs hk hj hb hd
      induction ins with
      | nil => cases hmem
      | cons e ins ih =>
        simp only [List.map_cons, List.nodup_cons] at hnd
        rw [List.find?_cons]
        rcases List.mem_cons.mp hmem with he | he
        · rw [← he]; simp
        · have : (e.1 == D.getD j 0) = false := by
            rw [beq_eq_false_iff_ne]
            intro hc
            exact hnd.1 (hc ▸ List.mem_map.mpr ⟨_, he, rfl⟩)
          rw [this]
          exact ih he hnd.2
    rw [hfind]

/-- A sample of a frame. -/
def samp (fr : Frame) (j c : Nat) : Fl := (fr.getD j []).getD c (.fin 0)

theorem samp_frames (bufs : List (List Buf)) (t j c : Nat) :
    samp (bufs.map (fun o => frame o t)) j c = ((bufs.getD j []).getD c []).getD t (.fin 0) := by
  unfold samp frame
  simp only [List.getD_eq_getElem?_getD, List.getElem?_map]
  cases h : bufs[j]? with
  | none => simp
  | some o =>
    simp only [Option.map_some, Option.getD_some, List.getElem?_map]
    cases h' : o[c]? with
    | none => simp
    | some b => simp

/-- The right side of a frame: of a mono signal the only channel. -/
def sampR (fr : Frame) (j : Nat) : Fl := if (fr.getD j []).length < 2 then samp fr j 0 else samp fr j 1

theorem sampR_frames (bufs : List (List Buf)) (t j : Nat) {m0 : Buf} (h : chan (bufs.getD j []) 0 = .ok m0) :
    sampR (bufs.map (fun o => frame o t)) j = (rightOf (bufs.getD j []) m0).getD t (.fin 0) := by
  unfold sampR
  rw [samp_frames, samp_frames]
  have hl : ((bufs.map (fun o => frame o t)).getD j []).length = (bufs.getD j []).length := by
    simp only [List.getD_eq_getElem?_getD, List.getElem?_map]
    cases bufs[j]? <;> simp [frame]
  rw [hl]
  generalize bufs.getD j [] = o at h
  match o, h with
  | [], h => cases h
  | [a], h => cases h; rfl
  | a :: b :: o, h => simp [rightOf]

theorem chan_getD {o : List Buf} {k : Nat} {b : Buf} (h : chan o k = .ok b) : o.getD k [] = b ∧ b ∈ o := by
  unfold chan at h
  split at h
  · rename_i x hx
    cases h
    exact ⟨by simp [List.getD_eq_getElem?_getD, hx], List.mem_of_getElem? hx⟩
  · cases h

theorem buf_map {b : Buf} {N : Nat} (h : b.length = N) {ο : Type} (g : Fl → ο) :
    b.map g = (List.range N).map (fun t => g (b.getD t (.fin 0))) := by
  conv_lhs => rw [buf_range h]
  rw [List.map_map]; rfl

theorem buf_zipWith {a b : Buf} {N : Nat} (ha : a.length = N) (hb : b.length = N) {ο : Type} (g : Fl → Fl → ο) :
    List.zipWith g a b = (List.range N).map (fun t => g (a.getD t (.fin 0)) (b.getD t (.fin 0))) := by
  conv_lhs => rw [buf_range ha, buf_range hb]
  rw [List.zipWith_map, List.zipWith_self]

/-! ### The channels written -/

def wLeft : Nat → Option (Fl → Fl) := fun c => if c = 0 then some id else none
def wAll : Nat → Option (Fl → Fl) := fun _ => some id
def wPair : Nat → Option (Fl × Fl → Fl) := fun c => if c = 0 then some Prod.fst else if c = 1 then some Prod.snd else none
def wNone : Nat → Option (Fl → Fl) := fun _ => none

theorem mapIdx_keep {α : Type} (l : List α) : l.mapIdx (fun _ b => b) = l := by
  apply List.ext_getElem <;> simp

theorem put_left (ys : List Fl) (b : Buf) (rest : List Buf) : put wLeft ys (b :: rest) = ys :: rest := by
  simp [put, wLeft, List.mapIdx_cons, mapIdx_keep]

theorem put_all (ys : List Fl) (out : List Buf) : put wAll ys out = out.map (fun _ => ys) := by
  simp [put, wAll, List.mapIdx_eq_zipIdx_map]

theorem put_none (ys : List Fl) (out : List Buf) : put wNone ys out = out := by
  simp [put, wNone, mapIdx_keep]

theorem put_pair (ys : List (Fl × Fl)) (a b : Buf) (rest : List Buf) :
    put wPair ys (a :: b :: rest) = ys.map Prod.fst :: ys.map Prod.snd :: rest := by
  simp [put, wPair, List.mapIdx_cons, mapIdx_keep]

theorem frames_unit {bufs : List (List Buf)} {N : Nat} :
    runM (fun (_ : Unit) (_ : Frame) => (.ok ((), .fin 0) : Except Panic (Unit × Fl))) () (slotFrames N bufs) =
      .ok ((), (List.range N).map (fun _ => .fin 0)) := map_frames (fun _ => rfl)

/-- A node that leaves everything as it is. -/
theorem PrimLoop.idle {m : Libm} {n : Prim} {sel chans : List Nat} {C : Nat}
    (h : ∀ l N D bufs ins out r, Slots N chans D bufs ins → out.length = C →
      (n.keepsOrder = true → l = sel.map (fun j => D.getD j 0)) → procPrim m (n.reorder l) ins out = .ok r →
      r = (n.reorder l, out)) : PrimLoop m n sel chans C := by
  refine ⟨Unit, Fl, fun l _ => n.reorder l, (), fun _ _ => .ok ((), .fin 0), wNone, fun _ => rfl, ?_⟩
  intro N D bufs ins out l s r _ hS hC _ hl hr
  exact ⟨(), _, frames_unit, by rw [put_none]; exact h l N D bufs ins out r hS hC hl hr⟩

/-- A loop with an invariant. -/
theorem PrimLoop.of_inv {m : Libm} {n : Prim} {sel chans : List Nat} {C : Nat} {σ ο : Type} (I : σ → Prop)
    (wrap : List Nat → σ → Prim) (s0 : σ) (f : σ → Frame → Except Panic (σ × ο)) (w : Nat → Option (ο → Fl))
    (h0 : ∀ l, wrap l s0 = n.reorder l) (hI : I s0) (hf : ∀ s fr r, I s → f s fr = .ok r → I r.1)
    (h : ∀ N D bufs ins out l s r, I s → 0 < N → Slots N chans D bufs ins → out.length = C → (∀ b, b ∈ out → b.length = N) →
      (n.keepsOrder = true → l = sel.map (fun j => D.getD j 0)) →
      procPrim m (wrap l s) ins out = .ok r →
      ∃ s' ys, runM f s (slotFrames N bufs) = .ok (s', ys) ∧ r = (wrap l s', put w ys out)) :
    PrimLoop m n sel chans C := by
  refine ⟨{ s // I s }, ο, fun l s => wrap l s.1, ⟨s0, hI⟩, fun s fr =>
    match hr : f s.1 fr with
    | .error e => .error e
    | .ok r => .ok (⟨r.1, hf _ _ _ s.2 hr⟩, r.2), w, h0, ?_⟩
  intro N D bufs ins out l s r hN hS hC hsz hl hr
  obtain ⟨s', ys, h1, h2⟩ := h N D bufs ins out l s.1 r s.2 hN hS hC hsz hl hr
  have key : ∀ (xs : List Frame) (s : { s // I s }) (q : σ × List ο), runM f s.1 xs = .ok q →
      ∃ hq : I q.1, runM (fun (s : { s // I s }) fr =>
        match hr : f s.1 fr with
        | .error e => .error e
        | .ok r => .ok (⟨r.1, hf _ _ _ s.2 hr⟩, r.2)) s xs = .ok ((⟨q.1, hq⟩ : { s // I s }), q.2) := by
    intro xs
    induction xs with
    | nil => intro s q hq; cases hq; exact ⟨s.2, rfl⟩
    | cons x xs ih =>
      intro s q hq
      simp only [runM] at hq
      split at hq
      · cases hq
      · rename_i a ha
        split at hq
        · cases hq
        · rename_i b hb
          cases hq
          obtain ⟨h3, h4⟩ := ih ⟨a.1, hf _ _ _ s.2 ha⟩ b hb
          refine ⟨h3, ?_⟩
          simp only [runM]
          split
          · rename_i e he
            split at he
            · rename_i hc; rw [ha] at hc; cases hc
            · cases he
          · rename_i r' he
            split at he
            · cases he
            · rename_i c hc
              rw [ha] at hc
              cases hc
              cases he
              simp only [h4]
  obtain ⟨h3, h4⟩ := key _ s _ h1
  exact ⟨⟨s', h3⟩, ys, h4, h2⟩

theorem runM_source {σ ο : Type} {step : σ → Fl → Except Panic (σ × ο)} (h : ∀ s x, step s x = step s (.fin 0)) {N : Nat}
    {b : Buf} (hb : b.length = N) (bufs : List (List Buf)) (s : σ) :
    runM (fun s (_ : Frame) => step s (.fin 0)) s (slotFrames N bufs) = runM step s b :=
  runM_frames hb (fun s _ => (h s _).symm) s

end Verif
