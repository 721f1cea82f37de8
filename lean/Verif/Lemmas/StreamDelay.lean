import Verif.Lemmas.StreamRest

/-! `delayms` and `arrange` treat blocks sample by sample (helpers). -/

namespace Verif
open Spec Props

variable {m : Libm} {sel chans : List Nat} {C : Nat}

/-! ### Two loops side by side -/

def both {σ τ ι ο : Type} (f : σ → ι → Except Panic (σ × ο)) (g : τ → ι → Except Panic (τ × ο)) (s : σ × τ) (x : ι) :
    Except Panic ((σ × τ) × (ο × ο)) :=
  match f s.1 x with
  | .error e => .error e
  | .ok (a, u) =>
    match g s.2 x with
    | .error e => .error e
    | .ok (b, v) => .ok ((a, b), (u, v))

theorem runM_both {σ τ ι ο : Type} {f : σ → ι → Except Panic (σ × ο)} {g : τ → ι → Except Panic (τ × ο)} :
    ∀ {xs : List ι} {s : σ} {t : τ} {a : σ × List ο} {b : τ × List ο}, runM f s xs = .ok a → runM g t xs = .ok b →
    runM (both f g) (s, t) xs = .ok ((a.1, b.1), a.2.zip b.2) := by
  intro xs
  induction xs with
  | nil => intro s t a b h1 h2; cases h1; cases h2; rfl
  | cons x xs ih =>
    intro s t a b h1 h2
    simp only [runM] at h1 h2
    split at h1
    · cases h1
    · rename_i a1 ha1
      split at h1
      · cases h1
      · rename_i a2 ha2
        cases h1
        split at h2
        · cases h2
        · rename_i b1 hb1
          split at h2
          · cases h2
          · rename_i b2 hb2
            cases h2
            simp only [runM, both, ha1, hb1, ih ha2 hb2, List.zip_cons_cons]

theorem zip_fst {α β : Type} {a : List α} {b : List β} (h : a.length = b.length) : (a.zip b).map Prod.fst = a :=
  List.map_fst_zip (by omega)

theorem zip_snd {α β : Type} {a : List α} {b : List β} (h : a.length = b.length) : (a.zip b).map Prod.snd = b :=
  List.map_snd_zip (by omega)

/-! ### The modulated line -/

/-- `h` after `g` on the first part of the input. -/
def fuse {σ ι κ ο : Type} (g : ι → Except Panic κ) (h : σ → κ × Fl → Except Panic (σ × ο)) (s : σ) (p : ι × Fl) :
    Except Panic (σ × ο) :=
  match g p.1 with
  | .error e => .error e
  | .ok k => h s (k, p.2)

theorem runM_fuse {σ ι κ ο : Type} {g : ι → Except Panic κ} {h : σ → κ × Fl → Except Panic (σ × ο)} :
    ∀ {ms : List ι} {ps : List κ} {xs : Buf} {s : σ} {r}, ms.mapM g = .ok ps → runM h s (ps.zip xs) = .ok r →
    runM (fuse g h) s (ms.zip xs) = .ok r := by
  intro ms
  induction ms with
  | nil =>
    intro ps xs s r h1 h2
    rw [List.mapM_nil] at h1
    cases h1
    exact h2
  | cons a ms ih =>
    intro ps xs s r h1 h2
    rw [List.mapM_cons, except_bind_ok] at h1
    obtain ⟨k, hk, h1⟩ := h1
    rw [except_bind_ok] at h1
    obtain ⟨ks, hks, h1⟩ := h1
    cases h1
    match xs, h2 with
    | [], h2 => exact h2
    | x :: xs, h2 =>
      simp only [List.zip_cons_cons, runM, fuse, hk] at h2 ⊢
      split at h2
      · cases h2
      · rename_i a1 ha1
        split at h2
        · cases h2
        · rename_i a2 ha2
          cases h2
          simp only [ih hks ha2]

theorem readPos_len {r r' : Ring} {rs rs' : List Ring} (h : r.len = r'.len) (sr : Nat) :
    readPos (r :: rs) sr = readPos (r' :: rs') sr := by
  funext x
  simp only [readPos, lineLen, h]

/-- One sample of one channel of the modulated line. -/
def modFrame (r0 : Ring) (sr i j c : Nat) (r : Ring) (fr : Frame) : Except Panic (Ring × Fl) :=
  fuse (readPos [r0] sr) modStep r (samp fr i 0, samp fr j c)

theorem push_len {r : Ring} {x : Fl} {q} (h : r.push x = .ok q) : q.1.len = r.len := by
  unfold Ring.push at h
  split at h
  · cases h
  · cases h; simp [Ring.len]

theorem modStep_len {r : Ring} {a} {q} (h : modStep r a = .ok q) : q.1.len = r.len := by
  unfold modStep at h
  rw [except_bind_ok] at h
  obtain ⟨u, _, h⟩ := h
  split at h
  · cases h
  · rw [except_bind_ok] at h
    obtain ⟨v, _, h⟩ := h
    rw [except_bind_ok] at h
    obtain ⟨r', h2, h⟩ := h
    cases h
    exact (push_len h2 : r'.1.len = r.len)

theorem modFrame_len {r0 r : Ring} {sr i j c : Nat} {fr : Frame} {q} (h : modFrame r0 sr i j c r fr = .ok q) :
    q.1.len = r.len := by
  unfold modFrame fuse at h
  split at h
  · cases h
  · exact modStep_len h

theorem both_len {f : Ring → Frame → Except Panic (Ring × Fl)} {τ : Type} {g : τ → Frame → Except Panic (τ × Fl)}
    (hf : ∀ r fr q, f r fr = .ok q → q.1.len = r.len) {s : Ring × τ} {fr : Frame} {q} (h : both f g s fr = .ok q) :
    q.1.1.len = s.1.len := by
  unfold both at h
  split at h
  · cases h
  · rename_i a u ha
    split at h
    · cases h
    · cases h
      exact hf _ _ _ ha

theorem modFrame_run {N : Nat} {D : List Nat} {bufs : List (List Buf)} {ins : Ins} (hS : Slots N chans D bufs ins)
    {r0 r : Ring} {rs : List Ring} {sr i j c : Nat} {md x : Buf} {pos : List (Nat × Fl)} {s : Ring} {q}
    (hr : r.len = r0.len) (hmd : chan (bufs.getD i []) 0 = .ok md) (hx : chan (bufs.getD j []) c = .ok x)
    (hp : md.mapM (readPos (r :: rs) sr) = .ok pos) (h : runM modStep s (pos.zip x) = .ok q) :
    runM (modFrame r0 sr i j c) s (slotFrames N bufs) = .ok q := by
  rw [readPos_len (r' := r0) (rs' := []) hr] at hp
  rw [← runM_fuse hp h]
  refine runM_frames2 (hS.sized hmd) (hS.sized hx) (fun s t => ?_) s
  simp only [modFrame, samp_frames, (chan_getD hmd).1, (chan_getD hx).1]

theorem chan_of {o : List Buf} {k : Nat} {b : Buf} (h : o[k]? = some b) : chan o k = .ok b := by simp [chan, h]

theorem delayms_loop {d : DelayMs} (hs : ∀ j, j ∈ sel → j < chans.length) (hw : ∀ c, c ∈ chans → c = 1 ∨ c = 2)
    (hC : C = 2) {r1 r2 : Ring} (hb : d.buf = [r1, r2]) (hn : d.n ≠ 0) : PrimLoop m (.delayms d) sel chans C := by
  subst hC
  have hne : ∀ {c}, (c = 1 ∨ c = 2) → ¬(c = 0 ∨ 2 < c) := by omega
  match hch : chans, hs, hw with
  | [], _, _ =>
    refine PrimLoop.idle ?_
    intro l N D bufs ins out r hS _ hl hr
    obtain ⟨s', o, h, rfl⟩ := reState_back hr
    obtain ⟨rfl, _⟩ := hS.none
    cases h
  | [c], hs, hw =>
    rcases hw c (by simp) with rfl | rfl
    · refine ⟨Ring, Fl, fun l s => .delayms { d with buf := [s, r2], order := l }, r1, fun s fr => s.push (samp fr 0 0),
        wLeft, fun l => by simp only [Prim.reorder, Prim.setOrder, ← hb], ?_⟩
      intro N D bufs ins out l s r _ hS hC _ _ hr
      obtain ⟨s', o, h, rfl⟩ := reState_back hr
      obtain ⟨e, o', _, rfl, rfl, h3, h4⟩ := hS.one
      obtain ⟨y0, y1, rfl⟩ := List.length_eq_two.mp hC
      obtain ⟨x, rfl⟩ := List.length_eq_one_iff.mp h3
      simp only [procDelayMs, List.length_singleton, if_neg (hne (Or.inl rfl)), if_neg hn, delayMsPlain] at h
      rw [except_bind_ok] at h
      obtain ⟨⟨b, y⟩, h, h'⟩ := h
      cases h'
      rw [except_bind_ok] at h
      obtain ⟨⟨k, z⟩, h, h'⟩ := h
      cases h'
      refine ⟨k, z, (one_loop hS (x := x) rfl).trans h, ?_⟩
      rw [put_left]
    · refine ⟨Ring × Ring, Fl × Fl, fun l s => .delayms { d with buf := [s.1, s.2], order := l }, (r1, r2),
        both (fun s fr => s.push (samp fr 0 0)) (fun s fr => s.push (samp fr 0 1)),
        wPair, fun l => by simp only [Prim.reorder, Prim.setOrder, ← hb], ?_⟩
      intro N D bufs ins out l s r _ hS hC _ _ hr
      obtain ⟨s', o, h, rfl⟩ := reState_back hr
      obtain ⟨e, o', _, rfl, rfl, h3, h4⟩ := hS.one
      obtain ⟨y0, y1, rfl⟩ := List.length_eq_two.mp hC
      obtain ⟨x0, x1, rfl⟩ := List.length_eq_two.mp h3
      simp only [procDelayMs, List.length_cons, List.length_nil, if_neg (hne (Or.inr rfl)), if_neg hn, delayMsPlain] at h
      rw [except_bind_ok] at h
      obtain ⟨⟨b, y⟩, h, h'⟩ := h
      cases h'
      rw [except_bind_ok] at h
      obtain ⟨⟨k, z⟩, h, h'⟩ := h
      rw [except_bind_ok] at h'
      obtain ⟨⟨k2, z2⟩, h2, h'⟩ := h'
      cases h'
      rw [except_bind_ok] at h2
      obtain ⟨⟨k3, z3⟩, h2, h'⟩ := h2
      cases h'
      have e1 := (one_loop hS (x := x0) rfl).trans h
      have e2 : runM (fun s fr => Ring.push s (samp fr 0 1)) s.2 (slotFrames N [[x0, x1]]) = .ok (k3, z3) :=
        (runM_frames (h4 x1 (by simp)) (fun s t => by rw [samp_frames]; rfl) _).trans h2
      refine ⟨_, _, runM_both e1 e2, ?_⟩
      have hl : z.length = z3.length := by rw [runM_length e1, runM_length e2]
      rw [put_pair, zip_fst hl, zip_snd hl]
  | [c, e], hs, hw =>
    cases hsel : sel[0]? with
    | none =>
      refine PrimLoop.idle ?_
      intro l N D bufs ins out r hS _ hl hr
      obtain ⟨s', o, h, rfl⟩ := reState_back hr
      obtain ⟨x, y, rfl⟩ := hS.pair rfl
      simp only [procDelayMs] at h
      split at h
      · cases h; rfl
      · rw [except_bind_ok] at h
        obtain ⟨main, h2, h⟩ := h
        obtain ⟨j, hj, _⟩ := hS.noted hs (hl rfl) h2
        rw [hsel] at hj
        cases hj
    | some j =>
      have hfirst : ∀ {N D bufs} {ins : Ins}, Slots N [c, e] D bufs ins → ∀ a, a ∈ ins → a.2.length = 1 ∨ a.2.length = 2 := by
        intro N D bufs ins hS a ha
        have := hS.perm.mem_iff.mp ha
        have h2 : a.2 ∈ bufs := (List.of_mem_zip (a := a.1) (b := a.2) this).2
        exact hw _ (by rw [← hS.chans]; exact List.mem_map.mpr ⟨_, h2, rfl⟩)
      have hj := hs j (List.mem_of_getElem? hsel)
      have hbuf : ∀ {N D bufs} {ins : Ins}, Slots N [c, e] D bufs ins → (bufs.getD j []).length = [c, e].getD j 0 := by
        intro N D bufs ins hS
        rw [← hS.chans] at hj ⊢
        simp only [List.length_map] at hj
        simp [List.getD_eq_getElem?_getD, List.getElem?_eq_getElem hj]
      have hce : [c, e].getD j 0 = 1 ∨ [c, e].getD j 0 = 2 := by
        apply hw
        rw [List.getD_eq_getElem?_getD, List.getElem?_eq_getElem hj]
        exact List.getElem_mem hj
      rcases hce with h1 | h1
      · refine PrimLoop.of_inv (fun s : Ring => s.len = r1.len) (fun l s => .delayms { d with buf := [s, r2], order := l }) r1
          (modFrame r1 d.sr (slotOf sel 1) j 0) wLeft
          (fun l => by simp only [Prim.reorder, Prim.setOrder, ← hb]) rfl (fun s fr r h1 h2 => (modFrame_len h2).trans h1) ?_
        intro N D bufs ins out l s r hI _ hS hC _ hl hr
        obtain ⟨s', o, h, rfl⟩ := reState_back hr
        have hcj := (hbuf hS).trans h1
        have hfi := hfirst hS
        obtain ⟨x, y, rfl⟩ := hS.pair rfl
        obtain ⟨y0, y1, rfl⟩ := List.length_eq_two.mp hC
        simp only [procDelayMs, if_neg (hne (hfi x (by simp)))] at h
        rw [except_bind_ok] at h
        obtain ⟨main, hm, h⟩ := h
        rw [except_bind_ok] at h
        obtain ⟨ref, hrf, h⟩ := h
        rw [except_bind_ok] at h
        obtain ⟨md, hmd, h⟩ := h
        rw [except_bind_ok] at h
        obtain ⟨pos, hpos, h⟩ := h
        rw [except_bind_ok] at h
        obtain ⟨⟨b, z⟩, h, h'⟩ := h
        cases h'
        obtain ⟨j0, hj0, rfl⟩ := hS.noted hs (hl rfl) hm
        obtain ⟨j1, hj1, rfl⟩ := hS.noted hs (hl rfl) hrf
        rw [hsel] at hj0
        cases hj0
        rw [show slotOf sel 1 = j1 from getD_of hj1]
        obtain ⟨x0, hx0⟩ := List.length_eq_one_iff.mp hcj
        rw [hx0] at h
        simp only [delayMsMod] at h
        rw [except_bind_ok] at h
        obtain ⟨⟨k, z⟩, h, h'⟩ := h
        cases h'
        exact ⟨k, z, modFrame_run hS hI hmd (by rw [hx0]; rfl) hpos h, by rw [put_left]⟩
      · refine PrimLoop.of_inv (fun s : Ring × Ring => s.1.len = r1.len)
          (fun l s => .delayms { d with buf := [s.1, s.2], order := l }) (r1, r2)
          (both (modFrame r1 d.sr (slotOf sel 1) j 0) (modFrame r1 d.sr (slotOf sel 1) j 1)) wPair
          (fun l => by simp only [Prim.reorder, Prim.setOrder, ← hb]) rfl
          (fun s fr r h1 h2 => (both_len (fun _ _ _ h => modFrame_len h) h2).trans h1) ?_
        intro N D bufs ins out l s r hI _ hS hC _ hl hr
        obtain ⟨s', o, h, rfl⟩ := reState_back hr
        have hcj := (hbuf hS).trans h1
        have hfi := hfirst hS
        obtain ⟨x, y, rfl⟩ := hS.pair rfl
        obtain ⟨y0, y1, rfl⟩ := List.length_eq_two.mp hC
        simp only [procDelayMs, if_neg (hne (hfi x (by simp)))] at h
        rw [except_bind_ok] at h
        obtain ⟨main, hm, h⟩ := h
        rw [except_bind_ok] at h
        obtain ⟨ref, hrf, h⟩ := h
        rw [except_bind_ok] at h
        obtain ⟨md, hmd, h⟩ := h
        rw [except_bind_ok] at h
        obtain ⟨pos, hpos, h⟩ := h
        rw [except_bind_ok] at h
        obtain ⟨⟨b, z⟩, h, h'⟩ := h
        cases h'
        obtain ⟨j0, hj0, rfl⟩ := hS.noted hs (hl rfl) hm
        obtain ⟨j1, hj1, rfl⟩ := hS.noted hs (hl rfl) hrf
        rw [hsel] at hj0
        cases hj0
        rw [show slotOf sel 1 = j1 from getD_of hj1]
        obtain ⟨x0, x1, hx0⟩ := List.length_eq_two.mp hcj
        rw [hx0] at h
        simp only [delayMsMod] at h
        rw [except_bind_ok] at h
        obtain ⟨⟨k, z⟩, h, h'⟩ := h
        rw [except_bind_ok] at h'
        obtain ⟨⟨k2, z2⟩, h2, h'⟩ := h'
        cases h'
        rw [except_bind_ok] at h2
        obtain ⟨⟨k3, z3⟩, h2, h'⟩ := h2
        cases h'
        have e1 := modFrame_run (c := 0) hS hI hmd (by rw [hx0]; rfl) hpos h
        have e2 := modFrame_run (c := 1) hS hI hmd (by rw [hx0]; rfl) hpos h2
        refine ⟨_, _, runM_both e1 e2, ?_⟩
        have hl : z.length = z3.length := by rw [runM_length e1, runM_length e2]
        rw [put_pair, zip_fst hl, zip_snd hl]
  | _ :: _ :: _ :: _, hs, hw =>
    refine PrimLoop.idle ?_
    intro l N D bufs ins out r hS _ hl hr
    obtain ⟨s', o, h, rfl⟩ := reState_back hr
    obtain ⟨a, b, c, d, rfl⟩ := hS.many (by simp)
    simp only [procDelayMs] at h
    split at h <;> (cases h; rfl)

/-! ### Arrangements -/

/-- The durations are numbers and there is one. -/
def ArrOk (events : List NumRef) : Prop :=
  2 ≤ events.length ∧ ∀ j r, events[j * 2 + 1]? ≠ some (.ref r)

theorem arrFind_ok {events : List NumRef} (h : ∀ j r, events[j * 2 + 1]? ≠ some (.ref r)) {pos : Fl} :
    ∀ {n j : Nat} {count : Fl} {x}, n ≠ 0 → arrFind events pos n j count = .ok x → (∃ j, x = .part j) ∨ x = .wrap := by
  intro n
  induction n with
  | zero => intro j c x h; exact absurd rfl h
  | succ n ih =>
    intro j c x _ hx
    simp only [arrFind] at hx
    split at hx
    · cases hx
    · rename_i he; exact absurd he (h _ _)
    · split at hx
      · cases hx; exact Or.inl ⟨_, rfl⟩
      · split at hx
        · cases hx; exact Or.inr rfl
        · exact ih (by assumption) hx

/-- One sample of an arrangement. -/
def arrFrame (a : Arrange) (sel : List Nat) (step : Nat) (fr : Frame) : Except Panic (Nat × Fl) :=
  match arrFind a.events (Fl.ofNat f32 step /. (.fin 240 /. a.bpm *. Fl.ofNat f32 a.sr /. a.speed)) (a.events.length / 2) 0 (.fin 0) with
  | .error e => .error e
  | .ok (.part j) => .ok (step + 1, samp fr (slotOf sel j) 0)
  | .ok _ => .ok (1, samp fr (slotOf sel 0) 0)

theorem inputSample_frame {N : Nat} {D : List Nat} {bufs : List (List Buf)} {ins : Ins} (hS : Slots N chans D bufs ins)
    (hs : ∀ j, j ∈ sel → j < chans.length) {l : List Nat} (hl : l = sel.map (fun j => D.getD j 0)) {j t : Nat} {x : Fl}
    (h : inputSample ins l j t = .ok x) : samp (bufs.map (fun o => frame o t)) (slotOf sel j) 0 = x := by
  unfold inputSample at h
  rw [except_bind_ok] at h
  obtain ⟨src, h1, h⟩ := h
  rw [except_bind_ok] at h
  obtain ⟨b, h2, h⟩ := h
  split at h
  · cases h
  · rename_i y hy
    cases h
    obtain ⟨k, hk, rfl⟩ := hS.noted hs hl h1
    rw [samp_frames, show slotOf sel j = k from getD_of hk, (chan_getD h2).1, getD_of hy]

theorem arrRun_frames {N : Nat} {D : List Nat} {bufs : List (List Buf)} {ins : Ins} (hS : Slots N chans D bufs ins)
    (hs : ∀ j, j ∈ sel → j < chans.length) {l : List Nat} (hl : l = sel.map (fun j => D.getD j 0)) {a : Arrange}
    (ha : ArrOk a.events) : ∀ {old : Buf} {i step : Nat} {a' : Arrange} {r}, a'.events = a.events → a'.bpm = a.bpm →
    a'.sr = a.sr → a'.speed = a.speed → a'.order = l → arrRun a' ins i step old = .ok r →
    runM (arrFrame a sel) step ((List.range' i old.length).map (fun t => bufs.map (fun o => frame o t))) = .ok r := by
  intro old
  induction old with
  | nil => intro i step a' r _ _ _ _ _ h; cases h; rfl
  | cons o old ih =>
    intro i step a' r e1 e2 e3 e4 e5 h
    simp only [arrRun, e1, e2, e3, e4, e5] at h
    rw [except_bind_ok] at h
    obtain ⟨hit, h1, h⟩ := h
    have hne : a.events.length / 2 ≠ 0 := by have := ha.1; omega
    simp only [List.length_cons, List.range'_succ, List.map_cons, runM, arrFrame, h1]
    rcases arrFind_ok ha.2 hne h1 with ⟨j, rfl⟩ | rfl
    all_goals
      simp only at h
      rw [except_bind_ok] at h
      obtain ⟨x, hx, h⟩ := h
      rw [except_bind_ok] at h
      obtain ⟨⟨s, q⟩, h2, h⟩ := h
      cases h
      simp only [ih e1 e2 e3 e4 e5 h2, inputSample_frame hS hs hl hx]

theorem arrange_loop {a : Arrange} (hs : ∀ j, j ∈ sel → j < chans.length) (ha : ArrOk a.events) :
    PrimLoop m (.arrange a) sel chans C := by
  refine ⟨Nat, Fl, fun l s => .arrange { a with step := s, order := l }, a.step, arrFrame a sel, wLeft, fun _ => rfl, ?_⟩
  intro N D bufs ins out l s r _ hS hC hsz hl hr
  obtain ⟨s', o, h, rfl⟩ := reState_back hr
  match out, hC, hsz, h with
  | [], _, _, h => cases h
  | b :: rest, hC, hsz, h =>
    simp only [procArrange] at h
    rw [except_bind_ok] at h
    obtain ⟨⟨k, y⟩, h2, h⟩ := h
    cases h
    have hbl : b.length = N := hsz b (by simp)
    refine ⟨k, y, ?_, by rw [put_left]⟩
    rw [slotFrames, List.range_eq_range', ← hbl]
    exact arrRun_frames (a' := { a with step := s, order := l }) hS hs (hl rfl) ha rfl rfl rfl rfl rfl h2

end Verif
