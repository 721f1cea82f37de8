import Verif.Lemmas.Stream

/-! Which primitive nodes treat blocks sample by sample (helpers). -/

namespace Verif
open Spec

variable {m : Libm} {sel chans : List Nat} {C : Nat}

theorem reState_back {σ ν : Type} {f : σ → ν} {x : Except Panic (σ × List Buf)} {r : ν × List Buf}
    (h : reState f x = .ok r) : ∃ s b, x = .ok (s, b) ∧ r = (f s, b) := by
  unfold reState at h
  split at h
  · cases h
  · rename_i s b; cases h; exact ⟨s, b, rfl, rfl⟩

theorem sameNode_inv {ν : Type} {n : ν} {x : Except Panic (List Buf)} {r : ν × List Buf}
    (h : sameNode n x = .ok r) : ∃ b, x = .ok b ∧ r = (n, b) := by
  unfold sameNode at h
  split at h
  · cases h
  · rename_i b; cases h; exact ⟨b, rfl, rfl⟩

/-! ### Sources -/

theorem constSig_loop {c : ConstSig} : PrimLoop m (.constSig c) sel chans C := by
  refine ⟨Nat, Fl, fun l k => .constSig { c with step := k, order := l }, c.step, fun k _ => .ok (k + 1, c.val), wLeft,
    fun _ => rfl, ?_⟩
  intro N D bufs ins out l s r _ _ _ hsz _ hr
  obtain ⟨s', b, h, rfl⟩ := reState_back hr
  match out, hsz, h with
  | [], _, h => cases h
  | x :: rest, hsz, h =>
    have hx : x.length = N := hsz x (by simp)
    cases h
    refine ⟨s + N, (List.range N).map (fun _ => c.val), ?_, ?_⟩
    · rw [slotFrames, runM_over]
      have : ∀ (l : List Nat) (s : Nat), runM (fun s (_ : Nat) => (.ok (s + 1, c.val) : Except Panic (Nat × Fl))) s l =
          .ok (s + l.length, l.map (fun _ => c.val)) := by
        intro l
        induction l with
        | nil => intro s; rfl
        | cons a l ih => intro s; simp only [runM, ih, List.length_cons, List.map_cons]; rw [Nat.add_assoc, Nat.add_comm 1]
      rw [this, List.length_range]
    · rw [put_left, hx, buf_map hx]

theorem imp_loop {i : Impulse} : PrimLoop m (.imp i) sel chans C := by
  refine ⟨Nat, Fl, fun l k => .imp { i with clock := k, order := l }, i.clock, fun k _ => impStep i.period k (.fin 0), wLeft,
    fun _ => rfl, ?_⟩
  intro N D bufs ins out l s r _ _ _ hsz _ hr
  obtain ⟨s', b, h, rfl⟩ := reState_back hr
  match out, hsz, h with
  | [], _, h => cases h
  | x :: rest, hsz, h =>
    simp only [procImp] at h
    rw [except_bind_ok] at h
    obtain ⟨⟨k, y⟩, h1, h⟩ := h
    cases h
    rw [← runM_source (step := impStep i.period) (fun _ _ => rfl) (hsz x (by simp)) bufs] at h1
    exact ⟨k, y, h1, by rw [put_left]⟩

theorem noise_loop {s : Noise} (hC : C = 1) : PrimLoop m (.noise s) sel chans C := by
  subst hC
  refine ⟨Nat, Fl, fun l k => .noise { s with drawn := k, order := l }, s.drawn, fun k _ => .ok (noiseStep m s.seed k (.fin 0)),
    wLeft, fun _ => rfl, ?_⟩
  intro N D bufs ins out l k r _ _ ho hsz _ h
  match out, ho, hsz, h with
  | [x], _, hsz, h =>
    cases h
    refine ⟨_, _, (runM_source (step := fun k x => .ok (noiseStep m s.seed k x)) (fun _ _ => rfl) (hsz x (by simp)) bufs k).trans
      (runM_pure _ _ _), ?_⟩
    rw [put_left]
    rfl

theorem points_loop {p : Points} : PrimLoop m (.points p) sel chans C := by
  by_cases hp : p.points = []
  · refine PrimLoop.idle ?_
    intro l N D bufs ins out r _ _ _ hr
    obtain ⟨s', b, h, rfl⟩ := reState_back hr
    unfold procPoints at h
    split at h
    · cases h; rfl
    · exact absurd hp (by assumption)
  · refine ⟨Nat, Fl, fun l k => .points { p with step := k, order := l }, p.step, fun k _ => do
        let v ← if p.looping then pointsLoop p.points (pointsBar p.bpm p.span p.sr).toUsize k else pointsOnce m.checked p.points k
        .ok (k + 1, v), wLeft, fun _ => rfl, ?_⟩
    intro N D bufs ins out l s r _ _ _ hsz _ hr
    obtain ⟨s', b, h, rfl⟩ := reState_back hr
    unfold procPoints at h
    split at h
    · exact absurd ‹_› hp
    · match out, hsz, h with
      | [], _, h => cases h
      | x :: rest, hsz, h =>
        dsimp only at h
        rw [except_bind_ok] at h
        obtain ⟨⟨k, y⟩, h1, h⟩ := h
        cases h
        refine ⟨k, y, ?_, by rw [put_left]⟩
        rw [← h1]
        refine runM_frames (hsz x (by simp)) ?_ s
        intro _ _; rfl

/-- A loop over states of which a part is never used. -/
theorem runM_set {σ ι ο : Type} (g : σ → σ) {f : σ → ι → Except Panic (σ × ο)}
    (h : ∀ s x r, f (g s) x = .ok r → ∃ s', f s x = .ok (s', r.2) ∧ r.1 = g s') {xs : List ι} : ∀ {s : σ} {r : σ × List ο},
    runM f (g s) xs = .ok r → ∃ s', runM f s xs = .ok (s', r.2) ∧ r.1 = g s' := by
  induction xs with
  | nil => intro s r hr; cases hr; exact ⟨s, rfl, rfl⟩
  | cons x xs ih =>
    intro s r hr
    simp only [runM] at hr
    split at hr
    · cases hr
    · rename_i q hq
      obtain ⟨s1, h1, h2⟩ := h _ _ _ hq
      split at hr
      · cases hr
      · rename_i w hw
        cases hr
        rw [h2] at hw
        obtain ⟨s2, h3, h4⟩ := ih hw
        exact ⟨s2, by simp only [runM, h1, h3], h4⟩

theorem msgSynth_loop {s : MsgSynth} : PrimLoop m (.msgSynth s) sel chans C := by
  refine ⟨MsgSynth, Fl, fun l v => .msgSynth { v with order := l }, s, fun v _ => .ok (msgSynthStep m v (.fin 0)), wLeft,
    fun _ => rfl, ?_⟩
  intro N D bufs ins out l v r _ _ _ hsz _ hr
  obtain ⟨s', b, h, rfl⟩ := reState_back hr
  match out, hsz, h with
  | [], _, h => cases h
  | x :: rest, hsz, h =>
    cases h
    obtain ⟨v', h1, h2⟩ := runM_set (fun v : MsgSynth => { v with order := l }) (f := fun v x => .ok (msgSynthStep m v x))
      (fun s x r hr => by cases hr; exact ⟨_, rfl, rfl⟩) (runM_pure (msgSynthStep m) { v with order := l } x)
    refine ⟨v', _, (runM_source (step := fun v x => .ok (msgSynthStep m v x)) (fun _ _ => rfl) (hsz x (by simp)) bufs v).trans h1,
      ?_⟩
    rw [put_left, h2]

theorem patSynth_loop {s : PatternSynth} : PrimLoop m (.patSynth s) sel chans C := by
  by_cases hc : chans = []
  · subst hc
    refine ⟨PatternSynth, Fl, fun l v => .patSynth { v with order := l }, s, fun v _ => patSynthStep m v (.fin 0), wLeft,
      fun _ => rfl, ?_⟩
    intro N D bufs ins out l v r _ hS _ hsz _ hr
    obtain ⟨s', b, h, rfl⟩ := reState_back hr
    obtain ⟨rfl, rfl⟩ := hS.none
    match out, hsz, h with
    | [], _, h => cases h
    | x :: rest, hsz, h =>
      simp only [procPatSynth] at h
      rw [except_bind_ok] at h
      obtain ⟨⟨k, y⟩, h1, h⟩ := h
      cases h
      obtain ⟨v', h2, h3⟩ := runM_set (fun v : PatternSynth => { v with order := l }) (f := patSynthStep m)
        (fun s x r hr => by
          simp only [patSynthStep] at hr
          rw [except_bind_ok] at hr
          obtain ⟨new, h4, hr⟩ := hr
          cases hr
          exact ⟨_, by simp only [patSynthStep, h4]; rfl, rfl⟩) h1
      refine ⟨v', y, (runM_source (step := patSynthStep m) (fun _ _ => rfl) (hsz x (by simp)) [] v).trans h2, ?_⟩
      rw [put_left]
      exact Prod.ext (congrArg Prim.patSynth h3) rfl
  · refine PrimLoop.idle ?_
    intro l N D bufs ins out r hS _ _ hr
    obtain ⟨s', b, h, rfl⟩ := reState_back hr
    unfold procPatSynth at h
    split at h
    · exact absurd (List.length_eq_zero_iff.mp hS.length_eq.symm) hc
    · cases h; rfl

theorem seq_loop {s : Sequencer} (hc : chans = []) : PrimLoop m (.seq s) sel chans C := by
  subst hc
  refine ⟨Nat, Fl, fun l k => .seq { s with step := k, order := l }, s.step, fun k _ => do
        let v ← seqSample m (barLength s.bpm s.sr s.speed) k seqValue0 s.events (.fin 0)
        .ok (k + 1, v), wLeft, fun _ => rfl, ?_⟩
  intro N D bufs ins out l k r _ hS _ hsz _ hr
  obtain ⟨s', b, h, rfl⟩ := reState_back hr
  obtain ⟨rfl, rfl⟩ := hS.none
  match out, hsz, h with
  | [], _, h => cases h
  | x :: rest, hsz, h =>
    simp only [procSeq] at h
    rw [except_bind_ok] at h
    obtain ⟨⟨k', y⟩, h1, h⟩ := h
    cases h
    refine ⟨k', y, ?_, by rw [put_left]⟩
    rw [← h1]
    refine runM_frames (hsz x (by simp)) ?_ k
    intro _ _; rfl

theorem Slots.many {N : Nat} {D : List Nat} {bufs : List (List Buf)} {ins : Ins} (h : Slots N chans D bufs ins)
    (hc : 2 < chans.length) : ∃ a b c d, ins = a :: b :: c :: d := by
  have := h.length_eq
  match ins, this with
  | [], h => simp at h; omega
  | [_], h => simp at h; omega
  | [_, _], h => simp at h; omega
  | a :: b :: c :: d, _ => exact ⟨a, b, c, d, rfl⟩

/-- The sizes of the inputs. -/
theorem Slots.sized {N : Nat} {D : List Nat} {bufs : List (List Buf)} {ins : Ins} (h : Slots N chans D bufs ins) {j k : Nat}
    {b : Buf} (hb : chan (bufs.getD j []) k = .ok b) : b.length = N := by
  by_cases hj : j < bufs.length
  · refine h.size _ ?_ b (chan_getD hb).2
    rw [List.getD_eq_getElem?_getD, List.getElem?_eq_getElem hj]
    exact List.getElem_mem hj
  · rw [List.getD_eq_getElem?_getD, List.getElem?_eq_none (by omega)] at hb
    cases hb

/-- What a node reads of a noted input. -/
theorem Slots.noted {N : Nat} {D : List Nat} {bufs : List (List Buf)} {ins : Ins} (h : Slots N chans D bufs ins)
    (hs : ∀ j, j ∈ sel → j < chans.length) {l : List Nat} (hl : l = sel.map (fun j => D.getD j 0)) {k : Nat} {o : List Buf}
    (ho : Verif.inputAt ins l k = .ok o) : ∃ j, sel[k]? = some j ∧ o = bufs.getD j [] := by
  subst hl
  rw [h.inputAt hs] at ho
  split at ho
  · cases ho
  · cases ho; exact ⟨_, ‹_›, rfl⟩

theorem getD_of {α : Type} {l : List α} {k : Nat} {a d : α} (h : l[k]? = some a) : l.getD k d = a := by
  rw [List.getD_eq_getElem?_getD, h]; rfl

/-- The slot that the `k`-th noted input has. -/
def slotOf (sel : List Nat) (k : Nat) : Nat := sel.getD k 0

/-! ### Arithmetic -/

theorem rightOf_size {N : Nat} {D : List Nat} {bufs : List (List Buf)} {ins : Ins} (h : Slots N chans D bufs ins) {j : Nat}
    {m0 : Buf} (h0 : chan (bufs.getD j []) 0 = .ok m0) : (rightOf (bufs.getD j []) m0).length = N := by
  unfold rightOf
  split
  · rename_i r hr
    exact h.sized (k := 1) (j := j) (by simp only [chan, hr])
  · exact h.sized h0

theorem put_sides (ys : List (Fl × Fl)) (b : Buf) (rest : List Buf) :
    put wPair ys (b :: rest) = ys.map Prod.fst :: setRight rest (ys.map Prod.snd) := by
  match rest with
  | [] => simp [put, wPair, setRight]
  | c :: rest => rw [put_pair]; rfl

theorem applyOp_loop (op : Fl → Fl → Fl) (v : Fl) {N : Nat} {D : List Nat} {bufs : List (List Buf)} {ins : Ins}
    {out o : List Buf} (hS : Slots N chans D bufs ins) (hs : ∀ j, j ∈ sel → j < chans.length) {l : List Nat}
    (hl : l = sel.map (fun j => D.getD j 0)) (h : applyOp op l v ins out = .ok o) :
    (chans.length = 1 → o = put wPair ((List.range N).map (fun t =>
      (op (samp (bufs.map (fun o => frame o t)) 0 0) v, op (sampR (bufs.map (fun o => frame o t)) 0) v))) out) ∧
    (chans.length = 2 → o = put wPair ((List.range N).map (fun t =>
      (op (samp (bufs.map (fun o => frame o t)) (slotOf sel 0) 0) (samp (bufs.map (fun o => frame o t)) (slotOf sel 1) 0),
       op (sampR (bufs.map (fun o => frame o t)) (slotOf sel 0)) (sampR (bufs.map (fun o => frame o t)) (slotOf sel 1))))) out) ∧
    (chans.length ≠ 1 → chans.length ≠ 2 → o = out) := by
  unfold applyOp at h
  split at h
  · cases h
  · rename_i b rest
    have hlen := hS.length_eq
    split at h
    · rename_i d main
      simp only [List.length_cons, List.length_nil] at hlen
      refine ⟨fun _ => ?_, fun h => by omega, fun h => by omega⟩
      rw [except_bind_ok] at h
      obtain ⟨m0, h0, h⟩ := h
      cases h
      have hb : bufs.getD 0 [] = main := by
        obtain ⟨c, hc⟩ := List.length_eq_one_iff.mp hlen.symm
        subst hc
        obtain ⟨d', o', _, rfl, h2, _⟩ := hS.one
        cases h2
        rfl
      rw [← hb] at h0 ⊢
      rw [put_sides, List.map_map, List.map_map]
      congr 1
      · rw [buf_map (hS.sized h0)]
        apply List.map_congr_left
        intro t _
        simp only [Function.comp, samp_frames, (chan_getD h0).1]
      · congr 1
        rw [buf_map (rightOf_size hS h0)]
        apply List.map_congr_left
        intro t _
        simp only [Function.comp, sampR_frames _ _ _ h0]
    · simp only [List.length_cons, List.length_nil] at hlen
      refine ⟨fun h => by omega, fun _ => ?_, fun _ h => by omega⟩
      rw [except_bind_ok] at h
      obtain ⟨main, hm, h⟩ := h
      rw [except_bind_ok] at h
      obtain ⟨ref, hr, h⟩ := h
      rw [except_bind_ok] at h
      obtain ⟨m0, h0, h⟩ := h
      rw [except_bind_ok] at h
      obtain ⟨r0, h1, h⟩ := h
      cases h
      obtain ⟨j0, hj0, rfl⟩ := hS.noted hs hl hm
      obtain ⟨j1, hj1, rfl⟩ := hS.noted hs hl hr
      rw [show slotOf sel 0 = j0 from getD_of hj0, show slotOf sel 1 = j1 from getD_of hj1]
      rw [put_sides, List.map_map, List.map_map]
      congr 1
      · rw [buf_zipWith (hS.sized h0) (hS.sized h1)]
        apply List.map_congr_left
        intro t _
        simp only [Function.comp, samp_frames, (chan_getD h0).1, (chan_getD h1).1]
      · congr 1
        rw [buf_zipWith (rightOf_size hS h0) (rightOf_size hS h1)]
        apply List.map_congr_left
        intro t _
        simp only [Function.comp, sampR_frames _ _ _ h0, sampR_frames _ _ _ h1]
    · rename_i hn1 hn2
      refine ⟨fun hc => ?_, fun hc => ?_, fun _ _ => by cases h; rfl⟩
      · exfalso
        match ins, hlen with
        | [x], _ => exact hn1 x.1 x.2 rfl
        | [], hlen => simp at hlen; omega
        | _ :: _ :: _, hlen => simp at hlen; omega
      · exfalso
        match ins, hlen with
        | [x, y], _ => exact hn2 x y rfl
        | [], hlen => simp at hlen; omega
        | [_], hlen => simp at hlen; omega
        | _ :: _ :: _ :: _, hlen => simp at hlen; omega

/-- A node without state. -/
theorem PrimLoop.stateless {ο : Type} {n : Prim} (F : Frame → ο) (w : Nat → Option (ο → Fl))
    (h : ∀ l N D bufs ins out r, 0 < N → Slots N chans D bufs ins → out.length = C → (∀ b, b ∈ out → b.length = N) →
      (n.keepsOrder = true → l = sel.map (fun j => D.getD j 0)) → procPrim m (n.reorder l) ins out = .ok r →
      r = (n.reorder l, put w ((List.range N).map (fun t => F (bufs.map (fun o => frame o t)))) out)) :
    PrimLoop m n sel chans C := by
  refine ⟨Unit, ο, fun l _ => n.reorder l, (), fun _ fr => .ok ((), F fr), w, fun _ => rfl, ?_⟩
  intro N D bufs ins out l s r hN hS hC hsz hl hr
  exact ⟨(), _, map_frames (fun _ => rfl), h l N D bufs ins out r hN hS hC hsz hl hr⟩

theorem arith_loop {n : Prim} (op : Fl → Fl → Fl) (v : Fl) (hk : n.keepsOrder = true)
    (hn : ∀ l ins out, procPrim m (n.reorder l) ins out = sameNode (n.reorder l) (applyOp op l v ins out))
    (hs : ∀ j, j ∈ sel → j < chans.length) : PrimLoop m n sel chans C := by
  by_cases h1 : chans.length = 1
  · refine PrimLoop.stateless (fun fr => (op (samp fr 0 0) v, op (sampR fr 0) v)) wPair ?_
    intro l N D bufs ins out r _ hS _ _ hl hr
    rw [hn] at hr
    obtain ⟨o, h, rfl⟩ := sameNode_inv hr
    rw [(applyOp_loop op v hS hs (hl hk) h).1 h1]
  · by_cases h2 : chans.length = 2
    · refine PrimLoop.stateless (fun fr => (op (samp fr (slotOf sel 0) 0) (samp fr (slotOf sel 1) 0),
        op (sampR fr (slotOf sel 0)) (sampR fr (slotOf sel 1)))) wPair ?_
      intro l N D bufs ins out r _ hS _ _ hl hr
      rw [hn] at hr
      obtain ⟨o, h, rfl⟩ := sameNode_inv hr
      rw [(applyOp_loop op v hS hs (hl hk) h).2.1 h2]
    · refine PrimLoop.idle ?_
      intro l N D bufs ins out r hS _ hl hr
      rw [hn] at hr
      obtain ⟨o, h, rfl⟩ := sameNode_inv hr
      rw [(applyOp_loop op v hS hs (hl hk) h).2.2 h1 h2]

theorem mul_loop {a : Arith} (hs : ∀ j, j ∈ sel → j < chans.length) : PrimLoop m (.mul a) sel chans C :=
  arith_loop (Fl.mul f32) a.val rfl (fun _ _ _ => rfl) hs

theorem add_loop {a : Arith} (hs : ∀ j, j ∈ sel → j < chans.length) : PrimLoop m (.add a) sel chans C :=
  arith_loop (Fl.add f32) a.val rfl (fun _ _ _ => rfl) hs

/-! ### Effects -/

theorem Slots.only {N : Nat} {D : List Nat} {bufs : List (List Buf)} {ins : Ins} (h : Slots N chans D bufs ins)
    (hc : chans.length = 1) : ∃ d, ins = [(d, bufs.getD 0 [])] := by
  obtain ⟨c, rfl⟩ := List.length_eq_one_iff.mp hc
  obtain ⟨d, o, _, rfl, h2, _⟩ := h.one
  exact ⟨d, h2⟩

theorem Slots.not_only {N : Nat} {D : List Nat} {bufs : List (List Buf)} {ins : Ins} (h : Slots N chans D bufs ins)
    (hc : chans.length ≠ 1) (x : Nat × List Buf) : ins ≠ [x] := by
  intro he
  have := h.length_eq
  rw [he] at this
  exact hc this.symm

theorem Slots.not_two {N : Nat} {D : List Nat} {bufs : List (List Buf)} {ins : Ins} (h : Slots N chans D bufs ins)
    (hc : chans.length ≠ 2) (x y : Nat × List Buf) : ins ≠ [x, y] := by
  intro he
  have := h.length_eq
  rw [he] at this
  exact hc this.symm

theorem Slots.pair {N : Nat} {D : List Nat} {bufs : List (List Buf)} {ins : Ins} (h : Slots N chans D bufs ins)
    (hc : chans.length = 2) : ∃ x y, ins = [x, y] := by
  have := h.length_eq
  rw [hc] at this
  exact List.length_eq_two.mp this

theorem slot_zero {j k : Nat} (hs : ∀ j, j ∈ sel → j < chans.length) (hc : chans.length = 1) (h : sel[k]? = some j) : j = 0 := by
  have := hs j (List.mem_of_getElem? h)
  omega

theorem setStereo_inv {out o : List Buf} {a b : Buf} (h : setStereo out a b = .ok o) :
    ∃ x y more, out = x :: y :: more ∧ o = a :: b :: more := by
  unfold setStereo at h
  split at h
  · cases h; exact ⟨_, _, _, rfl, rfl⟩
  · cases h

theorem pan_loop {a : Arith} (hs : ∀ j, j ∈ sel → j < chans.length) : PrimLoop m (.pan a) sel chans C := by
  by_cases h1 : chans.length = 1
  · refine PrimLoop.stateless (fun fr => panSample m a.val (samp fr 0 0)) wPair ?_
    intro l N D bufs ins out r _ hS _ _ hl hr
    obtain ⟨o, h, rfl⟩ := sameNode_inv hr
    obtain ⟨d, rfl⟩ := hS.only h1
    simp only [procPan] at h
    rw [except_bind_ok] at h
    obtain ⟨x, hx, h⟩ := h
    obtain ⟨_, _, more, rfl, rfl⟩ := setStereo_inv h
    rw [put_pair, List.map_map, List.map_map, buf_map (hS.sized hx), buf_map (hS.sized hx)]
    simp only [Function.comp_def, samp_frames, (chan_getD hx).1]
    rfl
  · refine PrimLoop.stateless (fun fr => panSample m (samp fr (slotOf sel 1) 0) (samp fr (slotOf sel 0) 0)) wPair ?_
    intro l N D bufs ins out r _ hS _ _ hl hr
    obtain ⟨o, h, rfl⟩ := sameNode_inv hr
    unfold procPan at h
    split at h
    · exact absurd rfl (hS.not_only h1 _)
    · rw [except_bind_ok] at h
      obtain ⟨ref, hr1, h⟩ := h
      rw [except_bind_ok] at h
      obtain ⟨main, hr0, h⟩ := h
      rw [except_bind_ok] at h
      obtain ⟨x1, hx1, h⟩ := h
      rw [except_bind_ok] at h
      obtain ⟨x0, hx0, h⟩ := h
      obtain ⟨j0, hj0, rfl⟩ := hS.noted hs (hl rfl) hr0
      obtain ⟨j1, hj1, rfl⟩ := hS.noted hs (hl rfl) hr1
      obtain ⟨_, _, more, rfl, rfl⟩ := setStereo_inv h
      rw [put_pair, List.map_map, List.map_map, buf_zipWith (hS.sized hx1) (hS.sized hx0),
        buf_zipWith (hS.sized hx1) (hS.sized hx0), show slotOf sel 0 = j0 from getD_of hj0,
        show slotOf sel 1 = j1 from getD_of hj1]
      simp only [Function.comp_def, samp_frames, (chan_getD hx0).1, (chan_getD hx1).1]
      rfl

theorem balance_loop {o : List Nat} (hs : ∀ j, j ∈ sel → j < chans.length) : PrimLoop m (.balance o) sel chans C := by
  by_cases h2 : chans.length = 2
  · refine PrimLoop.stateless (fun fr => (samp fr (slotOf sel 0) 0, samp fr (slotOf sel 1) 0)) wPair ?_
    intro l N D bufs ins out r _ hS _ _ hl hr
    obtain ⟨o, h, rfl⟩ := sameNode_inv hr
    obtain ⟨x, y, rfl⟩ := hS.pair h2
    simp only [procBalance] at h
    rw [except_bind_ok] at h
    obtain ⟨main, hr0, h⟩ := h
    rw [except_bind_ok] at h
    obtain ⟨ref, hr1, h⟩ := h
    rw [except_bind_ok] at h
    obtain ⟨x0, hx0, h⟩ := h
    rw [except_bind_ok] at h
    obtain ⟨x1, hx1, h⟩ := h
    obtain ⟨j0, hj0, rfl⟩ := hS.noted hs (hl rfl) hr0
    obtain ⟨j1, hj1, rfl⟩ := hS.noted hs (hl rfl) hr1
    obtain ⟨_, _, more, rfl, rfl⟩ := setStereo_inv h
    rw [put_pair, List.map_map, List.map_map, show slotOf sel 0 = j0 from getD_of hj0,
      show slotOf sel 1 = j1 from getD_of hj1]
    simp only [Function.comp_def, samp_frames, (chan_getD hx0).1, (chan_getD hx1).1]
    rw [← buf_range (hS.sized hx0), ← buf_range (hS.sized hx1)]
    rfl
  · refine PrimLoop.idle ?_
    intro l N D bufs ins out r hS _ hl hr
    obtain ⟨o, h, rfl⟩ := sameNode_inv hr
    unfold procBalance at h
    split at h
    · exact absurd rfl (hS.not_two h2 _ _)
    · cases h; rfl

/-- A loop over the only input, writing the left channel. -/
theorem one_loop {σ : Type} {N : Nat} {D : List Nat} {bufs : List (List Buf)} {ins : Ins} (hS : Slots N chans D bufs ins)
    {x : Buf} (hx : chan (bufs.getD 0 []) 0 = .ok x) {f : σ → Fl → Except Panic (σ × Fl)} {s : σ} :
    runM (fun s fr => f s (samp fr 0 0)) s (slotFrames N bufs) = runM f s x :=
  runM_frames (hS.sized hx) (fun s t => by rw [samp_frames, (chan_getD hx).1]) s

/-- A loop over two noted inputs. -/
theorem two_loop {σ : Type} {N : Nat} {D : List Nat} {bufs : List (List Buf)} {ins : Ins} (hS : Slots N chans D bufs ins)
    {x y : Buf} {i j : Nat} (hx : chan (bufs.getD i []) 0 = .ok x) (hy : chan (bufs.getD j []) 0 = .ok y)
    {f : σ → Fl × Fl → Except Panic (σ × Fl)} {s : σ} :
    runM (fun s fr => f s (samp fr i 0, samp fr j 0)) s (slotFrames N bufs) = runM f s (x.zip y) :=
  runM_frames2 (hS.sized hx) (hS.sized hy) (fun s t => by rw [samp_frames, samp_frames, (chan_getD hx).1, (chan_getD hy).1]) s

/-- Both channels get the same. -/
def wBoth (C : Nat) : Nat → Option (Fl → Fl) := fun c => if c = 0 ∨ C = 2 then some id else none

theorem put_both (ys : List Fl) (b : Buf) (rest : List Buf) (hC : (b :: rest).length = C) :
    put (wBoth C) ys (b :: rest) = ys :: (if rest.length = 1 then [ys] else rest) := by
  subst hC
  by_cases h : rest.length = 1
  · obtain ⟨c, rfl⟩ := List.length_eq_one_iff.mp h
    simp [put, wBoth]
  · have : rest.length + 1 ≠ 2 := by omega
    simp [put, wBoth, List.mapIdx_cons, h, this, mapIdx_keep]

/-- The channels that `passBufs` writes. -/
def wPass (c C : Nat) : Nat → Option (List Fl → Fl) := fun k =>
  if c = 1 ∧ C = 2 then some (fun fr => fr.getD 0 (.fin 0)) else if k < c then some (fun fr => fr.getD k (.fin 0)) else none

theorem passBufs_put {N c : Nat} {o out : List Buf} (hc : o.length = c) (hs : ∀ b, b ∈ o → b.length = N) :
    passBufs o out = put (wPass c out.length) ((List.range N).map (fun t => frame o t)) out := by
  have key : ∀ k b, o[k]? = some b → ((List.range N).map (fun t => frame o t)).map (fun fr => fr.getD k (.fin 0)) = b := by
    intro k b hb
    rw [List.map_map]
    conv_rhs => rw [buf_range (hs b (List.mem_of_getElem? hb))]
    apply List.map_congr_left
    intro t _
    simp [frame, List.getD_eq_getElem?_getD, hb]
  unfold passBufs
  split
  · rename_i b x y
    simp only [List.length_cons, List.length_nil] at hc
    subst hc
    have := key 0 b rfl
    simp only [put, wPass, List.mapIdx_cons, List.mapIdx_nil, List.length_cons, List.length_nil, and_self, if_true, this]
  · rename_i hne
    have h2 : ¬ (c = 1 ∧ out.length = 2) := by
      rintro ⟨h1, h2⟩
      rw [h1] at hc
      obtain ⟨b, rfl⟩ := List.length_eq_one_iff.mp hc
      obtain ⟨x, y, rfl⟩ := List.length_eq_two.mp h2
      exact hne b x y rfl rfl
    apply List.ext_getElem?
    intro k
    simp only [put, wPass, if_neg h2, List.getElem?_mapIdx]
    by_cases hk : k < out.length
    · rw [List.getElem?_eq_getElem hk]
      simp only [Option.map_some]
      by_cases hkc : k < c
      · rw [if_pos hkc]
        simp only
        have hko : k < o.length := by omega
        rw [key k _ (List.getElem?_eq_getElem hko), List.getElem?_append_left (by simp; omega), List.getElem?_take,
          if_pos hk, List.getElem?_eq_getElem hko]
      · rw [if_neg hkc]
        simp only
        rw [List.getElem?_append_right (by simp; omega), List.length_take, List.getElem?_drop, ← List.getElem?_eq_getElem hk]
        congr 1
        omega
    · have e1 : out[k]? = none := List.getElem?_eq_none (by omega)
      rw [e1, List.getElem?_eq_none (by simp only [List.length_append, List.length_take, List.length_drop]; omega)]
      rfl

theorem delayn_loop {d : DelayN} : PrimLoop m (.delayn d) sel chans C := by
  by_cases h1 : chans.length = 1
  · obtain ⟨c, rfl⟩ := List.length_eq_one_iff.mp h1
    by_cases hn : d.n = 0
    · refine PrimLoop.stateless (fun fr => fr.getD 0 []) (wPass c C) ?_
      intro l N D bufs ins out r _ hS hC _ hl hr
      obtain ⟨s', o, h, rfl⟩ := reState_back hr
      obtain ⟨_, o', _, rfl, rfl, h3, h4⟩ := hS.one
      simp only [procDelayN, if_pos hn] at h
      cases h
      rw [passBufs_put h3 h4, hC]
      rfl
    · refine ⟨Ring, Fl, fun l b => .delayn { d with buf := b, order := l }, d.buf, fun b fr => b.push (samp fr 0 0),
        if c = 1 then wBoth C else wLeft, fun _ => rfl, ?_⟩
      intro N D bufs ins out l s r _ hS hC _ _ hr
      obtain ⟨s', o, h, rfl⟩ := reState_back hr
      have hlen : (bufs.getD 0 []).length = c := by obtain ⟨_, o', _, rfl, _, h3, _⟩ := hS.one; exact h3
      obtain ⟨_, rfl⟩ := hS.only rfl
      simp only [procDelayN, if_neg hn] at h
      match out, hC, h with
      | [], _, h => cases h
      | b :: rest, hC, h =>
        dsimp only at h
        rw [except_bind_ok] at h
        obtain ⟨x, hx, h⟩ := h
        rw [except_bind_ok] at h
        obtain ⟨⟨k, y⟩, h2, h⟩ := h
        cases h
        refine ⟨k, y, (one_loop hS hx).trans h2, ?_⟩
        rw [hlen]
        by_cases hc : c = 1
        · rw [if_pos hc, put_both y b rest hC]; simp only [hc, true_and]
        · rw [if_neg hc, put_left]; simp only [hc, false_and, if_false]
  · refine PrimLoop.idle ?_
    intro l N D bufs ins out r hS _ hl hr
    obtain ⟨s', o, h, rfl⟩ := reState_back hr
    unfold procDelayN at h
    split at h
    · exact absurd rfl (hS.not_only h1 _)
    · cases h; rfl

end Verif
