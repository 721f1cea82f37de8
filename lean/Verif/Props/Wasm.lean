import Verif.Spec.Wasm
import Verif.Props.Api
import Verif.Lemmas.Eval

/-! # C29, C30: the browser interface -/

namespace Verif.Props
open Verif Spec Browser

variable {L : Lang}

theorem utf8Char_spec (c : Char) : Utf8Char c (Wasm.utf8Char c) := by
  unfold Wasm.utf8Char
  have hv : c.toNat < 0x110000 := by
    have := c.valid
    have h2 : c.toNat = c.val.toNat := rfl
    rw [h2]
    rcases this with h | h
    · omega
    · omega
  simp only
  generalize hn : c.toNat = n at *
  split
  · rw [← hn]; exact .one (by omega)
  · split
    · exact .two (by omega) (by omega) (by omega) (by omega)
    · split
      · exact .three (by omega) (by omega) (by omega) (by omega) (by omega)
      · exact .four (by omega) (by omega) (by omega) (by omega) (by omega) (by omega)

theorem utf8_spec (s : Name) : Utf8 s (Wasm.utf8 s) := by
  induction s with
  | nil => exact .nil
  | cons c s ih => exact .cons (utf8Char_spec c) ih

theorem writeErr_spec (pm : List Nat) (err : EngineError) (cls : Nat) (msg : List Nat)
    (hc : Wasm.errClass err = cls) (hm : Wasm.errBytes pm err = msg) :
    ∃ buf, Wasm.writeErrToBuf pm err (List.replicate 256 0) = .ok buf ∧ ErrorBuffer cls msg buf := by
  unfold Wasm.writeErrToBuf
  rw [hc, hm]
  have h1 : Wasm.copyAt (List.replicate 256 0) 0 [cls] = .ok (cls :: List.replicate 255 0) := by
    unfold Wasm.copyAt
    rw [List.length_replicate, if_pos (by show 0 + 1 ≤ 256; omega), List.drop_replicate]
    rfl
  rw [h1]
  simp only [bind, Except.bind]
  have hR : ∃ R : List Nat, List.replicate 255 0 = 0 :: R ∧ R.length = 254 ∧
      ∀ i, i < 254 → R[i]? = some 0 :=
    ⟨List.replicate 254 0, rfl, List.length_replicate, fun i hi => by
      rw [List.getElem?_replicate, if_pos hi]⟩
  obtain ⟨R, hR1, hR2, hR3⟩ := hR
  rw [hR1]
  have h254 : Wasm.resBufferSize - 2 = 254 := rfl
  rw [h254]
  clear h1 hR1 h254 hc hm
  have hlen : (msg.take (min msg.length 254)).length = min msg.length 254 := by simp
  unfold Wasm.copyAt
  rw [hlen, if_pos (by simp only [List.length_cons, hR2]; omega)]
  have hdrop : ∀ k, (cls :: 0 :: R).drop (2 + k) = R.drop k := by
    intro k; rw [Nat.add_comm]; rfl
  rw [hdrop]
  refine ⟨_, rfl, ?_, rfl, rfl, ?_, ?_⟩
  · rw [List.length_append, List.length_append, hlen, List.length_drop, hR2]
    show 2 + _ + _ = _
    omega
  · intro i h1 h2
    rw [List.append_assoc, List.getElem?_append_right (by show 2 ≤ _; omega)]
    have : 2 + i - (List.take 2 (cls :: 0 :: R)).length = i := by show 2 + i - 2 = i; omega
    rw [this, List.getElem?_append_left (by rw [hlen]; omega), List.getElem?_take_of_lt (by omega)]
  · intro i h1 h2
    have hl : (List.take 2 (cls :: 0 :: R) ++ msg.take (min msg.length 254)).length = 2 + msg.length := by
      rw [List.length_append, hlen]; show 2 + _ = _; omega
    rw [List.getElem?_append_right (by rw [hl]; omega), List.getElem?_drop, hl]
    exact hR3 _ (by omega)

/-- **C29.** Whenever `update` returns, it returns 256 zero bytes if the update succeeded, and otherwise
the error class (1 syntax, 2 sample, 3 reference), a zero byte, the message cut to 254 bytes and zeros;
writing the buffer never panics. -/
theorem c29_result_buffer (τ : TableOrder) (parseMsg : Name → List Nat) (e : Engine L) (code : Name)
    {e' : Engine L} {r : Option EngineError} (h : e.updateWithCode τ code = .ok (e', r)) :
    ∃ buf, Wasm.update τ parseMsg e code = .ok (e', buf) ∧
      match r with
      | none => buf = List.replicate 256 0
      | some .parsing => ErrorBuffer 1 (parseMsg code) buf
      | some (.nonExistSample v) => ∃ msg,
          Utf8 ("There is no sample named ".toList ++ v) msg ∧ ErrorBuffer 2 msg buf
      | some (.nonExistReference v) => ∃ msg,
          Utf8 ("There is no reference named ".toList ++ v) msg ∧ ErrorBuffer 3 msg buf := by
  unfold Wasm.update
  simp only [h, bind, Except.bind]
  cases r with
  | none => exact ⟨_, rfl, rfl⟩
  | some err =>
    cases err with
    | parsing =>
      obtain ⟨buf, h1, h2⟩ := writeErr_spec (parseMsg code) .parsing 1 _ rfl rfl
      refine ⟨buf, ?_, h2⟩
      simp only [Wasm.resBufferSize, h1]
    | nonExistSample v =>
      obtain ⟨buf, h1, h2⟩ := writeErr_spec (parseMsg code) (.nonExistSample v) 2 _ rfl rfl
      refine ⟨buf, ?_, _, utf8_spec _, h2⟩
      simp only [Wasm.resBufferSize, h1]
    | nonExistReference v =>
      obtain ⟨buf, h1, h2⟩ := writeErr_spec (parseMsg code) (.nonExistReference v) 3 _ rfl rfl
      refine ⟨buf, ?_, _, utf8_spec _, h2⟩
      simp only [Wasm.resBufferSize, h1]

/-- A rejected update: the reference `~a` of `prog3` does not resolve. -/
example : ∃ e' r, Toy.e0.updateWithCode TableOrder.ident Toy.t3 = .ok (e', some r) ∧
    r = .nonExistReference Toy.nameA := ⟨_, _, rfl, rfl⟩

/-! ### C30 -/

/-- The destination: alive, with two buffers of block length. -/
def DestOk (e : Engine L) : Prop :=
  ∃ d, e.graph.node? e.dest = some d ∧ d.buffers.map List.length = [e.N, e.N]

theorem DestOk.of_same {e e' : Engine L} (h : DestOk e) (h1 : e'.dest = e.dest) (h3 : e'.N = e.N)
    (h4 : SameBufs e.graph e'.graph) : DestOk e' := by
  obtain ⟨d, a3, a4⟩ := h
  obtain ⟨d', b1, b2⟩ := h4 _ d a3
  exact ⟨d', by rw [h1]; exact b1, by rw [b2, h3]; exact a4⟩

theorem dest_accepted {τ : TableOrder} {e e' : Engine L} {new : Ast L.Comp}
    {diff t1 gone1 t2 gone2 g3 created g5} (hI : Inv e)
    (h : Accepted τ e new e' diff t1 gone1 t2 gone2 g3 created g5) {d : L.Data}
    (hd : e.graph.node? e.dest = some d) :
    ∃ n, e'.graph.node? e.dest = some ⟨n, d.buffers⟩ := by
  have f := h.facts
  obtain ⟨_, r2, _⟩ := removeAll_spec (ids := gone1 ++ gone2) f.wf
  have hcr : e.dest ∉ created := by
    intro hc; rw [(f.cr _ hc).1] at hd; cases hd
  have hg : e.dest ∉ gone1 ++ gone2 := fun hg => ((h.live hI).2.2 _ hg).2.2.2.1 rfl
  have h4 : ((removeAll g3 (gone1 ++ gone2)).clearEdges).node? e.dest = some d := by
    show (removeAll g3 (gone1 ++ gone2)).node? e.dest = some d
    rw [r2]
    simp only [hg, if_false]
    rw [f.nodes _ hcr]
    exact hd
  obtain ⟨n, h5, _⟩ := h.adds.rewired.some e.dest d h4
  exact ⟨n, h5⟩

theorem destOk_reach (hL : ParserWf L) {N : Nat} {S : L.Node → Prop} (hs : Shape L N S) {e : Engine L}
    (h : Reachable L e) (hN : e.N = N) : DestOk e := by
  induction h with
  | new N =>
    refine ⟨freshData N 2 L.sum2, rfl, ?_⟩
    simp [freshData, Engine.new, contextGraph]
  | @step e e1 op hr happ ih =>
    have hI := inv_reachable hL hr
    have hNe : e.N = N := (apply_N hL hr happ).symm.trans hN
    have ih := ih hNe
    cases op with
    | update τ code =>
      simp only [Op.apply, except_bind_ok] at happ
      obtain ⟨⟨e2, r⟩, h1, happ⟩ := happ
      cases happ
      unfold Engine.updateWithCode at h1
      rw [except_bind_ok] at h1
      obtain ⟨p, hp, h1⟩ := h1
      split at h1
      · cases h1; exact ih
      · rename_i new
        have hw := hL code new hp
        cases r with
        | none =>
          obtain ⟨diff, t1, gone1, t2, gone2, g3, cr, g5, hacc⟩ := accepted hI hw h1
          obtain ⟨d, a3, a4⟩ := ih
          obtain ⟨n, hn⟩ := dest_accepted hI hacc a3
          refine ⟨⟨n, d.buffers⟩, ?_, ?_⟩
          · show e2.graph.node? e2.dest = _
            rw [congrArg Engine.dest hacc.eq]; exact hn
          · show _ = [e2.N, e2.N]
            rw [congrArg Engine.N hacc.eq]; exact a4
        | some x =>
          have hs := (sameEngine_of_rejected hI hw h1).1
          exact ih.of_same hs.dest hs.N (fun i d hd => ⟨d, by rw [hs.nodes]; exact hd, rfl⟩)
    | sendMsg m =>
      have := (onlyNodes_sendMsg happ).eq
      exact ih.of_same (by rw [this]) (by rw [this]) (sameBufs_sendMsg happ)
    | setBpm v =>
      obtain ⟨h1, _, h3⟩ := setBpm_nodes happ
      refine ih.of_same (by rw [h1]) (by rw [h1]) ?_
      intro i d hd
      have := h3 i
      rw [hd] at this
      obtain ⟨n, _, hn⟩ := this
      exact ⟨_, hn, rfl⟩
    | setSr v => cases happ; exact ih.of_same rfl rfl (.refl _)
    | setSeed v => cases happ; exact ih.of_same rfl rfl (.refl _)
    | setTrackAmp v => cases happ; exact ih.of_same rfl rfl (.refl _)
    | addSample n s => cases happ; exact ih.of_same rfl rfl (.refl _)
    | nextBlock ho buf =>
      simp only [Op.apply, except_bind_ok] at happ
      obtain ⟨⟨e2, out⟩, h1, happ⟩ := happ
      cases happ
      obtain ⟨e3, g, d, h2, h3, _, _, rfl⟩ := nextBlock_ok h1
      have heq := (onlyNodes_copyInputs h2).eq
      have hb : SameBufs e.graph e3.graph := by
        unfold Engine.copyInputs at h2
        split at h2
        · cases h2; exact .refl _
        · exact sameBufs_copyInput h2
        · rw [except_bind_ok] at h2
          obtain ⟨e4, k1, k2⟩ := h2
          exact (sameBufs_copyInput k1).trans (sameBufs_copyInput k2)
      refine ih.of_same (by show e3.dest = _; rw [heq]) (by show e3.N = _; rw [heq]) ?_
      exact hb.trans (sameBufs_process hs (all_copyInputs hs.inv (shaped_reach hL hs hr hNe) h2) h3)
    | reset =>
      cases happ
      refine ⟨freshData e.N 2 L.sum2, rfl, ?_⟩
      simp [freshData, Engine.reset, contextGraph]

/-- What `next_block` returns: two channels of block length. -/
theorem nextBlock_shape (hL : ParserWf L) {e e' : Engine L} {S : L.Node → Prop} (hs : Shape L e.N S) (hr : Reachable L e)
    {ho : HashOrder} {buf out : List (List L.Num)} (h : e.nextBlock ho buf = .ok (e', out)) :
    ∃ l r, out = [l, r] ∧ l.length = e.N ∧ r.length = e.N := by
  have hr' : Reachable L e' := .step (.nextBlock ho buf) hr (by simp only [Op.apply, h]; rfl)
  obtain ⟨d', h1, h2⟩ := destOk_reach hL hs hr' (apply_N hL hr (op := .nextBlock ho buf) (by simp only [Op.apply, h]; rfl))
  obtain ⟨e3, g, d, k2, k3, k4, k5, rfl⟩ := nextBlock_ok h
  have heq := (onlyNodes_copyInputs k2).eq
  have : e3.N = e.N := by rw [heq]
  have h1' : g.node? e3.dest = some d' := h1
  have h2' : d'.buffers.map List.length = [e3.N, e3.N] := h2
  rw [k4] at h1'
  cases h1'
  rw [this] at h2'
  subst k5
  have hlen : d'.buffers.length = 2 := by
    have := congrArg List.length h2'
    simpa using this
  match hb : d'.buffers, hlen with
  | [l, r], _ =>
    rw [hb] at h2'
    simp only [List.map_cons, List.map_nil, List.cons.injEq, and_true] at h2'
    exact ⟨l, r, rfl, h2'.1, h2'.2⟩

/-- **C30** (partial). In every reachable state, for an even size of at most two blocks, `process`
returns exactly `size` samples, the first half of them from the left and the second half from the right
channel of the rendered block, and panics only if rendering does. Missing: all other sizes, for which it
is false (`c30_other_sizes_panic`), and that rendering does not panic (C37). -/
theorem c30_left_then_right_partial (hL : ParserWf L) {e e' : Engine L} {S : L.Node → Prop}
    (hs : Shape L e.N S)
    (hr : Reachable L e) {ho : HashOrder} {out : List (List L.Num)}
    (h : e.nextBlock ho [] = .ok (e', out)) (half : Nat) (hh : half ≤ e.N) :
    ∃ l r res, out = [l, r] ∧ Wasm.process ho e (2 * half) = .ok (e', res) ∧ res.length = 2 * half ∧
      (∀ i, i < half → res[i]? = l[i]?) ∧ (∀ i, i < half → res[half + i]? = r[i]?) := by
  obtain ⟨l, r, rfl, hl, hr'⟩ := nextBlock_shape hL hs hr h
  refine ⟨l, r, l.take half ++ r.take half, rfl, ?_, ?_, ?_, ?_⟩
  · unfold Wasm.process
    simp only [h, bind, Except.bind]
    have : 2 * half / 2 = half := by omega
    simp only [Wasm.channelHead, this, List.getElem?_cons_zero, List.getElem?_cons_succ, hl, hr', hh,
      if_true, List.length_take]
    rw [if_pos (by omega)]
  · simp; omega
  · intro i hi
    rw [List.getElem?_append_left (by simp; omega), List.getElem?_take_of_lt hi]
  · intro i hi
    have : (l.take half).length = half := by simp; omega
    rw [List.getElem?_append_right (by omega), this, List.getElem?_take_of_lt (by omega)]
    congr 1
    omega

/-- The running toy engine renders a block; size 4 is two blocks of length 2. -/
example : ∃ e' out, Toy.e1.nextBlock HashOrder.ident [] = .ok (e', out) ∧
    (show List (List Nat) from out) = [[64, 64], [64, 64]] ∧ 2 ≤ Toy.e1.N :=
  ⟨_, _, nextBlockFuel_spec (k := 30) rfl, rfl, by decide⟩

/-- **C30 does not hold in full**: for every other size `process` panics in every reachable state. -/
theorem c30_other_sizes_panic (hL : ParserWf L) {e : Engine L} {S : L.Node → Prop} (hs : Shape L e.N S)
    (hr : Reachable L e) (ho : HashOrder) (size : Nat) (hbad : size % 2 = 1 ∨ 2 * e.N < size) :
    ∃ p, Wasm.process ho e size = .error p := by
  unfold Wasm.process
  cases h : e.nextBlock ho [] with
  | error p => exact ⟨p, rfl⟩
  | ok x =>
    obtain ⟨e', out⟩ := x
    obtain ⟨l, r, rfl, hl, hr'⟩ := nextBlock_shape hL hs hr h
    simp only [bind, Except.bind, Wasm.channelHead, List.getElem?_cons_zero, List.getElem?_cons_succ,
      hl, hr']
    by_cases hle : size / 2 ≤ e.N
    · simp only [hle, if_true, List.length_take, hr']
      rw [if_neg (by omega)]
      exact ⟨_, rfl⟩
    · simp only [hle, if_false]
      exact ⟨_, rfl⟩

example : Reachable Toy.lang Toy.e1 ∧ (3 % 2 = 1 ∨ 2 * Toy.e1.N < 3) := ⟨Toy.reach1, .inl rfl⟩

end Verif.Props
