import Verif.Lemmas.SafePlate
import Verif.Lemmas.CompoundParts
import Verif.Lemmas.Eval
import Verif.Lemmas.Live

/-! The nodes inside the reverb `plate`, over many blocks (helpers for C68). -/

namespace Verif.Props
open Verif Spec

/-- An empty line of `n` samples. -/
def line (n : Nat) : Ring := ⟨List.replicate n (.fin 0), 0⟩

/-- The nodes of a new reverb. -/
def plateSlots (m : Libm) (N : Nat) (mix : Fl) : List (Option (NodeData Prim Buf)) :=
  let dn (n i : Nat) := some (fresh N 1 (.delayn ⟨line n, n, [i]⟩))
  let apf (n : Nat) (g : ℚ) (i : Nat) := some (fresh N 1 (.apf ⟨dec g, line n, line n, 44100, [i]⟩))
  let pole (r : ℚ) (i : Nat) := some (fresh N 1 (.onepole ⟨.fin 1 -. poleB m (dec r), poleB m (dec r), .fin 0, [i]⟩))
  let mul (v : Fl) (l : List Nat) := some (fresh N 1 (.mul ⟨v, l⟩))
  let add (v : Fl) (l : List Nat) := some (fresh N 1 (.add ⟨v, l⟩))
  let sum := some (fresh N 1 .sum)
  [some (fresh N 2 .sum2), some (fresh N 2 .pass), some (fresh N 1 .pass),
   pole (7 / 10) 2, some (fresh N 1 (.delayms ⟨[line 2205, line 2205], 44100, [3], 2205⟩)),
   apf 210 (3 / 4) 4, apf 158 (3 / 4) 5, apf 560 (5 / 8) 6, apf 410 (5 / 8) 7,
   add (.fin 0) [8, 37], some (fresh N 1 (.apf ⟨dec (7 / 10), line 4410, line 4410, 44100, [9, 13]⟩)),
   some (fresh N 1 (.sin ⟨dec (1 / 10), .fin 0, .fin 0, 44100, []⟩)), mul (.fin (11 / 2)) [11, 11],
   add (.fin (59 / 2)) [12, 12], dn 394 10, dn 2800 14, dn 1204 15, dn 2000 16, pole (1 / 10) 17,
   apf 334 (1 / 2) 18, apf 1577 (1 / 2) 19,
   some (fresh N 1 (.apf ⟨dec (1 / 2), line 4410, line 4410, 44100, [20, 13]⟩)),
   dn 179 21, dn 2679 22, dn 3500 23, mul (dec (3 / 10)) [24], apf 1323 (7 / 10) 25, dn 522 26,
   dn 2400 27, dn 2400 28, pole (1 / 10) 29, apf 273 (7 / 10) 30, apf 1539 (7 / 10) 31, apf 899 (7 / 10) 32,
   dn 1578 33, dn 2378 34, dn 2500 35, mul (dec (3 / 10)) [36], sum, mul (.fin (-1)) [38], sum,
   mul mix [40], sum, mul (.fin 1 -. mix) [2], sum, mul (.fin (-1)) [44], sum, mul mix [46], sum,
   mul (.fin 1 -. mix) [2], some (fresh N 2 (.balance [42, 48]))]

theorem newPlate_eq (m : Libm) (N : Nat) (mix : Fl) :
    newPlate m N mix = .ok ⟨.plate, ⟨plateSlots m N mix, [], plateEdges⟩, 0, 2, [41, 47, 43, 49], []⟩ := by
  kernel_rfl

/-- The order in which the nodes of the reverb are processed. -/
def plateOrder : List Nat :=
  [2, 43, 3, 4, 5, 6, 7, 8, 15, 16, 17, 18, 19, 20, 11, 12, 13, 21, 22, 23, 24, 25, 26, 27, 28, 29, 30, 31, 32, 33, 34,
   35, 36, 37, 9, 10, 14, 38, 39, 40, 41, 42, 49, 44, 45, 46, 47, 48, 50, 0]

theorem plateOrder_eq {g : Patch} (hE : g.edges = plateEdges) (hl : g.slots.length = 51) :
    dfsPostOrder g.incoming g.slots.length [0] [] [] = .ok plateOrder := by
  have : g.incoming = fun n => (plateEdges.filter (fun e => e.2 == n)).map (·.1) := by
    funext n
    rw [Graph.incoming, hE]
  rw [this, hl]
  apply dfsFuel_spec (k := 1000)
  kernel_rfl

/-- Every connection but one goes to a node that is processed later. -/
theorem plate_forward : ∀ e ∈ plateEdges, e ≠ (14, 15) → plateOrder.idxOf e.1 < plateOrder.idxOf e.2 := by
  decide +kernel

theorem before_idx {l o1 o2 : List Nat} {k n : Nat} (hl : l = o1 ++ n :: o2) (hn : n ∉ o1)
    (h : l.idxOf k < l.idxOf n) : k ∈ o1 := by
  by_contra hk
  subst hl
  rw [List.idxOf_append_of_notMem hk, List.idxOf_append_of_notMem hn, List.idxOf_cons_self] at h
  omega

theorem plateOrder_nodup : plateOrder.Nodup := by decide +kernel

/-- The sources of a node inside the reverb. -/
def plateSrc (n : Nat) : List Nat := ((plateEdges.filter (fun e => e.2 == n)).map Prod.fst).filter (· != n)

theorem mem_plateSrc (n k : Nat) : (k, n) ∈ plateEdges ∧ k ≠ n ↔ k ∈ plateSrc n := by
  simp [plateSrc]

theorem src_one {n a : Nat} {l : List Nat} (h : plateSrc n = l) (hl : ∀ k, k ∈ l ↔ k = a) :
    ∀ k, (k, n) ∈ plateEdges ∧ k ≠ n ↔ k = a := by
  intro k
  rw [mem_plateSrc, h, hl]

theorem src_two {n a b : Nat} (h : ∀ x ∈ plateSrc n, x = a ∨ x = b) (ha : a ∈ plateSrc n) (hb : b ∈ plateSrc n) :
    ∀ k, (k, n) ∈ plateEdges ∧ k ≠ n ↔ k = a ∨ k = b := by
  intro k
  rw [mem_plateSrc]
  constructor
  · exact h k
  · rintro (rfl | rfl) <;> assumption

theorem src_list {n : Nat} {l : List Nat} (h : ∀ x ∈ plateSrc n, x ∈ l) (h2 : ∀ x ∈ l, x ∈ plateSrc n) :
    ∀ k, (k, n) ∈ plateEdges ∧ k ≠ n ↔ k ∈ l := by
  intro k
  rw [mem_plateSrc]
  exact ⟨h k, h2 k⟩

/-- The only source. -/
theorem src_single {n a : Nat} (h : ∀ x ∈ plateSrc n, x = a) (h2 : a ∈ plateSrc n) :
    ∀ k, (k, n) ∈ plateEdges ∧ k ≠ n ↔ k = a := by
  intro k
  rw [mem_plateSrc]
  exact ⟨h k, fun e => e ▸ h2⟩

/-- The nodes inside that scale the two mixed signals, with their source and factor when the mix is `v`. -/
def mixers (v : Fl) : List (Nat × Nat × Fl) := [(41, 40, v), (47, 46, v), (43, 2, .fin 1 -. v), (49, 2, .fin 1 -. v)]

/-- The graph inside a reverb whose mix is `v`. -/
def Mixes (g : Patch) (v : Fl) : Prop := ∀ e ∈ mixers v, ∃ b, g.node? e.1 = some ⟨.mul ⟨e.2.2, [e.2.1]⟩, [b]⟩

theorem send_mul {m : Libm} {g : Patch} {n : Nat} {u v : Fl} {l : List Nat} {b : List Buf} (h : g.node? n = some ⟨.mul ⟨u, l⟩, b⟩) :
    ∃ g', Patch.send m g n (.setToNumber 0 v) = .ok g' ∧ (∀ j, j ≠ n → g'.node? j = g.node? j) ∧
      g'.node? n = some ⟨.mul ⟨v, l⟩, b⟩ := by
  have hs : Patch.send m g n (.setToNumber 0 v) = .ok { g with slots := g.slots.set n (some ⟨.mul ⟨v, l⟩, b⟩) } := by
    simp only [Patch.send, Graph.modify, h, msgPrim, Arith.msg, bind, Except.bind, Functor.map, Except.map]
  obtain ⟨d, d', k1, k2, -, -, -, k6⟩ := Graph.modify_ok hs
  rw [h] at k1
  cases k1
  simp only [msgPrim, Arith.msg, bind, Except.bind, Functor.map, Except.map] at k2
  cases k2
  exact ⟨_, hs, fun j hj => by rw [k6, if_neg (fun h => hj h.symm)], by rw [k6, if_pos rfl]⟩

/-- What changes of the settings do to a reverb. -/
theorem plate_msgs {P : Plat} {N : Nat} {ord : List Nat} (cs : Changes) (g : Patch) (v : Fl) (hG : PlateGraph P.libm N g) (hM : Mixes g v) :
    ∃ g', sendMsgs (.compound ⟨.plate, g, 0, 2, [41, 47, 43, 49], ord⟩ : GNode P) (changeMsgs cs) =
        .ok (.compound ⟨.plate, g', 0, 2, [41, 47, 43, 49], ord⟩) ∧
      (∀ j, j ∉ [41, 47, 43, 49] → g'.node? j = g.node? j) ∧ Mixes g' (newValue 0 v cs) ∧ PlateGraph P.libm N g' := by
  induction cs generalizing g v with
  | nil => exact ⟨g, rfl, fun _ _ => rfl, hM, hG⟩
  | cons e cs ih =>
    obtain ⟨p, u⟩ := e
    match p with
    | p + 1 =>
      obtain ⟨g', h1, h2, h3, h4⟩ := ih g v hG hM
      exact ⟨g', h1, h2, h3, h4⟩
    | 0 =>
      obtain ⟨b1, k1⟩ := hM (41, 40, v) (by simp [mixers])
      obtain ⟨b2, k2⟩ := hM (47, 46, v) (by simp [mixers])
      obtain ⟨b3, k3⟩ := hM (43, 2, .fin 1 -. v) (by simp [mixers])
      obtain ⟨b4, k4⟩ := hM (49, 2, .fin 1 -. v) (by simp [mixers])
      simp only at k1 k2 k3 k4
      obtain ⟨g1, a1, a2, a3⟩ := send_mul (m := P.libm) (v := u) k1
      obtain ⟨g2, c1, c2, c3⟩ := send_mul (m := P.libm) (v := u) (g := g1) (n := 47) (by rw [a2 _ (by decide)]; exact k2)
      obtain ⟨g3, d1, d2, d3⟩ := send_mul (m := P.libm) (v := .fin 1 -. u) (g := g2) (n := 43) (by rw [c2 _ (by decide), a2 _ (by decide)]; exact k3)
      obtain ⟨g4, e1, e2, e3⟩ := send_mul (m := P.libm) (v := .fin 1 -. u) (g := g3) (n := 49)
        (by rw [d2 _ (by decide), c2 _ (by decide), a2 _ (by decide)]; exact k4)
      have hG4 := plate_send (plate_send (plate_send (plate_send hG (by simp) a1) (by simp) c1) (by simp) d1) (by simp) e1
      have hM4 : Mixes g4 u := by
        intro e he
        simp only [mixers, List.mem_cons, List.not_mem_nil, or_false] at he
        rcases he with rfl | rfl | rfl | rfl
        · exact ⟨b1, by rw [e2 _ (by simp), d2 _ (by simp), c2 _ (by simp)]; exact a3⟩
        · exact ⟨b2, by rw [e2 _ (by simp), d2 _ (by simp)]; exact c3⟩
        · exact ⟨b3, by rw [e2 _ (by simp)]; exact d3⟩
        · exact ⟨b4, e3⟩
      obtain ⟨g', h1, h2, h3, h4⟩ := ih g4 u hG4 hM4
      refine ⟨g', ?_, ?_, h3, h4⟩
      · show (match msgG P (.compound ⟨.plate, g, 0, 2, [41, 47, 43, 49], ord⟩) (.setToNumber 0 u) with
          | .error e => _ | .ok n => sendMsgs n (changeMsgs cs)) = _
        have : Compound.msg P.libm ⟨.plate, g, 0, 2, [41, 47, 43, 49], ord⟩ (.setToNumber 0 u) =
            .ok ⟨.plate, g4, 0, 2, [41, 47, 43, 49], ord⟩ := by
          simp only [Compound.msg, Compound.sendTag, List.getElem?_cons_zero, List.getElem?_cons_succ, a1, c1, d1, e1, bind, Except.bind]
        simp only [msgG, this, Functor.map, Except.map]
        exact h1
      · intro j hj
        rw [h2 j hj]
        simp only [List.mem_cons, List.not_mem_nil, or_false, not_or] at hj
        rw [e2 _ hj.2.2.2, d2 _ hj.2.2.1, c2 _ hj.2.1, a2 _ hj.1]

/-- Node `n` plays the sound of node `a`, scaled in block `t` by `w t`. -/
def ScalesBlocks (sig : Nat → List (List Buf)) (n a : Nat) (w : Nat → Fl) : Prop :=
  ∀ (t : Nat) b, (sig a)[t]? = some [b] → (sig n)[t]? = some [b.map (· *. w t)]

theorem mix_node {P : Plat} {v : Fl} {inp : Ins} {a : Nat} {b : Buf} {n' : Prim} {o : List Buf}
    (hi : ∃ u, inp = [(a, u)]) (h : procPrim P.libm (.mul ⟨v, [a]⟩) inp [b] = .ok (n', o)) :
    n' = .mul ⟨v, [a]⟩ ∧ (∃ b', o = [b']) ∧ ∀ x, inp = [(a, [x])] → o = [x.map (· *. v)] := by
  obtain ⟨u, rfl⟩ := hi
  match u with
  | [] => simp [procPrim, procMul, applyOp, inputAt, chan, bind, Except.bind, sameNode] at h
  | [x] =>
    cases h
    exact ⟨rfl, ⟨_, rfl⟩, fun y hy => by cases hy; rfl⟩
  | x :: y :: u =>
    cases h
    exact ⟨rfl, ⟨_, rfl⟩, fun y hy => by cases hy⟩

/-- The sources of the nodes that mix. -/
theorem mixers_src {v : Fl} {e : Nat × Nat × Fl} (he : e ∈ mixers v) : e.1 ∈ plateOrder ∧ e.1 ≠ 2 ∧
    (∀ x, (x, e.1) ∈ plateEdges ∧ x ≠ e.1 ↔ x = e.2.1) ∧ e.1 ≠ 15 := by
  simp only [mixers, List.mem_cons, List.not_mem_nil, or_false] at he
  rcases he with rfl | rfl | rfl | rfl
  · show 41 ∈ plateOrder ∧ 41 ≠ 2 ∧ (∀ x, (x, 41) ∈ plateEdges ∧ x ≠ 41 ↔ x = 40) ∧ 41 ≠ 15
    exact ⟨by decide, by decide, src_single (by decide +kernel) (by decide +kernel), by decide⟩
  · show 47 ∈ plateOrder ∧ 47 ≠ 2 ∧ (∀ x, (x, 47) ∈ plateEdges ∧ x ≠ 47 ↔ x = 46) ∧ 47 ≠ 15
    exact ⟨by decide, by decide, src_single (by decide +kernel) (by decide +kernel), by decide⟩
  · show 43 ∈ plateOrder ∧ 43 ≠ 2 ∧ (∀ x, (x, 43) ∈ plateEdges ∧ x ≠ 43 ↔ x = 2) ∧ 43 ≠ 15
    exact ⟨by decide, by decide, src_single (by decide +kernel) (by decide +kernel), by decide⟩
  · show 49 ∈ plateOrder ∧ 49 ≠ 2 ∧ (∀ x, (x, 49) ∈ plateEdges ∧ x ≠ 49 ↔ x = 2) ∧ 49 ≠ 15
    exact ⟨by decide, by decide, src_single (by decide +kernel) (by decide +kernel), by decide⟩

/-- A block leaves the mix as it is. -/
theorem feed_mixes {P : Plat} {N : Nat} {ord tags : List Nat} {g : Patch} {v : Fl} {ins : Ins} {out o : List Buf} {c' : Compound}
    (hG : PlateGraph P.libm N g) (hM : Mixes g v)
    (h : procCompound P.libm P.ho ⟨.plate, g, 0, 2, tags, ord⟩ ins out = .ok (c', o)) :
    ∃ g', c' = ⟨.plate, g', 0, 2, tags, ord⟩ ∧ Mixes g' v := by
  simp only [procCompound, Compound.feed, except_bind_ok] at h
  obtain ⟨main, -, x, -, g1, h1, r, h2, h⟩ := h
  simp only [Patch.nextBlock, except_bind_ok] at h2
  obtain ⟨g2, h2, h3⟩ := h2
  have hr : r.1 = g2 := by
    split at h3
    · cases h3
    · cases h3
      rfl
  have hc : c' = ⟨.plate, g2, 0, 2, tags, ord⟩ := by
    obtain ⟨_, -, _, -, _, -, h⟩ := h
    rw [← hr]
    cases h
    rfl
  refine ⟨g2, hc, ?_⟩
  have hs1 := sameShape_modify h1
  obtain ⟨d0, d0', a1, a2, a3, -, -, a6⟩ := Graph.modify_ok h1
  have hE1 : g1.edges = plateEdges := a3.trans hG.edges
  have hproc := h2
  unfold process at hproc
  rw [plateOrder_eq hE1 (hs1.len.trans hG.size)] at hproc
  simp only at hproc
  obtain ⟨b1, -, b2, b3, b4⟩ := fold_process plateOrder g1 g2 plateOrder_nodup hproc
  intro e he
  obtain ⟨b, hb⟩ := hM e he
  have hin := mixers_src he
  obtain ⟨o1, o2, q1⟩ := List.append_of_mem hin.1
  obtain ⟨inp, d, d', j1, _, j2, j3, j4, j5⟩ := b4 o1 e.1 o2 q1
  rw [a6, if_neg (fun h => hin.2.1 h.symm), hb] at j2
  cases j2
  rw [hE1] at j1
  obtain ⟨w1, ⟨b', w2⟩, w3⟩ := mix_node (P := P) (inputsOf_one j1 hin.2.2.1) j4
  obtain ⟨nd', bd'⟩ := d'
  simp only at w1 w2
  subst w1 w2
  exact ⟨b', j3⟩

/-- The signals inside the reverb. All nodes get what their sources have just made, but number 15 gets what number 14
made in the block before. -/
theorem plate_parts {P : Plat} {k N : Nat} {ord : List Nat} (hN : 1 ≤ N)
    (hm : ∀ a b, Within (-1) 1 (P.libm.noise a b)) (hsin : SinBounded P.libm) (hord : ord[0]? = some k)
    (steps : List (Changes × Ins)) (xs : List Buf) (hF : List.Forall₂ (fun s x => LeftIs k s.2 x) steps xs) : Sized N xs →
    ∀ (g : Patch) (mix : Fl) (out : List Buf) (outs : List (List Buf)), PlateGraph P.libm N g → Mixes g mix →
      (∃ b, g.node? 2 = some ⟨.pass, [b]⟩) → out.length = 2 →
      liveBlocks P (.compound ⟨.plate, g, 0, 2, [41, 47, 43, 49], ord⟩) out (steps.map fun s => (changeMsgs s.1, s.2)) = .ok outs →
      ∃ sig : Nat → List (List Buf), sig 2 = xs.map (fun x => [x]) ∧ (∀ n, (sig n).length = xs.length) ∧
        (∀ n ∈ plateOrder, n ≠ 2 → n ≠ 15 → n ∉ [41, 47, 43, 49] → PartPlays P plateEdges g sig n) ∧
        (∀ (i : Nat) n a w, (mixers mix)[i]? = some (n, a, w) →
          ScalesBlocks sig n a fun t => (((mixers (((steps.map Prod.fst).take (t + 1)).foldl (newValue 0) mix))[i]?).map fun e => e.2.2).getD (.fin 0)) ∧
        (∀ d, g.node? 14 = some d →
          PartPlays P plateEdges g (fun n => if n = 14 then d.buffers :: sig 14 else sig n) 15) ∧
        (∀ n, n < 51 → ∀ o ∈ sig n, Sz N o) ∧ (∀ o ∈ sig 11, AllIn (-1) 1 o) ∧
        List.Forall₂ (fun s o => ∃ l r, s[0]? = some l ∧ s[1]? = some r ∧ o = [l, r]) (sig 0) outs := by
  induction hF with
  | nil =>
    intro hs g mix out outs hG hM hi ho h
    have hL := hG.full
    cases h
    refine ⟨fun _ => [], rfl, fun _ => rfl, ?_, (fun _ _ _ _ _ t b h => by cases h), ?_, (fun _ _ _ h => by cases h), (fun _ h => by cases h), .nil⟩
    · intro n hn _ _ _
      obtain ⟨d, hd⟩ := hL n (by revert n; decide +kernel)
      exact ⟨d, [], hd, rfl, rfl, fun t i h => by cases h⟩
    · intro d _
      obtain ⟨d', hd'⟩ := hL 15 (by decide)
      exact ⟨d', [], hd', rfl, rfl, fun t i h => by cases h⟩
  | @cons st x steps xs hi0 hF ih =>
    intro hs g0 mix out outs hG0 hM0 hi0' ho h
    obtain ⟨cs, i⟩ := st
    obtain ⟨g, hsend, hgj, hM, hG⟩ := plate_msgs (ord := ord) cs g0 mix hG0 hM0
    have hi : ∃ b, g.node? 2 = some ⟨.pass, [b]⟩ := by rw [hgj 2 (by decide)]; exact hi0'
    have hE := hG.edges
    have hl := hG.size
    have hL := hG.full
    simp only at hi0
    obtain ⟨main, rfl, hmain⟩ := hi0
    obtain ⟨b0, hi⟩ := hi
    simp only [List.map_cons, liveBlocks, hsend] at h
    split at h
    · cases h
    · rename_i n' out' h1
      split at h
      · cases h
      · rename_i rest h2
        cases h
        simp only [procG, procCompound, Compound.feed, inputAt, hord, List.find?_cons_of_pos, beq_self_eq_true, bind,
          Except.bind, chan, hmain] at h1
        cases hfeed : Patch.feed g 2 x with
        | error e => rw [hfeed] at h1; cases h1
        | ok g1 =>
          rw [hfeed] at h1
          simp only [Patch.nextBlock, bind, Except.bind] at h1
          cases hpr : process (procPrim P.libm) P.ho g1 0 with
          | error e => rw [hpr] at h1; cases h1
          | ok g2 =>
            rw [hpr] at h1
            simp only at h1
            obtain ⟨e1, e2, e3⟩ := feed_nodes hi hfeed
            have hE1 : g1.edges = plateEdges := e1.trans hE
            have hs1 := sameShape_modify hfeed
            have hl1 : g1.slots.length = 51 := hs1.len.trans hl
            have hs2 := sameShape_process hpr
            have hproc := hpr
            unfold process at hproc
            rw [plateOrder_eq hE1 hl1] at hproc
            simp only at hproc
            obtain ⟨b1, -, b2, b3, b4⟩ := fold_process plateOrder g1 g2 plateOrder_nodup hproc
            have hG2 : PlateGraph P.libm N g2 := by
              obtain ⟨q1, v1, v2⟩ := plate_feed hG (hs x (by simp))
              rw [hfeed] at v1
              cases v1
              obtain ⟨q2, v1, v3⟩ := plate_process (ho := P.ho) hN hm hsin v2
              rw [hpr] at v1
              cases v1
              exact v3
            have hE2 : g2.edges = plateEdges := b1.trans hE1
            have hl2 : g2.slots.length = 51 := b2.trans hl1
            have hL2 : ∀ i, i < 51 → ∃ d, g2.node? i = some d := fun i hi => (hs2.live i).mpr ((hs1.live i).mpr (hL i hi))
            have split : ∀ n ∈ plateOrder, ∃ o1 o2, plateOrder = o1 ++ n :: o2 ∧ n ∉ o1 := by
              intro n hn
              obtain ⟨o1, o2, h⟩ := List.append_of_mem hn
              refine ⟨o1, o2, h, ?_⟩
              have := plateOrder_nodup
              rw [h, List.nodup_append] at this
              intro hm
              exact this.2.2 n hm n (by simp) rfl
            have hi2 : g2.node? 2 = some ⟨.pass, [x]⟩ := by
              obtain ⟨o1, o2, q1, q2⟩ := split 2 (by decide)
              obtain ⟨inp, d, d', j1, _, j2, j3, j4, _⟩ := b4 o1 2 o2 q1
              rw [hE1] at j1
              have := inputsOf_nil j1 (by
                have : ∀ e ∈ plateEdges, e.2 ≠ 2 := by decide +kernel
                exact fun k hk => this _ hk rfl)
              subst this
              rw [e3] at j2
              cases j2
              obtain ⟨n1, b1⟩ := d'
              cases j4
              exact j3
            obtain ⟨dd, hdd⟩ := hL2 0 (by decide)
            rw [hdd] at h1
            simp only at h1
            cases hy0 : dd.buffers[0]? with
            | none => rw [hy0] at h1; cases h1
            | some l =>
              cases hy1 : dd.buffers[1]? with
              | none => rw [hy0, hy1] at h1; cases h1
              | some r =>
                rw [hy0, hy1] at h1
                match out, ho with
                | [o1, o2], _ =>
                cases h1
                -- the scaled signals of this block
                have hmix : ∀ e ∈ mixers (newValue 0 mix cs), ∃ b, g2.node? e.1 = some ⟨.mul ⟨e.2.2, [e.2.1]⟩, [b]⟩ ∧
                    ∀ y, ((g2.node? e.2.1).map (·.buffers)).getD [] = [y] → b = y.map (· *. e.2.2) := by
                  intro e he
                  obtain ⟨b, hb⟩ := hM e he
                  have hin := mixers_src he
                  obtain ⟨o1, o2, q1, q2⟩ := split e.1 hin.1
                  obtain ⟨inp, d, d', j1, _, j2, j3, j4, j5⟩ := b4 o1 e.1 o2 q1
                  rw [e2 _ hin.2.1, hb] at j2
                  cases j2
                  rw [hE1] at j1
                  obtain ⟨u, hu⟩ := inputsOf_one j1 hin.2.2.1
                  obtain ⟨w1, ⟨b', w2⟩, w3⟩ := mix_node (P := P) ⟨u, hu⟩ j4
                  obtain ⟨nd', bd'⟩ := d'
                  simp only at w1 w2 w3
                  subst w1 w2
                  refine ⟨b', j3, ?_⟩
                  intro y hy
                  have hk := ((hin.2.2.1 e.2.1).mpr rfl).1
                  have := plate_forward _ hk (by intro h; exact hin.2.2.2 (congrArg Prod.snd h))
                  obtain ⟨dk, u1, u2⟩ := (j5 e.2.1 u (by rw [hu]; simp)).1 (before_idx q1 q2 this)
                  rw [u1] at hy
                  simp only [Option.map_some, Option.getD_some] at hy
                  rw [← u2, hy] at hu
                  have := w3 y hu
                  exact (List.cons.inj this).1
                obtain ⟨sig, s1, s2, s3, s3', s4, s6, s7, s5⟩ := ih (fun y hy => hs y (by simp [hy])) g2 (newValue 0 mix cs) [l, r] rest hG2
                  (fun e he => by obtain ⟨b, h, -⟩ := hmix e he; exact ⟨b, h⟩) ⟨x, hi2⟩ rfl h2
                refine ⟨fun n => ((g2.node? n).map (·.buffers)).getD [] :: sig n, ?_, ?_, ?_, ?_, ?_, ?_, ?_, ?_⟩
                · simp only [hi2, Option.map_some, Option.getD_some, s1, List.map_cons]
                · intro n
                  simp only [List.length_cons, s2 n]
                · intro n hn h2n h15 hnm
                  obtain ⟨o1, o2, q1, q2⟩ := split n hn
                  obtain ⟨inp, d, d', j1, _, j2, j3, j4, j5⟩ := b4 o1 n o2 q1
                  obtain ⟨d2, inputs, q1', q2', q3, q4⟩ := s3 n hn h2n h15 hnm
                  rw [j3] at q1'
                  cases q1'
                  rw [e2 n h2n, hgj n hnm] at j2
                  rw [hE1] at j1
                  refine ⟨d, inp :: inputs, j2, by simp [q2'], ?_, ?_⟩
                  · simp only [runBlocks, procG, j4, reState, q3, j3, Option.map_some, Option.getD_some]
                  · intro t i ht
                    cases t with
                    | zero =>
                      cases ht
                      refine ⟨j1, ?_⟩
                      intro k b hkb
                      have hk := ((j1.2 k).mp (List.mem_map.mpr ⟨(k, b), hkb, rfl⟩)).1
                      have := plate_forward _ hk (by intro h; cases h; exact h15 rfl)
                      obtain ⟨dk, u1, u2⟩ := (j5 k b hkb).1 (before_idx q1 q2 this)
                      simp [u1, u2]
                    | succ t => exact q4 t i ht
                · intro i n a w hi t b hb
                  have hlen : ∀ u, (mixers u)[i]? = some (n, a, (((mixers u)[i]?).map fun e => e.2.2).getD (.fin 0)) := by
                    intro u
                    simp only [mixers] at hi ⊢
                    match i with
                    | 0 => cases hi; rfl
                    | 1 => cases hi; rfl
                    | 2 => cases hi; rfl
                    | 3 => cases hi; rfl
                    | i + 4 => cases hi
                  cases t with
                  | zero =>
                    obtain ⟨b', h1, h2⟩ := hmix _ (List.mem_of_getElem? (hlen (newValue 0 mix cs)))
                    have hb : ((g2.node? a).map (·.buffers)).getD [] = [b] := Option.some.inj hb
                    rw [h2 b hb] at h1
                    show some _ = some _
                    simp only [h1, Option.map_some, Option.getD_some]
                    rfl
                  | succ t => exact s3' i n a _ (hlen _) t b hb
                · intro d14 h14
                  obtain ⟨o1, o2, q1, q2⟩ := split 15 (by decide)
                  obtain ⟨inp, d, d', j1, _, j2, j3, j4, j5⟩ := b4 o1 15 o2 q1
                  obtain ⟨e14, he14⟩ := hL2 14 (by decide)
                  obtain ⟨d2, inputs, q1', q2', q3, q4⟩ := s4 e14 he14
                  rw [j3] at q1'
                  cases q1'
                  rw [e2 15 (by decide), hgj 15 (by decide)] at j2
                  rw [hE1] at j1
                  refine ⟨d, inp :: inputs, j2, by simpa using q2', ?_, ?_⟩
                  · simp only [Nat.reduceEqDiff, if_false] at q3 ⊢
                    simp only [runBlocks, procG, j4, reState, q3, j3, Option.map_some, Option.getD_some]
                  · intro t i ht
                    cases t with
                    | zero =>
                      cases ht
                      refine ⟨j1, ?_⟩
                      intro k b hkb
                      have hk := ((j1.2 k).mp (List.mem_map.mpr ⟨(k, b), hkb, rfl⟩)).1
                      have hall : ∀ e ∈ plateEdges, e.2 = 15 → e.1 = 14 := by decide +kernel
                      have := hall _ hk rfl
                      simp only at this
                      subst this
                      have hno : 14 ∉ o1 := by
                        intro hm
                        have : plateOrder.idxOf 14 < plateOrder.idxOf 15 := by
                          rw [q1, List.idxOf_append_of_mem hm, List.idxOf_append_of_notMem q2, List.idxOf_cons_self]
                          exact List.idxOf_lt_length_of_mem hm
                        revert this
                        decide +kernel
                      obtain ⟨dk, u1, u2⟩ := (j5 14 b hkb).2 hno
                      rw [e2 14 (by decide), hgj 14 (by decide), h14] at u1
                      cases u1
                      simp [u2]
                    | succ t =>
                      obtain ⟨v1, v2⟩ := q4 t i ht
                      refine ⟨v1, ?_⟩
                      intro k b hkb
                      have := v2 k b hkb
                      by_cases hk : k = 14
                      · subst hk
                        simp only [if_true] at this ⊢
                        simpa [he14] using this
                      · simp only [if_neg hk] at this ⊢
                        simpa using this
                · intro n hn o ho
                  rcases List.mem_cons.mp ho with rfl | ho
                  · obtain ⟨dn, hdn⟩ := hG2.full n hn
                    simp only [hdn, Option.map_some, Option.getD_some]
                    exact (hG2.inner n dn hdn).sz
                  · exact s6 n hn o ho
                · intro o ho
                  rcases List.mem_cons.mp ho with rfl | ho
                  · obtain ⟨dn, hdn⟩ := hG2.full 11 (by decide)
                    simp only [hdn, Option.map_some, Option.getD_some]
                    exact ((hG2.inner 11 dn hdn).wave rfl).2
                  · exact s7 o ho
                · exact .cons ⟨l, r, by simp [hdd, hy0], by simp [hdd, hy1], rfl⟩ s5

end Verif.Props
