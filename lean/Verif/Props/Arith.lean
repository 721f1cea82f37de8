import Verif.Props.Delay
import Verif.Lemmas.KernelRfl

/-! # Arithmetic and mixing (C28, C36, C42) -/

namespace Verif.Props
open Spec

/-- A stateless loop. -/
theorem run_triv' {ν ι ο : Type} (n : ν) (b : ι → ο) (xs : List ι) :
    runM (fun (n : ν) x => .ok (n, b x)) n xs = .ok (n, xs.map b) := by
  induction xs with
  | nil => rfl
  | cons x xs ih => simp [runM, ih]

theorem bufsOf_right (mono : Bool) (x : List (Fl × Fl)) :
    rightOf (bufsOf mono x) (x.map Prod.fst) = x.map (rightVal mono) := by
  cases mono <;> simp [rightOf, bufsOf, rightVal]

theorem chan_bufsOf (mono : Bool) (x : List (Fl × Fl)) :
    chan (bufsOf mono x) 0 = .ok (x.map Prod.fst) := by
  cases mono <;> rfl

/-- `apply_op` with one input. -/
theorem applyOp_one (op : Fl → Fl → Fl) (order : List Nat) (v : Fl) (k : Nat) (mono : Bool)
    (x : List (Fl × Fl)) (a b : Buf) :
    applyOp op order v [(k, bufsOf mono x)] [a, b] =
      .ok [x.map (fun p => op p.1 v), x.map (fun p => op (rightVal mono p) v)] := by
  simp [applyOp, chan_bufsOf, bind, Except.bind, setRight, bufsOf_right, Function.comp_def]

/-- `apply_op` with two inputs. -/
theorem applyOp_two (op : Fl → Fl → Fl) (v : Fl) (swap : Bool) (k j : Nat) (hkj : k ≠ j) (mk mj : Bool)
    (x : List ((Fl × Fl) × (Fl × Fl))) (a b : Buf) :
    applyOp op [k, j] v
      (if swap then [(j, bufsOf mj (x.map Prod.snd)), (k, bufsOf mk (x.map Prod.fst))]
       else [(k, bufsOf mk (x.map Prod.fst)), (j, bufsOf mj (x.map Prod.snd))]) [a, b] =
      .ok [x.map (fun p => op p.1.1 p.2.1),
        x.map (fun p => op (rightVal mk p.1) (rightVal mj p.2))] := by
  have hjk : ¬ j = k := fun h => hkj h.symm
  cases swap <;> cases mk <;> cases mj <;>
    simp [applyOp, inputAt, chan, bind, Except.bind, setRight, bufsOf, rightOf, rightVal, List.find?, hkj,
      hjk, Function.comp_def, List.zipWith_map, List.zipWith_self, beq_iff_eq]

/-- `mul` and `add`. -/
def arithComp : Bool → NumRef → Comp
  | true => .mul
  | false => .add

/-- f32 multiplication and addition. -/
def arithOp : Bool → Fl → Fl → Fl
  | true => Fl.mul f32
  | false => Fl.add f32

/-- The node built for `mul` and `add`. -/
def arithNode (P : Plat) (isMul : Bool) (a : Arith) : GNode P :=
  .prim (if isMul then .mul a else .add a)

theorem arith_make (P : Plat) (N : Nat) (env : Env) (isMul : Bool) (p : NumRef) (order : List Nat) :
    makeNode P N env.samples env.sr env.bpm env.seed (arithComp isMul p) =
      .ok (fresh N 2 (arithNode P isMul (arith (p.value (.fin 0)))), p.refs) ∧
    sendMsgs (arithNode P isMul (arith (p.value (.fin 0)))) (order.map .index) =
      .ok (arithNode P isMul ⟨p.value (.fin 0), order⟩) := by
  refine ⟨by cases isMul <;> rfl, ?_⟩
  have : ∀ o, sendMsgs (arithNode P isMul ⟨p.value (.fin 0), o⟩) (order.map .index) =
      .ok (arithNode P isMul ⟨p.value (.fin 0), o ++ order⟩) := by
    induction order with
    | nil => intro o; simp [sendMsgs]
    | cons k ks ih =>
      intro o
      have h1 : msgG P (arithNode P isMul ⟨p.value (.fin 0), o⟩) (.index k) =
          .ok (arithNode P isMul ⟨p.value (.fin 0), o ++ [k]⟩) := by
        cases isMul <;> rfl
      simp only [List.map_cons, sendMsgs, h1, ih]
      simp
  simpa [arith] using this []

theorem arith_proc (P : Plat) (isMul : Bool) (a : Arith) (i : Ins) (out : List Buf) :
    procG P (arithNode P isMul a) i out = 
      match applyOp (arithOp isMul) a.order a.val i out with
      | .error e => .error e
      | .ok b => .ok (arithNode P isMul a, b) := by
  cases isMul
  · simp only [procG, procPrim, arithNode, procAdd, sameNode, arithOp, Bool.false_eq_true, if_false]
    cases applyOp (Fl.add f32) a.order a.val i out <;> rfl
  · simp only [procG, procPrim, arithNode, procMul, sameNode, arithOp, if_true]
    cases applyOp (Fl.mul f32) a.order a.val i out <;> rfl

/-- C36 with a number: `mul v` (`add v`) applies the f32 operation to every sample of both channels; a mono
input is sent to both. (`isMul` chooses between the two.) -/
theorem c36_number (P : Plat) (N : Nat) (env : Env) (isMul : Bool) (v : Fl) (k : Nat) (mono : Bool)
    (xs : List (List (Fl × Fl))) :
    ∃ outs, play P N env (arithComp isMul (.num v)) [.index k] (oneFrom k mono xs) = .ok outs ∧
      channel 0 outs = some (xs.flatten.map (fun p => arithOp isMul p.1 v)) ∧
      channel 1 outs = some (xs.flatten.map (fun p => arithOp isMul (rightVal mono p) v)) := by
  obtain ⟨o, h1, h2, h3⟩ := blocks_stereo (procG P)
    (fun (_ : Unit) => arithNode P isMul ⟨v, [k]⟩)
    (fun _ (p : Fl × Fl) => .ok ((), (arithOp isMul p.1 v, arithOp isMul (rightVal mono p) v)))
    (fun x => [(k, bufsOf mono x)]) (fun o => o.length = 2) xs
    (fun s x out _ ho => by
      obtain ⟨a, b, rfl⟩ := List.length_eq_two.mp ho
      rw [run_triv', arith_proc, applyOp_one]
      simp [blockOf, Function.comp_def])
    (fun _ _ _ _ _ => rfl) () _ (shaped_fresh N 2 (arithNode P isMul (arith v))).1 _
    (run_triv' _ _ _)
  refine ⟨o, play_ok (arith_make P N env isMul (.num v) [k]).1 (arith_make P N env isMul (.num v) [k]).2 h1,
    ?_, ?_⟩
  · rw [h2]; simp only [List.map_map, Function.comp_def]
  · rw [h3]; simp only [List.map_map, Function.comp_def]

/-- C36 with a signal: `mul ~ref` (`add ~ref`) combines the left neighbour (node `k`) with the referenced
signal (node `j`), sample by sample and side by side, in whatever order the inputs are stored. -/
theorem c36_signal (P : Plat) (N : Nat) (env : Env) (isMul : Bool) (p : NumRef) (k j : Nat) (hkj : k ≠ j)
    (swap mk mj : Bool) (xs : List (List ((Fl × Fl) × (Fl × Fl)))) :
    ∃ outs, play P N env (arithComp isMul p) [.index k, .index j] (twoFrom swap k j mk mj xs) = .ok outs ∧
      channel 0 outs = some (xs.flatten.map (fun p => arithOp isMul p.1.1 p.2.1)) ∧
      channel 1 outs = some (xs.flatten.map (fun p => arithOp isMul (rightVal mk p.1) (rightVal mj p.2))) := by
  obtain ⟨o, h1, h2, h3⟩ := blocks_stereo (procG P)
    (fun (_ : Unit) => arithNode P isMul ⟨p.value (.fin 0), [k, j]⟩)
    (fun _ (p : (Fl × Fl) × (Fl × Fl)) => .ok ((), (arithOp isMul p.1.1 p.2.1,
      arithOp isMul (rightVal mk p.1) (rightVal mj p.2))))
    (fun x => if swap then [(j, bufsOf mj (x.map Prod.snd)), (k, bufsOf mk (x.map Prod.fst))]
       else [(k, bufsOf mk (x.map Prod.fst)), (j, bufsOf mj (x.map Prod.snd))]) (fun o => o.length = 2) xs
    (fun s x out _ ho => by
      obtain ⟨a, b, rfl⟩ := List.length_eq_two.mp ho
      rw [run_triv', arith_proc]
      rw [applyOp_two (arithOp isMul) (p.value (.fin 0)) swap k j hkj mk mj x a b]
      simp [blockOf, Function.comp_def])
    (fun _ _ _ _ _ => rfl) () _ (shaped_fresh N 2 (arithNode P isMul (arith (p.value (.fin 0))))).1 _
    (run_triv' _ _ _)
  refine ⟨o, play_ok (arith_make P N env isMul p [k, j]).1 (arith_make P N env isMul p [k, j]).2 h1, ?_, ?_⟩
  · rw [h2]; simp only [List.map_map, Function.comp_def]
  · rw [h3]; simp only [List.map_map, Function.comp_def]

/-- A stereo block times a mono block. -/
example : ∃ (k j : Nat) (xs : List (List ((Fl × Fl) × (Fl × Fl)))), k ≠ j ∧ xs.flatten.length = 2 :=
  ⟨3, 7, [[((.fin 1, .fin 2), (.fin 3, .nz))], [((.fin 4, .nan), (.fin 5, .fin 0))]], by decide, rfl⟩

/-! ### mix -/

/-- A block of signals that all have one or two channels of `N` samples. -/
def MixIn (N : Nat) (i : Ins) : Prop :=
  ∀ e, e ∈ i → (e.2.length = 1 ∨ e.2.length = 2) ∧ ∀ b, b ∈ e.2 → b.length = N

/-- The buffer that side `c` hears. -/
theorem side_buf {N c : Nat} (hc : c < 2) {bs : List Buf} (h : bs.length = 1 ∨ bs.length = 2)
    (hl : ∀ b, b ∈ bs → b.length = N) :
    ∃ x, (bs[c]? = some x ∨ bs[c]? = none ∧ chan bs 0 = .ok x) ∧ x.length = N ∧
      ∀ t, sideAt c t bs = x[t]? := by
  rcases h with h | h
  · obtain ⟨l, rfl⟩ := List.length_eq_one_iff.mp h
    refine ⟨l, ?_, hl l (by simp), fun t => rfl⟩
    have : c = 0 ∨ c = 1 := by omega
    rcases this with rfl | rfl
    · left; rfl
    · right; exact ⟨rfl, rfl⟩
  · obtain ⟨l, r, rfl⟩ := List.length_eq_two.mp h
    have : c = 0 ∨ c = 1 := by omega
    rcases this with rfl | rfl
    · exact ⟨l, Or.inl rfl, hl l (by simp), fun t => rfl⟩
    · exact ⟨r, Or.inl rfl, hl r (by simp), fun t => rfl⟩

/-- One channel of the sum. -/
theorem sum2Chan_spec {N c : Nat} (hc : c < 2) {i : Ins} (h : MixIn N i) (b : Buf) (hb : b.length = N) :
    ∃ y, sum2Chan i c b = .ok y ∧ y.length = N ∧
      ∀ t, t < N → ∃ vs, i.mapM (fun e => sideAt c t e.2) = some vs ∧ y[t]? = some (flSum vs) := by
  have key : ∀ (i : Ins), MixIn N i → ∀ acc : Buf, acc.length = N →
      ∃ y, i.foldlM (fun acc i => match i.2[c]? with
        | some x => .ok (addBuf acc x)
        | none => do
          let x ← chan i.2 0
          .ok (addBuf acc x)) acc = (.ok y : Except Panic Buf) ∧ y.length = N ∧
        ∀ t a, acc[t]? = some a → ∃ vs, i.mapM (fun e => sideAt c t e.2) = some vs ∧
          y[t]? = some (vs.foldl (· +. ·) a) := by
    intro i
    induction i with
    | nil =>
      intro _ acc hacc
      exact ⟨acc, rfl, hacc, fun t a ha => ⟨[], rfl, ha⟩⟩
    | cons e i ih =>
      intro hm acc hacc
      obtain ⟨h1, h2⟩ := hm e (by simp)
      obtain ⟨x, hx, hxl, hxt⟩ := side_buf hc h1 h2
      have hstep : (match e.2[c]? with
        | some x => .ok (addBuf acc x)
        | none => do
          let x ← chan e.2 0
          .ok (addBuf acc x)) = (.ok (addBuf acc x) : Except Panic Buf) := by
        rcases hx with hx | ⟨hx, hx'⟩
        · rw [hx]
        · rw [hx]; simp only [hx', bind, Except.bind]
      have hal : (addBuf acc x).length = N := by simp [addBuf, hacc, hxl]
      obtain ⟨y, g1, g2, g3⟩ := ih (fun e he => hm e (by simp [he])) _ hal
      refine ⟨y, ?_, g2, ?_⟩
      · rw [List.foldlM_cons, hstep]
        exact g1
      · intro t a ha
        have htN : t < N := by
          rw [← hacc]; exact (List.getElem?_eq_some_iff.mp ha).1
        obtain ⟨v, hv⟩ : ∃ v, x[t]? = some v := ⟨x[t]'(by omega), by simp [hxl, htN]⟩
        have : (addBuf acc x)[t]? = some (a +. v) := by
          simp [addBuf, List.getElem?_zipWith, ha, hv]
        obtain ⟨vs, k1, k2⟩ := g3 t _ this
        refine ⟨v :: vs, ?_, k2⟩
        simp [List.mapM_cons, hxt, hv, k1]
  obtain ⟨y, h1, h2, h3⟩ := key i h (silent b) (by simp [silent, hb])
  refine ⟨y, h1, h2, fun t ht => ?_⟩
  exact h3 t (.fin 0) (by simp [silent, hb, ht])

theorem sum2_spec {N : Nat} {i : Ins} (h : MixIn N i) {out : List Buf} (ho : Shaped 2 N out) :
    ∃ o, procSum2 i out = .ok o ∧ Shaped 2 N o ∧
      ∀ c t, c < 2 → t < N → ∃ y vs, o[c]? = some y ∧ i.mapM (fun e => sideAt c t e.2) = some vs ∧
        y[t]? = some (flSum vs) := by
  obtain ⟨hl, hb⟩ := ho
  obtain ⟨a, b, rfl⟩ := List.length_eq_two.mp hl
  obtain ⟨x, h1, h2, h3⟩ := sum2Chan_spec (c := 0) (by omega) h a (hb a (by simp))
  obtain ⟨y, g1, g2, g3⟩ := sum2Chan_spec (c := 1) (by omega) h b (hb b (by simp))
  refine ⟨[x, y], ?_, ⟨rfl, ?_⟩, ?_⟩
  · simp [procSum2, sum2From, h1, g1, bind, Except.bind]
  · intro z hz
    simp only [List.mem_cons, List.not_mem_nil, or_false] at hz
    rcases hz with rfl | rfl
    · exact h2
    · exact g2
  · intro c t hc ht
    have : c = 0 ∨ c = 1 := by omega
    rcases this with rfl | rfl
    · obtain ⟨vs, k1, k2⟩ := h3 t ht
      exact ⟨x, vs, rfl, k1, k2⟩
    · obtain ⟨vs, k1, k2⟩ := g3 t ht
      exact ⟨y, vs, rfl, k1, k2⟩

/-- The sum of both sides, block after block. -/
theorem sum2_blocks (P : Plat) (N : Nat) : ∀ (ins : List Ins), (∀ i, i ∈ ins → MixIn N i) → ∀ out, Shaped 2 N out →
      ∃ outs, runBlocks (procG P) (.prim .sum2) out ins = .ok outs ∧ outs.length = ins.length ∧ (∀ o, o ∈ outs → Shaped 2 N o) ∧
      ∀ (k : Nat) (i : Ins) (c t : Nat), ins[k]? = some i → c < 2 → t < N → ∃ o y vs, outs[k]? = some o ∧ o[c]? = some y ∧
        i.mapM (fun e => sideAt c t e.2) = some vs ∧ y[t]? = some (flSum vs) := by
  intro ins
  induction ins with
  | nil => intro _ out _; exact ⟨[], rfl, rfl, by simp, by simp⟩
  | cons j js ih =>
    intro hj out ho
    obtain ⟨o, h1, h2, h3⟩ := sum2_spec (hj j (by simp)) ho
    obtain ⟨outs, g1, g2, g4, g3⟩ := ih (fun i hi => hj i (by simp [hi])) o h2
    refine ⟨o :: outs, ?_, by simp [g2], ?_, ?_⟩
    · simp [runBlocks, procG, procPrim, h1, sameNode, reState, g1]
    · intro x hx
      rcases List.mem_cons.mp hx with rfl | hx
      · exact h2
      · exact g4 x hx
    · intro k i c t hk hc ht
      cases k with
      | zero =>
        cases hk
        obtain ⟨y, vs, q⟩ := h3 c t hc ht
        exact ⟨o, y, vs, rfl, q⟩
      | succ k =>
        obtain ⟨o', y, vs, q⟩ := g3 k i c t hk hc ht
        exact ⟨o', y, vs, q⟩

/-- C28: in every block, every sample of both sides of `mix` is the f32 sum of what this side hears of all
inputs, summed in the order in which the map of the inputs is iterated. -/
theorem c28_mix (P : Plat) (N : Nat) (env : Env) (names : List Name) (ins : List Ins)
    (h : ∀ i, i ∈ ins → MixIn N i) :
    ∃ outs, play P N env (.mix names) [] ins = .ok outs ∧ outs.length = ins.length ∧
      ∀ (k : Nat) (i : Ins) (c t : Nat), ins[k]? = some i → c < 2 → t < N → ∃ o y vs, outs[k]? = some o ∧ o[c]? = some y ∧
        i.mapM (fun e => sideAt c t e.2) = some vs ∧ y[t]? = some (flSum vs) := by
  obtain ⟨outs, g1, g2, _, g3⟩ := sum2_blocks P N ins h _ (shaped_fresh N 2 (GNode.prim (P := P) .sum2))
  exact ⟨outs, play_ok rfl rfl g1, g2, g3⟩

/-- A mono and a stereo signal of two samples. -/
example : ∃ ins : List Ins, (∀ i, i ∈ ins → MixIn 2 i) ∧ ins.length = 1 ∧
    (∃ i, i ∈ ins ∧ i.length = 2) := by
  refine ⟨[[(4, [[.fin 1, .fin 2]]), (7, [[.fin 3, .nz], [.nan, .fin 5]])]], ?_, rfl, _, List.mem_singleton.mpr rfl, rfl⟩
  intro i hi e he
  simp only [List.mem_singleton] at hi
  subst hi
  simp only [List.mem_cons, List.not_mem_nil, or_false] at he
  rcases he with rfl | rfl <;> simp

theorem flAdd_comm (a b : Fl) : a +. b = b +. a := by
  cases a <;> cases b <;> simp only [Fl.add, add_comm]
  rename_i s t
  cases s <;> cases t <;> rfl

theorem zero_add_fin {q : ℚ} (h : f32.Fin q) : Fl.fin 0 +. .fin q = .fin q := by
  have h1 : f32.rnd q = q := Fmt.rnd_rep f32_p h.1
  have h2 := abs_le.mp h.2
  simp only [Fl.add, Fl.val, zero_add, Fl.round, h1]
  split
  · rename_i h0; simp [h0]
  · rw [if_neg (by linarith), if_neg (by linarith)]

/-- C42 for two inputs: the sum of two f32 values does not depend on the order in which they are
iterated. -/
theorem c42_two_partial (a b : Fl) (ha : a.Ok f32) (hb : b.Ok f32) : flSum [a, b] = flSum [b, a] := by
  have key : ∀ a b : Fl, a.Ok f32 → b.Ok f32 → flSum [a, b] = (if a = .nz ∧ b = .nz then .fin 0 else a +. b) := by
    intro a b ha hb
    simp only [flSum, List.foldl]
    cases a with
    | nan => simp [Fl.add]
    | inf s => simp [Fl.add]
    | nz =>
      have h0 : Fl.fin 0 +. .nz = .fin 0 := by decide +kernel
      rw [h0]
      cases b with
      | nan => simp [Fl.add]
      | inf s => simp [Fl.add]
      | nz => simp [h0]
      | fin q => simp [Fl.add, Fl.val]
    | fin q => rw [zero_add_fin ha]; simp
  rw [key a b ha hb, key b a hb ha, flAdd_comm a b]
  simp only [and_comm]

example : ∃ a b : Fl, a.Ok f32 ∧ b.Ok f32 ∧ a ≠ b := ⟨.nan, .nz, trivial, trivial, by decide⟩

/-- C42 fails for three inputs: the order in which the hash map is iterated changes the sample. -/
theorem c42_order_counterexample (P : Plat) (env : Env) (names : List Name) :
    ∃ i j : Ins, i.Perm j ∧
      play P 1 env (.mix names) [] [i] = .ok [[[.fin 1], [.fin 1]]] ∧
      play P 1 env (.mix names) [] [j] = .ok [[[.fin 0], [.fin 0]]] := by
  refine ⟨[(1, [[.fin (2 ^ 24)]]), (2, [[.fin (-2 ^ 24)]]), (3, [[.fin 1]])],
    [(3, [[.fin 1]]), (1, [[.fin (2 ^ 24)]]), (2, [[.fin (-2 ^ 24)]])], ?_, ?_, ?_⟩
  · exact List.perm_append_singleton (3, [[Fl.fin 1]]) [(1, [[Fl.fin (2 ^ 24)]]), (2, [[Fl.fin (-2 ^ 24)]])]
  · kernel_rfl
  · kernel_rfl

end Verif.Props
