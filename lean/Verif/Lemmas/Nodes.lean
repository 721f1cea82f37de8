import Verif.Spec.Nodes

/-! Lemmas about loops over samples and blocks. -/

namespace Verif
open Spec

variable {σ ι ο : Type}

theorem run_append (f : σ → ι → σ × ο) (s : σ) (xs ys : List ι) :
    run f s (xs ++ ys) = ((run f (run f s xs).1 ys).1, (run f s xs).2 ++ (run f (run f s xs).1 ys).2) := by
  induction xs generalizing s with
  | nil => simp [run]
  | cons x xs ih => simp [run, ih]

theorem run_length (f : σ → ι → σ × ο) (s : σ) (xs : List ι) : (run f s xs).2.length = xs.length := by
  induction xs generalizing s with
  | nil => simp [run]
  | cons x xs ih => simp [run, ih]

theorem runM_pure (f : σ → ι → σ × ο) (s : σ) (xs : List ι) :
    runM (fun s x => .ok (f s x)) s xs = .ok (run f s xs) := by
  induction xs generalizing s with
  | nil => rfl
  | cons x xs ih => simp [run, runM, ih]

theorem runM_length {f : σ → ι → Except Panic (σ × ο)} {s : σ} {xs : List ι} {r : σ × List ο}
    (h : runM f s xs = .ok r) : r.2.length = xs.length := by
  induction xs generalizing s r with
  | nil => simp [runM] at h; subst h; rfl
  | cons x xs ih =>
    simp only [runM] at h
    split at h
    · cases h
    · split at h
      · cases h
      · next q hq =>
        cases h
        simp [ih hq]

/-- Two parts of a stream one after the other. -/
theorem runM_append (f : σ → ι → Except Panic (σ × ο)) (s : σ) (xs ys : List ι) :
    runM f s (xs ++ ys) =
      match runM f s xs with
      | .error e => .error e
      | .ok r =>
        match runM f r.1 ys with
        | .error e => .error e
        | .ok q => .ok (q.1, r.2 ++ q.2) := by
  induction xs generalizing s with
  | nil =>
    simp only [List.nil_append, runM]
    cases runM f s ys <;> rfl
  | cons x xs ih =>
    simp only [List.cons_append, runM]
    cases hf : f s x with
    | error e => rfl
    | ok r =>
      simp only [ih]
      cases h1 : runM f r.1 xs with
      | error e => rfl
      | ok q =>
        simp only
        cases h2 : runM f q.1 ys with
        | error e => rfl
        | ok w => simp

/-- Only the number of items matters if the body does not look at them. -/
theorem runM_const {ι' : Type} (f : σ → ι → Except Panic (σ × ο)) (g : σ → ι' → Except Panic (σ × ο))
    (h : ∀ s x y, f s x = g s y) (s : σ) (xs : List ι) (ys : List ι') (hl : xs.length = ys.length) :
    runM f s xs = runM g s ys := by
  induction xs generalizing s ys with
  | nil => cases ys with
    | nil => rfl
    | cons y ys => simp at hl
  | cons x xs ih => cases ys with
    | nil => simp at hl
    | cons y ys =>
      simp only [List.length_cons, Nat.add_right_cancel_iff] at hl
      simp only [runM, h s x y]
      split
      · rfl
      · rw [ih _ ys hl]

/-- The stream on a channel after a list of blocks, or the panic. -/
def chanResult (c : Nat) (r : Except Panic (List (List Buf))) : Except Panic (Option (List Fl)) :=
  match r with
  | .error e => .error e
  | .ok o => .ok (channel c o)

/-- Getting the streams back from `chanResult`. -/
theorem chanResult_ok {c : Nat} {r : Except Panic (List (List Buf))} {ys : List Fl}
    (h : chanResult c r = .ok (some ys)) : ∃ outs, r = .ok outs ∧ channel c outs = some ys := by
  cases r with
  | error e => simp [chanResult] at h
  | ok o => simp only [chanResult, Except.ok.injEq] at h; exact ⟨o, rfl, h⟩

/-- The result of a block made from the result of its loop. -/
def blockOf {ν : Type} (wrap : σ → ν) (put : List ο → List Buf) (r : Except Panic (σ × List ο)) :
    Except Panic (ν × List Buf) :=
  match r with
  | .error e => .error e
  | .ok r => .ok (wrap r.1, put r.2)

/-- The stream made by a loop, or the panic; `pr` picks the channel. -/
def loopResult (pr : ο → Fl) (r : Except Panic (σ × List ο)) : Except Panic (Option (List Fl)) :=
  match r with
  | .error e => .error e
  | .ok o => .ok (some (o.2.map pr))

/-- A node whose blocks run one loop and write its results to channel `c`: the stream of blocks on
this channel is the result of the loop over the whole stream. Each block is given by its input and
by the items of its loop. `good` is what the buffers keep satisfying, `inv` what the state keeps
satisfying. -/
theorem blocks_general {ν : Type} (proc : ProcFn ν Buf) (wrap : σ → ν)
    (f : σ → ι → Except Panic (σ × ο)) (pr : ο → Fl) (inv : σ → Prop) (good : List Buf → Prop)
    (c : Nat) (put : List ο → List Buf → List Buf) (bs : List (Ins × List ι))
    (H : ∀ s b out, b ∈ bs → inv s → good out → proc (wrap s) b.1 out =
      blockOf wrap (fun y => put y out) (runM f s b.2))
    (Hput : ∀ b s r out, b ∈ bs → inv s → good out → runM f s b.2 = .ok r →
      inv r.1 ∧ good (put r.2 out) ∧ (put r.2 out)[c]? = some (r.2.map pr))
    (s : σ) (out : List Buf) (hi : inv s) (hg : good out) :
    chanResult c (runBlocks proc (wrap s) out (bs.map Prod.fst)) =
      loopResult pr (runM f s (bs.map Prod.snd).flatten) := by
  induction bs generalizing s out with
  | nil => rfl
  | cons b bs ih =>
    simp only [List.map_cons, runBlocks, List.flatten_cons, runM_append]
    rw [H s b out (by simp) hi hg]
    cases hr : runM f s b.2 with
    | error e => rfl
    | ok r =>
      obtain ⟨g0, g1, g2⟩ := Hput b s r out (by simp) hi hg hr
      have := ih (fun s y o hy => H s y o (by simp [hy])) (fun y s r o hy => Hput y s r o (by simp [hy]))
        r.1 (put r.2 out) g0 g1
      simp only [blockOf]
      cases hb : runBlocks proc (wrap r.1) (put r.2 out) (bs.map Prod.fst) with
      | error e =>
        rw [hb] at this
        cases hq : runM f r.1 (bs.map Prod.snd).flatten with
        | error e' => rw [hq] at this; simp only [chanResult, loopResult] at this ⊢; cases this; rfl
        | ok q => rw [hq] at this; simp [chanResult, loopResult] at this
      | ok o =>
        rw [hb] at this
        cases hq : runM f r.1 (bs.map Prod.snd).flatten with
        | error e' => rw [hq] at this; simp [chanResult, loopResult] at this
        | ok q =>
          rw [hq] at this
          simp only [chanResult, loopResult, Except.ok.injEq] at this ⊢
          simp [channel, g2, this]

/-- `blocks_general` when the input of a block is made from the items. -/
theorem blocks_loop {ν : Type} (proc : ProcFn ν Buf) (wrap : σ → ν) (f : σ → ι → Except Panic (σ × ο))
    (pr : ο → Fl) (mk : List ι → Ins) (inv : σ → Prop) (good : List Buf → Prop) (c : Nat)
    (put : List ο → List Buf → List Buf)
    (xs : List (List ι))
    (H : ∀ s x out, x ∈ xs → inv s → good out → proc (wrap s) (mk x) out =
      blockOf wrap (fun y => put y out) (runM f s x))
    (Hput : ∀ x s r out, x ∈ xs → inv s → good out → runM f s x = .ok r →
      inv r.1 ∧ good (put r.2 out) ∧ (put r.2 out)[c]? = some (r.2.map pr))
    (s : σ) (out : List Buf) (hi : inv s) (hg : good out) :
    chanResult c (runBlocks proc (wrap s) out (xs.map mk)) = loopResult pr (runM f s xs.flatten) := by
  have := blocks_general proc wrap f pr inv good c put (xs.map (fun x => (mk x, x)))
    (fun s b o hb hi hg => by
      obtain ⟨x, hx, rfl⟩ := List.mem_map.mp hb
      exact H s x o hx hi hg)
    (fun b s r o hb hi hg hr => by
      obtain ⟨x, hx, rfl⟩ := List.mem_map.mp hb
      exact Hput x s r o hx hi hg hr) s out hi hg
  simpa [List.map_map, Function.comp_def] using this

theorem flatten_const (n : Nat) (ins : List Ins) :
    (ins.map (fun _ => List.replicate n ())).flatten = List.replicate (ins.length * n) () := by
  induction ins with
  | nil => simp
  | cons i is ih => simp [Nat.add_mul, Nat.add_comm]

/-- A node with one output channel that does not look at its input. -/
theorem blocks_source {ν : Type} (proc : ProcFn ν Buf) (wrap : σ → ν)
    (f : σ → Unit → Except Panic (σ × Fl)) (N : Nat) (good : List Buf → Prop) (ins : List Ins)
    (H : ∀ s i out, i ∈ ins → good out → proc (wrap s) i out =
      blockOf wrap (fun y => [y]) (runM f s (List.replicate N ())))
    (Hg : ∀ y : Buf, y.length = N → good [y])
    (s : σ) (out : List Buf) (hg : good out) (r : σ × List Fl)
    (hr : runM f s (List.replicate (ins.length * N) ()) = .ok r) :
    ∃ outs, runBlocks proc (wrap s) out ins = .ok outs ∧ channel 0 outs = some r.2 := by
  have := blocks_general proc wrap f id (fun _ => True) good 0 (fun y _ => [y])
    (ins.map (fun i => (i, List.replicate N ())))
    (fun s b o hb hi hg => by
      obtain ⟨x, hx, rfl⟩ := List.mem_map.mp hb
      exact H s x o hx hg)
    (fun b s r o hb hi hg hr => by
      obtain ⟨x, hx, rfl⟩ := List.mem_map.mp hb
      exact ⟨trivial, Hg _ (by rw [runM_length hr]; simp), by simp⟩) s out trivial hg
  rw [List.map_map, List.map_map] at this
  simp only [Function.comp_def, flatten_const, List.map_id'] at this
  rw [hr] at this
  obtain ⟨o, ho, ho'⟩ := chanResult_ok this
  exact ⟨o, ho, by simpa using ho'⟩

end Verif

namespace Verif
open Spec

variable {σ ι ο : Type}

/-- The output buffers of a node with `c` channels and block length `N`. -/
def Shaped (c N : Nat) (out : List Buf) : Prop := out.length = c ∧ ∀ b, b ∈ out → b.length = N

theorem shaped_fresh {ν : Type} (N c : Nat) (n : ν) : Shaped c N (fresh N c n).buffers := by
  refine ⟨by simp [fresh], fun b hb => ?_⟩
  simp only [fresh, List.mem_replicate] at hb
  simp [hb.2]

theorem Shaped.two {N : Nat} {out : List Buf} (h : Shaped 2 N out) :
    ∃ a b, out = [a, b] ∧ a.length = N ∧ b.length = N := by
  obtain ⟨a, b, rfl⟩ := List.length_eq_two.mp h.1
  exact ⟨a, b, rfl, h.2 a (by simp), h.2 b (by simp)⟩

theorem Shaped.one {N : Nat} {out : List Buf} (h : Shaped 1 N out) :
    ∃ a, out = [a] ∧ a.length = N := by
  obtain ⟨a, rfl⟩ := List.length_eq_one_iff.mp h.1
  exact ⟨a, rfl, h.2 a (by simp)⟩

/-- A node with two output channels that runs one loop per block. -/
theorem blocks_stereo_inv {ν : Type} (proc : ProcFn ν Buf) (wrap : σ → ν)
    (f : σ → ι → Except Panic (σ × (Fl × Fl))) (mk : List ι → Ins) (inv : σ → Prop)
    (good : List Buf → Prop) (xs : List (List ι))
    (H : ∀ s x out, x ∈ xs → inv s → good out → proc (wrap s) (mk x) out =
      blockOf wrap (fun y => [y.map Prod.fst, y.map Prod.snd]) (runM f s x))
    (Hg : ∀ s x r, x ∈ xs → inv s → runM f s x = .ok r →
      inv r.1 ∧ good [r.2.map Prod.fst, r.2.map Prod.snd])
    (s : σ) (out : List Buf) (hi : inv s) (hg : good out) (r : σ × List (Fl × Fl))
    (hr : runM f s xs.flatten = .ok r) :
    ∃ outs, runBlocks proc (wrap s) out (xs.map mk) = .ok outs ∧
      channel 0 outs = some (r.2.map Prod.fst) ∧ channel 1 outs = some (r.2.map Prod.snd) := by
  have h0 := blocks_loop proc wrap f Prod.fst mk inv good 0
    (fun y _ => [y.map Prod.fst, y.map Prod.snd]) xs H
    (fun x s r out hx hi hg hr => ⟨(Hg s x r hx hi hr).1, (Hg s x r hx hi hr).2, rfl⟩) s out hi hg
  have h1 := blocks_loop proc wrap f Prod.snd mk inv good 1
    (fun y _ => [y.map Prod.fst, y.map Prod.snd]) xs H
    (fun x s r out hx hi hg hr => ⟨(Hg s x r hx hi hr).1, (Hg s x r hx hi hr).2, rfl⟩) s out hi hg
  rw [hr] at h0 h1
  obtain ⟨o, ho, ho'⟩ := chanResult_ok h0
  obtain ⟨o2, ho2, ho2'⟩ := chanResult_ok h1
  rw [ho] at ho2; cases ho2
  exact ⟨o, ho, ho', ho2'⟩

/-- `blocks_stereo_inv` without an invariant of the state. -/
theorem blocks_stereo {ν : Type} (proc : ProcFn ν Buf) (wrap : σ → ν)
    (f : σ → ι → Except Panic (σ × (Fl × Fl))) (mk : List ι → Ins) (good : List Buf → Prop)
    (xs : List (List ι))
    (H : ∀ s x out, x ∈ xs → good out → proc (wrap s) (mk x) out =
      blockOf wrap (fun y => [y.map Prod.fst, y.map Prod.snd]) (runM f s x))
    (Hg : ∀ s x r, x ∈ xs → runM f s x = .ok r → good [r.2.map Prod.fst, r.2.map Prod.snd])
    (s : σ) (out : List Buf) (hg : good out) (r : σ × List (Fl × Fl))
    (hr : runM f s xs.flatten = .ok r) :
    ∃ outs, runBlocks proc (wrap s) out (xs.map mk) = .ok outs ∧
      channel 0 outs = some (r.2.map Prod.fst) ∧ channel 1 outs = some (r.2.map Prod.snd) :=
  blocks_stereo_inv proc wrap f mk (fun _ => True) good xs (fun s x o hx _ hg => H s x o hx hg)
    (fun s x r hx _ hr => ⟨trivial, Hg s x r hx hr⟩) s out trivial hg r hr

/-- A node with one output channel that runs one loop per block. -/
theorem blocks_mono_inv {ν : Type} (proc : ProcFn ν Buf) (wrap : σ → ν)
    (f : σ → ι → Except Panic (σ × Fl)) (mk : List ι → Ins) (inv : σ → Prop)
    (good : List Buf → Prop) (xs : List (List ι))
    (H : ∀ s x out, x ∈ xs → inv s → good out → proc (wrap s) (mk x) out =
      blockOf wrap (fun y => [y]) (runM f s x))
    (Hg : ∀ s x r, x ∈ xs → inv s → runM f s x = .ok r → inv r.1 ∧ good [r.2])
    (s : σ) (out : List Buf) (hi : inv s) (hg : good out) (r : σ × List Fl)
    (hr : runM f s xs.flatten = .ok r) :
    ∃ outs, runBlocks proc (wrap s) out (xs.map mk) = .ok outs ∧ channel 0 outs = some r.2 := by
  have h0 := blocks_loop proc wrap f id mk inv good 0 (fun y _ => [y]) xs H
    (fun x s r out hx hi hg hr => ⟨(Hg s x r hx hi hr).1, (Hg s x r hx hi hr).2, by simp⟩) s out hi hg
  rw [hr] at h0
  obtain ⟨o, ho, ho'⟩ := chanResult_ok h0
  exact ⟨o, ho, by simpa using ho'⟩

/-- `blocks_mono_inv` without an invariant of the state. -/
theorem blocks_mono {ν : Type} (proc : ProcFn ν Buf) (wrap : σ → ν)
    (f : σ → ι → Except Panic (σ × Fl)) (mk : List ι → Ins) (good : List Buf → Prop)
    (xs : List (List ι))
    (H : ∀ s x out, x ∈ xs → good out → proc (wrap s) (mk x) out =
      blockOf wrap (fun y => [y]) (runM f s x))
    (Hg : ∀ s x r, x ∈ xs → runM f s x = .ok r → good [r.2])
    (s : σ) (out : List Buf) (hg : good out) (r : σ × List Fl)
    (hr : runM f s xs.flatten = .ok r) :
    ∃ outs, runBlocks proc (wrap s) out (xs.map mk) = .ok outs ∧ channel 0 outs = some r.2 :=
  blocks_mono_inv proc wrap f mk (fun _ => True) good xs (fun s x o hx _ hg => H s x o hx hg)
    (fun s x r hx _ hr => ⟨trivial, Hg s x r hx hr⟩) s out trivial hg r hr

/-- The step `f` with its items and outputs mapped. -/
def reStep {ι' ο' : Type} (a : ι' → ι) (b : ο → ο') (f : σ → ι → Except Panic (σ × ο)) (s : σ)
    (x : ι') : Except Panic (σ × ο') := (f s (a x)).map (fun r => (r.1, b r.2))

/-- Loops that relate by a map of the outputs and of the items. -/
theorem runM_map {ι' ο' : Type} (f : σ → ι → Except Panic (σ × ο)) (a : ι' → ι) (b : ο → ο')
    (s : σ) (xs : List ι') :
    runM (reStep a b f) s xs = (runM f s (xs.map a)).map (fun r => (r.1, r.2.map b)) := by
  induction xs generalizing s with
  | nil => rfl
  | cons x xs ih =>
    simp only [runM, List.map_cons, reStep]
    cases f s (a x) with
    | error e => rfl
    | ok r =>
      simp only [Except.map, ih]
      cases runM f r.1 (xs.map a) with
      | error e => rfl
      | ok q => rfl

theorem sized_out {N : Nat} {xs : List (List ι)} (h : Sized N xs)
    {f : σ → ι → Except Panic (σ × ο)} {s : σ} {x : List ι} {r : σ × List ο} (hx : x ∈ xs)
    (hr : runM f s x = .ok r) : r.2.length = N := by
  rw [runM_length hr]; exact h x hx

/-! ### Delay lines -/

namespace Ring

/-- The read position is inside the line. -/
def Wf (r : Ring) : Prop := r.first < r.data.length

/-- The samples from the oldest to the newest. -/
def contents (r : Ring) : List Fl := r.data.drop r.first ++ r.data.take r.first

theorem push_spec {r : Ring} (h : r.Wf) (x : Fl) :
    ∃ r' old rest, r.push x = .ok (r', old) ∧ r.contents = old :: rest ∧ r'.Wf ∧
      r'.contents = rest ++ [x] := by
  unfold Wf at h
  have hd : r.data.drop r.first = r.data[r.first] :: r.data.drop (r.first + 1) :=
    List.drop_eq_getElem_cons h
  refine ⟨⟨r.data.set r.first x, if r.first + 1 = r.data.length then 0 else r.first + 1⟩,
    r.data[r.first], r.data.drop (r.first + 1) ++ r.data.take r.first, ?_, ?_, ?_, ?_⟩
  · simp [push, h]
  · rw [contents, hd]; rfl
  · simp only [Wf, List.length_set]
    split <;> omega
  · simp only [contents]
    split
    · next he =>
      have h1 : r.data.drop (r.first + 1) = [] := by simp; omega
      have h2 : r.data.set r.first x = r.data.take r.first ++ [x] := by
        rw [List.set_eq_take_append_cons_drop, if_pos h, h1]
      simp [h1, h2]
    · next he =>
      rw [List.drop_set_of_lt (by omega), List.take_set, List.take_add_one]
      simp only [List.getElem?_eq_getElem h, Option.toList_some, List.append_assoc]
      rw [List.set_append_right _ _ (by simp)]
      simp [Nat.min_eq_left (Nat.le_of_lt h)]

theorem run_push {r : Ring} (h : r.Wf) (xs : List Fl) :
    ∃ r', runM push r xs = .ok (r', (r.contents ++ xs).take xs.length) ∧ r'.Wf ∧
      r'.contents = (r.contents ++ xs).drop xs.length := by
  induction xs generalizing r with
  | nil => exact ⟨r, by simp [runM], h, by simp⟩
  | cons x xs ih =>
    obtain ⟨r', old, rest, h1, h2, h3, h4⟩ := push_spec h x
    obtain ⟨q, q1, q2, q3⟩ := ih h3
    refine ⟨q, ?_, q2, ?_⟩
    · simp only [runM, h1, q1, h2, h4]
      simp
    · rw [q3, h4, h2]; simp

/-- A line filled with `n` zeros. -/
theorem wf_zeros {n : Nat} (h : 1 ≤ n) : Wf ⟨List.replicate n (.fin 0), 0⟩ := by
  simp only [Wf, List.length_replicate]; omega

theorem contents_zeros (n : Nat) : contents ⟨List.replicate n (.fin 0), 0⟩ = List.replicate n (.fin 0) := by
  simp [contents]

end Ring

theorem delayed_take (n : Nat) (xs : List Fl) :
    Delayed n xs ((List.replicate n (Fl.fin 0) ++ xs).take xs.length) := by
  refine ⟨by simp, fun t ht => ?_⟩
  rw [List.getElem?_take_of_lt ht]
  split
  · next h => rw [List.getElem?_append_left (by simpa using h)]; simp [h]
  · next h => rw [List.getElem?_append_right (by simp; omega)]; simp

theorem delayed_zero (xs : List Fl) : Delayed 0 xs xs := by
  refine ⟨rfl, fun t _ => by simp⟩

theorem play_ok {P : Plat} {N : Nat} {env : Env} {c : Comp} {msgs : List (Msg Fl)} {ins : List Ins}
    {d : NodeData (GNode P) Buf} {refs : List Name} {n : GNode P} {outs : List (List Buf)}
    (h1 : makeNode P N env.samples env.sr env.bpm env.seed c = .ok (d, refs))
    (h2 : sendMsgs d.node msgs = .ok n)
    (h3 : runBlocks (procG P) n d.buffers ins = .ok outs) :
    play P N env c msgs ins = .ok outs := by
  simp [play, h1, h2, h3]


/-! ### Ranges -/

theorem within_round {s : Bool} {x lo hi : ℚ} (hl : f32.Rep lo) (hh : f32.Rep hi) (h1 : lo ≤ x)
    (h2 : x ≤ hi) (b1 : -2 ^ 100 ≤ lo) (b2 : hi ≤ 2 ^ 100) : Within lo hi (Fl.round f32 s x) := by
  have hr : InRange f32 x := f32_inRange (by rw [abs_le]; constructor <;> linarith)
  have := Fl.round_val (s := s) hr
  refine ⟨this.1, ?_, ?_⟩ <;> rw [this.2]
  · exact Fmt.le_rnd f32_p hl h1
  · exact Fmt.rnd_le f32_p hh h2

theorem within_of_fin {x : Fl} {v lo hi : ℚ} (h : x.isFinite = true ∧ x.val = f32.rnd v)
    (hl : f32.Rep lo) (hh : f32.Rep hi) (h1 : lo ≤ v) (h2 : v ≤ hi) : Within lo hi x := by
  refine ⟨h.1, ?_, ?_⟩ <;> rw [h.2]
  · exact Fmt.le_rnd f32_p hl h1
  · exact Fmt.rnd_le f32_p hh h2

theorem inRange_of {v lo hi : ℚ} (h1 : lo ≤ v) (h2 : v ≤ hi) (b1 : -2 ^ 100 ≤ lo) (b2 : hi ≤ 2 ^ 100) :
    InRange f32 v := f32_inRange (by rw [abs_le]; constructor <;> linarith)

section
variable {x y : Fl} {lo hi : ℚ} (hx : x.isFinite = true) (hy : y.isFinite = true)
  (hl : f32.Rep lo) (hh : f32.Rep hi) (b1 : -2 ^ 100 ≤ lo) (b2 : hi ≤ 2 ^ 100)
include hx hy hl hh b1 b2

theorem within_add (h1 : lo ≤ x.val + y.val) (h2 : x.val + y.val ≤ hi) : Within lo hi (x +. y) :=
  within_of_fin (Fl.add_fin hx hy (inRange_of h1 h2 b1 b2)) hl hh h1 h2

theorem within_sub (h1 : lo ≤ x.val - y.val) (h2 : x.val - y.val ≤ hi) : Within lo hi (x -. y) :=
  within_of_fin (Fl.sub_fin hx hy (inRange_of h1 h2 b1 b2)) hl hh h1 h2

theorem within_mul (h1 : lo ≤ x.val * y.val) (h2 : x.val * y.val ≤ hi) : Within lo hi (x *. y) :=
  within_of_fin (Fl.mul_fin hx hy (inRange_of h1 h2 b1 b2)) hl hh h1 h2

theorem within_div (h0 : y.val ≠ 0) (h1 : lo ≤ x.val / y.val) (h2 : x.val / y.val ≤ hi) :
    Within lo hi (x /. y) :=
  within_of_fin (Fl.div_fin hx hy h0 (inRange_of h1 h2 b1 b2)) hl hh h1 h2

end

theorem rep0 : f32.Rep 0 := Fmt.rep_zero
theorem rep1 : f32.Rep 1 := by exact_mod_cast f32_rep_int (n := 1) (by decide)
theorem rep2 : f32.Rep 2 := by exact_mod_cast f32_rep_int (n := 2) (by decide)
theorem repm1 : f32.Rep (-1) := Fmt.rep_neg rep1
theorem rephalf : f32.Rep (1 / 2) := ⟨1, -1, by decide, by decide, by rw [pow2_eq]; norm_num⟩

/-- Outputs of a loop satisfy what every step gives them. -/
theorem run_all {I : σ → Prop} {J : ι → Prop} {O : ο → Prop} (f : σ → ι → σ × ο)
    (h : ∀ s x, I s → J x → I (f s x).1 ∧ O (f s x).2) (s : σ) (hs : I s) (xs : List ι)
    (hx : ∀ x, x ∈ xs → J x) : I (run f s xs).1 ∧ ∀ y, y ∈ (run f s xs).2 → O y := by
  induction xs generalizing s with
  | nil => exact ⟨hs, by simp [run]⟩
  | cons x xs ih =>
    have h1 := h s x hs (hx x (by simp))
    have h2 := ih _ h1.1 (fun y hy => hx y (by simp [hy]))
    refine ⟨h2.1, fun y hy => ?_⟩
    simp only [run, List.mem_cons] at hy
    rcases hy with rfl | hy
    · exact h1.2
    · exact h2.2 y hy

end Verif
