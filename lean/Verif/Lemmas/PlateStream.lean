import Verif.Lemmas.PlateParts
import Verif.Props.Filter
import Verif.Spec.Plate

/-! The nodes inside the reverb `plate` as streams of samples (helpers for C68). -/

namespace Verif.Props
open Verif Spec

/-- The blocks `s` of a mono signal are the stream `ys`. -/
def Flow (N : Nat) (s : List (List Buf)) (ys : List Fl) : Prop :=
  ∃ bs : List Buf, s = bs.map (fun b => [b]) ∧ Sized N bs ∧ ys = bs.flatten

theorem flow_of {N : Nat} {s : List (List Buf)} (h : ∀ o ∈ s, o.length = 1 ∧ Sz N o) : ∃ ys, Flow N s ys := by
  induction s with
  | nil => exact ⟨[], [], rfl, by simp [Sized], rfl⟩
  | cons o s ih =>
    obtain ⟨ys, bs, h1, h2, h3⟩ := ih (fun o ho => h o (by simp [ho]))
    obtain ⟨k1, k2⟩ := h o (by simp)
    match o, k1 with
    | [b], _ =>
      refine ⟨b ++ ys, b :: bs, by simp [h1], ?_, by simp [h3]⟩
      intro x hx
      rcases List.mem_cons.mp hx with rfl | hx
      · exact k2 x (by simp)
      · exact h2 x hx

theorem sized_length {ι : Type} {N : Nat} {bs : List (List ι)} (h : Sized N bs) : bs.flatten.length = bs.length * N := by
  induction bs with
  | nil => simp
  | cons b bs ih =>
    rw [List.flatten_cons, List.length_append, h b (by simp), ih (fun x hx => h x (by simp [hx])), List.length_cons,
      Nat.add_mul]
    omega

theorem Flow.length {N : Nat} {s : List (List Buf)} {ys : List Fl} (h : Flow N s ys) : ys.length = s.length * N := by
  obtain ⟨bs, rfl, h2, rfl⟩ := h
  rw [sized_length h2, List.length_map]

theorem Flow.take {N n : Nat} {s : List (List Buf)} {ys : List Fl} (h : Flow N s ys) : Flow N (s.take n) (ys.take (n * N)) := by
  obtain ⟨bs, rfl, h2, rfl⟩ := h
  refine ⟨bs.take n, by rw [List.map_take], fun x hx => h2 x (List.mem_of_mem_take hx), ?_⟩
  induction bs generalizing n with
  | nil => simp
  | cons b bs ih =>
    cases n with
    | zero => simp
    | succ n =>
      have hb : b.length = N := h2 b (by simp)
      rw [List.flatten_cons, List.take_succ_cons, List.flatten_cons, ← ih (fun x hx => h2 x (by simp [hx])), List.take_append, hb,
        List.take_of_length_le (by rw [hb, Nat.add_mul]; omega), show (n + 1) * N - N = n * N by rw [Nat.add_mul]; omega]

variable {P : Plat} {E : List (Nat × Nat)} {g : Patch} {sig : Nat → List (List Buf)} {n N : Nat}

/-- A node with one channel that is a loop over samples. -/
theorem flow_run {σ ι : Type} (hp : PartPlays P E g sig n) (node : σ → Prim) (f : σ → ι → Except Panic (σ × Fl))
    (R : Ins → List ι → Prop) {s : σ} {b : Buf} (hg : g.node? n = some ⟨node s, [b]⟩) (hb : b.length = N)
    {xs : List (List ι)} (hl : (sig n).length = xs.length)
    (hR : ∀ (t : Nat) i x, InputsOf E n i → (∀ k b, (k, b) ∈ i → (sig k)[t]? = some b) → xs[t]? = some x → R i x)
    (h : ∀ s i x b n' o, R i x → b.length = N → procPrim P.libm (node s) i [b] = .ok (n', o) →
      ∃ r, runM f s x = .ok r ∧ r.2.length = N ∧ n' = node r.1 ∧ o = [r.2]) :
    ∃ r, runM f s xs.flatten = .ok r ∧ Flow N (sig n) r.2 := by
  obtain ⟨d, inputs, h1, h2, h3, h4⟩ := hp
  rw [hg] at h1
  cases h1
  have hF : List.Forall₂ R inputs xs := forall₂_of_get (h2.trans hl) (fun t i x hi hx =>
    hR t i x (h4 t i hi).1 (h4 t i hi).2 hx)
  clear hR h4 h2 hl hg
  simp only at h3
  generalize hs : sig n = outs at h3 ⊢
  clear hs
  induction hF generalizing s b outs with
  | nil =>
    cases h3
    exact ⟨(s, []), rfl, [], rfl, by simp [Sized], rfl⟩
  | @cons i x inputs xs hix _ ih =>
    simp only [runBlocks, procG] at h3
    split at h3
    · cases h3
    · rename_i n' o' hq
      cases hq' : procPrim P.libm (node s) i [b] with
      | error e => rw [hq'] at hq; cases hq
      | ok a =>
        obtain ⟨m', o⟩ := a
        rw [hq'] at hq
        cases hq
        obtain ⟨r, r1, r2, rfl, rfl⟩ := h s i x b m' o' hix hb hq'
        split at h3
        · cases h3
        · rename_i rest h5
          cases h3
          obtain ⟨q, q1, bs, q2, q3, q4⟩ := ih r2 rest h5
          refine ⟨(q.1, r.2 ++ q.2), ?_, r.2 :: bs, by rw [q2]; rfl, ?_, by rw [q4]; rfl⟩
          · rw [List.flatten_cons, runM_append, r1]
            simp only [q1]
          · intro y hy
            rcases List.mem_cons.mp hy with rfl | hy
            · exact r2
            · exact q3 y hy

theorem Flow.get {s : List (List Buf)} {bs : List Buf} (h : s = bs.map (fun b => [b])) {t : Nat} {o : List Buf}
    {x : Buf} (ho : s[t]? = some o) (hx : bs[t]? = some x) : o = [x] := by
  subst h
  rw [List.getElem?_map, hx] at ho
  exact (Option.some.inj ho).symm

/-- … with one source. -/
theorem flow_run1 {σ : Type} (hp : PartPlays P E g sig n) (a : Nat) (node : σ → Prim) (f : σ → Fl → Except Panic (σ × Fl))
    {s : σ} {b : Buf} (hE : ∀ k, (k, n) ∈ E ∧ k ≠ n ↔ k = a) (hg : g.node? n = some ⟨node s, [b]⟩) (hb : b.length = N)
    {xs ys : List Fl} (ha : Flow N ((sig a).take (sig n).length) xs) (hl : (sig n).length ≤ (sig a).length)
    (hy : Flow N (sig n) ys)
    (h : ∀ s x b n' o, x.length = N → b.length = N → procPrim P.libm (node s) [(a, [x])] [b] = .ok (n', o) →
      ∃ r, runM f s x = .ok r ∧ n' = node r.1 ∧ o = [r.2]) :
    ∃ s', runM f s xs = .ok (s', ys) := by
  obtain ⟨bs, e1, e2, rfl⟩ := ha
  have hlen : (sig n).length = bs.length := by
    have := congrArg List.length e1
    rw [List.length_map, List.length_take] at this
    omega
  obtain ⟨r, r1, cs, r2, -, r4⟩ := flow_run hp node f (fun i x => i = [(a, [x])] ∧ x.length = N) hg hb hlen
    (fun t i x hi hk hx => by
      obtain ⟨y, rfl⟩ := inputsOf_one hi hE
      have hky := hk a y (by simp)
      have ht : t < (sig n).length := by
        rw [hlen]
        exact (List.getElem?_eq_some_iff.mp hx).1
      have : ((sig a).take (sig n).length)[t]? = some y := by rw [List.getElem?_take_of_lt ht, hky]
      rw [Flow.get e1 this hx]
      exact ⟨rfl, e2 x (List.mem_of_getElem? hx)⟩)
    (fun s i x b n' o hi hb hq => by
      obtain ⟨rfl, hx⟩ := hi
      obtain ⟨r, r1, r2, r3⟩ := h s x b n' o hx hb hq
      exact ⟨r, r1, (runM_length r1).trans hx, r2, r3⟩)
  obtain ⟨ds, d1, -, rfl⟩ := hy
  have : ds = cs := by
    rw [d1] at r2
    have := congrArg (List.map (fun o : List Buf => o.headD [])) r2
    simpa [Function.comp_def] using this
  rw [this, ← r4]
  exact ⟨r.1, r1⟩

/-- … with two sources. -/
theorem flow_run2 {σ : Type} (hp : PartPlays P E g sig n) (a c : Nat) (node : σ → Prim)
    (f : σ → Fl × Fl → Except Panic (σ × Fl)) {s : σ} {b : Buf} (hac : a ≠ c) (hE : ∀ k, (k, n) ∈ E ∧ k ≠ n ↔ k = a ∨ k = c)
    (hg : g.node? n = some ⟨node s, [b]⟩) (hb : b.length = N)
    {xs zs ys : List Fl} (ha : Flow N (sig a) xs) (hc : Flow N (sig c) zs) (hla : (sig n).length = (sig a).length)
    (hlc : (sig n).length = (sig c).length) (hy : Flow N (sig n) ys)
    (h : ∀ s x z i b n' o, x.length = N → z.length = N → b.length = N → (i = [(a, [x]), (c, [z])] ∨ i = [(c, [z]), (a, [x])]) →
      procPrim P.libm (node s) i [b] = .ok (n', o) →
      ∃ r, runM f s (x.zip z) = .ok r ∧ n' = node r.1 ∧ o = [r.2]) :
    ∃ s', runM f s (xs.zip zs) = .ok (s', ys) := by
  obtain ⟨bs, e1, e2, rfl⟩ := ha
  obtain ⟨ks, f1, f2, rfl⟩ := hc
  have hl1 : (sig n).length = bs.length := by rw [hla, e1, List.length_map]
  have hl2 : (sig n).length = ks.length := by rw [hlc, f1, List.length_map]
  obtain ⟨r, r1, cs, r2, -, r4⟩ := flow_run hp node f (fun i p => ∃ x z, p = x.zip z ∧ x.length = N ∧ z.length = N ∧
      (i = [(a, [x]), (c, [z])] ∨ i = [(c, [z]), (a, [x])])) (xs := List.zipWith List.zip bs ks) hg hb (by simp; omega)
    (fun t i p hi hk hx => by
      rw [List.getElem?_zipWith_eq_some] at hx
      obtain ⟨x, z, hx, hz, rfl⟩ := hx
      obtain ⟨u, v, huv⟩ := inputsOf_two hi hac hE
      have k1 := hk a u (by rcases huv with rfl | rfl <;> simp)
      have k2 := hk c v (by rcases huv with rfl | rfl <;> simp)
      rw [Flow.get e1 k1 hx, Flow.get f1 k2 hz] at huv
      exact ⟨x, z, rfl, e2 x (List.mem_of_getElem? hx), f2 z (List.mem_of_getElem? hz), huv⟩)
    (fun s i p b n' o hi hb hq => by
      obtain ⟨x, z, rfl, hx, hz, hi⟩ := hi
      obtain ⟨r, r1, r2, r3⟩ := h s x z i b n' o hx hz hb hi hq
      exact ⟨r, r1, by rw [runM_length r1, List.length_zip, hx, hz, Nat.min_self], r2, r3⟩)
  obtain ⟨ds, d1, -, rfl⟩ := hy
  have : ds = cs := by
    rw [d1] at r2
    have := congrArg (List.map (fun o : List Buf => o.headD [])) r2
    simpa [Function.comp_def] using this
  rw [this, ← r4]
  refine ⟨r.1, ?_⟩
  rw [← r1]
  congr 1
  have : ∀ (bs ks : List Buf), Sized N bs → Sized N ks → bs.flatten.zip ks.flatten = (List.zipWith List.zip bs ks).flatten := by
    intro bs
    induction bs with
    | nil => intro ks _ _; rfl
    | cons x bs ih =>
      intro ks h1 h2
      cases ks with
      | nil => simp
      | cons z ks =>
        rw [List.flatten_cons, List.flatten_cons, List.zipWith_cons_cons, List.flatten_cons,
          ← ih ks (fun y hy => h1 y (by simp [hy])) (fun y hy => h2 y (by simp [hy])), List.zip_append]
        rw [h1 x (by simp), h2 z (by simp)]
  exact this bs ks e2 f2

/-- … without a source. -/
theorem flow_run0 {σ : Type} (hp : PartPlays P E g sig n) (node : σ → Prim) (f : σ → Fl → Except Panic (σ × Fl))
    {s : σ} {b : Buf} (c : Fl) (hE : ∀ k, (k, n) ∉ E) (hg : g.node? n = some ⟨node s, [b]⟩) (hb : b.length = N)
    {ys : List Fl} (hy : Flow N (sig n) ys)
    (h : ∀ s b n' o, b.length = N → procPrim P.libm (node s) [] [b] = .ok (n', o) →
      ∃ r, runM f s (List.replicate N c) = .ok r ∧ n' = node r.1 ∧ o = [r.2]) :
    ∃ s', runM f s (List.replicate ys.length c) = .ok (s', ys) := by
  obtain ⟨r, r1, cs, r2, -, r4⟩ := flow_run hp node f (fun i p => i = [] ∧ p = List.replicate N c)
    (xs := List.replicate (sig n).length (List.replicate N c)) hg hb (by simp)
    (fun t i p hi hk hx => ⟨inputsOf_nil hi hE, List.eq_of_mem_replicate (List.mem_of_getElem? hx)⟩)
    (fun s i p b n' o hi hb hq => by
      obtain ⟨rfl, rfl⟩ := hi
      obtain ⟨r, r1, r2, r3⟩ := h s b n' o hb hq
      exact ⟨r, r1, by rw [runM_length r1, List.length_replicate], r2, r3⟩)
  have hlen := hy.length
  obtain ⟨ds, d1, -, rfl⟩ := hy
  have : ds = cs := by
    rw [d1] at r2
    have := congrArg (List.map (fun o : List Buf => o.headD [])) r2
    simpa [Function.comp_def] using this
  rw [hlen, this, ← r4]
  refine ⟨r.1, ?_⟩
  rw [← r1, List.flatten_replicate_replicate]

/-! ### The kinds of nodes -/

theorem runM_map (v : Fl → Fl) (xs : List Fl) :
    runM (fun (_ : Unit) x => .ok ((), v x)) () xs = .ok ((), xs.map v) := by
  rw [runM_pure]
  exact congrArg _ (Prod.ext rfl (run_map v xs))

theorem flow_mul {a : Nat} {v : Fl} {ord : List Nat} {xs ys : List Fl} (hp : PartPlays P E g sig n)
    (hE : ∀ k, (k, n) ∈ E ∧ k ≠ n ↔ k = a) (hg : g.node? n = some (fresh N 1 (.mul ⟨v, ord⟩)))
    (hl : (sig n).length = (sig a).length) (ha : Flow N (sig a) xs) (hy : Flow N (sig n) ys) : Scaled v xs ys := by
  obtain ⟨s', h⟩ := flow_run1 hp a (fun _ : Unit => .mul ⟨v, ord⟩) (fun _ x => .ok ((), x *. v)) (s := ()) hE hg
    (List.length_replicate ..) (by rwa [hl, List.take_length]) (by omega) hy (by
      intro s x b n' o hx hb hq
      rw [runM_map]
      cases hq
      exact ⟨_, rfl, rfl, rfl⟩)
  rw [runM_map] at h
  cases h
  rfl

theorem flow_add {a : Nat} {v : Fl} {ord : List Nat} {xs ys : List Fl} (hp : PartPlays P E g sig n)
    (hE : ∀ k, (k, n) ∈ E ∧ k ≠ n ↔ k = a) (hg : g.node? n = some (fresh N 1 (.add ⟨v, ord⟩)))
    (hl : (sig n).length = (sig a).length) (ha : Flow N (sig a) xs) (hy : Flow N (sig n) ys) : ys = xs.map (fun x => x +. v) := by
  obtain ⟨s', h⟩ := flow_run1 hp a (fun _ : Unit => .add ⟨v, ord⟩) (fun _ x => .ok ((), x +. v)) (s := ()) hE hg
    (List.length_replicate ..) (by rwa [hl, List.take_length]) (by omega) hy (by
      intro s x b n' o hx hb hq
      rw [runM_map]
      cases hq
      exact ⟨_, rfl, rfl, rfl⟩)
  rw [runM_map] at h
  cases h
  rfl

theorem flow_add2 {a c : Nat} {v : Fl} {xs zs ys : List Fl} (hp : PartPlays P E g sig n) (hac : a ≠ c)
    (hE : ∀ k, (k, n) ∈ E ∧ k ≠ n ↔ k = a ∨ k = c) (hg : g.node? n = some (fresh N 1 (.add ⟨v, [a, c]⟩)))
    (hl : (sig n).length = (sig a).length) (hl' : (sig n).length = (sig c).length) (ha : Flow N (sig a) xs)
    (hc : Flow N (sig c) zs) (hy : Flow N (sig n) ys) : ys = List.zipWith (· +. ·) xs zs := by
  have key : ∀ x z : List Fl, runM (fun (_ : Unit) (p : Fl × Fl) => .ok ((), p.1 +. p.2)) () (x.zip z) =
      .ok ((), List.zipWith (· +. ·) x z) := by
    intro x z
    rw [runM_pure]
    exact congrArg _ (Prod.ext rfl ((run_map _ _).trans (List.map_zip_eq_zipWith (f := fun p : Fl × Fl => p.1 +. p.2))))
  obtain ⟨s', h⟩ := flow_run2 hp a c (fun _ : Unit => .add ⟨v, [a, c]⟩) (fun _ p => .ok ((), p.1 +. p.2)) (s := ()) hac hE hg
    (List.length_replicate ..) ha hc hl hl' hy (by
      intro s x z i b n' o hx hz hb hi hq
      rw [key]
      obtain ⟨e1, e2⟩ := op_two (op := Fl.add f32) (v := v) hac (.inl rfl) (.inl rfl) (.inl rfl) x z [b] rfl
      simp only [List.replicate] at e1 e2
      rcases hi with rfl | rfl
      · simp only [procPrim, procAdd, e1, sameNode] at hq
        cases hq
        exact ⟨_, rfl, rfl, rfl⟩
      · simp only [procPrim, procAdd, e2, sameNode] at hq
        cases hq
        exact ⟨_, rfl, rfl, rfl⟩)
  rw [key] at h
  cases h
  rfl

theorem line_run (d : Nat) (hd : 1 ≤ d) (xs : List Fl) {s' : Ring} {ys : List Fl} (h : runM Ring.push (line d) xs = .ok (s', ys)) :
    Delayed d xs ys := by
  obtain ⟨r', h1, -, -⟩ := Ring.run_push (Ring.wf_zeros hd) xs
  rw [line, h1, Ring.contents_zeros] at h
  cases h
  exact delayed_take d xs

theorem flow_line {a d : Nat} (hd : 1 ≤ d) {ord : List Nat} {xs ys : List Fl} (hp : PartPlays P E g sig n)
    (hE : ∀ k, (k, n) ∈ E ∧ k ≠ n ↔ k = a) (hg : g.node? n = some (fresh N 1 (.delayn ⟨line d, d, ord⟩)))
    (hl : (sig n).length ≤ (sig a).length) (ha : Flow N ((sig a).take (sig n).length) xs) (hy : Flow N (sig n) ys) :
    Delayed d xs ys := by
  obtain ⟨s', h⟩ := flow_run1 hp a (fun r : Ring => .delayn ⟨r, d, ord⟩) Ring.push (s := line d) hE hg
    (List.length_replicate ..) ha hl hy (by
      intro s x b n' o hx hb hq
      simp only [procPrim, procDelayN, if_neg (show d ≠ 0 by omega), chan, List.getElem?_cons_zero, bind, Except.bind] at hq
      cases hr : runM Ring.push s x with
      | error e => rw [hr] at hq; cases hq
      | ok r => rw [hr] at hq; cases hq; exact ⟨_, rfl, rfl, rfl⟩)
  exact line_run d hd xs h

theorem flow_ms {a d : Nat} (hd : 1 ≤ d) {ord : List Nat} {q : Ring} {xs ys : List Fl} (hp : PartPlays P E g sig n)
    (hE : ∀ k, (k, n) ∈ E ∧ k ≠ n ↔ k = a) (hg : g.node? n = some (fresh N 1 (.delayms ⟨[line d, q], 44100, ord, d⟩)))
    (hl : (sig n).length ≤ (sig a).length) (ha : Flow N ((sig a).take (sig n).length) xs) (hy : Flow N (sig n) ys) :
    Delayed d xs ys := by
  obtain ⟨s', h⟩ := flow_run1 hp a (fun r : Ring => .delayms ⟨[r, q], 44100, ord, d⟩) Ring.push (s := line d) hE hg
    (List.length_replicate ..) ha hl hy (by
      intro s x b n' o hx hb hq
      have h1 : ¬ (([x] : List Buf).length = 0 ∨ 2 < ([x] : List Buf).length) := by simp
      simp only [procPrim, procDelayMs, if_neg h1, if_neg (show d ≠ 0 by omega), delayMsPlain, bind, Except.bind] at hq
      cases hr : runM Ring.push s x with
      | error e => rw [hr] at hq; cases hq
      | ok r => rw [hr] at hq; cases hq; exact ⟨_, rfl, rfl, rfl⟩)
  exact line_run d hd xs h

theorem flow_pole {a : Nat} {u v : Fl} {ord : List Nat} {xs ys : List Fl} (hp : PartPlays P E g sig n)
    (hE : ∀ k, (k, n) ∈ E ∧ k ≠ n ↔ k = a) (hg : g.node? n = some (fresh N 1 (.onepole ⟨u, v, .fin 0, ord⟩)))
    (hl : (sig n).length = (sig a).length) (ha : Flow N (sig a) xs) (hy : Flow N (sig n) ys) :
    OnePoleEq (fun _ => u) (fun _ => v) xs ys := by
  obtain ⟨s', h⟩ := flow_run1 hp a (fun y : Fl => .onepole ⟨u, v, y, ord⟩) (fun s x => .ok (poleStep u v s x)) (s := .fin 0) hE hg
    (List.length_replicate ..) (by rwa [hl, List.take_length]) (by omega) hy (by
      intro s x b n' o hx hb hq
      rw [runM_pure]
      cases hq
      exact ⟨_, rfl, rfl, rfl⟩)
  rw [runM_pure] at h
  have := pole_eq u v xs
  rwa [Except.ok.inj h] at this

theorem flow_apf {a d : Nat} (hd : 1 ≤ d) {gain : Fl} {xs ys : List Fl} (hp : PartPlays P E g sig n)
    (hE : ∀ k, (k, n) ∈ E ∧ k ≠ n ↔ k = a) (hg : g.node? n = some (fresh N 1 (.apf ⟨gain, line d, line d, 44100, [a]⟩)))
    (hl : (sig n).length = (sig a).length) (ha : Flow N (sig a) xs) (hy : Flow N (sig n) ys) :
    AllPassEq gain d xs ys := by
  obtain ⟨s', h⟩ := flow_run1 hp a (fun s : Ring × Ring => .apf ⟨gain, s.1, s.2, 44100, [a]⟩) (apfStep gain)
    (s := (line d, line d)) hE hg
    (List.length_replicate ..) (by rwa [hl, List.take_length]) (by omega) hy (by
      intro s x b n' o hx hb hq
      simp only [procPrim, procApf, inputAt, List.getElem?_cons_zero, List.find?_cons_of_pos, beq_self_eq_true,
        chan, bind, Except.bind] at hq
      cases hr : runM (apfStep gain) (s.1, s.2) x with
      | error e => rw [hr] at hq; cases hq
      | ok r => rw [hr] at hq; cases hq; exact ⟨_, rfl, rfl, rfl⟩)
  obtain ⟨r, r1, r2⟩ := apf_run gain d hd xs
  rw [line, r1] at h
  cases h
  exact r2

theorem flow_sin {f : Fl} {ord : List Nat} {sr : Nat} {ys : List Fl} (hp : PartPlays P E g sig n)
    (hE : ∀ k, (k, n) ∉ E) (hg : g.node? n = some (fresh N 1 (.sin ⟨f, .fin 0, .fin 0, sr, ord⟩)))
    (hy : Flow N (sig n) ys) :
    ys = (List.range ys.length).map (fun t => P.libm.sin (rampAt (f /. Fl.ofNat f32 sr) t *. .fin 2 *. flPi)) := by
  obtain ⟨s', h⟩ := flow_run0 hp (fun ph : Fl => .sin ⟨f, ph, .fin 0, sr, ord⟩)
    (fun s x => .ok (sinStep P.libm sr s x)) (s := .fin 0) f hE hg (List.length_replicate ..) hy (by
      intro s b n' o hb hq
      rw [runM_pure]
      have : b.map (fun _ => f) = List.replicate N f := by rw [← hb, List.map_const']
      simp only [procPrim, procSin, this] at hq
      cases hq
      exact ⟨_, rfl, rfl, rfl⟩)
  rw [runM_pure] at h
  obtain ⟨st, h0, -, hst⟩ := run_states (sinStep P.libm sr) (.fin 0) (List.replicate ys.length f)
  have hst' : ∀ t, t ≤ ys.length → st t = rampAt (f /. Fl.ofNat f32 sr) t := by
    intro t
    induction t with
    | zero => intro _; exact h0
    | succ t ih =>
      intro ht
      rw [(hst t f (by rw [List.getElem?_replicate, if_pos (by omega)])).2, ih (by omega)]
      rfl
  rw [Except.ok.inj h] at hst
  apply List.ext_getElem?
  intro t
  by_cases ht : t < ys.length
  · rw [(hst t f (by rw [List.getElem?_replicate, if_pos ht])).1, List.getElem?_map, List.getElem?_range ht, hst' t ht.le]
    rfl
  · rw [List.getElem?_eq_none (by omega), List.getElem?_eq_none (by simp; omega)]

/-! ### The moving lines -/

theorem place_range {v : Fl} (h : Within 24 35 v) : Within (-1600) (-1000) (msToSamples 44100 (Fl.neg v)) ∧
    Within 2800 3410 (place v) ∧ place v = msToSamples 44100 (Fl.neg v) +. Fl.ofNat f32 4410 := by
  have e1 : Fl.ofNat f32 44100 = .fin 44100 := by decide +kernel
  have e2 : Fl.ofNat f32 4410 = .fin 4410 := by decide +kernel
  have hn := Fl.neg_fin h.1
  have r1 : f32.Rep (9 / 256) := ⟨9, -8, by decide, by decide, by rw [pow2_eq]; norm_num⟩
  have r2 : f32.Rep (6 / 256) := ⟨6, -8, by decide, by decide, by rw [pow2_eq]; norm_num⟩
  have r3 : f32.Rep 1600 := by exact_mod_cast f32_rep_int (n := 1600) (by decide)
  have r4 : f32.Rep 1000 := by exact_mod_cast f32_rep_int (n := 1000) (by decide)
  have r5 : f32.Rep 2800 := by exact_mod_cast f32_rep_int (n := 2800) (by decide)
  have r6 : f32.Rep 3410 := by exact_mod_cast f32_rep_int (n := 3410) (by decide)
  have h1 : Within (-(9 / 256)) (-(6 / 256)) (Fl.neg v /. .fin 1000) := by
    apply within_div hn.1 rfl (Fmt.rep_neg r1) (Fmt.rep_neg r2) (by norm_num) (by norm_num)
    · norm_num [Fl.val]
    · rw [hn.2, Fl.val_fin]
      have := h.2.2
      linarith
    · rw [hn.2, Fl.val_fin]
      have := h.2.1
      linarith
  have h2 : Within (-1600) (-1000) (Fl.neg v /. .fin 1000 *. .fin 44100) := by
    apply within_mul h1.1 rfl (Fmt.rep_neg r3) (Fmt.rep_neg r4) (by norm_num) (by norm_num)
    · rw [Fl.val_fin]
      have := h1.2.1
      linarith
    · rw [Fl.val_fin]
      have := h1.2.2
      linarith
  have h3 : Within 2800 3410 (Fl.neg v /. .fin 1000 *. .fin 44100 +. .fin 4410) := by
    apply within_add h2.1 rfl r5 r6 (by norm_num) (by norm_num)
    · rw [Fl.val_fin]
      have := h2.2.1
      linarith
    · rw [Fl.val_fin]
      have := h2.2.2
      linarith
  unfold msToSamples place
  rw [e1, e2]
  exact ⟨h2, h3, rfl⟩

theorem readPos_place {r : Ring} {v : Fl} (hr : r.len = 4410) (h : Within 24 35 v) :
    readPos [r] 44100 v = .ok ((Fl.floor (place v)).toUsize, Fl.fract f32 (place v)) := by
  obtain ⟨h1, h2, h3⟩ := place_range h
  unfold readPos
  dsimp only
  have hneg : Fl.lt (msToSamples 44100 (Fl.neg v)) (.fin 0) = true := by
    rw [Fl.lt_fin h1.1 rfl, Fl.val_fin]
    have := h1.2.2
    linarith
  rw [if_pos hneg]
  simp only [lineLen, hr, bind, Except.bind]
  unfold wrapUp
  rw [dif_pos hneg, ← h3]
  have hlt : Fl.lt (msToSamples 44100 (Fl.neg v)) (place v) = true := by
    rw [Fl.lt_fin h1.1 h2.1]
    linarith [h1.2.2, h2.2.1]
  rw [dif_pos hlt]
  unfold wrapUp
  have h0 : Fl.lt (place v) (.fin 0) = false := by
    by_contra hc
    have := (Fl.lt_fin h2.1 (b := .fin 0) rfl).mp (by simpa using hc)
    rw [Fl.val_fin] at this
    linarith [h2.2.1]
  rw [dif_neg (by rw [h0]; decide)]

theorem place_floor {v : Fl} (h : Within 24 35 v) : 2800 ≤ (Fl.floor (place v)).toUsize ∧ (Fl.floor (place v)).toUsize ≤ 3410 := by
  obtain ⟨-, h2, -⟩ := place_range h
  generalize place v = p at h2
  cases p with
  | nan => cases h2.1
  | inf s => cases h2.1
  | nz => have := h2.2.1; norm_num [Fl.val] at this
  | fin q =>
    have h3 : (2800 : ℚ) ≤ q := h2.2.1
    have h4 : q ≤ 3410 := h2.2.2
    have e : (Fl.floor (.fin q)).toUsize = min (⌊q⌋.toNat) (2 ^ 64 - 1) := by
      show min (⌊((⌊q⌋ : ℤ) : ℚ)⌋.toNat) (2 ^ 64 - 1) = _
      rw [Int.floor_intCast]
    have k1 : 2800 ≤ ⌊q⌋ := by rw [Int.le_floor]; exact_mod_cast h3
    have k2 : ⌊q⌋ ≤ 3410 := by
      have : (⌊q⌋ : ℚ) ≤ 3410 := le_trans (Int.floor_le q) h4
      exact_mod_cast this
    rw [e]
    omega

theorem ring_get {r : Ring} (h : r.Wf) {k : Nat} {x : Fl} (hx : r.contents[k]? = some x) : r.get k = .ok x := by
  have h' : r.first < r.data.length := h
  have hk : k < r.data.length := by
    have := (List.getElem?_eq_some_iff.mp hx).1
    simp only [Ring.contents, List.length_append, List.length_drop, List.length_take] at this
    omega
  have h0 : r.data.length ≠ 0 := by omega
  unfold Ring.get
  rw [if_neg h0]
  have : r.data[(r.first + k) % r.data.length]? = some x := by
    rw [← hx, Ring.contents]
    by_cases hc : r.first + k < r.data.length
    · rw [Nat.mod_eq_of_lt hc, List.getElem?_append_left (by simp; omega), List.getElem?_drop]
    · rw [List.getElem?_append_right (by simp; omega), List.getElem?_take_of_lt (by simp; omega), List.length_drop]
      congr 1
      rw [Nat.mod_eq_sub_mod (by omega), Nat.mod_eq_of_lt (by omega)]
      omega
  rw [this]

theorem readLerp_between {r : Ring} (h : r.Wf) {xs : List Fl} {t : Nat} (hc : r.contents = window 4410 xs t) {p : Fl}
    (hp : (Fl.floor p).toUsize ≤ 3410) : readLerp r ((Fl.floor p).toUsize, Fl.fract f32 p) = .ok (between xs t p) := by
  have hw : ∀ k, k < 4410 → r.get k = .ok (before xs t (4410 - k)) := by
    intro k hk
    apply ring_get h
    rw [hc, window, List.getElem?_map, List.getElem?_range hk]
    rfl
  simp only [readLerp, hw _ (show (Fl.floor p).toUsize < 4410 by omega), hw _ (show (Fl.floor p).toUsize + 1 < 4410 by omega),
    bind, Except.bind, if_neg (show (Fl.floor p).toUsize ≠ 2 ^ 64 - 1 by omega)]
  rfl

theorem wobble_run {gain : Fl} {xs ms ys : List Fl} (hl : ms.length = xs.length) (hm : ∀ v ∈ ms, Within 24 35 v)
    {s' : Ring × Ring} (hr : runM (apfModStep gain 44100) (line 4410, line 4410) (xs.zip ms) = .ok (s', ys)) :
    WobbleEq gain ms xs ys := by
  have hz : (xs.zip ms).length = xs.length := by simp [hl]
  refine ⟨(runM_length hr).trans hz, ?_⟩
  obtain ⟨st, h0, _, hst⟩ := runM_states hr
  have key : ∀ t, t < xs.length → (st t).1.Wf → (st t).2.Wf → (st t).1.contents = window 4410 xs t →
      (st t).2.contents = window 4410 ys t →
      ys[t]? = some (Fl.neg gain *. before xs t 0 +. between xs t (place (before ms t 0)) +.
        gain *. between ys t (place (before ms t 0))) ∧
        (st (t + 1)).1.Wf ∧ (st (t + 1)).2.Wf ∧ (st (t + 1)).1.contents = window 4410 xs (t + 1) ∧
        (st (t + 1)).2.contents = window 4410 ys (t + 1) := by
    intro t ht w1 w2 c1 c2
    have hx := List.getElem?_eq_getElem ht
    have hv := List.getElem?_eq_getElem (show t < ms.length by omega)
    have hv24 := hm _ (List.mem_of_getElem? hv)
    obtain ⟨y, y1, y2⟩ := hst t (xs[t], ms[t]) (by rw [List.getElem?_zip_eq_some]; exact ⟨hx, hv⟩)
    have e1 : before xs t 0 = xs[t] := by rw [before_zero]; exact getD_of hx
    have e2 : before ys t 0 = y := by rw [before_zero]; exact getD_of y1
    have e3 : before ms t 0 = ms[t] := by rw [before_zero]; exact getD_of hv
    have hlen : (st t).1.len = 4410 := by
      have := congrArg List.length c1
      simp only [Ring.contents, List.length_append, List.length_drop, List.length_take, window, List.length_map,
        List.length_range] at this
      have : (st t).1.first < (st t).1.data.length := w1
      unfold Ring.len
      omega
    obtain ⟨k1, k2⟩ := place_floor hv24
    obtain ⟨u, l, hu⟩ := window_cons 4409 xs t
    obtain ⟨v, q, hvv⟩ := window_cons 4409 ys t
    obtain ⟨u1, u2⟩ := window_push hu
    obtain ⟨v1, v2⟩ := window_push hvv
    obtain ⟨r1, x1, l1, a1, a2, a3, a4⟩ := Ring.push_spec w1 xs[t]
    obtain ⟨r2, x2, l2, b1, b2, b3, b4⟩ := Ring.push_spec w2 (apfOut gain xs[t] (between xs t (place ms[t])) (between ys t (place ms[t])))
    simp only [apfModStep, readPos_place hlen hv24, readLerp_between w1 c1 k2, readLerp_between w2 c2 k2, bind, Except.bind,
      a1, b1, Except.ok.injEq, Prod.mk.injEq] at y2
    obtain ⟨y2, y3⟩ := y2
    rw [a2, show (4410 : Nat) = 4409 + 1 from rfl, hu, List.cons.injEq] at c1
    rw [b2, show (4410 : Nat) = 4409 + 1 from rfl, hvv, List.cons.injEq] at c2
    rw [← y2, e1, e3, show (4410 : Nat) = 4409 + 1 from rfl, u2, v2, e1, e2, ← c1.2, ← c2.2]
    refine ⟨by rw [y1, ← y3]; rfl, a3, b3, a4, ?_⟩
    rw [← y3]
    exact b4
  have inv : ∀ t, t ≤ xs.length → (st t).1.Wf ∧ (st t).2.Wf ∧ (st t).1.contents = window 4410 xs t ∧
      (st t).2.contents = window 4410 ys t := by
    intro t
    induction t with
    | zero =>
      intro _
      rw [h0, window_zero, window_zero]
      exact ⟨Ring.wf_zeros (by decide), Ring.wf_zeros (by decide), Ring.contents_zeros _, Ring.contents_zeros _⟩
    | succ t ih =>
      intro ht
      obtain ⟨i1, i2, i3, i4⟩ := ih (by omega)
      exact (key t (by omega) i1 i2 i3 i4).2
  intro t ht
  obtain ⟨i1, i2, i3, i4⟩ := inv t ht.le
  exact (key t ht i1 i2 i3 i4).1

theorem flow_wobble {a c : Nat} {gain : Fl} {xs ms ys : List Fl} (hp : PartPlays P E g sig n) (hac : a ≠ c)
    (hE : ∀ k, (k, n) ∈ E ∧ k ≠ n ↔ k = a ∨ k = c)
    (hg : g.node? n = some (fresh N 1 (.apf ⟨gain, line 4410, line 4410, 44100, [a, c]⟩)))
    (hl : (sig n).length = (sig a).length) (hl' : (sig n).length = (sig c).length) (ha : Flow N (sig a) xs)
    (hc : Flow N (sig c) ms) (hy : Flow N (sig n) ys) (hm : ∀ v ∈ ms, Within 24 35 v) : WobbleEq gain ms xs ys := by
  have hca : c ≠ a := fun h => hac h.symm
  obtain ⟨s', h⟩ := flow_run2 hp a c (fun s : Ring × Ring => .apf ⟨gain, s.1, s.2, 44100, [a, c]⟩) (apfModStep gain 44100)
    (s := (line 4410, line 4410)) hac hE hg (List.length_replicate ..) ha hc hl hl' hy (by
      intro s x z i b n' o hx hz hb hi hq
      have : procApf ⟨gain, s.1, s.2, 44100, [a, c]⟩ i [b] = (do
          let (q, y) ← runM (apfModStep gain 44100) (s.1, s.2) (x.zip z)
          .ok (⟨gain, q.1, q.2, 44100, [a, c]⟩, [y])) := by
        rcases hi with rfl | rfl <;> simp [procApf, inputAt, chan, bind, Except.bind, hac, hca]
      simp only [procPrim, this, bind, Except.bind] at hq
      cases hr : runM (apfModStep gain 44100) (s.1, s.2) (x.zip z) with
      | error e => rw [hr] at hq; cases hq
      | ok r => rw [hr] at hq; cases hq; exact ⟨_, rfl, rfl, rfl⟩)
  exact wobble_run (by rw [ha.length, hc.length, ← hl, ← hl']) hm h

/-! ### Sums -/

theorem sized_get {bs : List Buf} (hN : 1 ≤ N) (hs : Sized N bs) (t : Nat) :
    bs.flatten[t]? = (bs[t / N]?).bind (fun b => b[t % N]?) := by
  induction bs generalizing t with
  | nil => simp
  | cons b bs ih =>
    have hb : b.length = N := hs b (by simp)
    rw [List.flatten_cons]
    by_cases ht : t < N
    · rw [List.getElem?_append_left (by omega), Nat.div_eq_of_lt ht, Nat.mod_eq_of_lt ht]
      rfl
    · rw [List.getElem?_append_right (by omega), ih (fun x hx => hs x (by simp [hx])), hb,
        Nat.div_eq_sub_div (a := t) (b := N) (by omega) (by omega), List.getElem?_cons_succ,
        Nat.mod_eq_sub_mod (a := t) (b := N) (by omega)]

theorem forall₂_get {α β : Type} {R : α → β → Prop} {l : List α} {r : List β} (h : List.Forall₂ R l r) {t : Nat} {a : α} {b : β}
    (ha : l[t]? = some a) (hb : r[t]? = some b) : R a b := by
  induction h generalizing t with
  | nil => cases ha
  | cons h _ ih =>
    cases t with
    | zero => cases ha; cases hb; exact h
    | succ t => exact ih ha hb

theorem addAll_get : ∀ (bs : List Buf) (acc : Buf) (j : Nat), acc.length = N → Sized N bs → j < N →
    (bs.foldl addBuf acc)[j]? = some ((bs.map (fun b => b.getD j (.fin 0))).foldl (· +. ·) (acc.getD j (.fin 0))) := by
  intro bs
  induction bs with
  | nil =>
    intro acc j ha _ hj
    simp [List.getD_eq_getElem?_getD, List.getElem?_eq_getElem (show j < acc.length by omega)]
  | cons b bs ih =>
    intro acc j ha hs hj
    have hb := hs b (by simp)
    rw [List.foldl_cons, ih _ j (by simp [addBuf, ha, hb]) (fun x hx => hs x (by simp [hx])) hj, List.map_cons, List.foldl_cons]
    have : (addBuf acc b).getD j (.fin 0) = acc.getD j (.fin 0) +. b.getD j (.fin 0) := by
      simp [addBuf, List.getD_eq_getElem?_getD, List.getElem?_zipWith, List.getElem?_eq_getElem (show j < acc.length by omega),
        List.getElem?_eq_getElem (show j < b.length by omega)]
    rw [this]

theorem sum_runs {inputs : List Ins} : ∀ {b : Buf} {outs : List (List Buf)}, b.length = N →
    (∀ i ∈ inputs, ∃ ks : List (Nat × Buf), i = ks.map (fun e => (e.1, [e.2])) ∧ ∀ e ∈ ks, e.2.length = N) →
    runBlocks (procG P) (.prim .sum) [b] inputs = .ok outs →
    List.Forall₂ (fun i o => o = [(i.map (fun e => (e : Nat × List Buf).2.headD [])).foldl addBuf (List.replicate N (.fin 0))]) inputs outs := by
  induction inputs with
  | nil => intro b outs _ _ h; cases h; exact .nil
  | cons i inputs ih =>
    intro b outs hb hi h
    obtain ⟨ks, rfl, hk⟩ := hi i (by simp)
    have e : silent b = List.replicate N (.fin 0) := by rw [silent, List.map_const', hb]
    have e2 : ∀ (ks : List (Nat × Buf)) (acc : Buf), (ks.map (fun e => (e.1, [e.2]))).foldl
        (fun acc (i : Nat × List Buf) => match i.2[0]? with | some x => addBuf acc x | none => acc) acc =
        ((ks.map (fun e => (e.1, [e.2]))).map (fun e => e.2.headD [])).foldl addBuf acc := by
      intro ks
      induction ks with
      | nil => intro acc; rfl
      | cons e ks ih => intro acc; exact ih _
    have e3 : procPrim P.libm .sum (ks.map (fun e => (e.1, [e.2]))) [b] =
        .ok (.sum, [((ks.map (fun e => (e.1, [e.2]))).map (fun e => e.2.headD [])).foldl addBuf (List.replicate N (.fin 0))]) := by
      rw [← e, ← e2]
      rfl
    have e4 : ∀ (ks : List (Nat × Buf)) (acc : Buf), acc.length = N → (∀ e ∈ ks, e.2.length = N) →
        (((ks.map (fun e => (e.1, [e.2]))).map (fun e => e.2.headD [])).foldl addBuf acc).length = N := by
      intro ks
      induction ks with
      | nil => intro acc h _; exact h
      | cons e ks ih =>
        intro acc h hk
        refine ih _ ?_ (fun e he => hk e (by simp [he]))
        have := hk e (by simp)
        simp [addBuf, h, this]
    simp only [runBlocks, procG, e3, reState] at h
    split at h
    · cases h
    · rename_i rest h5
      cases h
      exact .cons rfl (ih (e4 _ _ (by simp) hk) (fun i hi' => hi i (by simp [hi'])) h5)

/-- A node that adds its sources. -/
theorem flow_sum {as : List Nat} (hN : 1 ≤ N) (hnd : as.Nodup) {st : Nat → List Fl} {ys : List Fl} (hp : PartPlays P E g sig n)
    (hE : ∀ k, (k, n) ∈ E ∧ k ≠ n ↔ k ∈ as) (hg : g.node? n = some (fresh N 1 .sum))
    (ha : ∀ k ∈ as, Flow N (sig k) (st k)) (hy : Flow N (sig n) ys) (hl : ∀ k ∈ as, (st k).length = ys.length) :
    Mixed (as.map st) ys := by
  refine ⟨fun l h => by obtain ⟨k, hk, rfl⟩ := List.mem_map.mp h; exact hl k hk, ?_⟩
  obtain ⟨d, inputs, h1, h2, h3, h4⟩ := hp
  rw [hg] at h1
  cases h1
  have hin : ∀ (t : Nat) i, inputs[t]? = some i → (i.map Prod.fst).Perm as ∧
      ∃ ks : List (Nat × Buf), i = ks.map (fun e => (e.1, [e.2])) ∧ (∀ e ∈ ks, e.2.length = N) ∧
        ∀ e ∈ ks, ∀ j, j < N → e.2[j]? = (st e.1)[t * N + j]? := by
    intro t i hi
    obtain ⟨k1, k2⟩ := h4 t i hi
    have hm : ∀ k, k ∈ i.map Prod.fst ↔ k ∈ as := fun k => by rw [k1.2, hE]
    refine ⟨(List.perm_ext_iff_of_nodup k1.1 hnd).mpr hm, ?_⟩
    have : ∀ e ∈ i, ∃ b : Buf, e.2 = [b] ∧ b.length = N ∧ ∀ j, j < N → b[j]? = (st e.1)[t * N + j]? := by
      intro e he
      obtain ⟨bs, e1, e2, e3⟩ := ha e.1 ((hm e.1).mp (List.mem_map.mpr ⟨e, he, rfl⟩))
      have := k2 e.1 e.2 he
      rw [e1, List.getElem?_map, Option.map_eq_some_iff] at this
      obtain ⟨b, b1, b2⟩ := this
      refine ⟨b, b2.symm, e2 b (List.mem_of_getElem? b1), ?_⟩
      intro j hj
      rw [e3, sized_get hN e2, show (t * N + j) / N = t by
        rw [Nat.mul_comm, Nat.mul_add_div (by omega), Nat.div_eq_of_lt hj]; rfl, b1, Nat.mul_comm, Nat.mul_add_mod,
        Nat.mod_eq_of_lt hj]
      rfl
    clear k1 k2 hm hi
    induction i with
    | nil => exact ⟨[], rfl, by simp, by simp⟩
    | cons e i ih =>
      obtain ⟨ks, q1, q2, q3⟩ := ih (fun e he => this e (by simp [he]))
      obtain ⟨b, b1, b2, b3⟩ := this e (by simp)
      refine ⟨(e.1, b) :: ks, by rw [List.map_cons, ← q1]; simp only [← b1], ?_, ?_⟩
      · intro x hx
        rcases List.mem_cons.mp hx with rfl | hx
        · exact b2
        · exact q2 x hx
      · intro x hx
        rcases List.mem_cons.mp hx with rfl | hx
        · exact b3
        · exact q3 x hx
  have hF := sum_runs (N := N) (P := P) (b := List.replicate N (.fin 0)) (by simp) (fun i hi => by
    obtain ⟨t, ht⟩ := List.mem_iff_getElem?.mp hi
    obtain ⟨-, ks, q1, q2, -⟩ := hin t i ht
    exact ⟨ks, q1, q2⟩) h3
  intro t ht
  have hlen := hy.length
  obtain ⟨cs, c1, c2, rfl⟩ := hy
  have ht2 : t / N < (sig n).length := by
    rw [hlen] at ht
    exact Nat.div_lt_of_lt_mul (by rw [Nat.mul_comm]; exact ht)
  obtain ⟨i, hi⟩ : ∃ i, inputs[t / N]? = some i := ⟨_, List.getElem?_eq_getElem (by omega)⟩
  obtain ⟨o, ho⟩ : ∃ o, (sig n)[t / N]? = some o := ⟨_, List.getElem?_eq_getElem ht2⟩
  have hio := forall₂_get hF hi ho
  obtain ⟨p1, ks, q1, q2, q3⟩ := hin _ i hi
  have hj : t % N < N := Nat.mod_lt _ (by omega)
  have htt : t / N * N + t % N = t := by rw [Nat.mul_comm]; exact Nat.div_add_mod t N
  subst q1
  refine ⟨ks.map (fun e => before (st e.1) t 0), ?_, ?_⟩
  · rw [List.map_map]
    have := p1.map (fun k => before (st k) t 0)
    rw [List.map_map, List.map_map] at this
    exact this
  · rw [c1, List.getElem?_map, Option.map_eq_some_iff] at ho
    obtain ⟨c, d1, d2⟩ := ho
    rw [sized_get hN c2, d1]
    show c[t % N]? = _
    have : c = (ks.map Prod.snd).foldl addBuf (List.replicate N (.fin 0)) := by
      rw [← d2, List.cons.injEq] at hio
      rw [hio.1]
      simp [List.map_map, Function.comp_def]
    rw [this, addAll_get _ _ _ (by simp) (fun x hx => by
      obtain ⟨e, he, rfl⟩ := List.mem_map.mp hx
      exact q2 e he) hj, flSum, List.map_map]
    have e1 : (List.replicate N (Fl.fin 0)).getD (t % N) (.fin 0) = .fin 0 := by
      simp [List.getD_eq_getElem?_getD, hj]
    rw [e1]
    congr 2
    apply List.map_congr_left
    intro e he
    have := q3 e he (t % N) hj
    rw [htt] at this
    simp only [Function.comp_apply, before_zero, List.getD_eq_getElem?_getD, this]

end Verif.Props
