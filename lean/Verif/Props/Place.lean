import Verif.Props.WaveOf
import Verif.Props.Pan

/-!
# Panning at the end of a track

C89 and C91 for `pan`: what is heard on the left side without it is placed between the sides, with the same power (C72).
-/

namespace Verif.Props
open Verif.Spec Verif.Parse Verif.Double Verif.Part

variable {P : Plat} {N : Nat}

namespace Panning

/-- What is heard of a panned signal is panned: the output adds 0, which changes only the sign of zeros. -/
theorem heard {p : ℚ} {x l r : Fl} (hx : x.Ok f32) (hl : l.Ok f32) (hr : r.Ok f32) (h : Panned p x l r) : Panned p (.fin 0 +. x) (.fin 0 +. l) (.fin 0 +. r) := by
  obtain ⟨x1, -⟩ := SineOf.zero_add_val hx
  obtain ⟨l1, l2⟩ := SineOf.zero_add_val hl
  obtain ⟨r1, r2⟩ := SineOf.zero_add_val hr
  obtain ⟨h1, h2, h3, h4, h5, h6⟩ := h
  exact ⟨by rw [l2, r2]; exact h1, by rw [l1, r1, x1]; exact h2, by rw [l1, r1, x1]; exact h3, fun hp => by rw [l1, r1, x1]; exact h4 hp,
    fun hp => by rw [l1, r1, x1]; exact h5 hp, fun hp => by rw [h6 hp]⟩

theorem sample_ok (m : Libm) (p x : Fl) : (panSample m p x).1.Ok f32 ∧ (panSample m p x).2.Ok f32 := ⟨Fl.mul_ok _ _, Fl.mul_ok _ _⟩

/-- The block that `pan` plays for the blocks of the track and of the position. -/
def placed (m : Libm) (ps xs : Buf) : List Buf :=
  [List.zipWith (fun p v => (panSample m p v).1) ps xs, List.zipWith (fun p v => (panSample m p v).2) ps xs]

theorem zip_const {β : Type} (f : Fl → Fl → β) (p : Fl) : ∀ x : Buf, List.zipWith f (List.replicate x.length p) x = x.map (f p)
  | [] => rfl
  | v :: x => by rw [List.length_cons, List.replicate_succ, List.zipWith_cons_cons, zip_const f p x, List.map_cons]

/-- `pan` with a written position. -/
theorem runs_written (p : Fl) (n : Nat) : ∀ (dry : List (List Buf)), (∀ o, o ∈ dry → o ≠ []) → ∀ out : List Buf, out.length = 2 →
    runBlocks (procG P) (.prim (.pan ⟨p, [n]⟩)) out (dry.map (fun o => [(n, o)])) =
      .ok (dry.map (fun o => placed P.libm ((o.headD []).map (fun _ => p)) (o.headD [])))
  | [], _, _, _ => rfl
  | o :: dry, hl, out, ho => by
    obtain ⟨x, rest, rfl⟩ := List.exists_cons_of_ne_nil (hl o List.mem_cons_self)
    obtain ⟨a, b, rfl⟩ := List.length_eq_two.mp ho
    have e : procG P (.prim (.pan ⟨p, [n]⟩)) [(n, x :: rest)] [a, b] = .ok (.prim (.pan ⟨p, [n]⟩), placed P.libm (x.map (fun _ => p)) x) := by
      simp [procG, procPrim, procPan, chan, bind, Except.bind, setStereo, sameNode, reState, placed, zip_const]
    rw [List.map_cons, runBlocks, e]
    simp only
    rw [runs_written p n dry (fun o ho => hl o (List.mem_cons_of_mem _ ho)) _ rfl]
    rfl

/-- `pan` with a position from a chain. -/
theorem runs_named (v : Fl) {n m : Nat} (hnm : n ≠ m) : ∀ (dry side : List (List Buf)) (inputs : List Ins), dry.length = inputs.length → side.length = inputs.length →
    (∀ o, o ∈ dry → o ≠ []) → (∀ o, o ∈ side → o ≠ []) →
    (∀ (t : Nat) (inp : Ins), inputs[t]? = some inp → ∃ d s, dry[t]? = some d ∧ side[t]? = some s ∧ inp.Perm [(n, d), (m, s)]) →
    ∀ out : List Buf, out.length = 2 →
    runBlocks (procG P) (.prim (.pan ⟨v, [n, m]⟩)) out inputs = .ok (List.zipWith (fun d s => placed P.libm (s.headD []) (d.headD [])) dry side)
  | [], [], [], _, _, _, _, _, _, _ => rfl
  | [], _, _ :: _, hd, _, _, _, _, _, _ => by cases hd
  | _ :: _, _, [], hd, _, _, _, _, _, _ => by cases hd
  | _, _ :: _, [], _, hd, _, _, _, _, _ => by cases hd
  | _, [], _ :: _, _, hd, _, _, _, _, _ => by cases hd
  | d :: dry, s :: side, inp :: inputs, hd, hs, hld, hls, hf, out, ho => by
    obtain ⟨x, xr, rfl⟩ := List.exists_cons_of_ne_nil (hld d List.mem_cons_self)
    obtain ⟨y, yr, rfl⟩ := List.exists_cons_of_ne_nil (hls s List.mem_cons_self)
    obtain ⟨d', s', e1, e2, hp⟩ := hf 0 inp rfl
    cases e1
    cases e2
    obtain ⟨a, b, rfl⟩ := List.length_eq_two.mp ho
    have hi := Combine.inputAt_pair hnm hp
    obtain ⟨i, j, rfl⟩ := List.length_eq_two.mp (show inp.length = 2 by rw [hp.length_eq]; rfl)
    have e : procG P (.prim (.pan ⟨v, [n, m]⟩)) [i, j] [a, b] = .ok (.prim (.pan ⟨v, [n, m]⟩), placed P.libm y x) := by
      simp only [procG, procPrim, procPan, hi, chan, List.getElem?_cons_zero, bind, Except.bind, setStereo, sameNode, reState, placed]
    rw [runBlocks, e]
    simp only
    rw [runs_named v hnm dry side inputs (by simpa using hd) (by simpa using hs) (fun o ho => hld o (List.mem_cons_of_mem _ ho))
      (fun o ho => hls o (List.mem_cons_of_mem _ ho)) (fun t inp ht => hf (t + 1) inp ht) _ rfl]
    rfl

/-- The left side of one block. -/
theorem left_of {o : List Buf} {s : Nat} {x : Fl} (h : sideAt 0 s o = some x) : (o.headD [])[s]? = some x := by
  match o, h with
  | [l], h => exact h
  | [l, r], h => exact h

/-- The two sides of a placed block. -/
theorem placed_at {m : Libm} {ps xs : Buf} {s : Nat} {p x : Fl} (hp : ps[s]? = some p) (hx : xs[s]? = some x) :
    sideAt 0 s (placed m ps xs) = some (panSample m p x).1 ∧ sideAt 1 s (placed m ps xs) = some (panSample m p x).2 := by
  simp [placed, sideAt, List.getElem?_zipWith, hp, hx]

end Panning

section
variable {fe : Name → Option Fl} {T : P.ext.State → Prop} {e0 e1 e2 f0 f1 f2 : Engine (glicol P N (Parse.parse fe))}

/-- **C89** for `pan p` with `p` from -1 to 1 (partial): at the end of the only track every sample that is heard on the left side without it is placed at the position `p`, with the
same power. Missing as in `c89_effect_partial`; the right side of a stereo track, which is dropped (C72). -/
theorem c89_pan_partial (hx : ExtShape P N T) (hxf : ExtFirst P) (hm : Libm32 P.libm) (hq : SqrtClose P.libm) (hN : 0 < N)
    (hr : CleanReach _ e0) (hr' : CleanReach _ f0) (heN : e0.N = N) (hfN : f0.N = N)
    (hset : (⟨f0.samples, f0.sr, f0.bpm, f0.seed⟩ : Env) = ⟨e0.samples, e0.sr, e0.bpm, e0.seed⟩) (τ σ : TableOrder) (code code' : Name)
    (A B : Ast Comp) (hparse : Parse.parse fe code = .ok (some A)) (hparse' : Parse.parse fe code' = .ok (some B))
    {k : Name} {comps : List Comp} {p : Fl} (he : AtTheEnd A B k comps (.pan (.num p))) (hp : Within (-1) 1 p)
    (hc : CleanProg (glicol P N (Parse.parse fe)) A) (hc' : CleanProg (glicol P N (Parse.parse fe)) B)
    (ha : AllNew e0 A) (ha' : AllNew f0 B) (hu : e0.updateWithCode τ code = .ok (e1, none))
    (hu' : f0.updateWithCode σ code' = .ok (f1, none)) (b : Bool)
    (hb : b = true ↔ ['~', 'i', 'n', 'p', 'u', 't'] ∈ e1.index.map Prod.fst)
    (hb' : b = true ↔ ['~', 'i', 'n', 'p', 'u', 't'] ∈ f1.index.map Prod.fst)
    (hfree : FreeOf ByRole A b)
    (steps steps' : List (HashOrder × List Buf)) (outs outs' : List (List Buf)) (hne : steps ≠ [])
    (hin : steps.map Prod.snd = steps'.map Prod.snd)
    (hext : Leads Comp.refs A b (.at ['~', 'i', 'n', 'p', 'u', 't'] 0) .dest →
      ∀ x, x ∈ steps.map Prod.snd → 2 ≤ x.length ∧ ∀ b, b ∈ x.take 2 → ∀ v, v ∈ b → v.Ok f32)
    (h : Plays e1 steps e2 outs) (h' : Plays f1 steps' f2 outs') :
    outs'.length = outs.length ∧ ∀ t s x, s < N → sampleAt outs t 0 s = some x → x.isFinite = true → |x.val| ≤ 2 ^ 100 →
      ∃ l r, sampleAt outs' t 0 s = some l ∧ sampleAt outs' t 1 s = some r ∧ Panned p.val x l r := by
  obtain ⟨n, dry, wet, h1, h2, h3, h4⟩ := c89_effect_partial hx hxf hm hN hr hr' heN hfN hset τ σ code code' A B hparse hparse' he
    rfl trivial hc hc' ha ha' hu hu' b hb hb' hfree steps steps' outs outs' hne hin hext h h'
  have hne' : ∀ o, o ∈ dry → o ≠ [] := fun o ho h0 => by
    have := (h3 o ho).1
    rw [h0] at this
    simp at this
  have hw := play_ok (P := P) (N := N) (env := ⟨e0.samples, e0.sr, e0.bpm, e0.seed⟩) (msgs := [.index n]) (pan_make P N _ (.num p)) rfl
    (Panning.runs_written p n dry hne' _ (shaped_fresh N 2 (GNode.prim (P := P) (.pan (arith p)))).1)
  cases Except.ok.inj (h4.symm.trans hw)
  have hlen : outs'.length = outs.length := by rw [← h1.1, ← h2.1, List.length_map]
  refine ⟨hlen, ?_⟩
  intro t s x hs hxs hfin hbig
  have ht : t < outs.length := by
    by_contra hn
    simp [sampleAt, List.getElem?_eq_none (Nat.le_of_not_lt hn)] at hxs
  obtain ⟨y, y1, y2⟩ := h1.2 t 0 s ht (by omega) hs
  obtain ⟨o, o1, o2⟩ := Option.bind_eq_some_iff.mp y1
  have hy := Panning.left_of o2
  cases Option.some.inj (hxs.symm.trans y2)
  have hyo : y.Ok f32 := by
    obtain ⟨g1, g2⟩ := h3 o (List.mem_of_getElem? o1)
    cases o with
    | nil => simp at g1
    | cons l rest => exact (g2 l List.mem_cons_self).2 y (List.mem_of_getElem? hy)
  obtain ⟨v1, v2⟩ := SineOf.zero_add_val hyo
  rw [v2] at hfin
  rw [v1] at hbig
  obtain ⟨l1, r1⟩ := Panning.placed_at (m := P.libm) (ps := (o.headD []).map (fun _ => p)) (p := p) (by rw [List.getElem?_map, hy]; rfl) hy
  obtain ⟨l, l2, l3⟩ := h2.2 t 0 s (by omega) (by omega) hs
  obtain ⟨r, r2, r3⟩ := h2.2 t 1 s (by omega) (by omega) hs
  rw [List.getElem?_map, o1, Option.map_some, Option.bind_some] at l2 r2
  cases Option.some.inj (l1.symm.trans l2)
  cases Option.some.inj (r1.symm.trans r2)
  exact ⟨_, _, l3, r3, Panning.heard hyo (Panning.sample_ok _ _ _).1 (Panning.sample_ok _ _ _).2 (pan_sample hq hp hfin hyo hbig)⟩

/-- **C91** for `pan ~r` (partial): at the end of the only track every sample that is heard on the left side without it is placed, with the same power, at the position that `~r`
plays on its own, on the left, at that sample. Missing as in `c91_effect_partial`; the right side of a stereo track, which is dropped (C72), and positions outside -1 to 1. -/
theorem c91_pan_partial (hx : ExtShape P N T) (hxf : ExtFirst P) (hm : Libm32 P.libm) (hq : SqrtClose P.libm) (hN : 0 < N)
    (hr : CleanReach _ e0) (hr' : CleanReach _ f0) (heN : e0.N = N) (hfN : f0.N = N)
    (hset : (⟨f0.samples, f0.sr, f0.bpm, f0.seed⟩ : Env) = ⟨e0.samples, e0.sr, e0.bpm, e0.seed⟩) (τ σ : TableOrder) (code code' : Name)
    (A B : Ast Comp) (hparse : Parse.parse fe code = .ok (some A)) (hparse' : Parse.parse fe code' = .ok (some B))
    {k r : Name} {comps : List Comp} (he : AtTheEnd A B k comps (.pan (.ref r))) (hplain : '.' ∉ r ∧ r ≠ k)
    (hc : CleanProg (glicol P N (Parse.parse fe)) A) (hc' : CleanProg (glicol P N (Parse.parse fe)) B)
    (ha : AllNew e0 A) (ha' : AllNew f0 B) (hu : e0.updateWithCode τ code = .ok (e1, none))
    (hu' : f0.updateWithCode σ code' = .ok (f1, none)) (b : Bool)
    (hb : b = true ↔ ['~', 'i', 'n', 'p', 'u', 't'] ∈ e1.index.map Prod.fst)
    (hb' : b = true ↔ ['~', 'i', 'n', 'p', 'u', 't'] ∈ f1.index.map Prod.fst)
    (hfree : FreeOf ByRole A b)
    (steps steps' : List (HashOrder × List Buf)) (outs outs' : List (List Buf)) (hne : steps ≠ [])
    (hin : steps.map Prod.snd = steps'.map Prod.snd)
    (hext : Leads Comp.refs A b (.at ['~', 'i', 'n', 'p', 'u', 't'] 0) .dest →
      ∀ x, x ∈ steps.map Prod.snd → 2 ≤ x.length ∧ ∀ b, b ∈ x.take 2 → ∀ v, v ∈ b → v.Ok f32)
    (h : Plays e1 steps e2 outs) (h' : Plays f1 steps' f2 outs') (own : List (List Buf))
    (hown : PlaysOnItsOwn P N fe ⟨f0.samples, f0.sr, f0.bpm, f0.seed⟩ b (steps.map Prod.snd) B r own) :
    outs'.length = outs.length ∧ own.length = outs.length ∧
    ∀ t s x p, s < N → sampleAt outs t 0 s = some x → sampleAt own t 0 s = some p → Within (-1) 1 p → x.isFinite = true → |x.val| ≤ 2 ^ 100 →
      ∃ y z, sampleAt outs' t 0 s = some y ∧ sampleAt outs' t 1 s = some z ∧ Panned p.val x y z := by
  obtain ⟨n, num, dry, side, inputs, wet, d1, -, d3, d4, d5, d6, d7, d8, d9⟩ := c91_effect_partial hx hxf hm hN hr hr' heN hfN hset τ σ code code' A B hparse hparse' he
    trivial (fun s hs => by cases List.mem_singleton.mp hs; exact hplain) hc hc' ha ha' hu hu' b hb hb' hfree steps steps' outs outs' hne hin hext h h' (fun _ => own)
    (fun s hs => by cases List.mem_singleton.mp hs; exact hown)
  have hmem : r ∈ (Comp.pan (.ref r)).refs := List.mem_singleton_self _
  have hfirst : firsts (Comp.pan (.ref r)).refs = [r] := rfl
  have htold : toldRefs (Comp.pan (.ref r)) = [r] := rfl
  rw [hfirst, List.map_singleton, List.map_singleton] at d8
  rw [htold, List.map_singleton] at d9
  obtain ⟨s1, s2⟩ := d5 r hmem
  have hdl : outs.length = inputs.length := (Sweep.plays_len h).trans d7.symm
  have hd : dry.length = inputs.length := d3.1.trans hdl
  have hs : (side r).length = inputs.length := by
    obtain ⟨_, _, _, _, _, _, _, ss, _, _, _, _, _, _, _, _, _, _, _, i11, i12⟩ := hown
    have := congrArg List.length i11
    rw [List.length_map, List.length_map] at this
    exact ((s1.1.trans (Sweep.plays_len i12)).trans this).trans d7.symm
  have shape : ∀ {l : List (List Buf)}, (∀ x, x ∈ l → (x.length = 1 ∨ x.length = 2) ∧ ∀ b, b ∈ x → b.length = N ∧ ∀ v, v ∈ b → v.Ok f32) →
      (∀ o, o ∈ l → o ≠ []) ∧ ∀ (o : List Buf) (s : Nat) (x : Fl), o ∈ l → (o.headD [])[s]? = some x → x.Ok f32 := by
    intro l hl
    refine ⟨fun o ho h0 => ?_, fun o s x ho hx => ?_⟩
    · have := (hl o ho).1
      rw [h0] at this
      simp at this
    · obtain ⟨g1, g2⟩ := hl o ho
      cases o with
      | nil => simp at g1
      | cons l rest => exact (g2 l List.mem_cons_self).2 x (List.mem_of_getElem? hx)
  have hw := play_ok (P := P) (N := N) (env := ⟨f0.samples, f0.sr, f0.bpm, f0.seed⟩) (msgs := [.index n, .index (num r)]) (pan_make P N _ (.ref r)) rfl
    (Panning.runs_named (.fin 0) (Ne.symm (d1 r hmem)) dry (side r) inputs hd hs (shape d4).1 (shape s2).1
      (fun t inp ht => by
        obtain ⟨bufs, c1, c2⟩ := d8 t inp ht
        cases c1 with
        | cons h1 hr =>
          cases hr with
          | cons h2 hr =>
            cases hr
            exact ⟨_, _, h1, h2, c2⟩) _ (shaped_fresh N 2 (GNode.prim (P := P) (.pan (arith (.fin 0))))).1)
  cases Except.ok.inj (d9.symm.trans hw)
  have hlen : outs'.length = outs.length := by rw [← d6.1, List.length_zipWith, hd, hs, Nat.min_self, hdl]
  have hol : own.length = outs.length := by rw [← s1.1, hs, hdl]
  refine ⟨hlen, hol, ?_⟩
  intro t s x p hsN hxs hps hp hfin hbig
  have ht : t < outs.length := by
    by_contra hn
    simp [sampleAt, List.getElem?_eq_none (Nat.le_of_not_lt hn)] at hxs
  obtain ⟨y, y1, y2⟩ := d3.2 t 0 s ht (by omega) hsN
  obtain ⟨o, o1, o2⟩ := Option.bind_eq_some_iff.mp y1
  have hy := Panning.left_of o2
  obtain ⟨q, q1, q2⟩ := s1.2 t 0 s (by omega) (by omega) hsN
  obtain ⟨o', o1', o2'⟩ := Option.bind_eq_some_iff.mp q1
  have hq' := Panning.left_of o2'
  cases Option.some.inj (hxs.symm.trans y2)
  cases Option.some.inj (hps.symm.trans q2)
  have hyo := (shape d4).2 o s y (List.mem_of_getElem? o1) hy
  have hqo := (shape s2).2 o' s q (List.mem_of_getElem? o1') hq'
  obtain ⟨v1, v2⟩ := SineOf.zero_add_val hyo
  obtain ⟨w1, w2⟩ := SineOf.zero_add_val hqo
  rw [v2] at hfin
  rw [v1] at hbig
  unfold Within at hp
  rw [w1, w2] at hp
  rw [w1]
  obtain ⟨l1, r1⟩ := Panning.placed_at (m := P.libm) hq' hy
  obtain ⟨l, l2, l3⟩ := d6.2 t 0 s (by omega) (by omega) hsN
  obtain ⟨z, z2, z3⟩ := d6.2 t 1 s (by omega) (by omega) hsN
  rw [List.getElem?_zipWith, o1, o1'] at l2 z2
  simp only [Option.bind_some] at l2 z2
  cases Option.some.inj (l1.symm.trans l2)
  cases Option.some.inj (r1.symm.trans z2)
  exact ⟨_, _, l3, z3, Panning.heard hyo (Panning.sample_ok _ _ _).1 (Panning.sample_ok _ _ _).2 (pan_sample hq hp hfin hyo hbig)⟩

end

/-! ### Examples -/

/-- The platform of the examples, with a square root. -/
def panPlat : Plat := ⟨{ Demo.libm with sqrt := demoRoot }, Demo.plat.ho, Demo.plat.ext⟩

theorem panPlat_meets : ExtShape panPlat 2 (fun _ => True) ∧ ExtFirst panPlat ∧ Libm32 panPlat.libm ∧ SqrtClose panPlat.libm := by
  refine ⟨⟨fun _ _ _ _ _ => trivial, fun _ _ _ _ _ _ => trivial, ?_⟩, ⟨fun _ _ _ _ _ _ _ => rfl, ?_⟩, ⟨fun _ => sg_zero, fun _ _ => sg_zero⟩, demoRoot_close⟩
  · intro s o ins b s' b' _ _ hb h
    cases h
    exact ⟨trivial, rfl, hb⟩
  · exact ⟨fun _ => True, fun _ _ _ _ _ => trivial, fun _ _ _ _ _ _ => trivial, fun _ _ _ _ _ _ _ _ hb h => by
      cases h; exact ⟨trivial, hb⟩⟩

def flatText : Name := c!"~a: imp 22050 >> mul 3\n~p: constsig 0.5\no: ~a >> add 1"

def placeText : Name := c!"~a: imp 22050 >> mul 3\n~p: constsig 0.5\no: ~a >> add 1 >> pan 0.5"

def guideText : Name := c!"~a: imp 22050 >> mul 3\n~p: constsig 0.5\no: ~a >> add 1 >> pan ~p"

def ownText : Name := c!"~p: constsig 0.5\ng: ~p"

def flatProg : Ast Comp :=
  [(c!"~a", [.imp (.num (.fin 22050)), .mul (.num (.fin 3))]), (c!"~p", [.constsig (.fin (mkRat 1 2))]), (c!"o", [.get c!"~a", .add (.num (.fin 1))])]

/-- `flatProg` with `c` at the end of its track. -/
def flatWith (c : Comp) : Ast Comp :=
  [(c!"~a", [.imp (.num (.fin 22050)), .mul (.num (.fin 3))]), (c!"~p", [.constsig (.fin (mkRat 1 2))]), (c!"o", [.get c!"~a", .add (.num (.fin 1)), c])]

def ownProg : Ast Comp := [(c!"~p", [.constsig (.fin (mkRat 1 2))]), (c!"g", [.get c!"~p"])]

theorem flat_end (c : Comp) : AtTheEnd flatProg (flatWith c) c!"o" [.get c!"~a", .add (.num (.fin 1))] c := by
  refine ⟨by simp [flatProg], by simp [flatWith], ?_, by decide, ?_, ?_⟩
  · intro j cs hj
    simp [flatProg, flatWith, hj]
  · exact fun j cs h => (by decide : ∀ e ∈ flatProg, '~' ∉ e.1 → e.1 = c!"o") (j, cs) h
  · intro j cs d r h1 h2 h3 hm
    have := (by decide : ∀ e ∈ flatProg, ∀ c ∈ e.2, ∀ r ∈ c.refs, r = c!"~a") (j, cs) h1 d h2 r h3
    subst this
    exact absurd (Parted.means_plain hm (by decide)) (by decide)

theorem flat_wise {prog : Ast Comp} (h : prog = flatProg ∨ prog = ownProg) : Wise ByRole prog true := by
  refine ⟨⟨fun k => if '~' ∈ k then 0 else 1, ?_⟩, ?_, by rcases h with rfl | rfl <;> decide⟩
  · intro k comps c r h1 h2 h3
    rcases h with rfl | rfl
    · have := (by decide : ∀ e ∈ flatProg, ∀ c ∈ e.2, ∀ r ∈ c.refs, '.' ∉ r ∧ r ∈ flatProg.map Prod.fst ∧
        (if '~' ∈ r then 0 else 1) < (if '~' ∈ e.1 then 0 else 1)) (k, comps) h1 c h2 r h3
      exact ⟨this.1, .inl this.2.1, this.2.2⟩
    · have := (by decide : ∀ e ∈ ownProg, ∀ c ∈ e.2, ∀ r ∈ c.refs, '.' ∉ r ∧ r ∈ ownProg.map Prod.fst ∧
        (if '~' ∈ r then 0 else 1) < (if '~' ∈ e.1 then 0 else 1)) (k, comps) h1 c h2 r h3
      exact ⟨this.1, .inl this.2.1, this.2.2⟩
  · intro k comps i c h1 h2
    rcases h with rfl | rfl
    · simp only [flatProg, List.mem_cons, Prod.mk.injEq, List.not_mem_nil, or_false] at h1
      rcases h1 with ⟨rfl, rfl⟩ | ⟨rfl, rfl⟩ | ⟨rfl, rfl⟩ <;>
        rcases i with _ | _ | i <;> simp at h2 <;> subst h2 <;> first | trivial | (show _ ≤ 1; decide)
    · simp only [ownProg, List.mem_cons, Prod.mk.injEq, List.not_mem_nil, or_false] at h1
      rcases h1 with ⟨rfl, rfl⟩ | ⟨rfl, rfl⟩ <;>
        rcases i with _ | i <;> simp at h2 <;> subst h2 <;> first | trivial | (show _ ≤ 1; decide)

theorem flat_heard (c : Comp) : HeardAs ownProg (flatWith c) c!"g" c!"~p" := by
  have hrefs : ∀ j cs c s, (j, cs) ∈ ownProg → c ∈ cs → s ∈ c.refs → ∀ k, Means s k → k = c!"~p" := by
    intro j cs c s h1 h2 h3 k hm
    have := (by decide : ∀ e ∈ ownProg, ∀ c ∈ e.2, ∀ r ∈ c.refs, '.' ∉ r ∧ r = c!"~p") (j, cs) h1 c h2 s h3
    rw [Parted.means_plain hm this.1]
    exact this.2
  refine ⟨by simp [ownProg], by decide, by decide, ?_, ?_, ?_, ?_⟩
  · exact fun j cs h => (by decide : ∀ e ∈ ownProg, '~' ∉ e.1 → e.1 = c!"g") (j, cs) h
  · intro j cs h hj
    simp only [ownProg, flatWith, List.mem_cons, Prod.mk.injEq, List.not_mem_nil, or_false] at h ⊢
    tauto
  · intro j cs c s h1 h2 h3 hm
    exact absurd (hrefs j cs c s h1 h2 h3 _ hm) (by decide)
  · intro k comps hk hn j cs c s h1 h2 h3 hm
    obtain rfl := hrefs j cs c s h1 h2 h3 _ hm
    simp [ownProg, flatWith] at hk hn
    exact hn hk

theorem no_input {prog : Ast Comp} (h : prog = flatProg ∨ prog = ownProg) : ¬ Leads Comp.refs prog true (.at ['~', 'i', 'n', 'p', 'u', 't'] 0) .dest := by
  intro hl
  obtain ⟨j, comps, c, h1, h2, h3⟩ := Parted.leads_input (by rcases h with rfl | rfl <;> decide) (Parted.plain_of (flat_wise h)) hl
  rcases h with rfl | rfl
  · exact (by decide : ∀ e ∈ flatProg, ∀ c ∈ e.2, ['~', 'i', 'n', 'p', 'u', 't'] ∉ c.refs) (j, comps) h1 c h2 h3
  · exact (by decide : ∀ e ∈ ownProg, ∀ c ∈ e.2, ['~', 'i', 'n', 'p', 'u', 't'] ∉ c.refs) (j, comps) h1 c h2 h3

/-- A track with and without `pan 0.5` and `pan ~p` at its end: the hypotheses of `c89_pan_partial` and `c91_pan_partial` are met. -/
example (fe : Name → Option Fl) :
    ExtShape panPlat 2 (fun _ => True) ∧ ExtFirst panPlat ∧ Libm32 panPlat.libm ∧ SqrtClose panPlat.libm ∧
    CleanReach _ (Engine.new (glicol panPlat 2 (parse fe)) 2) ∧
    parse fe flatText = .ok (some flatProg) ∧ CleanProg (glicol panPlat 2 (parse fe)) flatProg ∧
    AllNew (Engine.new (glicol panPlat 2 (parse fe)) 2) flatProg ∧ FreeOf ByRole flatProg true ∧
    ¬ Leads Comp.refs flatProg true (.at ['~', 'i', 'n', 'p', 'u', 't'] 0) .dest ∧
    (∃ e1 e2, (Engine.new (glicol panPlat 2 (parse fe)) 2).updateWithCode .ident flatText = .ok (e1, none) ∧
      Plays e1 (List.replicate 2 (.rev, [])) e2 (List.replicate 2 [[.fin 4, .fin 1], [.fin 4, .fin 1]]) ∧
      ['~', 'i', 'n', 'p', 'u', 't'] ∈ e1.index.map Prod.fst) ∧
    (∀ text c, (text = placeText ∧ c = .pan (.num (.fin (mkRat 1 2)))) ∨ (text = guideText ∧ c = .pan (.ref c!"~p")) →
      parse fe text = .ok (some (flatWith c)) ∧ AtTheEnd flatProg (flatWith c) c!"o" [.get c!"~a", .add (.num (.fin 1))] c ∧
      CleanProg (glicol panPlat 2 (parse fe)) (flatWith c) ∧ AllNew (Engine.new (glicol panPlat 2 (parse fe)) 2) (flatWith c) ∧
      ∃ e1 e2 outs, (Engine.new (glicol panPlat 2 (parse fe)) 2).updateWithCode .ident text = .ok (e1, none) ∧
        Plays e1 (List.replicate 2 (.ident, [])) e2 outs ∧ ['~', 'i', 'n', 'p', 'u', 't'] ∈ e1.index.map Prod.fst) ∧
    Within (-1) 1 (.fin (mkRat 1 2)) ∧ '.' ∉ c!"~p" ∧ c!"~p" ≠ c!"o" ∧
    PlaysOnItsOwn panPlat 2 fe ⟨[], (Engine.new (glicol panPlat 2 (parse fe)) 2).sr, (Engine.new (glicol panPlat 2 (parse fe)) 2).bpm,
      (Engine.new (glicol panPlat 2 (parse fe)) 2).seed⟩ true (List.replicate 2 []) (flatWith (.pan (.ref c!"~p"))) c!"~p"
      (List.replicate 2 [[.fin (mkRat 1 2), .fin (mkRat 1 2)], [.fin (mkRat 1 2), .fin (mkRat 1 2)]]) := by
  have hn : ∀ prog, AllNew (Engine.new (glicol panPlat 2 (parse fe)) 2) prog :=
    fun prog k comps _ => ⟨[], .inr ⟨rfl, fun a ha => by cases ha⟩, fun _ _ _ ho => by cases ho⟩
  have p1 : parse fe flatText = .ok (some flatProg) := by kernel_rfl
  have p2 : parse fe ownText = .ok (some ownProg) := by kernel_rfl
  refine ⟨panPlat_meets.1, panPlat_meets.2.1, panPlat_meets.2.2.1, panPlat_meets.2.2.2, .new 2, p1, ⟨?_, show _ ∉ flatProg.map Prod.fst by decide⟩, hn _,
    wise_free (glicol_parserWf panPlat 2 fe flatText _ p1) (by decide) (flat_wise (.inl rfl)), no_input (.inl rfl), Demo.playsText_spec (by kernel_rfl), ?_,
    ⟨rfl, by decide +kernel, by decide +kernel⟩, by decide, by decide, ?_⟩
  · have hall : ∀ e ∈ flatProg, Distinct Comp.eq e.2 := by unfold Distinct; decide
    exact fun k c hm => hall (k, c) hm
  · have hc : ∀ text c, (text = placeText ∧ c = .pan (.num (.fin (mkRat 1 2)))) ∨ (text = guideText ∧ c = .pan (.ref c!"~p")) →
        parse fe text = .ok (some (flatWith c)) ∧ (∀ e ∈ flatWith c, Distinct Comp.eq e.2) ∧ playsSome panPlat 2 (parse fe) text (List.replicate 2 (.ident, [])) = true := by
      rintro text c (⟨rfl, rfl⟩ | ⟨rfl, rfl⟩)
      · exact ⟨by kernel_rfl, by unfold Distinct; decide, by kernel_rfl⟩
      · exact ⟨by kernel_rfl, by unfold Distinct; decide, by kernel_rfl⟩
    intro text c h
    obtain ⟨h1, h2, h3⟩ := hc text c h
    obtain ⟨outs, h4⟩ := playsSome_spec h3
    obtain ⟨e1, e2, h5⟩ := Demo.playsText_spec h4
    refine ⟨h1, flat_end c, ⟨fun k c hm => h2 (k, c) hm, ?_⟩, hn _, e1, e2, outs, h5⟩
    show _ ∉ [c!"~a", c!"~p", c!"o"]
    decide
  · obtain ⟨e1, e2, h1, h2, h3⟩ : ∃ e1 e2, (Engine.new (glicol panPlat 2 (parse fe)) 2).updateWithCode .ident ownText = .ok (e1, none) ∧
      Plays e1 (List.replicate 2 (.ident, [])) e2 (List.replicate 2 [[.fin (mkRat 1 2), .fin (mkRat 1 2)], [.fin (mkRat 1 2), .fin (mkRat 1 2)]]) ∧
      ['~', 'i', 'n', 'p', 'u', 't'] ∈ e1.index.map Prod.fst := Demo.playsText_spec (by kernel_rfl)
    refine ⟨_, e1, e2, .ident, ownText, c!"g", ownProg, List.replicate 2 (.ident, []), .new 2, rfl, rfl, p2, flat_heard _, ⟨?_, show _ ∉ ownProg.map Prod.fst by decide⟩,
      hn _, wise_free (glicol_parserWf panPlat 2 fe ownText _ p2) (by decide) (flat_wise (.inr rfl)), h1, ⟨fun _ => h3, fun _ => rfl⟩,
      fun hl => absurd hl (no_input (.inr rfl)), rfl, h2⟩
    have hall : ∀ e ∈ ownProg, Distinct Comp.eq e.2 := by unfold Distinct; decide
    exact fun k c hm => hall (k, c) hm

end Verif.Props
