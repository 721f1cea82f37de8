import Verif.Props.SineOf
import Verif.Props.Delay

/-!
# A delay at the end of a track

C89 for `delayn`: the left side of the track comes `n` samples later.
-/

namespace Verif.Props
open Verif.Spec Verif.Parse Verif.Double Verif.Part

variable {P : Plat} {N : Nat}

namespace Echo

/-- The left side of each block. -/
def lefts (bs : List (List Buf)) : List Buf := bs.map (·.headD [])

/-- The left output of `delayn` comes from a queue. -/
theorem queue (P : Plat) (k n : Nat) (hn : n ≠ 0) : ∀ (dry : List (List Buf)), (∀ o, o ∈ dry → o ≠ [] ∧ (o.headD []).length = N) →
    ∀ (r : Ring) (out : List Buf), r.Wf → out ≠ [] →
    ∃ wet, runBlocks (procG P) (.prim (.delayn ⟨r, n, [k]⟩)) out (dry.map (fun o => [(k, o)])) = .ok wet ∧
      (∀ o, o ∈ lefts wet → o.length = N) ∧ (lefts wet).flatten = (r.contents ++ (lefts dry).flatten).take (lefts dry).flatten.length
  | [], _, _, _, _, _ => ⟨[], rfl, (fun _ h => nomatch h), by simp [lefts]⟩
  | o :: dry, hl, r, out, hr, ho => by
    obtain ⟨hne, hlen⟩ := hl o List.mem_cons_self
    obtain ⟨x, rest, rfl⟩ := List.exists_cons_of_ne_nil hne
    obtain ⟨y, more, rfl⟩ := List.exists_cons_of_ne_nil ho
    obtain ⟨r', h1, h2, h3⟩ := Ring.run_push hr x
    obtain ⟨wet, g1, g2, g3⟩ := queue P k n hn dry (fun o ho => hl o (List.mem_cons_of_mem _ ho)) r'
      ((r.contents ++ x).take x.length :: (if (x :: rest).length = 1 ∧ more.length = 1 then [(r.contents ++ x).take x.length] else more)) h2 (by simp)
    refine ⟨((r.contents ++ x).take x.length :: (if (x :: rest).length = 1 ∧ more.length = 1 then [(r.contents ++ x).take x.length] else more)) :: wet, ?_, ?_, ?_⟩
    rotate_left 1
    · intro o ho
      rcases List.mem_cons.mp ho with rfl | ho
      · simpa using hlen
      · exact g2 o ho
    · have e : lefts ((x :: rest) :: dry) = x :: lefts dry := rfl
      rw [e, List.flatten_cons, List.length_append, take_two, ← h3, ← g3]
      rfl
    · have e : procG P (.prim (.delayn ⟨r, n, [k]⟩)) [(k, x :: rest)] (y :: more) = .ok (.prim (.delayn ⟨r', n, [k]⟩),
          (r.contents ++ x).take x.length :: (if (x :: rest).length = 1 ∧ more.length = 1 then [(r.contents ++ x).take x.length] else more)) := by
        simp only [procG, procPrim, procDelayN, if_neg hn, chan, List.getElem?_cons_zero, bind, Except.bind, h1, reState]
      simp only [List.map_cons, runBlocks, e, g1]

/-- `delayn 0` leaves the left side as it is. -/
theorem zero (P : Plat) (k : Nat) : ∀ (dry : List (List Buf)), (∀ o, o ∈ dry → o.length = 1 ∨ o.length = 2) →
    ∀ (r : Ring) (out : List Buf), out.length = 2 →
    ∃ wet, runBlocks (procG P) (.prim (.delayn ⟨r, 0, [k]⟩)) out (dry.map (fun o => [(k, o)])) = .ok wet ∧ lefts wet = lefts dry
  | [], _, _, _, _ => ⟨[], rfl, rfl⟩
  | o :: dry, hl, r, out, ho => by
    have hp : (passBufs o out).length = 2 ∧ (passBufs o out).headD [] = o.headD [] := by
      obtain ⟨a, b, rfl⟩ := List.length_eq_two.mp ho
      rcases hl o List.mem_cons_self with h | h
      · obtain ⟨x, rfl⟩ := List.length_eq_one_iff.mp h
        exact ⟨rfl, rfl⟩
      · obtain ⟨x, y, rfl⟩ := List.length_eq_two.mp h
        exact ⟨rfl, rfl⟩
    obtain ⟨wet, g1, g2⟩ := zero P k dry (fun o ho => hl o (List.mem_cons_of_mem _ ho)) r (passBufs o out) hp.1
    refine ⟨passBufs o out :: wet, ?_, ?_⟩
    · have e : procG P (.prim (.delayn ⟨r, 0, [k]⟩)) [(k, o)] out = .ok (.prim (.delayn ⟨r, 0, [k]⟩), passBufs o out) := rfl
      simp only [List.map_cons, runBlocks, e, g1]
    · simp only [lefts, List.map_cons] at g2 ⊢
      rw [g2, hp.2]

/-- The left side of `delayn n`. -/
theorem delayn_left (P : Plat) (N : Nat) (env : Env) (k n : Nat) (dry : List (List Buf))
    (hl : ∀ o, o ∈ dry → (o.length = 1 ∨ o.length = 2) ∧ (o.headD []).length = N) :
    ∃ wet, play P N env (.delayn (.nat n)) [.index k] (dry.map (fun o => [(k, o)])) = .ok wet ∧
      (∀ o, o ∈ lefts wet → o.length = N) ∧ Delayed n (lefts dry).flatten (lefts wet).flatten := by
  by_cases hn : n = 0
  · subst hn
    obtain ⟨wet, g1, g2⟩ := zero P k dry (fun o ho => (hl o ho).1) (DelayN.new 0).buf _
      (shaped_fresh N 2 (GNode.prim (P := P) (.delayn (DelayN.new 0)))).1
    refine ⟨wet, play_ok (delayn_make P N env 0 k).1 (delayn_make P N env 0 k).2 g1, ?_, ?_⟩
    · rw [g2]
      intro o ho
      obtain ⟨x, hx, rfl⟩ := List.mem_map.mp ho
      exact (hl x hx).2
    · rw [g2]
      exact delayed_zero _
  · have hb := delayn_new (n := n) (by omega)
    have hw : (DelayN.new n).buf.Wf := by rw [hb]; exact Ring.wf_zeros (by omega)
    obtain ⟨wet, g1, g2, g3⟩ := queue (N := N) P k n hn dry (fun o ho => ⟨fun h0 => by
        have := (hl o ho).1
        rw [h0] at this
        simp at this, (hl o ho).2⟩) (DelayN.new n).buf
      (fresh N 2 (GNode.prim (P := P) (.delayn (DelayN.new n)))).buffers hw (fun h0 => by
        have := (shaped_fresh N 2 (GNode.prim (P := P) (.delayn (DelayN.new n)))).1
        rw [h0] at this
        cases this)
    refine ⟨wet, play_ok (delayn_make P N env n k).1 (delayn_make P N env n k).2 g1, g2, ?_⟩
    rw [g3, hb, Ring.contents_zeros]
    exact delayed_take n _

/-- The left side of an output, as one list. -/
theorem left_at {sig outs : List (List Buf)} (h : OutputOf N sig outs) (hl : ∀ o, o ∈ lefts sig → o.length = N) {t s : Nat} (ht : t < outs.length) (hs : s < N) :
    ∃ x, (lefts sig).flatten[t * N + s]? = some x ∧ sampleAt outs t 0 s = some (.fin 0 +. x) := by
  obtain ⟨x, x1, x2⟩ := h.2 t 0 s ht (by omega) hs
  refine ⟨x, ?_, x2⟩
  rw [SineOf.flatten_at hl hs (by rw [lefts, List.length_map, h.1]; exact ht), lefts, List.getElem?_map]
  obtain ⟨o, o1, o2⟩ := Option.bind_eq_some_iff.mp x1
  rw [o1]
  match o, o2 with
  | [l], o2 => exact o2
  | [l, r], o2 => exact o2

end Echo

section
variable {fe : Name → Option Fl} {T : P.ext.State → Prop} {e0 e1 e2 f0 f1 f2 : Engine (glicol P N (Parse.parse fe))}

/-- **C89** for `delayn n` (partial): at the end of the only track it makes the left side come `n` samples later, after silence, whatever the size of the blocks. Missing
as in `c89_effect_partial`, and the right side, which is silent when the track is stereo (C18). -/
theorem c89_delay_partial (hx : ExtShape P N T) (hxf : ExtFirst P) (hm : Libm32 P.libm) (hN : 0 < N)
    (hr : CleanReach _ e0) (hr' : CleanReach _ f0) (heN : e0.N = N) (hfN : f0.N = N)
    (hset : (⟨f0.samples, f0.sr, f0.bpm, f0.seed⟩ : Env) = ⟨e0.samples, e0.sr, e0.bpm, e0.seed⟩) (τ σ : TableOrder) (code code' : Name)
    (A B : Ast Comp) (hparse : Parse.parse fe code = .ok (some A)) (hparse' : Parse.parse fe code' = .ok (some B))
    {k : Name} {comps : List Comp} {n : Nat} (he : AtTheEnd A B k comps (.delayn (.nat n)))
    (hc : CleanProg (glicol P N (Parse.parse fe)) A) (hc' : CleanProg (glicol P N (Parse.parse fe)) B)
    (ha : AllNew e0 A) (ha' : AllNew f0 B) (hu : e0.updateWithCode τ code = .ok (e1, none))
    (hu' : f0.updateWithCode σ code' = .ok (f1, none)) (b : Bool)
    (hb : b = true ↔ ['~', 'i', 'n', 'p', 'u', 't'] ∈ e1.index.map Prod.fst)
    (hb' : b = true ↔ ['~', 'i', 'n', 'p', 'u', 't'] ∈ f1.index.map Prod.fst)
    (hfree : FreeOf ByRole A b)
    (steps steps' : List (HashOrder × List Buf)) (outs outs' : List (List Buf)) (hne : steps ≠ [])
    (hin : steps.map Prod.snd = steps'.map Prod.snd)
    (hext : Leads Comp.refs A b (.at ['~', 'i', 'n', 'p', 'u', 't'] 0) .dest →
      ∀ x, x ∈ steps.map Prod.snd → 2 ≤ x.length ∧ ∀ b, b ∈ x.take 2 → ∀ v, v ∈ b → v.Ok f32)
    (h : Plays e1 steps e2 outs) (h' : Plays f1 steps' f2 outs') :
    outs'.length = outs.length ∧ ∀ t s, t < outs'.length → s < N →
      (t * N + s < n → sampleAt outs' t 0 s = some (.fin 0)) ∧
      ∀ t' s', s' < N → t' * N + s' + n = t * N + s → sampleAt outs' t 0 s = sampleAt outs t' 0 s' := by
  obtain ⟨i, dry, wet, h1, h2, h3, h4⟩ := c89_effect_partial hx hxf hm hN hr hr' heN hfN hset τ σ code code' A B hparse hparse' he
    rfl trivial hc hc' ha ha' hu hu' b hb hb' hfree steps steps' outs outs' hne hin hext h h'
  have hl : ∀ o, o ∈ dry → (o.length = 1 ∨ o.length = 2) ∧ (o.headD []).length = N := by
    intro o ho
    obtain ⟨g1, g2⟩ := h3 o ho
    refine ⟨g1, ?_⟩
    cases o with
    | nil => simp at g1
    | cons x rest => exact (g2 x List.mem_cons_self).1
  have hld : ∀ o, o ∈ Echo.lefts dry → o.length = N := by
    intro o ho
    obtain ⟨x, hx, rfl⟩ := List.mem_map.mp ho
    exact (hl x hx).2
  obtain ⟨w, w1, w2, w3⟩ := Echo.delayn_left P N ⟨e0.samples, e0.sr, e0.bpm, e0.seed⟩ i n dry hl
  cases Except.ok.inj (h4.symm.trans w1)
  have hfl := SineOf.flatten_len w2
  have hfd := SineOf.flatten_len hld
  have hlen : outs'.length = outs.length := by
    rw [← h1.1, ← h2.1]
    have := w3.1
    rw [hfl, hfd] at this
    have := Nat.eq_of_mul_eq_mul_right hN this
    simpa [Echo.lefts] using this
  refine ⟨hlen, ?_⟩
  intro t s ht hs
  obtain ⟨x, x1, x2⟩ := Echo.left_at h2 w2 ht hs
  have hi : t * N + s < (Echo.lefts dry).flatten.length := by
    rw [← w3.1]
    exact (List.getElem?_eq_some_iff.mp x1).1
  have hd := w3.2 _ hi
  rw [x1] at hd
  constructor
  · intro hlt
    rw [if_pos hlt] at hd
    cases hd
    rw [x2]
    kernel_rfl
  · intro t' s' hs' heq
    rw [if_neg (by omega), show t * N + s - n = t' * N + s' by omega] at hd
    have ht' : t' < outs.length := by
      rw [← hlen]
      by_contra hc
      have : outs'.length * N ≤ t' * N := Nat.mul_le_mul_right _ (by omega)
      have : (t + 1) * N ≤ outs'.length * N := Nat.mul_le_mul_right _ ht
      rw [Nat.add_one_mul] at this
      omega
    obtain ⟨y, y1, y2⟩ := Echo.left_at h1 hld ht' hs'
    rw [y1] at hd
    cases hd
    rw [x2, y2]

end

/-! ### Examples -/

def echoText : Name := c!"~a: imp 22050 >> mul 3\no: ~a >> add 1 >> delayn 3"

def echoProg : Ast Comp :=
  [(c!"~a", [.imp (.num (.fin 22050)), .mul (.num (.fin 3))]), (c!"o", [.get c!"~a", .add (.num (.fin 1)), .delayn (.nat 3)])]

theorem echo_end : AtTheEnd soloO echoProg c!"o" [.get c!"~a", .add (.num (.fin 1))] (.delayn (.nat 3)) := by
  refine ⟨by simp [soloO], by simp [echoProg], ?_, by decide, ?_, ?_⟩
  · intro j cs hj
    simp [soloO, echoProg, hj]
  · exact louder_end.only
  · exact louder_end.unused

/-- A track with and without `delayn 3` at its end, in blocks of two samples: the hypotheses of `c89_delay_partial` that are not shown beside `c89_volume_partial` are met. The track is
stereo, so the right side is lost. -/
example (fe : Name → Option Fl) :
    parse fe echoText = .ok (some echoProg) ∧ AtTheEnd soloO echoProg c!"o" [.get c!"~a", .add (.num (.fin 1))] (.delayn (.nat 3)) ∧
    CleanProg (glicol notePlat 2 (parse fe)) echoProg ∧ AllNew (Engine.new (glicol notePlat 2 (parse fe)) 2) echoProg ∧
    (∃ e1 e2, (Engine.new (glicol notePlat 2 (parse fe)) 2).updateWithCode .ident soloTextO = .ok (e1, none) ∧
      Plays e1 (List.replicate 3 (.rev, [])) e2 (List.replicate 3 [[.fin 4, .fin 1], [.fin 4, .fin 1]]) ∧
      ['~', 'i', 'n', 'p', 'u', 't'] ∈ e1.index.map Prod.fst) ∧
    ∃ e1 e2, (Engine.new (glicol notePlat 2 (parse fe)) 2).updateWithCode .ident echoText = .ok (e1, none) ∧
      Plays e1 (List.replicate 3 (.ident, [])) e2 [[[.fin 0, .fin 0], [.fin 0, .fin 0]], [[.fin 0, .fin 4], [.fin 0, .fin 0]], [[.fin 1, .fin 4], [.fin 0, .fin 0]]] ∧
      ['~', 'i', 'n', 'p', 'u', 't'] ∈ e1.index.map Prod.fst := by
  refine ⟨by kernel_rfl, echo_end, ⟨?_, show _ ∉ echoProg.map Prod.fst by decide⟩,
    fun k comps _ => ⟨[], .inr ⟨rfl, fun a ha => by cases ha⟩, fun _ _ _ ho => by cases ho⟩, Demo.playsText_spec (by kernel_rfl), Demo.playsText_spec (by kernel_rfl)⟩
  have hall : ∀ e ∈ echoProg, Distinct Comp.eq e.2 := by unfold Distinct; decide
  exact fun k c hm => hall (k, c) hm

end Verif.Props
