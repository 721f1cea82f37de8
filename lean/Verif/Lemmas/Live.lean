import Verif.Spec.Live
import Verif.Lemmas.Loop

/-! # Lemmas about nodes that are changed while they play -/

namespace Verif
open Spec

variable {P : Plat} {N : Nat}

theorem live_ok {env : Env} {c : Comp} {d : NodeData (GNode P) Buf} {refs : List Name} {msgs : List (Msg Fl)} {n : GNode P}
    {steps : List (List (Msg Fl) × Ins)} {outs : List (List Buf)}
    (h1 : makeNode P N env.samples env.sr env.bpm env.seed c = .ok (d, refs)) (h2 : sendMsgs d.node msgs = .ok n)
    (h3 : liveBlocks P n d.buffers steps = .ok outs) : playChanged P N env c msgs steps = .ok outs := by
  simp only [playChanged, h1, h2, h3]

section
variable {μ π σ ι ο : Type}

/-- The items of the blocks, each with the parameters in force. -/
def withPar (upd : π → μ → π) : π → List (μ × Ins × List ι) → List (List (π × ι))
  | _, [] => []
  | p, b :: bs => b.2.2.map (fun x => (upd p b.1, x)) :: withPar upd (upd p b.1) bs

theorem withPar_at {upd : π → μ → π} {p : π} {bs : List (μ × Ins × List ι)} (hs : ∀ b ∈ bs, b.2.2.length = N) (t : Nat) :
    (withPar upd p bs).flatten[t]? =
      ((bs.map fun b => b.2.2).flatten[t]?).map fun x => (((bs.map Prod.fst).take (t / N + 1)).foldl upd p, x) := by
  induction bs generalizing p t with
  | nil => simp [withPar]
  | cons b bs ih =>
    have hb := hs b (by simp)
    simp only [withPar, List.flatten_cons, List.map_cons]
    by_cases ht : t < N
    · rw [List.getElem?_append_left (by simpa [hb] using ht), List.getElem?_append_left (by omega), List.getElem?_map,
        Nat.div_eq_of_lt ht]
      rfl
    · rw [List.getElem?_append_right (by simp [hb]; omega), List.getElem?_append_right (by omega), List.length_map, hb,
        ih (fun b hb => hs b (by simp [hb]))]
      by_cases hN : N = 0
      · subst hN
        have : (bs.map fun b => b.2.2).flatten = [] := by
          rw [List.flatten_eq_nil_iff]
          intro l hl
          obtain ⟨b, hb, rfl⟩ := List.mem_map.mp hl
          exact List.eq_nil_of_length_eq_zero (hs b (by simp [hb]))
        rw [this]
        rfl
      · have : t / N + 1 = (t - N) / N + 1 + 1 := by
          rw [Nat.div_eq_sub_div (by omega) (by omega)]
        rw [this, List.take_succ_cons, List.foldl_cons]

theorem withPar_items {upd : π → μ → π} {p : π} {bs : List (μ × Ins × List ι)} :
    (withPar upd p bs).flatten.map Prod.snd = (bs.map fun b => b.2.2).flatten := by
  induction bs generalizing p with
  | nil => rfl
  | cons b bs ih => simp [withPar, ih, Function.comp_def]

/-- A node that runs a loop in every block, in which only parameters are changed by the messages: the stream on channel `c` is the result of the loop
over the whole stream, with the parameters in force. -/
theorem live_general (wrap : π → σ → GNode P) (send : μ → List (Msg Fl)) (upd : π → μ → π) (f : π → σ → ι → Except Panic (σ × ο))
    (pr : ο → Fl) (inv : π → Prop) (good : List Buf → Prop) (c : Nat) (put : List ο → List Buf → List Buf) (bs : List (μ × Ins × List ι))
    (Hi : ∀ b ∈ bs, ∀ p, inv p → inv (upd p b.1))
    (Hm : ∀ b ∈ bs, ∀ p s, sendMsgs (wrap p s) (send b.1) = .ok (wrap (upd p b.1) s))
    (H : ∀ p s b out, b ∈ bs → inv p → good out → procG P (wrap p s) b.2.1 out = blockOf (wrap p) (fun y => put y out) (runM (f p) s b.2.2))
    (Hput : ∀ p b s r out, b ∈ bs → good out → runM (f p) s b.2.2 = .ok r → good (put r.2 out) ∧ (put r.2 out)[c]? = some (r.2.map pr))
    (p : π) (s : σ) (out : List Buf) (hp : inv p) (hg : good out) :
    chanResult c (liveBlocks P (wrap p s) out (bs.map fun b => (send b.1, b.2.1))) =
      loopResult pr (runM (fun s (q : π × ι) => f q.1 s q.2) s (withPar upd p bs).flatten) := by
  have hmap : ∀ (p : π) (s : σ) (xs : List ι), runM (fun s (q : π × ι) => f q.1 s q.2) s (xs.map fun x => (p, x)) = runM (f p) s xs := by
    intro p s xs
    induction xs generalizing s with
    | nil => rfl
    | cons x xs ih => simp only [List.map_cons, runM, ih]
  induction bs generalizing p s out with
  | nil => rfl
  | cons b bs ih =>
    simp only [List.map_cons, liveBlocks, withPar, List.flatten_cons, runM_append, hmap]
    rw [Hm b (by simp)]
    simp only
    have hp' := Hi b (by simp) p hp
    rw [H _ s b out (by simp) hp' hg]
    cases hr : runM (f (upd p b.1)) s b.2.2 with
    | error e => rfl
    | ok r =>
      obtain ⟨g1, g2⟩ := Hput _ b s r out (by simp) hg hr
      have := ih (fun b hb => Hi b (by simp [hb])) (fun b hb => Hm b (by simp [hb])) (fun p s y o hy => H p s y o (by simp [hy])) (fun p y s r o hy => Hput p y s r o (by simp [hy]))
        (upd p b.1) r.1 (put r.2 out) hp' g1
      simp only [blockOf]
      cases hb : liveBlocks P (wrap (upd p b.1) r.1) (put r.2 out) (bs.map fun b => (send b.1, b.2.1)) with
      | error e =>
        rw [hb] at this
        simp only [chanResult] at this ⊢
        cases hq : runM (fun s (q : π × ι) => f q.1 s q.2) r.1 (withPar upd (upd p b.1) bs).flatten with
        | error e' => rw [hq] at this; exact this
        | ok q => rw [hq] at this; cases this
      | ok os =>
        rw [hb] at this
        simp only [chanResult] at this ⊢
        cases hq : runM (fun s (q : π × ι) => f q.1 s q.2) r.1 (withPar upd (upd p b.1) bs).flatten with
        | error e' => rw [hq] at this; cases this
        | ok q =>
          rw [hq] at this
          simp only [loopResult, Except.ok.injEq] at this ⊢
          simp only [channel, g2, this, List.map_append]

end

/-! ### One setting -/

/-- Parameter `p` after changes. -/
def newValue (p : Nat) (v : Fl) (cs : Changes) : Fl := cs.foldl (fun v e => if e.1 = p then e.2 else v) v

theorem newValue_eq (p : Nat) (v : Fl) (cs : Changes) :
    newValue p v cs = (cs.filterMap fun e => if e.1 = p then some e.2 else none).getLastD v := by
  unfold newValue
  induction cs generalizing v with
  | nil => rfl
  | cons e cs ih =>
    rw [List.foldl_cons, ih, List.filterMap_cons]
    by_cases h : e.1 = p
    · simp only [h, if_true]
      rw [List.getLastD_cons]
    · simp only [h, if_false]

theorem getLastD_append' {α : Type} (a b : List α) (v : α) : (a ++ b).getLastD v = b.getLastD (a.getLastD v) := by
  induction a generalizing v with
  | nil => rfl
  | cons x a ih => rw [List.cons_append, List.getLastD_cons, List.getLastD_cons, ih]

theorem inEffect_fold {α : Type} (v : α) (l : List (List α)) : l.foldl (fun v x => x.getLastD v) v = l.flatten.getLastD v := by
  induction l generalizing v with
  | nil => rfl
  | cons x l ih => rw [List.foldl_cons, ih, List.flatten_cons, getLastD_append']

/-- The parameter in force is the last value that was set. -/
theorem setting_eq (p : Nat) (v : Fl) (cs : List Changes) (k : Nat) :
    (cs.take (k + 1)).foldl (newValue p) v = setting p v cs k := by
  unfold setting inEffect
  rw [← List.map_take, ← inEffect_fold, List.foldl_map]
  congr 1
  funext v cs
  exact newValue_eq p v cs

theorem newValue_mem (q : Fl → Prop) {p : Nat} {v : Fl} {cs : Changes} (hv : q v) (hc : ∀ e ∈ cs, e.1 = p → q e.2) : q (newValue p v cs) := by
  unfold newValue
  induction cs generalizing v with
  | nil => exact hv
  | cons e cs ih =>
    rw [List.foldl_cons]
    refine ih ?_ fun e he => hc e (by simp [he])
    split
    · next h => exact hc e (by simp) h
    · exact hv

theorem setting_mem (q : Fl → Prop) {p : Nat} {v : Fl} {cs : List Changes} (hv : q v) (hc : ∀ c ∈ cs, ∀ e ∈ c, e.1 = p → q e.2) (k : Nat) :
    q (setting p v cs k) := by
  rw [← setting_eq]
  have : ∀ c ∈ cs.take (k + 1), ∀ e ∈ c, e.1 = p → q e.2 := fun c h => hc c (List.mem_of_mem_take h)
  revert this
  generalize cs.take (k + 1) = l
  intro hc
  induction l generalizing v with
  | nil => exact hv
  | cons c l ih =>
    rw [List.foldl_cons]
    exact ih (newValue_mem q hv (hc c (by simp))) fun c h => hc c (by simp [h])

/-- Messages to a node with settings. -/
theorem send_changes {π : Type} {wrap : π → GNode P} {upd : π → Nat × Fl → π}
    (h : ∀ p e, msgG P (wrap p) (.setToNumber e.1 e.2) = .ok (wrap (upd p e))) (p : π) (cs : Changes) :
    sendMsgs (wrap p) (changeMsgs cs) = .ok (wrap (cs.foldl upd p)) := by
  induction cs generalizing p with
  | nil => rfl
  | cons e cs ih =>
    rw [changeMsgs, List.map_cons, sendMsgs, h]
    exact ih _

/-- Messages to a node with one setting. -/
theorem send_one {wrap : Fl → GNode P} (h0 : ∀ p v, msgG P (wrap p) (.setToNumber 0 v) = .ok (wrap v))
    (h1 : ∀ p i v, msgG P (wrap p) (.setToNumber (i + 1) v) = .ok (wrap p)) (p : Fl) (cs : Changes) :
    sendMsgs (wrap p) (changeMsgs cs) = .ok (wrap (newValue 0 p cs)) := by
  refine send_changes (upd := fun v e => if e.1 = 0 then e.2 else v) (fun p e => ?_) p cs
  obtain ⟨i, v⟩ := e
  cases i with
  | zero => exact h0 p v
  | succ i => exact h1 p i v

/-- Two settings. -/
def newPair (p : Fl × Fl) (cs : Changes) : Fl × Fl := (newValue 0 p.1 cs, newValue 1 p.2 cs)

theorem pair_eq (p : Fl × Fl) (cs : List Changes) (k : Nat) :
    (cs.take (k + 1)).foldl newPair p = (setting 0 p.1 cs k, setting 1 p.2 cs k) := by
  rw [← setting_eq, ← setting_eq]
  generalize cs.take (k + 1) = l
  induction l generalizing p with
  | nil => rfl
  | cons c l ih => rw [List.foldl_cons, ih]; rfl

theorem send_pair {wrap : Fl × Fl → GNode P} (h0 : ∀ p v, msgG P (wrap p) (.setToNumber 0 v) = .ok (wrap (v, p.2)))
    (h1 : ∀ p v, msgG P (wrap p) (.setToNumber 1 v) = .ok (wrap (p.1, v)))
    (h2 : ∀ p i v, msgG P (wrap p) (.setToNumber (i + 2) v) = .ok (wrap p)) (p : Fl × Fl) (cs : Changes) :
    sendMsgs (wrap p) (changeMsgs cs) = .ok (wrap (newPair p cs)) := by
  induction cs generalizing p with
  | nil => rfl
  | cons e cs ih =>
    obtain ⟨i, v⟩ := e
    rw [changeMsgs, List.map_cons, sendMsgs]
    match i with
    | 0 => rw [h0]; exact ih _
    | 1 => rw [h1]; exact ih _
    | i + 2 => rw [h2]; exact ih _

end Verif
