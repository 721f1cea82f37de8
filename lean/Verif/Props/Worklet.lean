import Verif.Lemmas.Silence
import Verif.Lemmas.Worklet
import Verif.Props.Glicol
import Verif.Props.RingBuf

/-! # From the page to the engine (C58, C59, C60) -/

namespace Verif.Props
open Verif Worklet Parse
open Verif.Spec.Page
open Verif.Spec (Reachable Op ParserWf)

variable {m : Nat} {sched : List Do} {s : Sys} {es : List Ev}

theorem runs_inv (h : Runs m sched s es) : ∃ t, SInv m es t s := by
  obtain ⟨mem, arr, h1, h2, h3⟩ := h
  obtain ⟨s', ls, lt, k1, k2⟩ := srun sched (sinv_init mem arr h1 h2)
  rw [h3] at k1
  cases k1
  exact ⟨lt, by simpa using k2⟩

theorem runs_append (h : Runs m sched s es) {more : List Do} {s' : Sys} {ls : List Ev}
    (h' : Worklet.run s more = .ok (s', ls)) : Runs m (sched ++ more) s' (es ++ ls) := by
  obtain ⟨mem, arr, h1, h2, h3⟩ := h
  exact ⟨mem, arr, h1, h2, Worklet.run_append h3 h'⟩

theorem allSent_nil (m : Nat) : AllSent m [] [] := ⟨rfl, by intro t1 els t2 h; simp at h⟩

theorem runs_fits (h : Runs m sched s es) (hf : Fits m es) : ∃ t, SInv m es t s ∧ AllSent m es t := by
  obtain ⟨mem, arr, h1, h2, h3⟩ := h
  obtain ⟨lt, k1, k2⟩ := allSent_run sched (sinv_init mem arr h1 h2) (allSent_nil m) h3 (by simpa using hf)
  exact ⟨lt, by simpa using k1, by simpa using k2⟩

theorem runs_patient (h : Runs m sched s es) (hf : Patient m es) :
    ∃ t, SInv m es t s ∧ AllSent m es t ∧ Spec.Ring.Patient m t := by
  obtain ⟨mem, arr, h1, h2, h3⟩ := h
  obtain ⟨lt, k1, k2, k3⟩ := patient_run sched (sinv_init mem arr h1 h2) (allSent_nil m)
    (by intro t1 els t2 h; simp at h) h3 (by simpa using hf)
  exact ⟨lt, by simpa using k1, by simpa using k2, by simpa using k3⟩

/-- Whatever the page and the browser do, and however their steps interleave, no step panics. -/
theorem c58_never_panics (m : Nat) (sched : List Do) : ∃ s es, Runs m sched s es := by
  obtain ⟨s', ls, lt, k1, k2⟩ := srun sched (sinv_init (m := m) (List.replicate (m + 1) 'x') (List.replicate m 'x')
    List.length_replicate List.length_replicate)
  exact ⟨s', ls, _, _, List.length_replicate, List.length_replicate, k1⟩

example : ∃ s es, Runs 2048 [.send c!"o: sin 440", .page, .process, .audio, .page, .audio] s es :=
  c58_never_panics _ _

theorem quiet_sent {t : List (RingBuf.Label Char)} (h : SInv m es t s) (hq : Quiet s) : Spec.Ring.sent t = Spec.Ring.returned t := by
  have := h.inv.snt
  rw [hq.1] at this
  exact this

theorem received_mem {x : Name} : ∀ {t : List (RingBuf.Label Char)}, x ∈ Spec.Ring.received t →
    ∃ a out n b, t = a ++ .popRet out n :: b ∧ n ≠ 0 ∧ out.take n = x
  | [], h => by cases h
  | l :: t, h => by
    have hrec : x ∈ Spec.Ring.received t → ∃ a out n b, l :: t = a ++ .popRet out n :: b ∧ n ≠ 0 ∧ out.take n = x := by
      intro h
      obtain ⟨a, out, n, b, rfl, h1, h2⟩ := received_mem h
      exact ⟨l :: a, out, n, b, rfl, h1, h2⟩
    cases l with
    | popRet out n =>
      simp only [Spec.Ring.received] at h
      split at h
      · exact hrec h
      · rcases List.mem_cons.mp h with rfl | h
        · exact ⟨[], out, n, t, rfl, by assumption, rfl⟩
        · exact hrec h
    | _ => exact hrec h

/-- **C58** for texts that are sent one at a time: if no text is sent before all earlier ones have been given
to the engine, and each has between 1 and `m` characters, then in every interleaving of page and worklet the
engine is given the texts as they were sent, in order, and at most one is still on its way. -/
theorem c58_one_at_a_time_partial (h : Runs m sched s es) (hp : Patient m es) :
    given es <+: asked es ∧ (asked es).length ≤ (given es).length + 1 := by
  obtain ⟨t, h1, h2, h3⟩ := runs_patient h hp
  obtain ⟨rest, k1, k2, k3, k4, _, _⟩ := RingBuf.patient_received h1.inv.popsAt h1.inv.retsAt h1.inv.callsAt h1.roomy h3
  rw [h1.giv, ← h2.1]
  rcases k4 with k4 | rfl
  · rw [k4, k1]
    exact ⟨List.prefix_append _ _, by simp; omega⟩
  · rw [List.append_nil] at k1
    rw [← k1]
    have := h1.inv.snt
    cases hq : s.q.prod with
    | idle =>
      rw [hq] at this
      have this : Spec.Ring.sent t = Spec.Ring.returned t := this
      rw [this]
      exact ⟨List.prefix_rfl, by omega⟩
    | _ =>
      rw [hq] at this
      simp only [RingBuf.SentInv] at this
      rw [this]
      exact ⟨List.prefix_append _ _, by simp⟩

/-- **C58**, the text arrives: from every such situation in which no call is going on, the next call of
`process` comes to its end, and then all texts have been given to the engine. -/
theorem c58_arrives_partial (h : Runs m sched s es) (hp : Patient m es) (hq : Quiet s) :
    ∃ k s' ls, Runs m (sched ++ .process :: List.replicate k .audio) s' (es ++ ls) ∧
      Quiet s' ∧ asked ls = [] ∧ given (es ++ ls) = asked es := by
  obtain ⟨t, h1, h2, h3⟩ := runs_patient h hp
  obtain ⟨k, s', lt, ls, k1, k2, k3, k4, k5, k6, k7⟩ := process_quiet h1 hq
  have hasked : asked ls = [] := by
    by_cases hz : Spec.Ring.size t = 0
    · rw [k6 hz]; rfl
    · rw [k7 hz]; rfl
  refine ⟨k, s', ls, runs_append h k1, k3, hasked, ?_⟩
  obtain ⟨rest, j1, j2, j3, j4, _, j6⟩ := RingBuf.patient_received h1.inv.popsAt h1.inv.retsAt h1.inv.callsAt h1.roomy h3
  have hsr := quiet_sent h1 hq
  have hpush : Spec.Ring.pushed t = Spec.Ring.popped t ++ rest.flatten := by
    rw [← RingBuf.accepted_flatten, ← RingBuf.received_flatten, j3, j1, List.flatten_append]
  rw [given_append, h1.giv, ← h2.1, hsr, j1]
  congr 1
  have hcases : rest = [] ∨ ∃ x, rest = [x] := by
    rcases rest with _ | ⟨x, _ | ⟨y, rest⟩⟩
    · exact .inl rfl
    · exact .inr ⟨x, rfl⟩
    · simp at j2
  rcases hcases with rfl | ⟨x, rfl⟩
  · rw [k6 (by unfold Spec.Ring.size; rw [hpush]; simp)]
    rfl
  · have hx : x ≠ [] := j6 x (by rw [j1]; simp)
    have := List.length_pos_iff.mpr hx
    rw [k7 (by unfold Spec.Ring.size; rw [hpush]; simp; omega), hpush, List.drop_left]
    simp [given]

/-- The engine is never given more than `m` characters at once, and never the empty text. -/
theorem given_bounds (h : Runs m sched s es) : ∀ x ∈ given es, x ≠ [] ∧ x.length ≤ m := by
  obtain ⟨t, h1⟩ := runs_inv h
  intro x hx
  rw [h1.giv] at hx
  obtain ⟨a, out, n, b, rfl, hn, rfl⟩ := received_mem hx
  obtain ⟨t', k1, k2, k3, k4, ⟨dst, k5, k6⟩, k7, k8⟩ := h1.inv.popsAt a out n b rfl
  have hd := h1.room dst (by simp [k5])
  constructor
  · intro h0
    rcases List.take_eq_nil_iff.mp h0 with h0 | h0
    · exact hn h0
    · subst h0
      rw [List.length_nil] at k3
      omega
  · rw [List.length_take]
    omega

/-- **C58 does not hold in full**: a text of more than 2048 characters is never given to the engine, and
neither is the empty one, whatever the schedule. -/
theorem c58_long_texts_never_arrive (h : Runs 2048 sched s es) (x : Name) (hx : 2048 < x.length ∨ x = []) :
    x ∉ given es := by
  intro hm
  obtain ⟨h1, h2⟩ := given_bounds h x hm
  rcases hx with hx | hx
  · omega
  · exact h1 hx

/-- Texts sent one after the other, while the browser does not call `process`. -/
theorem burst : ∀ (texts : List Name) {es : List Ev} {t : List (RingBuf.Label Char)} {s : Sys}, SInv m es t s → Quiet s →
    ∃ sched s' lt, Worklet.run s sched = .ok (s', texts.map .asked) ∧ SInv m (es ++ texts.map .asked) (t ++ lt) s' ∧ Quiet s' ∧
      Spec.Ring.popped lt = [] ∧ Spec.Ring.pushed lt = texts.flatten.take (m - Spec.Ring.size t)
  | [], es, t, s, h, hq => ⟨[], s, [], rfl, by simpa using h, hq, rfl, by simp [Spec.Ring.pushed]⟩
  | x :: texts, es, t, s, h, hq => by
    obtain ⟨k, s1, l1, a1, a2, a3, a4, a5⟩ := send_quiet h hq x
    obtain ⟨sched, s2, l2, b1, b2, b3, b4, b5⟩ := burst texts a2 a3
    refine ⟨_, s2, l1 ++ l2, Worklet.run_append a1 b1, by simpa using b2, b3, ?_, ?_⟩
    · rw [RingBuf.popped_append, a4, b4]; rfl
    · have hle := h.inv.inv.le
      rw [RingBuf.pushed_append, a5, b5, List.flatten_cons, List.take_append]
      congr 2
      unfold Spec.Ring.size
      rw [RingBuf.pushed_append, RingBuf.popped_append, a4, a5, List.append_nil, List.length_append, List.length_take]
      unfold Spec.Ring.size
      omega

theorem joined (texts : List Name) (hne : texts.flatten ≠ []) : ∃ sched s,
    Runs 2048 sched s (texts.map .asked ++ [.given (texts.flatten.take 2048)]) ∧ Quiet s := by
  have h0 : Worklet.run (init (List.replicate 2049 'x') (List.replicate 2048 'x')) [] = .ok (_, []) := rfl
  have hr : Runs 2048 [] _ [] := ⟨_, _, List.length_replicate, List.length_replicate, h0⟩
  obtain ⟨sched, s1, lt, a1, a2, a3, a4, a5⟩ := burst texts
    (sinv_init (m := 2048) (List.replicate 2049 'x') (List.replicate 2048 'x') List.length_replicate List.length_replicate) ⟨rfl, rfl⟩
  obtain ⟨k, s', lt', ls, k1, k2, k3, k4, k5, k6, k7⟩ := process_quiet a2 a3
  rw [List.nil_append] at k6 k7
  have a5 : Spec.Ring.pushed lt = texts.flatten.take 2048 := a5
  have hl := List.length_pos_iff.mpr hne
  rw [k7 (by unfold Spec.Ring.size; rw [a4, a5, List.length_take, List.length_nil]; omega), a4, a5] at k1
  exact ⟨_, s', by simpa using runs_append (runs_append hr a1) k1, k3⟩

/-- **C58 does not hold in full**: texts sent before the browser calls `process` again arrive joined to one
text, of which no more than the first 2048 characters are kept. -/
theorem c58_joined_and_cut (texts : List Name) (hne : texts.flatten ≠ []) : ∃ sched s,
    Runs 2048 sched s (texts.map .asked ++ [.given (texts.flatten.take 2048)]) := by
  obtain ⟨sched, s, h, _⟩ := joined texts hne
  exact ⟨sched, s, h⟩

example : ∃ sched s, Runs 2048 sched s ([c!"o: sin 440", c!"o: sin 220"].map .asked ++
    [.given c!"o: sin 440o: sin 220"]) :=
  c58_joined_and_cut [c!"o: sin 440", c!"o: sin 220"] (by decide)

/-- One text, sent and given. -/
theorem one_patient (x : Name) (h : x ≠ []) (hl : x.length ≤ 2048) : Patient 2048 [.asked x, .given x] := by
  intro es1 y es2 e
  rcases es1 with _ | ⟨e1, _ | ⟨e2, _ | ⟨e3, es1⟩⟩⟩ <;> simp at e
  exact ⟨e.1 ▸ h, e.1 ▸ hl, rfl⟩

/-- The hypotheses of `c58_one_at_a_time_partial` and `c58_arrives_partial` can be met. -/
example : ∃ sched s es, Runs 2048 sched s es ∧ Patient 2048 es ∧ Quiet s ∧ asked es = [c!"o: sin 440"] := by
  obtain ⟨sched, s, h, hq⟩ := joined [c!"o: sin 440"] (by decide)
  exact ⟨sched, s, _, h, one_patient c!"o: sin 440" (by decide) (by decide), hq, rfl⟩

/-- Those of `c58_long_texts_never_arrive` too. -/
example : ∃ sched s es, Runs 2048 sched s es ∧ asked es = [List.replicate 3000 'a'] := by
  obtain ⟨sched, s, h, hq⟩ := joined [List.replicate 3000 'a'] (by decide +kernel)
  exact ⟨sched, s, _, h, rfl⟩

/-- The case of two programs: sent one after the other they play 2, as the second says, but sent before the
browser calls `process` again they are joined, and play 3. -/
theorem c58_joined_counterexample (P : Plat) (fe : Name → Option Fl) :
    (∃ sched s, Runs 2048 sched s [.asked c!"a: constsig 1\n", .asked c!"b: constsig 2\n",
      .given c!"a: constsig 1\nb: constsig 2\n"]) ∧
    Demo.Plays P 2 (parse fe) [c!"a: constsig 1\n", c!"b: constsig 2\n"] [] [[.fin 2, .fin 2], [.fin 2, .fin 2]] ∧
    Demo.Plays P 2 (parse fe) [c!"a: constsig 1\nb: constsig 2\n"] [] [[.fin 3, .fin 3], [.fin 3, .fin 3]] :=
  ⟨c58_joined_and_cut [c!"a: constsig 1\n", c!"b: constsig 2\n"] (by decide), Demo.heardText_spec (by kernel_rfl),
    Demo.heardText_spec (by kernel_rfl)⟩

/-! ### Messages -/

/-- `sendMsg` of the page makes every message end with a semicolon, which does not change its meaning. -/
theorem c59_terminated {L : Lang} (msg : Name) :
    (msgText msg).getLast? = some ';' ∧ ∀ e : Engine L, e.sendMsg (msgText msg) = e.sendMsg msg := by
  unfold msgText
  split
  · rename_i h; exact ⟨h, fun _ => rfl⟩
  · refine ⟨by simp, fun e => ?_⟩
    unfold Engine.sendMsg
    simp only [List.filter_append, List.filter_cons, show (!isWhitespace ';') = true from rfl, if_true, List.filter_nil]
    rw [splitOn_snoc]
    simp [splitOn]

theorem fits_groups (h : Runs m sched s es) (hf : Fits m es) : ∃ (t : List (RingBuf.Label Char)) (gs : List (List Name)) (rest : List Name), SInv m es t s ∧ given es = gs.map List.flatten ∧
    asked es = gs.flatten ++ rest ∧ (Quiet s → (Spec.Ring.pushed t).drop (Spec.Ring.popped t).length = rest.flatten) := by
  obtain ⟨t, h1, h2⟩ := runs_fits h hf
  obtain ⟨gs, rest, k1, k2, _⟩ := RingBuf.groups h1.inv.popsAt h1.roomy
  have hw := RingBuf.accepted_whole (allSent_whole h1 h2)
  have hd : (Spec.Ring.pushed t).drop (Spec.Ring.popped t).length = rest.flatten := by
    rw [← RingBuf.accepted_flatten, ← RingBuf.received_flatten, k1, k2, List.flatten_append, List.flatten_flatten, List.drop_left]
  rw [hw] at k2
  have hs := h1.inv.snt
  cases hq : s.q.prod with
  | idle =>
    rw [hq] at hs
    have hs : Spec.Ring.sent t = Spec.Ring.returned t := hs
    exact ⟨t, gs, rest, h1, by rw [h1.giv, k1], by rw [← h2.1, hs, k2], fun _ => hd⟩
  | _ =>
    rw [hq] at hs
    simp only [RingBuf.SentInv] at hs
    refine ⟨t, gs, _, h1, by rw [h1.giv, k1], by rw [← h2.1, hs, k2, List.append_assoc], fun hx => ?_⟩
    rw [hx.1] at hq
    cases hq

/-- **C59** while there is room: if the messages that are on their way never have more than `m` characters
together, then in every interleaving what the engine has been given acts, on every engine, like the first
messages sent, one at a time, in order. -/
theorem c59_messages_act_one_by_one_partial {L : Lang} (h : Runs m sched s es) (hf : Fits m es)
    (hs : ∀ x ∈ asked es, x.getLast? = some ';') : ∃ done rest, asked es = done ++ rest ∧
      ∀ e : Engine L, (given es).foldlM Engine.sendMsg e = done.foldlM Engine.sendMsg e := by
  obtain ⟨t, gs, rest, _, k1, k2, _⟩ := fits_groups h hf
  refine ⟨gs.flatten, rest, k2, fun e => ?_⟩
  rw [k1]
  refine sendMsg_groups gs e ?_
  intro g hg x hx
  exact hs x (by rw [k2]; exact List.mem_append_left _ (List.mem_flatten.mpr ⟨g, hg, hx⟩))

/-- **C59**, the messages arrive: from every such situation in which no call is going on, the next call of
`process` comes to its end, and then all messages have acted. -/
theorem c59_messages_arrive_partial {L : Lang} (h : Runs m sched s es) (hf : Fits m es)
    (hs : ∀ x ∈ asked es, x.getLast? = some ';') (hq : Quiet s) :
    ∃ k s' ls, Runs m (sched ++ .process :: List.replicate k .audio) s' (es ++ ls) ∧ Quiet s' ∧ asked ls = [] ∧
      ∀ e : Engine L, (given (es ++ ls)).foldlM Engine.sendMsg e = (asked es).foldlM Engine.sendMsg e := by
  obtain ⟨t, gs, rest, h1, k1, k2, k3⟩ := fits_groups h hf
  obtain ⟨k, s', lt, ls, a1, a2, a3, a4, a5, a6, a7⟩ := process_quiet h1 hq
  have hg : ∃ g : List Name, ls = g.map .given ∧ g.flatten = rest.flatten := by
    by_cases hz : Spec.Ring.size t = 0
    · refine ⟨[], a6 hz, ?_⟩
      rw [← k3 hq]
      unfold Spec.Ring.size at hz
      symm
      rw [List.flatten_nil, List.drop_eq_nil_iff]
      omega
    · exact ⟨[_], a7 hz, by rw [← k3 hq]; simp⟩
  obtain ⟨g, rfl, hg⟩ := hg
  have hgiv : ∀ g : List Name, given (g.map Ev.given) = g := by
    intro g; induction g with
    | nil => rfl
    | cons x g ih => simp [given, ih]
  have hask : ∀ g : List Name, asked (g.map Ev.given) = [] := by
    intro g; induction g with
    | nil => rfl
    | cons x g ih => simpa [asked] using ih
  have hlast : ∀ x ∈ rest, x.getLast? = some ';' := fun x hx => hs x (by rw [k2]; exact List.mem_append_right _ hx)
  have hlast2 : ∀ g' ∈ gs, ∀ x ∈ g', x.getLast? = some ';' :=
    fun g' hg' x hx => hs x (by rw [k2]; exact List.mem_append_left _ (List.mem_flatten.mpr ⟨g', hg', hx⟩))
  refine ⟨k, s', _, runs_append h a1, a3, hask g, fun e => ?_⟩
  rw [given_append, hgiv, k1, k2, List.foldlM_append, List.foldlM_append, sendMsg_groups gs e hlast2]
  cases gs.flatten.foldlM Engine.sendMsg e with
  | error p => rfl
  | ok e1 =>
    show g.foldlM Engine.sendMsg e1 = rest.foldlM Engine.sendMsg e1
    rw [← sendMsg_flatten rest e1 hlast, ← hg]
    by_cases hz : Spec.Ring.size t = 0
    · have := a6 hz
      rw [List.map_eq_nil_iff] at this
      subst this
      rfl
    · have := a7 hz
      obtain ⟨x, rfl⟩ : ∃ x, g = [x] := by
        have := congrArg List.length this
        rw [List.length_map] at this
        exact List.length_eq_one_iff.mp this
      simp only [List.foldlM_cons, List.foldlM_nil, List.flatten_cons, List.flatten_nil, List.append_nil]
      cases e1.sendMsg x <;> rfl

/-- Two messages sent before the browser calls `process` meet the hypotheses of the two theorems above. -/
example : ∃ sched s es, Runs 2048 sched s es ∧ Fits 2048 es ∧ Quiet s ∧ asked es = [c!"o,0,0,440;", c!"o,0,0,220;"] ∧
    ∀ x ∈ asked es, x.getLast? = some ';' := by
  obtain ⟨sched, s, h, hq⟩ := joined [c!"o,0,0,440;", c!"o,0,0,220;"] (by decide)
  refine ⟨sched, s, _, h, ?_, hq, rfl, by decide +kernel⟩
  intro es1 y es2 e
  rcases es1 with _ | ⟨e1, _ | ⟨e2, _ | ⟨e3, _ | ⟨e4, es1⟩⟩⟩⟩ <;> simp at e
  · obtain ⟨rfl, _⟩ := e
    decide
  · obtain ⟨rfl, rfl, _⟩ := e
    decide

/-- **C59 does not hold in full**: messages beyond the room are cut. After 205 times `o,0,0,440;` before the
browser calls `process` again the engine sets the parameter to 44. -/
theorem c59_cut_counterexample (P : Plat) (N : Nat) (fe : Name → Option Fl) :
    ∃ x, (∃ sched s, Runs 2048 sched s (List.replicate 205 (.asked c!"o,0,0,440;") ++ [.given x])) ∧
      ∀ e : Engine (glicol P N (parse fe)), ∃ f : Except Panic (Engine (glicol P N (parse fe))),
        (List.replicate 205 c!"o,0,0,440;").foldlM Engine.sendMsg e =
          (f >>= fun e1 => e1.deliver c!"o" 0 (.setToNumber 0 (.fin 440))) ∧
        e.sendMsg x = (f >>= fun e1 => e1.deliver c!"o" 0 (.setToNumber 0 (.fin 44))) := by
  have hx : (List.replicate 205 c!"o,0,0,440;").flatten.take 2048 =
      (List.replicate 204 c!"o,0,0,440;").flatten ++ c!"o,0,0,44" := by decide +kernel
  refine ⟨(List.replicate 205 c!"o,0,0,440;").flatten.take 2048, ?_, fun e => ?_⟩
  · have := c58_joined_and_cut (List.replicate 205 c!"o,0,0,440;") (by decide +kernel)
    rw [List.map_replicate] at this
    exact this
  · have hlast : ∀ x ∈ List.replicate 204 c!"o,0,0,440;", x.getLast? = some ';' := by
      intro x hx
      rw [List.eq_of_mem_replicate hx]
      decide
    refine ⟨(List.replicate 204 c!"o,0,0,440;").foldlM Engine.sendMsg e, ?_, ?_⟩
    · rw [List.replicate_succ', List.foldlM_append]
      refine bind_congr fun e1 => ?_
      simp only [List.foldlM_cons, List.foldlM_nil]
      have : e1.sendMsg c!"o,0,0,440;" = e1.deliver c!"o" 0 (.setToNumber 0 (.fin 440)) := by
        rw [← bind_pure (e1.deliver c!"o" 0 (.setToNumber 0 (.fin 440)))]
        kernel_rfl
      rw [this]
      cases e1.deliver c!"o" 0 (.setToNumber 0 (.fin 440)) <;> rfl
    · rw [hx]
      have hsplit : (List.replicate 204 c!"o,0,0,440;").flatten =
          ((List.replicate 203 c!"o,0,0,440;").flatten ++ c!"o,0,0,440") ++ [';'] := by decide +kernel
      rw [← sendMsg_flatten _ e hlast, hsplit, List.append_assoc, List.singleton_append, sendMsg_append]
      refine bind_congr fun e1 => ?_
      have : e1.sendMsg c!"o,0,0,44" = e1.deliver c!"o" 0 (.setToNumber 0 (.fin 44)) := by
        rw [← bind_pure (e1.deliver c!"o" 0 (.setToNumber 0 (.fin 44)))]
        kernel_rfl
      exact this

/-! ### Stopping -/

/-- **C60 does not hold** where `SharedArrayBuffer` is available: what `stop()` sends is never given to the
engine, whatever the schedule; a program sent before it keeps playing. -/
theorem c60_stop_never_arrives (h : Runs 2048 sched s es) : stopText ∉ given es :=
  c58_long_texts_never_arrive h stopText (.inr rfl)

/-- The schedule in which a program and then `stop()` are sent: the engine only gets the program. -/
theorem c60_stop_counterexample (code : Name) (h : code ≠ []) (hl : code.length ≤ 2048) : ∃ sched s,
    Runs 2048 sched s [.asked code, .asked stopText, .given code] := by
  have := c58_joined_and_cut [code, stopText] (by simpa [stopText] using h)
  simpa [stopText, List.take_of_length_le hl] using this

theorem silent_zero (b0 b1 : Buf) : ∀ b ∈ [silent b0, silent b1], ∀ x ∈ b, x = .fin 0 := by
  intro b hb x hx
  simp only [List.mem_cons, List.not_mem_nil, or_false] at hb
  rcases hb with rfl | rfl <;> (simp only [silent, List.mem_map] at hx; obtain ⟨_, _, rfl⟩ := hx; rfl)

example : ∃ sched s, Runs 2048 sched s [.asked c!"o: sin 440", .asked stopText, .given c!"o: sin 440"] :=
  c60_stop_counterexample c!"o: sin 440" (by decide) (by decide)

/-- Calls other than `update`, one after the other, none of which panics. -/
inductive NoUpdate {L : Lang} : Engine L → Engine L → Prop
  | refl (e : Engine L) : NoUpdate e e
  | step {e e1 e2 : Engine L} (op : Op L) : NoUpdate e e1 → (∀ τ code, op ≠ .update τ code) → op.apply e1 = .ok e2 →
      NoUpdate e e2

/-- **C60** where the text reaches the engine (message port): every engine accepts the empty text, and from then
on, whatever else is called but `update`, every block consists of zeros. -/
theorem c60_empty_program_is_silent_partial {P : Plat} {N : Nat} {fe : Name → Option Fl}
    {e : Engine (glicol P N (parse fe))} (hr : Reachable _ e) (τ : TableOrder) :
    ∃ e', e.updateWithCode τ stopText = .ok (e', none) ∧ ∀ e1 e2 ho ins out, NoUpdate e' e1 →
      e1.nextBlock ho ins = .ok (e2, out) → out.length = 2 ∧ ∀ b ∈ out, ∀ x ∈ b, x = (.fin 0 : Fl) := by
  have hL := glicol_parserWf P N fe
  obtain ⟨e', h1, h2, _⟩ := update_empty hL hr τ stopText (by kernel_rfl)
  refine ⟨e', h1, ?_⟩
  intro e1 e2 ho ins out hn hb
  have hr' : Reachable _ e' := .step (.update τ stopText) hr (by simp only [Op.apply, h1]; rfl)
  have key : Reachable _ e1 ∧ e1.graph.edges = [] := by
    clear hb
    induction hn with
    | refl => exact ⟨hr', h2⟩
    | step op _ hop happ ih => exact ⟨.step op ih.1 happ, edges_apply (inv_reachable hL ih.1) hop happ ih.2⟩
  obtain ⟨hr1, he1⟩ := key
  have hI := inv_reachable hL hr1
  obtain ⟨e3, g, d, k2, k3, k4, rfl, rfl⟩ := nextBlock_ok hb
  have hsh := (onlyNodes_copyInputs k2).shape
  have hdest : e3.dest = e1.dest := by rw [(onlyNodes_copyInputs k2).eq]
  have hE : Spec.EdgesLive e3.graph := by
    intro x hx
    rw [hsh.edges, he1] at hx
    cases hx
  obtain ⟨_, _, _, hin⟩ := block_general _ ho e3.graph g e3.dest hE
    ((hsh.live e3.dest).mpr (by rw [hdest]; exact (hI.live e1.dest).mpr (.inl rfl))) k3
  obtain ⟨inputs, d0, d', j1, j2, j3, j4, _⟩ := hin e3.dest (.refl _)
  rw [k4] at j3
  cases j3
  have hins : inputs = [] := by
    cases inputs with
    | nil => rfl
    | cons i inputs =>
      have := ((j1.2 i.1).mp (by simp)).1
      rw [hsh.edges, he1] at this
      cases this
  subst hins
  have hd : d0.node = .prim .sum2 ∧ d0.buffers.length = 2 := by
    have hS : Stays (glicol P N (parse fe)) (fun d => d.node = .prim .sum2 ∧ d.buffers.length = 2) := stays_sum2
    obtain ⟨d1, i1, i2⟩ := (hS.copyInputs k2).2 _ d0 j2
    rw [hdest] at i1
    exact i2 (dest_sum2 hL hr1 d1 i1)
  have j4 : procG P d0.node [] d0.buffers = .ok (d.node, d.buffers) := j4
  rw [hd.1] at j4
  obtain ⟨b0, b1, hbs⟩ : ∃ b0 b1, d0.buffers = [b0, b1] := by
    exact List.length_eq_two.mp hd.2
  rw [hbs] at j4
  have j4 : (Except.ok (GNode.prim .sum2, [silent b0, silent b1]) : Except Panic _) = .ok (d.node, d.buffers) := j4
  have j5 : [silent b0, silent b1] = d.buffers := congrArg Prod.snd (Except.ok.inj j4)
  rw [← j5]
  exact ⟨rfl, silent_zero b0 b1⟩

/-- An engine that plays, as `c60_empty_program_is_silent_partial` assumes. -/
example (P : Plat) (fe : Name → Option Fl) : ∃ e : Engine (glicol P 2 (parse fe)), Reachable _ e ∧
    ∃ e1, e.nextBlock .ident [] = .ok (e1, [[.fin 2, .fin 2], [.fin 2, .fin 2]]) := by
  have h : Demo.Plays P 2 (parse fe) [c!"a: constsig 2"] [] [[.fin 2, .fin 2], [.fin 2, .fin 2]] :=
    Demo.heardText_spec (by kernel_rfl)
  obtain ⟨e, ⟨e1, h1, h2⟩, e', h3⟩ := h
  cases h2
  exact ⟨e, .step (.update .ident c!"a: constsig 2") (.new 2) (by simp only [Op.apply, h1]; rfl), e', h3⟩

end Verif.Props
