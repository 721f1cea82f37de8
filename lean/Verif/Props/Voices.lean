import Verif.Lemmas.Inputs
import Verif.Lemmas.Count
import Verif.Spec.Voices

/-! # Voices of synthesizers (C38) -/

namespace Verif.Props
open Spec

/-! ### The two lists -/

/-- A voice is dropped. -/
def gone (dur step : Nat) (v : SVoice) : Bool := !decide (step - v.start ≤ dur)

theorem synthVoices_eq (amp : Nat → Fl) (dur sr step : Nat) (vs : List SVoice) (out : Fl) :
    synthVoices amp dur sr step vs out =
      ((vs.filter (fun v => !gone dur step v)).map (fun v => { v with phase := voicePhase sr v }),
       (vs.filter (fun v => !gone dur step v)).foldl
        (fun o v => o +. amp (step - v.start) *. (v.phase *. .fin 2 -. .fin 1) *. Fl.lit f32 (1 / 10)) out) := by
  induction vs generalizing out with
  | nil => rfl
  | cons v vs ih =>
    by_cases h : step - v.start ≤ dur
    · have hg : gone dur step v = false := by rw [gone, decide_eq_true h]; rfl
      simp only [synthVoices, h, if_true, ih, List.filter_cons, hg, Bool.not_false, List.map_cons, List.foldl_cons]
    · have hg : gone dur step v = true := by rw [gone, decide_eq_false h]; rfl
      simp only [synthVoices, h, if_false, ih, List.filter_cons, hg, Bool.not_true, Bool.false_eq_true]

/-- The indices of the voices that are dropped, from `i` on. -/
def goneAt (dur step : Nat) : Nat → List SVoice → List Nat
  | _, [] => []
  | i, v :: vs => if gone dur step v then i :: goneAt dur step (i + 1) vs else goneAt dur step (i + 1) vs

theorem rawVoices_eq (amp : Nat → Fl) (dur sr step i : Nat) (vs : List SVoice) (out : Fl) :
    rawVoices amp dur sr step i (vs.map (fun v => (v.start, v.freq))) (vs.map SVoice.phase) out =
      (vs.map (fun v => if gone dur step v then v.phase else voicePhase sr v), goneAt dur step i vs,
        (synthVoices amp dur sr step vs out).2) := by
  induction vs generalizing i out with
  | nil => rfl
  | cons v vs ih =>
    by_cases h : step - v.start ≤ dur
    · simp only [List.map_cons, rawVoices, h, if_true, ih, goneAt, synthVoices, gone, decide_true, Bool.not_true, voicePhase]
      simp
    · simp only [List.map_cons, rawVoices, h, if_false, ih, goneAt, synthVoices, gone, decide_false, Bool.not_false]
      simp

theorem removeVoices_eq (dur step : Nat) (vs : List SVoice) (a0 : List (Nat × Fl)) (b0 : List Fl) (f : SVoice → Nat × Fl)
    (g : SVoice → Fl) (hb : b0.length = a0.length) :
    removeVoices (goneAt dur step a0.length vs) (a0 ++ vs.map f, b0 ++ vs.map g) =
      .ok (a0 ++ (vs.filter (fun v => !gone dur step v)).map f, b0 ++ (vs.filter (fun v => !gone dur step v)).map g) := by
  induction vs generalizing a0 b0 with
  | nil => simp [goneAt, removeVoices]
  | cons v vs ih =>
    have := ih (a0 ++ [f v]) (b0 ++ [g v]) (by simp [hb])
    simp only [List.length_append, List.length_cons, List.length_nil, Nat.zero_add, List.append_assoc, List.singleton_append] at this
    by_cases h : gone dur step v = true
    · simp only [goneAt, h, if_true, removeVoices, List.map_cons, this, bind, Except.bind, vecRemove]
      rw [if_pos (by simp), if_pos (by simp [hb])]
      simp only [List.filter_cons, h, Bool.not_true, Bool.false_eq_true, if_false, Except.ok.injEq, Prod.mk.injEq]
      constructor
      · rw [List.eraseIdx_append_of_length_le (le_refl _)]; simp
      · rw [List.eraseIdx_append_of_length_le (le_of_eq hb), hb]; simp
    · simp only [goneAt, h, List.map_cons, List.filter_cons]
      exact this

/-- C38, the lists: whatever voices sound, the two lists stay in step. Of a list of voices the loops over the list of
starts and the list of phases keep exactly the voices that have not ended, each with its own start, frequency and phase, in
the same order, and do not panic. -/
theorem c38_lists (amp : Nat → Fl) (dur sr step : Nat) (vs : List SVoice) :
    ∃ vs' : List SVoice, ∃ y, rawStep amp dur sr step (vs.map (fun v => (v.start, v.freq)), vs.map SVoice.phase) =
        .ok ((vs'.map (fun v => (v.start, v.freq)), vs'.map SVoice.phase), y) ∧
      synthVoices amp dur sr step vs (.fin 0) = (vs', y) ∧
      vs'.map (fun v => (v.start, v.freq)) =
        (vs.map (fun v => (v.start, v.freq))).filter (fun p => decide (step - p.1 ≤ dur)) := by
  refine ⟨_, _, ?_, rfl, ?_⟩
  · have h := removeVoices_eq dur step vs [] [] (fun v => (v.start, v.freq))
      (fun v => if gone dur step v then v.phase else voicePhase sr v) rfl
    simp only [List.nil_append, List.length_nil] at h
    simp only [rawStep, rawVoices_eq, bind, Except.bind, h, Except.ok.injEq, Prod.mk.injEq, and_true]
    rw [synthVoices_eq]
    simp only [List.map_map]
    refine ⟨List.map_congr_left (fun v _ => rfl), List.map_congr_left (fun v hv => ?_)⟩
    have := (List.mem_filter.mp hv).2
    simp only [Bool.not_eq_true'] at this
    simp [this]
  · rw [synthVoices_eq, List.filter_map]
    simp only [List.map_map, Function.comp_def, gone, Bool.not_not]

/-- Of three voices the one in the middle has ended. -/
example : (rawStep (fun _ => .fin 1) 10 100 20
    ([⟨15, .fin 50, .fin (1 / 2)⟩, ⟨5, .fin 50, .fin 1⟩, ⟨20, .fin 25, .fin 0⟩].map (fun v : SVoice => (v.start, v.freq)),
      [⟨15, .fin 50, .fin (1 / 2)⟩, ⟨5, .fin 50, .fin 1⟩, ⟨20, .fin 25, .fin 0⟩].map SVoice.phase)).map Prod.fst =
    .ok ([(15, .fin 50), (20, .fin 25)], [.fin 1, .fin (1 / 4)]) := by
  decide +kernel

/-! ### What is heard -/

/-- The voice of a note at time `t`. -/
def voiceOf (sr t : Nat) (p : Nat × Fl) : SVoice := ⟨p.1, p.2, rampAt (p.2 /. Fl.ofNat f32 sr) (t - p.1)⟩

/-- The voices before time `t`. -/
def voicesBefore (starts : Nat → List Fl) (dur sr : Nat) : Nat → List SVoice
  | 0 => []
  | t + 1 => (sounding starts dur t).map (voiceOf sr (t + 1))

theorem sounding_mem {starts : Nat → List Fl} {dur t : Nat} {p : Nat × Fl} (h : p ∈ sounding starts dur t) : p.1 ≤ t := by
  simp only [sounding, List.mem_flatMap, List.mem_range] at h
  obtain ⟨u, hu, hp⟩ := h
  split at hp
  · simp only [List.mem_map] at hp
    obtain ⟨f, _, rfl⟩ := hp
    simp only; omega
  · cases hp

theorem sounding_succ (starts : Nat → List Fl) (dur t : Nat) :
    sounding starts dur (t + 1) =
      (sounding starts dur t).filter (fun p => decide (t + 1 - p.1 ≤ dur)) ++ (starts (t + 1)).map (fun f => (t + 1, f)) := by
  have : ∀ l : List Nat, (l.flatMap (fun u => if t ≤ u + dur then (starts u).map (fun f => (u, f)) else [])).filter
      (fun p => decide (t + 1 - p.1 ≤ dur)) =
      l.flatMap (fun u => if t + 1 ≤ u + dur then (starts u).map (fun f => (u, f)) else []) := by
    intro l
    induction l with
    | nil => rfl
    | cons u l ih =>
      rw [List.flatMap_cons, List.flatMap_cons, List.filter_append, ih]
      congr 1
      by_cases h : t + 1 ≤ u + dur
      · rw [if_pos h, if_pos (by omega), List.filter_eq_self]
        intro p hp
        simp only [List.mem_map] at hp
        obtain ⟨f, _, rfl⟩ := hp
        simp only [decide_eq_true_eq]; omega
      · rw [if_neg h]
        split
        · rw [List.filter_eq_nil_iff]
          intro p hp
          simp only [List.mem_map] at hp
          obtain ⟨f, _, rfl⟩ := hp
          simp only [decide_eq_true_eq]; omega
        · rfl
  conv_lhs => unfold sounding
  rw [List.range_succ, List.flatMap_append, ← this]
  simp [sounding]

theorem voices_alive (starts : Nat → List Fl) (dur sr t : Nat) :
    (voicesBefore starts dur sr t ++ (starts t).map (fun f => (⟨t, f, .fin 0⟩ : SVoice))).filter (fun v => !gone dur t v) =
      (sounding starts dur t).map (voiceOf sr t) := by
  have hnew : ((starts t).map (fun f => (⟨t, f, .fin 0⟩ : SVoice))).filter (fun v => !gone dur t v) =
      ((starts t).map (fun f => (t, f))).map (voiceOf sr t) := by
    rw [List.filter_eq_self.mpr, List.map_map]
    · apply List.map_congr_left
      intro f _
      simp [voiceOf, rampAt]
    · intro v hv
      simp only [List.mem_map] at hv
      obtain ⟨f, _, rfl⟩ := hv
      simp [gone]
  rw [List.filter_append, hnew]
  cases t with
  | zero => simp [voicesBefore, sounding]
  | succ t =>
    rw [sounding_succ, List.map_append]
    congr 1
    rw [voicesBefore, List.filter_map]
    congr 1
    apply List.filter_congr
    intro p _
    simp only [Function.comp_def, gone, voiceOf, Bool.not_not]
    rfl

theorem voices_step (amp : Nat → Fl) (starts : Nat → List Fl) (dur sr t : Nat) :
    synthVoices amp dur sr t (voicesBefore starts dur sr t ++ (starts t).map (fun f => (⟨t, f, .fin 0⟩ : SVoice))) (.fin 0) =
      (voicesBefore starts dur sr (t + 1), voicesAt amp sr (sounding starts dur t) t) := by
  rw [synthVoices_eq, voices_alive]
  simp only [Prod.mk.injEq, voicesBefore, List.map_map, List.foldl_map]
  constructor
  · apply List.map_congr_left
    intro p hp
    have := sounding_mem hp
    simp only [Function.comp_def, voiceOf, voicePhase]
    rw [show t + 1 - p.1 = (t - p.1) + 1 by omega]
    rfl
  · rfl

/-- The state of the synthesizer before time `t`. -/
def msgState (att dec : Fl) (sr : Nat) (events : List (Nat × Fl)) (starts : Nat → List Fl) (t : Nat) : MsgSynth :=
  ⟨voicesBefore starts (synthDur att dec sr) sr t, att, dec, events, sr, t, []⟩

theorem msgSynth_run (m : Libm) (att dec : Fl) (sr : Nat) (events : List (Nat × Fl)) (starts : Nat → List Fl) (t : Nat)
    (xs : List Fl) (h : ∀ u, t ≤ u → u < t + xs.length →
      starts u = (events.filter (fun e => e.1 == u)).map (fun e => midiFreq m e.2)) :
    run (msgSynthStep m) (msgState att dec sr events starts t) xs =
      (msgState att dec sr events starts (t + xs.length), (List.range xs.length).map (fun j =>
        voicesAt (msgAmp att dec sr) sr (sounding starts (synthDur att dec sr) (t + j)) (t + j))) := by
  induction xs generalizing t with
  | nil => rfl
  | cons x xs ih =>
    have h0 := h t (le_refl _) (by simp)
    have := ih (t + 1) (fun u h1 h2 => h u (by omega) (by simp only [List.length_cons]; omega))
    have hs : msgSynthStep m (msgState att dec sr events starts t) x = (msgState att dec sr events starts (t + 1),
        voicesAt (msgAmp att dec sr) sr (sounding starts (synthDur att dec sr) t) t) := by
      have hv := voices_step (msgAmp att dec sr) starts (synthDur att dec sr) sr t
      rw [h0, List.map_map] at hv
      simp only [msgSynthStep, msgState, msgStarts]
      rw [show (List.map (fun e => ({ start := t, freq := midiFreq m e.2, phase := Fl.fin 0 } : SVoice))
        (List.filter (fun e => e.1 == t) events)) = (List.map ((fun f => { start := t, freq := f, phase := Fl.fin 0 }) ∘
          fun e => midiFreq m e.2) (List.filter (fun e => e.1 == t) events)) from rfl, hv]
    simp only [run, hs, this, List.length_cons, Prod.mk.injEq]
    refine ⟨by congr 1; omega, ?_⟩
    rw [List.range_succ_eq_map]
    simp [List.map_map, Function.comp_def, Nat.add_assoc, Nat.add_comm 1]

theorem splitArrow_plain {b : Name} (h : '=' ∉ b) : splitArrow b = [b] := by
  induction b with
  | nil => rfl
  | cons c cs ih =>
    simp only [List.mem_cons, not_or] at h
    have hc : c ≠ '=' := fun e => h.1 e.symm
    rw [splitArrow]
    · rw [ih h.2]
    · intro cs' e; simp_all

theorem splitArrow_two {a b : Name} (ha : '=' ∉ a) (hb : '=' ∉ b) : splitArrow (a ++ '=' :: '>' :: b) = [a, b] := by
  induction a with
  | nil => simp [splitArrow, splitArrow_plain hb]
  | cons c cs ih =>
    simp only [List.mem_cons, not_or] at ha
    have hc : c ≠ '=' := fun e => ha.1 e.symm
    rw [List.cons_append, splitArrow]
    · rw [ih ha.2]
    · intro cs' e; simp_all

theorem msgSynth_msg {P : Plat} {s : MsgSynth} {m : Msg Fl} {e : Nat × Fl} (h : NoteMsg s.sr m e) :
    msgG P (.prim (.msgSynth s)) m = .ok (.prim (.msgSynth { s with events := s.events ++ [e] })) := by
  obtain ⟨text, a, b, x, rfl, h1, h2, h3, h4, h5, h6⟩ := h
  obtain ⟨n, v⟩ := e
  simp only at h5 h6
  simp only [msgG, msgPrim, MsgSynth.msg, msgEvent, h1, splitArrow_two h2 h3, parseOrPanic, h4, h5, bind, Except.bind,
    Functor.map, Except.map, h6]

theorem msgSynth_msgs {P : Plat} {sr : Nat} {s : MsgSynth} (hs : s.sr = sr) {ms : List (Msg Fl)} {es : List (Nat × Fl)}
    (h : List.Forall₂ (NoteMsg sr) ms es) :
    sendMsgs (P := P) (.prim (.msgSynth s)) ms = .ok (.prim (.msgSynth { s with events := s.events ++ es })) := by
  induction h generalizing s with
  | nil => simp [sendMsgs]
  | cons h _ ih =>
    rw [sendMsgs, msgSynth_msg (hs ▸ h)]
    simp only
    rw [ih (by exact hs)]
    simp

theorem msgSynth_perform (P : Plat) (N : Nat) (att dec : Fl) (sr : Nat) (pre : List (List (Nat × Fl)))
    (bs : List (List (Msg Fl) × Ins)) (es : List (List (Nat × Fl)))
    (h : List.Forall₂ (fun b e => List.Forall₂ (NoteMsg sr) b.1 e) bs es) (out : Buf) (ho : out.length = N) :
    ∃ outs, performBlocks (P := P) (.prim (.msgSynth (msgState att dec sr pre.flatten (noteStarts P.libm N (pre ++ es)) (pre.length * N))))
        [out] bs = .ok outs ∧
      channel 0 outs = some ((List.range (bs.length * N)).map (fun j => voicesAt (msgAmp att dec sr) sr
        (sounding (noteStarts P.libm N (pre ++ es)) (synthDur att dec sr) (pre.length * N + j)) (pre.length * N + j))) := by
  induction h generalizing pre out with
  | nil => exact ⟨[], rfl, by simp [channel]⟩
  | @cons b e bs es hb _ ih =>
    have hrun := msgSynth_run P.libm att dec sr (pre.flatten ++ e) (noteStarts P.libm N (pre ++ e :: es)) (pre.length * N) out
      (fun u h1 h2 => by
        rw [ho] at h2
        have hk : u / N = pre.length := by
          have hN : 0 < N := by omega
          rw [Nat.div_eq_iff hN]
          constructor
          · rw [Nat.mul_comm] at h1; rw [Nat.mul_comm]; omega
          · omega
        unfold noteStarts
        rw [hk, List.take_append]
        simp [List.take_of_length_le, midiFreq, noteFreq]
        rfl)
    rw [ho] at hrun
    obtain ⟨o, o1, o2⟩ := ih (pre ++ [e]) ((List.range N).map (fun j =>
        voicesAt (msgAmp att dec sr) sr (sounding (noteStarts P.libm N (pre ++ e :: es)) (synthDur att dec sr)
          (pre.length * N + j)) (pre.length * N + j))) (by simp)
    rw [List.length_append, List.length_singleton, List.append_assoc, List.singleton_append, Nat.add_mul, Nat.one_mul] at o1 o2
    refine ⟨[(List.range N).map (fun j =>
        voicesAt (msgAmp att dec sr) sr (sounding (noteStarts P.libm N (pre ++ e :: es)) (synthDur att dec sr)
          (pre.length * N + j)) (pre.length * N + j))] :: o, ?_, ?_⟩
    · rw [performBlocks, msgSynth_msgs (s := msgState att dec sr pre.flatten (noteStarts P.libm N (pre ++ e :: es)) (pre.length * N)) rfl hb]
      simp only [msgState] at hrun o1 ⊢
      simp only [procG, procPrim, procMsgSynth, reState, hrun]
      simp only [List.flatten_append, List.flatten_singleton] at o1
      simp only [Functor.map, Except.map, o1]
    · simp only [channel, o2, List.getElem?_cons_zero, Option.some.injEq]
      rw [List.length_cons, Nat.add_mul, Nat.one_mul, Nat.add_comm (bs.length * N) N, List.range_add, List.map_append, List.map_map]
      congr 1
      apply List.map_congr_left
      intro j _
      simp only [Function.comp_def, Nat.add_assoc]

/-- C38, what is heard: whatever notes are asked for before whatever blocks, each note starts at its time (if it is not
past) and sounds for the time of attack and decay; the output is the sum of the notes that sound, and what a note adds
depends only on its pitch and on the time since its start, not on the other notes nor on the messages. -/
theorem c38_msgsynth (P : Plat) (env : Env) (sym : Name) (att dec : Fl) (hs : env.sr ≤ 2 ^ 24)
    (hd : (att +. dec).isFinite = true) (hd0 : 0 ≤ (att +. dec).val) (hd1 : (att +. dec).val ≤ 2 ^ 30) :
    ∃ (amp : Nat → Fl) (dur : Nat), InSamples env.sr (att +. dec) dur ∧
      ∀ (N : Nat) (bs : List (List (Msg Fl) × Ins)) (evs : List (List (Nat × Fl))),
        List.Forall₂ (fun b e => List.Forall₂ (NoteMsg env.sr) b.1 e) bs evs →
        ∃ outs ys, perform P N env (.msgsynth sym att dec) bs = .ok outs ∧ channel 0 outs = some ys ∧
          ys.length = bs.length * N ∧
          ∀ t, t < ys.length → ys[t]? = some (voicesAt amp env.sr (sounding (noteStarts P.libm N evs) dur t) t) := by
  refine ⟨msgAmp att dec env.sr, synthDur att dec env.sr, (secToSamples_close hs hd hd0 hd1).1, fun N bs evs h => ?_⟩
  obtain ⟨o, o1, o2⟩ := msgSynth_perform P N att dec env.sr [] bs evs h (List.replicate N (.fin 0)) (by simp)
  simp only [List.nil_append, List.length_nil, Nat.zero_mul, Nat.zero_add] at o1 o2
  refine ⟨o, _, ?_, o2, by simp, fun t ht => ?_⟩
  · have hm : makeNode P N env.samples env.sr env.bpm env.seed (.msgsynth sym att dec) =
      .ok (fresh N 1 (.prim (.msgSynth (MsgSynth.new att dec env.sr))), []) := rfl
    rw [perform, hm]
    simp only [fresh]
    have o1' : performBlocks (P := P) (.prim (.msgSynth (MsgSynth.new att dec env.sr)))
      (List.replicate 1 (List.replicate N (.fin 0))) bs = .ok o := o1
    rw [o1']
  · simp only [List.length_map, List.length_range] at ht
    simp [ht]

/-- `0.5=>60` before the first of two blocks and `1 => 62.5` before the second, at 100 Hz; attack 0.01 and decay 0.1. -/
example : List.Forall₂ (fun (b : List (Msg Fl) × Ins) e => List.Forall₂ (NoteMsg 100) b.1 e)
      [([.setToSymbol 3 ['0', '.', '5', '=', '>', '6', '0']], []), ([.setToSymbol 3 ['1', ' ', '=', '>', ' ', '6', '2', '.', '5']], [])]
      [[(50, .fin 60)], [(100, .fin (125 / 2))]] ∧
    (Fl.lit f32 (1 / 100) +. Fl.lit f32 (1 / 10)).isFinite = true ∧ 0 ≤ (Fl.lit f32 (1 / 100) +. Fl.lit f32 (1 / 10)).val ∧
    (Fl.lit f32 (1 / 100) +. Fl.lit f32 (1 / 10)).val ≤ 2 ^ 30 := by
  refine ⟨.cons (.cons ⟨_, ['0', '.', '5'], ['6', '0'], .fin (1 / 2), rfl, by decide, by decide, by decide, by decide +kernel,
    by decide +kernel, by decide +kernel⟩ .nil) (.cons (.cons ⟨_, ['1'], ['6', '2', '.', '5'], .fin 1, rfl, by decide, by decide,
    by decide, by decide +kernel, by decide +kernel, by decide +kernel⟩ .nil) .nil), by decide +kernel, by decide +kernel, by decide +kernel⟩

end Verif.Props
