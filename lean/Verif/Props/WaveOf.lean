import Verif.Props.Sweep
import Verif.Props.Freq

/-!
# Waves whose frequency is a chain

C91 for `saw`, `squ` and `tri`: the frequency of `saw ~m` is what `~m` plays on its own, where a zero repeats the frequency before it.
-/

namespace Verif.Props
open Verif.Spec Verif.Spec.Freq Verif.Parse Verif.Double Verif.Part

variable {P : Plat} {N : Nat}

namespace WaveOf

/-- An oscillator hears the left side of its input, and has one output as long as it. -/
theorem blocks_left (w : Wave) (n : Nat) : ∀ (side : List (List Buf)), (∀ o, o ∈ side → o ≠ [] ∧ (o.headD []).length = N) →
    ∀ (s : Osc) (out : List Buf) (r : List (List Buf)), s.order = [n] → out.length = 1 →
    runBlocks (procG P) (.prim (.osc w s)) out (monoFrom n (Echo.lefts side)) = .ok r →
    runBlocks (procG P) (.prim (.osc w s)) out (side.map (fun o => [(n, o)])) = .ok r ∧ ∀ o, o ∈ r → o.length = 1 ∧ (o.headD []).length = N
  | [], _, _, _, r, _, _, h => by
    cases h
    exact ⟨rfl, fun _ h => nomatch h⟩
  | o :: side, hl, s, out, r, hs, ho, h => by
    obtain ⟨hne, hlen⟩ := hl o List.mem_cons_self
    obtain ⟨x, rest, rfl⟩ := List.exists_cons_of_ne_nil hne
    obtain ⟨y, rfl⟩ := List.length_eq_one_iff.mp ho
    obtain ⟨fr, ph, inc, sr, order⟩ := s
    have hs : order = [n] := hs
    subst hs
    have e : ∀ more, procG P (.prim (.osc w ⟨fr, ph, inc, sr, [n]⟩)) [(n, x :: more)] [y] =
        .ok (.prim (.osc w ⟨fr, (run (oscModStep w sr) (ph, inc) x).1.1, (run (oscModStep w sr) (ph, inc) x).1.2, sr, [n]⟩), [(run (oscModStep w sr) (ph, inc) x).2]) := by
      intro more
      simp [procG, procPrim, procOsc, modInput, inputAt, chan, bind, Except.bind, reState]
    have e' : monoFrom n (Echo.lefts ((x :: rest) :: side)) = [(n, [x])] :: monoFrom n (Echo.lefts side) := rfl
    rw [e', runBlocks, e] at h
    rw [List.map_cons, runBlocks, e]
    simp only at h ⊢
    cases hq : runBlocks (procG P) (.prim (.osc w ⟨fr, (run (oscModStep w sr) (ph, inc) x).1.1, (run (oscModStep w sr) (ph, inc) x).1.2, sr, [n]⟩))
        [(run (oscModStep w sr) (ph, inc) x).2] (monoFrom n (Echo.lefts side)) with
    | error e => rw [hq] at h; cases h
    | ok q =>
      rw [hq] at h
      cases h
      obtain ⟨g1, g2⟩ := blocks_left w n side (fun o ho => hl o (List.mem_cons_of_mem _ ho)) _ _ q rfl rfl hq
      rw [g1]
      refine ⟨rfl, ?_⟩
      intro o ho
      rcases List.mem_cons.mp ho with rfl | ho
      · exact ⟨rfl, (run_length _ _ _).trans hlen⟩
      · exact g2 o ho

theorem wave_refs (w : Wave) (r : Name) : (waveComp w (.ref r)).refs = [r] ∧ toldRefs (waveComp w (.ref r)) = [r] ∧ NotesInputs (waveComp w (.ref r)) := by
  cases w <;> exact ⟨rfl, rfl, trivial⟩

end WaveOf

section
variable {fe : Name → Option Fl} {T : P.ext.State → Prop} {f0 f1 f2 : Engine (glicol P N (Parse.parse fe))}

/-- **C91** for `saw`, `squ` and `tri` (partial). A text whose only track is `saw ~r` (or `squ ~r` or `tri ~r`) is sent to an engine for which its components are new; `fs` is the
left side of what `~r` plays on its own, from 0 to the sample rate (the sign of zeros is lost at the output). Then both sides play the wave `ys`, which runs at the frequencies `fs`,
where a zero repeats the last frequency before it. Missing as in `c91_source_partial`. -/
theorem c91_wave_partial (hx : ExtShape P N T) (hxf : ExtFirst P) (hm : Libm32 P.libm) (hN : 0 < N)
    (hr : CleanReach _ f0) (hfN : f0.N = N) (τ : TableOrder) (code : Name) (all : Ast Comp) (hparse : Parse.parse fe code = .ok (some all))
    {k r : Name} {w : Wave} (ho : OneTrack all k (waveComp w (.ref r))) (hdot : '.' ∉ r)
    (hc : CleanProg (glicol P N (Parse.parse fe)) all) (ha : AllNew f0 all) (hu : f0.updateWithCode τ code = .ok (f1, none)) (b : Bool)
    (hb : b = true ↔ ['~', 'i', 'n', 'p', 'u', 't'] ∈ f1.index.map Prod.fst) (h1 : 1 ≤ f0.sr) (h2 : f0.sr ≤ 2 ^ 24)
    (steps : List (HashOrder × List Buf)) (outs own : List (List Buf)) (hne : steps ≠ []) (h : Plays f1 steps f2 outs)
    (hown : PlaysOnItsOwn P N fe ⟨f0.samples, f0.sr, f0.bpm, f0.seed⟩ b (steps.map Prod.snd) all r own)
    (hrange : ∀ t s v, sampleAt own t 0 s = some v → Within 0 f0.sr v) :
    ∃ fs ys : List Fl, RunsAt (Freq.shape w) f0.sr (held (.fin 0) fs) ys ∧ ((∀ x, x ∈ fs → x.isZero = false) → RunsAt (Freq.shape w) f0.sr fs ys) ∧
      fs.length = steps.length * N ∧ ys.length = steps.length * N ∧
      (∀ t s, t < steps.length → s < N → ∃ x, fs[t * N + s]? = some x ∧ sampleAt own t 0 s = some (.fin 0 +. x)) ∧
      ∀ t s ch, t < steps.length → s < N → ch < 2 → ∃ y, ys[t * N + s]? = some y ∧ sampleAt outs t ch s = some (.fin 0 +. y) := by
  obtain ⟨hrefs, htold, hnotes⟩ := WaveOf.wave_refs w r
  have hone : ∀ s, s ∈ (waveComp w (.ref r)).refs → s = r := fun s hs => by rw [hrefs] at hs; exact List.mem_singleton.mp hs
  obtain ⟨num, side, inputs, wet, -, a2, a3, a4, a5, a6⟩ := c91_source_partial hx hxf hm hN hr hfN τ code all hparse ho hnotes
    (fun s hs => by rw [hone s hs]; exact hdot) hc ha hu b hb steps outs hne h (fun _ => own) (fun s hs => by rw [hone s hs]; exact hown)
  have hmem : r ∈ (waveComp w (.ref r)).refs := by rw [hrefs]; exact List.mem_singleton_self _
  have hfirst : firsts (waveComp w (.ref r)).refs = [r] := by rw [hrefs]; rfl
  rw [hfirst, List.map_singleton, List.map_singleton] at a5
  rw [htold, List.map_singleton] at a6
  obtain ⟨b1, b2⟩ := a2 r hmem
  have hol : outs.length = steps.length := Sweep.plays_len h
  have hsl : (side r).length = steps.length := by
    obtain ⟨_, _, _, _, _, _, _, ss, _, _, _, _, _, _, _, _, _, _, _, i11, i12⟩ := hown
    have := congrArg List.length i11
    rw [List.length_map, List.length_map] at this
    exact (b1.1.trans (Sweep.plays_len i12)).trans this
  have hinp : inputs = (side r).map (fun o => [(num r, o)]) := by
    apply List.ext_getElem?
    intro t
    by_cases ht : t < inputs.length
    · obtain ⟨bufs, c1, c2⟩ := a5 t _ (List.getElem?_eq_getElem ht)
      cases c1 with
      | cons hb hr =>
        cases hr
        rw [List.getElem?_eq_getElem ht, List.getElem?_map, hb]
        rw [List.zip_cons_cons, List.zip_nil_right] at c2
        rw [List.perm_singleton.mp c2]
        rfl
    · rw [List.getElem?_eq_none (by omega), List.getElem?_eq_none (by rw [List.length_map]; omega)]
  subst hinp
  have hl : ∀ o, o ∈ side r → o ≠ [] ∧ (o.headD []).length = N := by
    intro o ho
    obtain ⟨g1, g2⟩ := b2 o ho
    cases o with
    | nil => simp at g1
    | cons x rest => exact ⟨by simp, (g2 x List.mem_cons_self).1⟩
  have hls : ∀ o, o ∈ Echo.lefts (side r) → o.length = N := by
    intro o ho
    obtain ⟨x, hx, rfl⟩ := List.mem_map.mp ho
    exact (hl x hx).2
  have hfl := SineOf.flatten_len hls
  have hfl' : (Echo.lefts (side r)).length = steps.length := by rw [Echo.lefts, List.length_map, hsl]
  have hwith : ∀ x, x ∈ (Echo.lefts (side r)).flatten → Within 0 f0.sr x := by
    intro x hxm
    obtain ⟨i, hi⟩ := List.mem_iff_getElem?.mp hxm
    have hil : i < steps.length * N := by rw [← hfl', ← hfl]; exact (List.getElem?_eq_some_iff.mp hi).1
    have hit : i / N < steps.length := Nat.div_lt_of_lt_mul (by rw [Nat.mul_comm]; exact hil)
    have hie : i / N * N + i % N = i := by rw [Nat.mul_comm]; exact Nat.div_add_mod i N
    obtain ⟨v, v1, v2⟩ := Echo.left_at b1 hls (t := i / N) (s := i % N) (by rw [← b1.1, hsl]; exact hit) (Nat.mod_lt i hN)
    rw [hie, hi] at v1
    cases v1
    obtain ⟨l, l1, l2⟩ := List.mem_flatten.mp hxm
    obtain ⟨o, o1, rfl⟩ := List.mem_map.mp l1
    have hok : x.Ok f32 := by
      obtain ⟨g1, g2⟩ := b2 o o1
      cases o with
      | nil => simp at g1
      | cons y rest => exact (g2 y List.mem_cons_self).2 x l2
    have := hrange _ _ _ v2
    unfold Within at this ⊢
    rwa [(SineOf.zero_add_val hok).1, (SineOf.zero_add_val hok).2] at this
  obtain ⟨o, ys, g1, g2, g3, g4⟩ := Freq.c75_modulated_partial P N ⟨f0.samples, f0.sr, f0.bpm, f0.seed⟩ w (.ref r) (num r) (Echo.lefts (side r)) h1 h2 hwith
  have hmk := osc_make P N ⟨f0.samples, f0.sr, f0.bpm, f0.seed⟩ w (.ref r)
  have hmsg : sendMsgs (P := P) (.prim (.osc w (Osc.new (NumRef.value (.fin 0) (.ref r)) f0.sr))) [.index (num r)] =
    .ok (.prim (.osc w { Osc.new (NumRef.value (.fin 0) (.ref r)) f0.sr with order := [num r] })) := rfl
  have hrun : runBlocks (procG P) (.prim (.osc w { Osc.new (NumRef.value (.fin 0) (.ref r)) f0.sr with order := [num r] }))
      (fresh N 1 (GNode.prim (P := P) (.osc w (Osc.new (NumRef.value (.fin 0) (.ref r)) f0.sr)))).buffers (monoFrom (num r) (Echo.lefts (side r))) = .ok o := by
    unfold play at g1
    rw [hmk] at g1
    simp only [fresh, hmsg] at g1 ⊢
    split at g1
    · cases g1
    · rename_i q hq
      cases g1
      exact hq
  obtain ⟨k1, k2⟩ := WaveOf.blocks_left w (num r) (side r) hl _ _ o rfl (shaped_fresh N 1 (GNode.prim (P := P) (.osc w (Osc.new (NumRef.value (.fin 0) (.ref r)) f0.sr)))).1 hrun
  cases Except.ok.inj (a6.symm.trans (play_ok hmk hmsg k1))
  rw [SineOf.channel_mono (fun o ho => (k2 o ho).1)] at g2
  have hys : (Echo.lefts wet).flatten = ys := Option.some.inj g2
  have hlw : ∀ o, o ∈ Echo.lefts wet → o.length = N := by
    intro o ho
    obtain ⟨x, hx, rfl⟩ := List.mem_map.mp ho
    exact (k2 x hx).2
  have hown : own.length = steps.length := by rw [← b1.1, hsl]
  refine ⟨_, ys, g3, g4, by rw [hfl, hfl'], ?_, fun t s ht hs => Echo.left_at b1 hls (by rw [hown]; exact ht) hs, ?_⟩
  · rw [← hys, SineOf.flatten_len hlw, Echo.lefts, List.length_map, a3.1, hol]
  · intro t s ch ht hs hch
    have ht : t < outs.length := by rw [hol]; exact ht
    obtain ⟨y, y1, y2⟩ := Echo.left_at a3 hlw ht hs
    rw [hys] at y1
    refine ⟨y, y1, ?_⟩
    obtain ⟨z, z1, z2⟩ := a3.2 t ch s ht hch hs
    obtain ⟨o, o1, o2⟩ := Option.bind_eq_some_iff.mp z1
    obtain ⟨l, rfl⟩ := List.length_eq_one_iff.mp (k2 o (List.mem_of_getElem? o1)).1
    obtain ⟨z', z1', z2'⟩ := a3.2 t 0 s ht (by omega) hs
    rw [o1] at z1'
    have : z' = z := Option.some.inj (z1'.symm.trans o2)
    rw [z2, ← y2, z2', this]

end

/-- The track `squ ~m` of the example beside `c91_source_partial` meets the hypotheses of `c91_wave_partial` as well. -/
example (fe : Name → Option Fl) :
    OneTrack squProg c!"o" (waveComp .squ (.ref c!"~m")) ∧ 1 ≤ (Engine.new (glicol notePlat 2 (parse fe)) 2).sr ∧
    (Engine.new (glicol notePlat 2 (parse fe)) 2).sr ≤ 2 ^ 24 ∧
    PlaysOnItsOwn notePlat 2 fe ⟨[], (Engine.new (glicol notePlat 2 (parse fe)) 2).sr, (Engine.new (glicol notePlat 2 (parse fe)) 2).bpm,
      (Engine.new (glicol notePlat 2 (parse fe)) 2).seed⟩ true (List.replicate 2 []) squProg c!"~m" (List.replicate 2 [[.fin 5, .fin 2], [.fin 5, .fin 2]]) ∧
    ∀ t s v, sampleAt (List.replicate 2 [[.fin 5, .fin 2], [.fin 5, .fin 2]]) t 0 s = some v → Within 0 (Engine.new (glicol notePlat 2 (parse fe)) 2).sr v := by
  refine ⟨squ_one, by show 1 ≤ 44100; decide, by show 44100 ≤ 2 ^ 24; decide, m_own fe (m_heard rfl), ?_⟩
  intro t s v hv
  show Within 0 (44100 : Nat) v
  obtain ⟨l, h1, h2⟩ := Option.bind_eq_some_iff.mp hv
  obtain ⟨o, h3, h4⟩ := Option.bind_eq_some_iff.mp h1
  obtain rfl := List.eq_of_mem_replicate (List.mem_of_getElem? h3)
  cases h4
  have : v = .fin 5 ∨ v = .fin 2 := by simpa using List.mem_of_getElem? h2
  rcases this with rfl | rfl <;> exact ⟨rfl, by norm_num [Fl.val], by norm_num [Fl.val]⟩

end Verif.Props
