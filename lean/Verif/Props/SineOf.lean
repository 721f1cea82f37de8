import Verif.Props.Modulate
import Verif.Props.Freq

/-!
# An oscillator whose frequency is a chain

C91 for `sin`: the frequency of `sin ~m` is, at every sample, what `~m` plays on its own.
-/

namespace Verif.Props
open Verif.Spec Verif.Spec.Freq Verif.Parse Verif.Double Verif.Part

variable {P : Plat} {N : Nat}

namespace SineOf

/-- A sample of blocks of the same size. -/
theorem flatten_at {N : Nat} : ∀ {bs : List Buf}, (∀ b, b ∈ bs → b.length = N) → ∀ {t s : Nat}, s < N → t < bs.length →
    bs.flatten[t * N + s]? = (bs[t]?).bind (·[s]?)
  | [], _, _, _, _, h => absurd h (Nat.not_lt_zero _)
  | b :: bs, hl, t, s, hs, ht => by
    have hb := hl b List.mem_cons_self
    rw [List.flatten_cons]
    cases t with
    | zero =>
      rw [Nat.zero_mul, Nat.zero_add, List.getElem?_append_left (by omega)]
      rfl
    | succ t =>
      rw [List.getElem?_append_right (by rw [Nat.add_one_mul]; omega), hb, show (t + 1) * N + s - N = t * N + s by rw [Nat.add_one_mul]; omega,
        flatten_at (fun b hb => hl b (List.mem_cons_of_mem _ hb)) hs (by simpa using ht)]
      rfl

theorem flatten_len {N : Nat} : ∀ {bs : List Buf}, (∀ b, b ∈ bs → b.length = N) → bs.flatten.length = bs.length * N
  | [], _ => by simp
  | b :: bs, hl => by
    rw [List.flatten_cons, List.length_append, flatten_len (fun b hb => hl b (List.mem_cons_of_mem _ hb)), hl b List.mem_cons_self,
      List.length_cons, Nat.add_one_mul, Nat.add_comm]

theorem channel_mono : ∀ {os : List (List Buf)}, (∀ o, o ∈ os → o.length = 1) → channel 0 os = some (os.map (·.headD [])).flatten
  | [], _ => rfl
  | o :: os, h => by
    obtain ⟨x, rfl⟩ := List.length_eq_one_iff.mp (h o List.mem_cons_self)
    simp only [channel, channel_mono (fun o ho => h o (List.mem_cons_of_mem _ ho)), List.getElem?_cons_zero, List.map_cons, List.flatten_cons, List.headD_cons]

/-- `sin` looks at the first channel of its input, and has one channel. -/
theorem sin_first (P : Plat) (hm : Libm32 P.libm) (n : Nat) : ∀ (side : List (List Buf)), (∀ o, o ∈ side → o ≠ []) → ∀ (s : Osc) (out : List Buf),
    s.order = [n] → out.length = 1 →
    ∃ r, runBlocks (procG P) (.prim (.sin s)) out (side.map (fun o => [(n, o)])) = .ok r ∧
      runBlocks (procG P) (.prim (.sin s)) out (monoFrom n (side.map (·.headD []))) = .ok r ∧
      ∀ o, o ∈ r → o.length = 1 ∧ (∃ x, x ∈ side ∧ (o.headD []).length = (x.headD []).length) ∧ ∀ v, v ∈ o.headD [] → v.Ok f32
  | [], _, _, _, _, _ => ⟨[], rfl, rfl, fun o h => by cases h⟩
  | o :: side, hl, s, out, hs, ho => by
    obtain ⟨x, rest, rfl⟩ := List.exists_cons_of_ne_nil (hl o List.mem_cons_self)
    obtain ⟨fr, ph, pr, sr, order⟩ := s
    have hs : order = [n] := hs
    subst hs
    obtain ⟨r, h1, h2, h3⟩ := sin_first P hm n side (fun o ho => hl o (List.mem_cons_of_mem _ ho))
      ⟨fr, (run (sinStep P.libm sr) ph x).1, pr, sr, [n]⟩ (out.map (fun _ => (run (sinStep P.libm sr) ph x).2)) rfl (by simpa using ho)
    refine ⟨out.map (fun _ => (run (sinStep P.libm sr) ph x).2) :: r, ?_, ?_, ?_⟩
    rotate_left 1
    · have e : procG P (.prim (.sin ⟨fr, ph, pr, sr, [n]⟩)) [(n, [x])] out =
          .ok (.prim (.sin ⟨fr, (run (sinStep P.libm sr) ph x).1, pr, sr, [n]⟩), out.map (fun _ => (run (sinStep P.libm sr) ph x).2)) := by
        simp [procG, procPrim, procSin, modInput, inputAt, chan, bind, Except.bind, reState]
      simp only [monoFrom, List.map_cons, List.headD_cons, runBlocks, e] at h2 ⊢
      rw [h2]
    · intro o ho'
      rcases List.mem_cons.mp ho' with rfl | h
      · obtain ⟨o, rfl⟩ := List.length_eq_one_iff.mp ho
        refine ⟨rfl, ⟨_, List.mem_cons_self, run_length _ _ _⟩, ?_⟩
        exact (run_all (I := fun _ => True) (J := fun _ => True) (sinStep P.libm sr) (fun s x _ _ => ⟨trivial, hm.sin _⟩) ph trivial x (fun _ _ => trivial)).2
      · obtain ⟨g1, ⟨y, g2, g3⟩, g4⟩ := h3 o h
        exact ⟨g1, ⟨y, List.mem_cons_of_mem _ g2, g3⟩, g4⟩
    · have e : procG P (.prim (.sin ⟨fr, ph, pr, sr, [n]⟩)) [(n, x :: rest)] out =
          .ok (.prim (.sin ⟨fr, (run (sinStep P.libm sr) ph x).1, pr, sr, [n]⟩), out.map (fun _ => (run (sinStep P.libm sr) ph x).2)) := by
        simp [procG, procPrim, procSin, modInput, inputAt, chan, bind, Except.bind, reState]
      simp only [List.map_cons, runBlocks, e, h1]

/-- Added to nothing, a number keeps its value. -/
theorem zero_add_val {x : Fl} (hx : x.Ok f32) : (Fl.fin 0 +. x).val = x.val ∧ (Fl.fin 0 +. x).isFinite = x.isFinite := by
  cases x with
  | nan => exact ⟨rfl, rfl⟩
  | inf s => exact ⟨rfl, rfl⟩
  | nz => constructor <;> kernel_rfl
  | fin q => rw [zero_add_fin hx]; exact ⟨rfl, rfl⟩

end SineOf

variable {fe : Name → Option Fl} {T : P.ext.State → Prop} {f0 f1 f2 : Engine (glicol P N (Parse.parse fe))}

/-- **C91** for `sin` (partial). A text whose only track is `sin ~r` is sent to an engine for which its components are new, and `freq` is the left side of what
`~r` plays on its own, from 0 to the sample rate. Then both sides play the sine whose phase grows by `freq` at every sample, up to the
accuracy `δ` of the sine of the platform and a drift of `2^-20` per sample. Missing as in `c91_source_partial`. -/
theorem c91_sine_partial (hx : ExtShape P N T) (hxf : ExtFirst P) (hm : Libm32 P.libm) (hN : 0 < N) {δ : ℝ} (hδ : SinClose P.libm δ)
    (hr : CleanReach _ f0) (hfN : f0.N = N) (τ : TableOrder) (code : Name) (all : Ast Comp) (hparse : Parse.parse fe code = .ok (some all))
    {k r : Name} (ho : OneTrack all k (.sin (.ref r))) (hdot : '.' ∉ r)
    (hc : CleanProg (glicol P N (Parse.parse fe)) all) (ha : AllNew f0 all) (hu : f0.updateWithCode τ code = .ok (f1, none)) (b : Bool)
    (hb : b = true ↔ ['~', 'i', 'n', 'p', 'u', 't'] ∈ f1.index.map Prod.fst) (h1 : 1 ≤ f0.sr) (h2 : f0.sr ≤ 2 ^ 24)
    (steps : List (HashOrder × List Buf)) (outs own : List (List Buf)) (h : Plays f1 steps f2 outs)
    (hown : PlaysOnItsOwn P N fe ⟨f0.samples, f0.sr, f0.bpm, f0.seed⟩ b (steps.map Prod.snd) all r own)
    (freq : Nat → Fl) (hfreq : ∀ t s, t < steps.length → s < N → sampleAt own t 0 s = some (freq (t * N + s)))
    (hrange : ∀ i, i < steps.length * N → Within 0 f0.sr (freq i)) :
    ∀ t ch s, t < steps.length → ch < 2 → s < N → ∃ y, sampleAt outs t ch s = some y ∧ y.isFinite = true ∧
      |(y.val : ℝ) - Real.sin (2 * Real.pi * ((((List.range (t * N + s)).map (fun i => (freq i).val)).sum / f0.sr : ℚ) : ℝ))| ≤
        δ + (((t * N + s : Nat) : ℝ) + 1) / 2 ^ 20 := by
  intro t ch s ht hch hs
  have hne : steps ≠ [] := by rintro rfl; exact absurd ht (Nat.not_lt_zero _)
  obtain ⟨num, side, inputs, wet, -, a2, a3, a4, a5, a6⟩ := c91_source_partial hx hxf hm hN hr hfN τ code all hparse ho trivial
    (fun s hs => by obtain rfl := List.mem_singleton.mp hs; exact hdot) hc ha hu b hb steps outs hne h (fun _ => own)
    (fun s hs => by obtain rfl := List.mem_singleton.mp hs; exact hown)
  obtain ⟨b1, b2⟩ := a2 r (List.mem_singleton.mpr rfl)
  have hwl : wet.length = outs.length := a3.1
  have hol : outs.length = steps.length := by
    obtain ⟨_, sig, rfl, hs⟩ := c49_texts_sound_as_written_partial hx hr hfN τ code all hparse hc hu steps outs h b hb
    rw [hs.length _ (.refl _), List.length_map]
  have hinp : inputs = (side r).map (fun o => [(num r, o)]) := by
    have a5 : FedBy [num r] [side r] inputs := a5
    apply List.ext_getElem?
    intro t
    by_cases ht : t < inputs.length
    · obtain ⟨bufs, c1, c2⟩ := a5 t _ (List.getElem?_eq_getElem ht)
      cases c1 with
      | cons hb hr =>
        cases hr
        rw [List.getElem?_eq_getElem ht, List.getElem?_map, hb]
        rw [List.zip_cons_cons, List.zip_nil_right] at c2
        rw [List.perm_singleton.mp c2]
        rfl
    · have hsl : (side r).length = steps.length := by
        obtain ⟨_, _, _, _, _, _, solo, steps', i1, i2, _, i4, _, i6, _, _, i9, i10, _, i11, i12⟩ := hown
        obtain ⟨_, sig', he, hs'⟩ := c49_texts_sound_as_written_partial hx i1 i2 _ _ solo i4 i6 i9 steps' _ i12 b i10
        have := hs'.length _ (.refl _)
        rw [i11, List.length_map, ← he] at this
        rw [b1.1, this]
      rw [List.getElem?_eq_none (by omega), List.getElem?_eq_none (by rw [List.length_map]; omega)]
  have hsl : (side r).length = steps.length := by rw [← a4, hinp, List.length_map]
  subst hinp
  -- what the oscillator plays
  obtain ⟨w, w1, w2, w3⟩ := SineOf.sin_first P hm (num r) (side r)
    (fun o ho => by rintro rfl; exact absurd (b2 _ ho).1 (by simp)) ⟨.fin 0, .fin 0, .fin 0, f0.sr, [num r]⟩
    (fresh N 1 (GNode.prim (P := P) (.sin (Osc.new (.fin 0) f0.sr)))).buffers rfl rfl
  have hwet : wet = w := by
    have := play_ok (P := P) (N := N) (env := ⟨f0.samples, f0.sr, f0.bpm, f0.seed⟩) (msgs := [.index (num r)])
      (sin_make P N ⟨f0.samples, f0.sr, f0.bpm, f0.seed⟩ (.ref r)) rfl w1
    exact Except.ok.inj (Eq.trans (Eq.symm a6) this)
  have hbl : ∀ x, x ∈ (side r).map (·.headD []) → x.length = N ∧ ∀ v, v ∈ x → v.Ok f32 := by
    intro x hxm
    obtain ⟨o, ho, rfl⟩ := List.mem_map.mp hxm
    obtain ⟨g1, g2⟩ := b2 o ho
    obtain ⟨l, rest, rfl⟩ := List.exists_cons_of_ne_nil (l := o) (by rintro rfl; simp at g1)
    exact g2 l List.mem_cons_self
  -- the frequencies
  have hfl : ((side r).map (·.headD [])).flatten.length = steps.length * N := by
    rw [SineOf.flatten_len (fun x hx => (hbl x hx).1), List.length_map, hsl]
  have hfr : ∀ i, i < steps.length * N → ∃ v, ((side r).map (·.headD [])).flatten[i]? = some v ∧ v.Ok f32 ∧ freq i = .fin 0 +. v := by
    intro i hi
    have hiN := Nat.mod_lt i hN
    have hit : i / N < steps.length := Nat.div_lt_of_lt_mul (by rw [Nat.mul_comm]; exact hi)
    have hie : i / N * N + i % N = i := by rw [Nat.mul_comm]; exact Nat.div_add_mod i N
    obtain ⟨v, v1, v2⟩ := b1.2 (i / N) 0 (i % N) (by rw [← b1.1, hsl]; exact hit) (by omega) hiN
    have v3 := hfreq _ _ hit hiN
    rw [hie] at v3
    obtain ⟨o, o1, o2⟩ := Option.bind_eq_some_iff.mp v1
    obtain ⟨g1, g2⟩ := b2 o (List.mem_of_getElem? o1)
    have hv : (o.headD [])[i % N]? = some v := by
      rcases g1 with g | g
      · obtain ⟨l, rfl⟩ := List.length_eq_one_iff.mp g
        exact o2
      · obtain ⟨l, l', rfl⟩ := List.length_eq_two.mp g
        exact o2
    have he : ((side r).map (·.headD [])).flatten[i]? = some v := by
      have := SineOf.flatten_at (fun x hx => (hbl x hx).1) hiN (t := i / N) (bs := (side r).map (·.headD [])) (by rw [List.length_map, hsl]; exact hit)
      rw [hie] at this
      rw [this, List.getElem?_map, o1]
      exact hv
    refine ⟨v, he, ?_, Option.some.inj (v3.symm.trans v2)⟩
    obtain ⟨l, l1, l2⟩ := List.mem_flatten.mp (List.mem_of_getElem? he)
    exact (hbl l l1).2 v l2
  have hwith : ∀ x, x ∈ ((side r).map (·.headD [])).flatten → Within 0 f0.sr x := by
    intro x hxm
    obtain ⟨i, hi⟩ := List.mem_iff_getElem?.mp hxm
    have hil : i < steps.length * N := by rw [← hfl]; exact (List.getElem?_eq_some_iff.mp hi).1
    obtain ⟨v, v1, v2, v3⟩ := hfr i hil
    rw [hi] at v1
    cases v1
    have := hrange i hil
    rw [v3] at this
    unfold Within at this ⊢
    rw [(SineOf.zero_add_val v2).1, (SineOf.zero_add_val v2).2] at this
    exact this
  obtain ⟨o, ys, y1, y2, y3, y4⟩ := Freq.c75_sin_modulated_partial P δ hδ N ⟨f0.samples, f0.sr, f0.bpm, f0.seed⟩ (.ref r) (num r)
    ((side r).map (·.headD [])) h1 h2 hwith
  have hwo : w = o := by
    have := play_ok (P := P) (N := N) (env := ⟨f0.samples, f0.sr, f0.bpm, f0.seed⟩) (msgs := [.index (num r)])
      (sin_make P N ⟨f0.samples, f0.sr, f0.bpm, f0.seed⟩ (.ref r)) rfl w2
    exact Except.ok.inj (Eq.trans (Eq.symm this) y1)
  subst hwo
  subst hwet
  rw [SineOf.channel_mono (fun o ho => (w3 o ho).1)] at y2
  cases y2
  -- the sample
  obtain ⟨v, v1, v2⟩ := a3.2 t ch s (by omega) hch hs
  obtain ⟨o, o1, o2⟩ := Option.bind_eq_some_iff.mp v1
  obtain ⟨g1, -, g3⟩ := w3 o (List.mem_of_getElem? o1)
  obtain ⟨l, rfl⟩ := List.length_eq_one_iff.mp g1
  have o2 : l[s]? = some v := o2
  have hlen : ∀ x, x ∈ wet.map (·.headD []) → x.length = N := by
    intro x hxm
    obtain ⟨o, ho, rfl⟩ := List.mem_map.mp hxm
    obtain ⟨-, ⟨y, q1, q2⟩, -⟩ := w3 o ho
    rw [q2]
    exact (hbl _ (List.mem_map.mpr ⟨y, q1, rfl⟩)).1
  have hat : (wet.map (·.headD [])).flatten[t * N + s]? = some v := by
    rw [SineOf.flatten_at hlen hs (by rw [List.length_map]; omega), List.getElem?_map, o1]
    exact o2
  obtain ⟨z1, z2⟩ := y4 _ _ hat
  have hi : t * N + s < steps.length * N := by
    have := Nat.mul_le_mul_right N (Nat.succ_le_of_lt ht)
    rw [Nat.succ_mul] at this
    omega
  have hturns : turns f0.sr ((side r).map (·.headD [])).flatten (t * N + s) =
      ((List.range (t * N + s)).map (fun i => (freq i).val)).sum / f0.sr := by
    unfold turns
    congr 2
    apply List.ext_getElem?
    intro i
    by_cases hil : i < t * N + s
    · obtain ⟨x, x1, x2, x3⟩ := hfr i (by omega)
      rw [List.getElem?_map, List.getElem?_take_of_lt hil, x1, List.getElem?_map, List.getElem?_range hil]
      simp only [Option.map_some, x3, (SineOf.zero_add_val x2).1]
    · rw [List.getElem?_eq_none (by rw [List.length_map, List.length_take]; omega), List.getElem?_eq_none (by simp; omega)]
  have hv := SineOf.zero_add_val (g3 v (List.mem_of_getElem? o2))
  refine ⟨_, v2, by rw [hv.2]; exact z1, ?_⟩
  rw [hv.1]
  have hturns : turns (⟨f0.samples, f0.sr, f0.bpm, f0.seed⟩ : Env).sr ((side r).map (·.headD [])).flatten (t * N + s) = _ := hturns
  rw [hturns] at z2
  exact z2

/-- A platform with a given sine. -/
def sinePlat (f : Fl → Fl) : Plat := { notePlat with libm := { notePlat.libm with sin := f } }

def sineText : Name := c!"~a: imp 22050 >> mul 3\n~m: ~a >> add 2\no: sin ~m"

def sineProg : Ast Comp :=
  [(c!"~a", [.imp (.num (.fin 22050)), .mul (.num (.fin 3))]), (c!"~m", [.get c!"~a", .add (.num (.fin 2))]), (c!"o", [.sin (.ref c!"~m")])]

/-- Whether the text is accepted by a new engine, which then plays and has an input. -/
def playsSome (P : Plat) (N : Nat) (parse : Name → Except Panic (Option (Ast Comp))) (code : Name) (steps : List (HashOrder × List Buf)) : Bool :=
  match (Engine.new (glicol P N parse) N).updateWithCode .ident code with
  | .ok (e, none) => decide (['~', 'i', 'n', 'p', 'u', 't'] ∈ e.index.map Prod.fst) && (Demo.playFuel steps e).isSome
  | _ => false

theorem playsSome_spec {P : Plat} {N : Nat} {parse : Name → Except Panic (Option (Ast Comp))} {code : Name}
    {steps : List (HashOrder × List Buf)} (h : playsSome P N parse code steps = true) :
    ∃ outs, Demo.playsText P N parse code steps outs = true := by
  unfold playsSome at h
  unfold Demo.playsText
  split at h
  · rename_i e he
    rw [Bool.and_eq_true, Option.isSome_iff_exists] at h
    obtain ⟨h1, ⟨e', o⟩, h2⟩ := h
    exact ⟨o, by rw [he]; simp only [h1, h2, Bool.true_and, decide_eq_true_eq]⟩
  · cases h

theorem sine_one : OneTrack sineProg c!"o" (.sin (.ref c!"~m")) := by
  refine ⟨by simp [sineProg], by decide, ?_, ?_⟩
  · exact fun j cs h => (by decide : ∀ e ∈ sineProg, '~' ∉ e.1 → e.1 = c!"o") (j, cs) h
  · intro j cs d s h1 h2 h3 hm
    have := (by decide : ∀ e ∈ sineProg, ∀ c ∈ e.2, ∀ r ∈ c.refs, '.' ∉ r ∧ r ≠ c!"o") (j, cs) h1 d h2 s h3
    exact this.2 (Parted.means_plain hm this.1).symm

/-- What `~m` plays on its own, whatever the sine of the platform. -/
theorem sine_own (f : Fl → Fl) (fe : Name → Option Fl) :
    PlaysOnItsOwn (sinePlat f) 2 fe ⟨[], 44100, (Engine.new (glicol (sinePlat f) 2 (parse fe)) 2).bpm,
      (Engine.new (glicol (sinePlat f) 2 (parse fe)) 2).seed⟩ true (List.replicate 2 []) sineProg c!"~m"
      (List.replicate 2 [[.fin 5, .fin 2], [.fin 5, .fin 2]]) := by
  have p2 : parse fe rightText = .ok (some rightProg) := by kernel_rfl
  have hwise : Wise ByRole rightProg true := side_wise (fun e he => .inr he) (by decide) (by decide) (by decide)
  obtain ⟨e1, e2, h1, h2, h3⟩ : ∃ e1 e2, (Engine.new (glicol (sinePlat f) 2 (parse fe)) 2).updateWithCode .ident rightText = .ok (e1, none) ∧
    Plays e1 (List.replicate 2 (.ident, [])) e2 (List.replicate 2 [[.fin 5, .fin 2], [.fin 5, .fin 2]]) ∧
    ['~', 'i', 'n', 'p', 'u', 't'] ∈ e1.index.map Prod.fst := Demo.playsText_spec (by kernel_rfl)
  refine ⟨_, e1, e2, .ident, rightText, c!"g", rightProg, List.replicate 2 (.ident, []), .new 2, rfl, rfl, p2, m_heard rfl, ⟨?_, ?_⟩,
    fun k comps _ => ⟨[], .inr ⟨rfl, fun a ha => by cases ha⟩, fun _ _ _ ho => by cases ho⟩,
    wise_free (glicol_parserWf (sinePlat f) 2 fe rightText _ p2) (by decide) hwise, h1, ⟨fun _ => h3, fun _ => rfl⟩, ?_, rfl, h2⟩
  · have hall : ∀ e ∈ rightProg, Distinct Comp.eq e.2 := by unfold Distinct; decide
    exact fun k c hm => hall (k, c) hm
  · exact show _ ∉ rightProg.map Prod.fst by decide
  · intro hl
    obtain ⟨j, comps, c, g1, g2, g3⟩ := Parted.leads_input (by decide) (Parted.plain_of hwise) hl
    exact absurd g3 ((by decide : ∀ e ∈ rightProg, ∀ c ∈ e.2, ['~', 'i', 'n', 'p', 'u', 't'] ∉ c.refs) (j, comps) g1 c g2)

/-- A sine in f32 numbers, exact to `2^-20`. -/
theorem good_sine : ∃ f : Fl → Fl, (∀ x, (f x).Ok f32 ∧ (f x).isFinite = true) ∧
    ∀ x : Fl, |((f x).val : ℝ) - Real.sin (x.val : ℝ)| ≤ 1 / 2 ^ 20 := by
  have hb : ∀ x : Fl, |⌊Real.sin (x.val : ℝ) * 2 ^ 20⌋| ≤ 2 ^ 24 := by
    intro x
    have h1 := Real.sin_le_one (x.val : ℝ)
    have h2 := Real.neg_one_le_sin (x.val : ℝ)
    rw [abs_le]
    constructor
    · rw [Int.le_floor]
      push_cast
      nlinarith
    · have h3 := Int.floor_le (Real.sin (x.val : ℝ) * 2 ^ 20)
      have : ((⌊Real.sin (x.val : ℝ) * 2 ^ 20⌋ : ℤ) : ℝ) ≤ ((2 ^ 24 : ℤ) : ℝ) := by
        push_cast
        nlinarith
      exact_mod_cast this
  refine ⟨fun x => .fin (⌊Real.sin (x.val : ℝ) * 2 ^ 20⌋ * pow2 (-20)), fun x => ⟨⟨⟨_, -20, hb x, by decide, rfl⟩, ?_⟩, rfl⟩, fun x => ?_⟩
  · have h1 : (2 : ℚ) ^ 24 ≤ f32.maxFin := by rw [f32_maxFin]; norm_num
    refine le_trans ?_ h1
    have h2 : |((⌊Real.sin (x.val : ℝ) * 2 ^ 20⌋ : ℤ) : ℚ)| ≤ 2 ^ 24 := by exact_mod_cast hb x
    rw [abs_mul, pow2_eq, show |(2 : ℚ) ^ (-20 : ℤ)| = 1 / 2 ^ 20 by norm_num]
    exact le_trans (mul_le_of_le_one_right (abs_nonneg _) (by norm_num)) h2
  · have h3 := Int.floor_le (Real.sin (x.val : ℝ) * 2 ^ 20)
    have h4 := Int.lt_floor_add_one (Real.sin (x.val : ℝ) * 2 ^ 20)
    have : (((Fl.fin (⌊Real.sin (x.val : ℝ) * 2 ^ 20⌋ * pow2 (-20))).val : ℚ) : ℝ) = ⌊Real.sin (x.val : ℝ) * 2 ^ 20⌋ / 2 ^ 20 := by
      rw [Fl.val, pow2_eq]
      push_cast
      rw [zpow_neg, div_eq_mul_inv]
      norm_cast
    rw [this, abs_le]
    constructor
    · rw [neg_le_sub_iff_le_add, ← sub_le_iff_le_add, le_div_iff₀ (by norm_num), sub_mul, show (1 / 2 ^ 20 : ℝ) * 2 ^ 20 = 1 by norm_num]
      linarith
    · rw [sub_le_iff_le_add, div_le_iff₀ (by norm_num), add_mul, show (1 / 2 ^ 20 : ℝ) * 2 ^ 20 = 1 by norm_num]
      linarith

/-- A sine whose frequency is a chain, on a platform with a good sine: the hypotheses of `c91_sine_partial` are met. -/
example (fe : Name → Option Fl) : ∃ P : Plat, ∃ freq : Nat → Fl,
    ExtShape P 2 (fun _ => True) ∧ ExtFirst P ∧ Libm32 P.libm ∧ SinClose P.libm (1 / 2 ^ 20) ∧
    CleanReach _ (Engine.new (glicol P 2 (parse fe)) 2) ∧
    parse fe sineText = .ok (some sineProg) ∧ OneTrack sineProg c!"o" (.sin (.ref c!"~m")) ∧ '.' ∉ c!"~m" ∧
    CleanProg (glicol P 2 (parse fe)) sineProg ∧ AllNew (Engine.new (glicol P 2 (parse fe)) 2) sineProg ∧
    (∃ e1 e2 outs, (Engine.new (glicol P 2 (parse fe)) 2).updateWithCode .ident sineText = .ok (e1, none) ∧
      Plays e1 (List.replicate 2 (.ident, [])) e2 outs ∧ ['~', 'i', 'n', 'p', 'u', 't'] ∈ e1.index.map Prod.fst) ∧
    PlaysOnItsOwn P 2 fe ⟨[], 44100, (Engine.new (glicol P 2 (parse fe)) 2).bpm, (Engine.new (glicol P 2 (parse fe)) 2).seed⟩ true
      (List.replicate 2 []) sineProg c!"~m" (List.replicate 2 [[.fin 5, .fin 2], [.fin 5, .fin 2]]) ∧
    (∀ t s, t < 2 → s < 2 → sampleAt (List.replicate 2 [[.fin 5, .fin 2], [.fin 5, .fin 2]]) t 0 s = some (freq (t * 2 + s))) ∧
    ∀ i, i < 2 * 2 → Within 0 (44100 : Nat) (freq i) := by
  obtain ⟨f, f1, f2⟩ := good_sine
  refine ⟨sinePlat f, fun i => if i % 2 = 0 then .fin 5 else .fin 2, ⟨fun _ _ _ _ _ => trivial, fun _ _ _ _ _ _ => trivial, ?_⟩,
    ⟨fun _ _ _ _ _ _ _ => rfl, ⟨fun _ => True, fun _ _ _ _ _ => trivial, fun _ _ _ _ _ _ => trivial, fun _ _ _ _ _ _ _ _ hb h => by
      cases h; exact ⟨trivial, hb⟩⟩⟩, ⟨fun x => (f1 x).1, notePlat_meets.2.powf⟩, fun x _ => ⟨(f1 x).2, f2 x⟩, .new 2, by kernel_rfl, sine_one, by decide,
    ⟨?_, ?_⟩, fun k comps _ => ⟨[], .inr ⟨rfl, fun a ha => by cases ha⟩, fun _ _ _ ho => by cases ho⟩, ?_, sine_own f fe, ?_, ?_⟩
  · intro s o ins b s' b' _ _ hb h
    cases h
    exact ⟨trivial, rfl, hb⟩
  · have hall : ∀ e ∈ sineProg, Distinct Comp.eq e.2 := by unfold Distinct; decide
    exact fun k c hm => hall (k, c) hm
  · exact show _ ∉ sineProg.map Prod.fst by decide
  · obtain ⟨outs, h⟩ := playsSome_spec (P := sinePlat f) (N := 2) (parse := parse fe) (code := sineText)
      (steps := List.replicate 2 (.ident, [])) (by kernel_rfl)
    obtain ⟨e1, e2, h⟩ := Demo.playsText_spec h
    exact ⟨e1, e2, outs, h⟩
  · exact fun t s ht hs => (by decide : ∀ t < 2, ∀ s < 2,
      sampleAt (List.replicate 2 [[.fin 5, .fin 2], [.fin 5, .fin 2]]) t 0 s = some (if (t * 2 + s) % 2 = 0 then Fl.fin 5 else .fin 2)) t ht s hs
  · intro i hi
    show Within 0 (44100 : Nat) (if i % 2 = 0 then .fin 5 else .fin 2)
    split <;> exact ⟨rfl, by norm_num [Fl.val], by norm_num [Fl.val]⟩

end Verif.Props
