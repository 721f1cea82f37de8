import Verif.Lemmas.Play
import Verif.Lemmas.Shape
import Verif.Lemmas.AtLeast
import Verif.Props.Sampler
import Verif.Props.Choose

/-! When the primitive nodes do not panic (helpers for C37). -/

namespace Verif
open Spec Props

/-- Attack and decay are not too long. -/
structure EnvOk (sr : Nat) (attack decay : Fl) : Prop where
  rate : sr ≤ 2 ^ 24
  attack : secToSamples sr attack ≤ 2 ^ 44
  decay : secToSamples sr decay ≤ 2 ^ 44

theorem EnvOk.sum {sr : Nat} {a d : Fl} (h : EnvOk sr a d) :
    secToSamples sr a + secToSamples sr d < 2 ^ 64 := by
  have := h.attack
  have := h.decay
  omega

/-- What a primitive node must satisfy so that it cannot fail on a block. -/
def Prim.Safe (m : Libm) : Prim → Prop
  | .imp i => i.period ≠ 0 ∧ RateOk i.sr
  | .delayn d => d.buf.Wf
  | .delayms d => ∀ r, r ∈ d.buf → r.Wf
  | .apf f => f.bufx.Wf ∧ f.bufy.Wf
  | .envperc e => EnvOk e.sr e.attack e.decay
  | .adsr e => EnvOk e.sr e.attack e.decay
  | .rlpf f => f.pattern = [] ∨ (barDur f.bpm f.span f.sr).toUsize ≠ 0
  | .seq s => s.speed = .fin 1 ∧ TempoOk s.bpm ∧ 4096 ≤ s.sr
  | .choose c => c.notes ≠ [] ∧ c.notes.length ≤ 2 ^ 53
  | .points p => if p.looping then SpanOk p.span ∧ TempoOk p.bpm ∧ 4096 ≤ p.sr else m.checked = false
  | .sampler s => Fine s.sample ∧ ∀ v, v ∈ s.voices → v.1 ≤ s.clock
  | .psampler p => ∃ bar, bar ≠ 0 ∧ PsInv bar p
  | .patSynth s => (.fin 2 *. .fin 1 *. Fl.ofNat f32 s.sr).toUsize ≠ 0
  | _ => True

/-- The numbers of inputs it can take. -/
def Prim.fits : Prim → Nat → Prop
  | .pan _, n => 1 ≤ n
  | .delayms _, n => n = 1
  | .apf _, n => n ≤ 1
  | .seq _, n => n = 0
  | .arrange a, n => a.events.length / 2 ≤ n
  | _, _ => True

/-- The numbers it may be set to; the first argument is the position of the setting. -/
def Prim.takesNumber : Prim → Nat → Fl → Prop
  | .imp _ => fun p v => p = 0 → ImpRate v
  | .envperc _ | .adsr _ => fun p v => p ≤ 1 → TimeOk v
  | .points _ => fun p v => p = 1 → SpanOk v
  | .arrange _ => fun _ _ => False
  | _ => fun _ _ => True

/-- The messages of the user that it can take. -/
def Prim.takes (n : Prim) : Msg Fl → Prop
  | .setToNumber p v => n.takesNumber p v
  | _ => True

/-- The nodes that need two channels. -/
def Prim.twoSided : Prim → Prop
  | .pan _ | .balance _ | .sampler _ | .psampler _ => True
  | _ => False

/-- What a node is called with. -/
structure Call (N : Nat) (ins : Ins) (out : List Buf) : Prop where
  pos : 1 ≤ N
  szOut : Sz N out
  ne : out ≠ []
  szIns : SzIns N ins
  full : ∀ e, e ∈ ins → e.2 ≠ []
  nodup : (ins.map Prod.fst).Nodup

theorem Fed.at {ord : List Nat} {ins : Ins} {ok : Nat → Prop} {N : Nat} {out : List Buf}
    (h : Fed ord (ins.map Prod.fst) ok) (hc : Call N ins out) :
    ∃ n, ok n ∧ ins.length ≤ n ∧ (ins = [] → n = 0) ∧
      ∀ i, i < n → ∃ x bs, inputAt ins ord i = .ok (x :: bs) ∧ Sz N (x :: bs) := by
  obtain ⟨l, rest, rfl, hok, hl⟩ := h
  refine ⟨l.length, hok, ?_, ?_, ?_⟩
  · have : (ins.map Prod.fst) ⊆ l := fun x hx => (hl x).mpr hx
    have := (hc.nodup.subperm this).length_le
    simpa using this
  · rintro rfl
    rw [List.length_eq_zero_iff]
    apply List.eq_nil_iff_forall_not_mem.mpr
    intro x hx
    have := (hl x).mp hx
    simp at this
  · intro i hi
    have h1 : (l ++ rest)[i]? = some l[i] := by
      rw [List.getElem?_append_left hi, List.getElem?_eq_getElem hi]
    have h2 := (hl l[i]).mp (List.getElem_mem hi)
    obtain ⟨e, he, hee⟩ := List.mem_map.mp h2
    cases hf : ins.find? (fun e => e.1 == l[i]) with
    | none =>
      have := List.find?_eq_none.mp hf e he
      simp [hee] at this
    | some e' =>
      have hm := List.mem_of_find?_eq_some hf
      have hs := hc.szIns e' hm
      have hn := hc.full e' hm
      obtain ⟨k, bs⟩ := e'
      cases bs with
      | nil => exact absurd rfl hn
      | cons x bs => exact ⟨x, bs, by simp only [inputAt, h1, hf], hs⟩

theorem Call.one {N : Nat} {e : Nat × List Buf} {ins : Ins} {out : List Buf} (hc : Call N (e :: ins) out) :
    ∃ x bs, e.2 = x :: bs ∧ Sz N (x :: bs) := by
  have h1 := hc.szIns e (by simp)
  have h2 := hc.full e (by simp)
  obtain ⟨k, b⟩ := e
  cases b with
  | nil => exact absurd rfl h2
  | cons x bs => exact ⟨x, bs, rfl, h1⟩

theorem Call.outs {N : Nat} {ins : Ins} {out : List Buf} (hc : Call N ins out) :
    ∃ b rest, out = b :: rest ∧ b.length = N := by
  cases out with
  | nil => exact absurd rfl hc.ne
  | cons b rest => exact ⟨b, rest, rfl, hc.szOut b (by simp)⟩

theorem chan_zero (x : Buf) (bs : List Buf) : chan (x :: bs) 0 = .ok x := rfl

theorem Ring.push_wf {r : Ring} (h : r.Wf) (x : Fl) : ∃ q, r.push x = .ok q ∧ q.1.Wf := by
  have hd : r.data[r.first]? = some (r.data[r.first]'h) := List.getElem?_eq_getElem h
  refine ⟨_, by simp only [Ring.push, hd]; rfl, ?_⟩
  unfold Ring.Wf at h ⊢
  simp only [List.length_set]
  split <;> omega

theorem Ring.get_ok {r : Ring} (h : r.Wf) (k : Nat) : ∃ x, r.get k = .ok x := by
  unfold Ring.Wf at h
  have hl : r.data.length ≠ 0 := by omega
  have : (r.first + k) % r.data.length < r.data.length := Nat.mod_lt _ (by omega)
  simp only [Ring.get, if_neg hl, List.getElem?_eq_getElem this]
  exact ⟨_, rfl⟩

theorem run_push_wf {r : Ring} (h : r.Wf) (xs : Buf) : ∃ q, runM Ring.push r xs = .ok q ∧ q.1.Wf :=
  runM_total (I := Ring.Wf) (J := fun _ => True) _ (fun _ x hs _ => Ring.push_wf hs x) r h xs
    (fun _ _ => trivial)

section
variable {m : Libm} {N : Nat} {ins : Ins} {out : List Buf}

theorem sum2_total (hc : Call N ins out) : ∃ o, procSum2 ins out = .ok o := by
  have hch : ∀ ch (b : Buf), ∃ c, sum2Chan ins ch b = .ok c := by
    intro ch b
    unfold sum2Chan
    have hf := hc.full
    clear hc
    generalize silent b = acc
    induction ins generalizing acc with
    | nil => exact ⟨acc, rfl⟩
    | cons e ins ih =>
      rw [List.foldlM_cons]
      have he := hf e (by simp)
      obtain ⟨k, bs⟩ := e
      cases bs with
      | nil => exact absurd rfl he
      | cons x bs =>
        simp only
        split
        · exact ih (fun e he => hf e (by simp [he])) _
        · exact ih (fun e he => hf e (by simp [he])) _
  unfold procSum2
  have hall : ∀ ch, ∃ o, sum2From ins ch out = .ok o := by
    clear hc
    induction out with
    | nil => exact fun ch => ⟨[], rfl⟩
    | cons b bs ih =>
      intro ch
      obtain ⟨c, h1⟩ := hch ch b
      obtain ⟨cs, h2⟩ := ih (ch + 1)
      exact ⟨c :: cs, by simp only [sum2From, h1, h2, bind, Except.bind]⟩
  exact hall 0

theorem applyOp_total {op : Fl → Fl → Fl} {ord : List Nat} {v : Fl} {ok : Nat → Prop} (hc : Call N ins out)
    (hf : Fed ord (ins.map Prod.fst) ok) : ∃ o, applyOp op ord v ins out = .ok o := by
  obtain ⟨b, rest, rfl, _⟩ := hc.outs
  obtain ⟨n, _, hn, _, hat⟩ := hf.at hc
  unfold applyOp
  split
  · rename_i h; cases h
  · split
    · obtain ⟨x, bs, h, _⟩ := hc.one
      simp only at h
      subst h
      exact ⟨_, rfl⟩
    · simp only [List.length_cons, List.length_nil] at hn
      obtain ⟨x, bs, h1, _⟩ := hat 0 (by omega)
      obtain ⟨y, cs, h2, _⟩ := hat 1 (by omega)
      simp only [h1, h2, bind, Except.bind, chan_zero]
      exact ⟨_, rfl⟩
    · exact ⟨_, rfl⟩

theorem setStereo_total {l r : Buf} (h : 2 ≤ out.length) : ∃ o, setStereo out l r = .ok o := by
  match out, h with
  | _ :: _ :: more, _ => exact ⟨_, rfl⟩

theorem pan_total {a : Arith} (hc : Call N ins out) (h2 : 2 ≤ out.length)
    (hf : Fed a.order (ins.map Prod.fst) (1 ≤ ·)) : ∃ o, procPan m a ins out = .ok o := by
  obtain ⟨n, ok, hn, h0, hat⟩ := hf.at hc
  unfold procPan
  split
  · obtain ⟨x, bs, h, _⟩ := hc.one
    simp only at h
    subst h
    simp only [chan_zero, bind, Except.bind]
    exact setStereo_total h2
  · rename_i hne
    have h2n : 2 ≤ n := by
      match ins, hne, hn, h0 with
      | [], _, _, h0 => have := h0 rfl; omega
      | [(k, b)], hne, _, _ => exact absurd rfl (hne k b)
      | _ :: _ :: _, _, hn, _ => simp only [List.length_cons] at hn; omega
    obtain ⟨x, bs, h1, _⟩ := hat 0 (by omega)
    obtain ⟨y, cs, h2', _⟩ := hat 1 (by omega)
    simp only [h1, h2', bind, Except.bind, chan_zero]
    exact setStereo_total h2

theorem balance_total {ord : List Nat} {ok : Nat → Prop} (hc : Call N ins out) (h2 : 2 ≤ out.length)
    (hf : Fed ord (ins.map Prod.fst) ok) : ∃ o, procBalance ord ins out = .ok o := by
  obtain ⟨n, _, hn, h0, hat⟩ := hf.at hc
  unfold procBalance
  split
  · simp only [List.length_cons, List.length_nil] at hn
    obtain ⟨x, bs, h1, _⟩ := hat 0 (by omega)
    obtain ⟨y, cs, h2', _⟩ := hat 1 (by omega)
    simp only [h1, h2', bind, Except.bind, chan_zero]
    exact setStereo_total h2
  · exact ⟨_, rfl⟩

theorem imp_total {s : Impulse} (hc : Call N ins out) (hs : s.period ≠ 0 ∧ RateOk s.sr) :
    ∃ s' o, procImp s out = .ok (s', o) ∧ s'.period ≠ 0 ∧ RateOk s'.sr := by
  obtain ⟨b, rest, rfl, _⟩ := hc.outs
  have h := hs.1
  obtain ⟨r, hr, _⟩ := runM_total (I := fun _ => True) (J := fun _ => True) (impStep s.period)
    (fun c x _ _ => ⟨_, by simp only [impStep, if_neg h]; rfl, trivial⟩) s.clock trivial b (fun _ _ => trivial)
  simp only [procImp, hr, bind, Except.bind]
  exact ⟨_, _, rfl, hs⟩

theorem delayn_total {d : DelayN} (hc : Call N ins out) (h : d.buf.Wf) :
    ∃ s' o, procDelayN d ins out = .ok (s', o) ∧ s'.buf.Wf := by
  obtain ⟨b, rest, rfl, _⟩ := hc.outs
  unfold procDelayN
  split
  · split
    · exact ⟨_, _, rfl, h⟩
    · obtain ⟨x, bs, h1, _⟩ := hc.one
      simp only at h1
      subst h1
      obtain ⟨q, hq, hw⟩ := run_push_wf h x
      simp only [chan_zero, bind, Except.bind, hq]
      exact ⟨_, _, rfl, hw⟩
  · exact ⟨_, _, rfl, h⟩

theorem plain_total {rs : List Ring} (h : ∀ r, r ∈ rs → r.Wf) (o xs : List Buf) :
    ∃ rs' o', delayMsPlain rs o xs = .ok (rs', o') ∧ ∀ r, r ∈ rs' → r.Wf := by
  induction rs generalizing o xs with
  | nil => cases o <;> exact ⟨_, _, rfl, h⟩
  | cons r rs ih =>
    match o, xs with
    | [], _ => exact ⟨_, _, rfl, h⟩
    | _ :: _, [] => exact ⟨_, _, rfl, h⟩
    | b :: o, x :: xs =>
      obtain ⟨q, hq, hw⟩ := run_push_wf (h r (by simp)) x
      obtain ⟨rs', o', h1, h2⟩ := ih (fun r hr => h r (by simp [hr])) o xs
      refine ⟨q.1 :: rs', q.2 :: o', by simp only [delayMsPlain, hq, h1, bind, Except.bind], ?_⟩
      intro r hr
      rcases List.mem_cons.mp hr with rfl | hr
      · exact hw
      · exact h2 r hr

theorem delayms_total {d : DelayMs} (hc : Call N ins out) (h : ∀ r, r ∈ d.buf → r.Wf)
    (hf : Fed d.order (ins.map Prod.fst) (· = 1)) :
    ∃ s' o, procDelayMs d ins out = .ok (s', o) ∧ ∀ r, r ∈ s'.buf → r.Wf := by
  obtain ⟨b, rest, rfl, _⟩ := hc.outs
  obtain ⟨n, rfl, hn, h0, _⟩ := hf.at hc
  match ins, hn, h0, hc with
  | [], _, h0, _ => have := h0 rfl; omega
  | _ :: _ :: _, hn, _, _ => simp only [List.length_cons] at hn; omega
  | [(k, main)], _, _, hc =>
    obtain ⟨x, bs, h1, _⟩ := hc.one
    simp only at h1
    subst h1
    unfold procDelayMs
    simp only [chan_zero, bind, Except.bind]
    split
    · exact ⟨_, _, rfl, h⟩
    · split
      · exact ⟨_, _, rfl, h⟩
      · obtain ⟨rs', o', h1, h2⟩ := plain_total h (b :: rest) (x :: bs)
        simp only [h1]
        exact ⟨_, _, rfl, h2⟩

theorem modInput_total {ord : List Nat} {ok : Nat → Prop} {e : Nat × List Buf} (hc : Call N [e] out)
    (hf : Fed ord ([e].map Prod.fst) ok) : ∃ x bs, modInput [e] ord e = .ok (x :: bs) ∧ Sz N (x :: bs) := by
  unfold modInput
  split
  · obtain ⟨x, bs, h1, h2⟩ := hc.one
    exact ⟨x, bs, by rw [h1], h2⟩
  · obtain ⟨n, _, hn, _, hat⟩ := hf.at hc
    simp only [List.length_cons, List.length_nil] at hn
    exact hat 0 (by omega)

theorem osc_total {w : Wave} {s : Osc} {ok : Nat → Prop} (hc : Call N ins out)
    (hf : Fed s.order (ins.map Prod.fst) ok) : ∃ s' o, procOsc w s ins out = .ok (s', o) := by
  obtain ⟨b, rest, rfl, _⟩ := hc.outs
  unfold procOsc
  split
  · exact ⟨_, _, rfl⟩
  · rename_i e
    obtain ⟨x, bs, h1, _⟩ := modInput_total hc hf
    simp only [h1, bind, Except.bind, chan_zero]
    exact ⟨_, _, rfl⟩
  · exact ⟨_, _, rfl⟩

theorem sin_total {s : Osc} {ok : Nat → Prop} (hc : Call N ins out)
    (hf : Fed s.order (ins.map Prod.fst) ok) : ∃ s' o, procSin m s ins out = .ok (s', o) := by
  obtain ⟨b, rest, rfl, _⟩ := hc.outs
  unfold procSin
  split
  · exact ⟨_, _, rfl⟩
  · rename_i e
    obtain ⟨x, bs, h1, _⟩ := modInput_total hc hf
    simp only [h1, bind, Except.bind, chan_zero]
    exact ⟨_, _, rfl⟩
  · exact ⟨_, _, rfl⟩

theorem envperc_total {s : EnvPerc} {ok : Nat → Prop} (hc : Call N ins out)
    (hs : EnvOk s.sr s.attack s.decay)
    (hf : Fed s.order (ins.map Prod.fst) ok) : ∃ s' o, procEnvPerc s ins out = .ok (s', o) ∧
      EnvOk s'.sr s'.attack s'.decay := by
  have h := hs.sum
  obtain ⟨b, rest, rfl, _⟩ := hc.outs
  obtain ⟨n, _, hn, _, hat⟩ := hf.at hc
  unfold procEnvPerc
  split
  · simp only [List.length_cons, List.length_nil] at hn
    obtain ⟨x, bs, h1, _⟩ := hat 0 (by omega)
    simp only [usizeAdd, if_pos h, h1, bind, Except.bind, chan_zero]
    exact ⟨_, _, rfl, hs⟩
  · exact ⟨_, _, rfl, hs⟩

theorem adsr_total {s : Adsr} {ok : Nat → Prop} (hc : Call N ins out)
    (hs : EnvOk s.sr s.attack s.decay)
    (hf : Fed s.order (ins.map Prod.fst) ok) : ∃ s' o, procAdsr s ins out = .ok (s', o) ∧
      EnvOk s'.sr s'.attack s'.decay := by
  have h := hs.sum
  obtain ⟨b, rest, rfl, _⟩ := hc.outs
  obtain ⟨n, _, hn, _, hat⟩ := hf.at hc
  unfold procAdsr
  split
  · simp only [List.length_cons, List.length_nil] at hn
    obtain ⟨x, bs, h1, _⟩ := hat 0 (by omega)
    have hstep : ∀ st y, ∃ r, adsrStep (secToSamples s.sr s.attack) (secToSamples s.sr s.decay)
        (secToSamples s.sr s.release) s.sustain st y = .ok r := by
      intro st y
      have hv : ∃ v, adsrValue (secToSamples s.sr s.attack) (secToSamples s.sr s.decay)
          (secToSamples s.sr s.release) s.sustain (adsrGate st y) = .ok v := by
        unfold adsrValue
        split
        · unfold adsrHeld
          split
          · split <;> exact ⟨_, rfl⟩
          · simp only [usizeAdd, if_pos h, bind, Except.bind]
            split
            · split <;> exact ⟨_, rfl⟩
            · exact ⟨_, rfl⟩
        · split <;> exact ⟨_, rfl⟩
      obtain ⟨v, hv⟩ := hv
      simp only [adsrStep, hv, bind, Except.bind]
      exact ⟨_, rfl⟩
    obtain ⟨r, hr, _⟩ := runM_total (I := fun _ => True) (J := fun _ => True) _
      (fun st y _ _ => (hstep st y).imp fun _ h => ⟨h, trivial⟩) s.st trivial x (fun _ _ => trivial)
    simp only [h1, bind, Except.bind, chan_zero, hr]
    exact ⟨_, _, rfl, hs⟩
  · exact ⟨_, _, rfl, hs⟩

theorem onepole_total {s : OnePole} {ok : Nat → Prop} (hc : Call N ins out)
    (hf : Fed s.order (ins.map Prod.fst) ok) : ∃ s' o, procOnePole m s ins out = .ok (s', o) := by
  obtain ⟨b, rest, rfl, _⟩ := hc.outs
  obtain ⟨n, _, hn, _, hat⟩ := hf.at hc
  unfold procOnePole
  split
  · obtain ⟨x, bs, h1, _⟩ := hc.one
    simp only at h1
    subst h1
    simp only [bind, Except.bind, chan_zero]
    exact ⟨_, _, rfl⟩
  · simp only [List.length_cons, List.length_nil] at hn
    obtain ⟨x, bs, h1, _⟩ := hat 0 (by omega)
    obtain ⟨y, cs, h2, _⟩ := hat 1 (by omega)
    simp only [h1, h2, bind, Except.bind, chan_zero]
    exact ⟨_, _, rfl⟩
  · exact ⟨_, _, rfl⟩

theorem firstSample_total {x : Buf} {bs : List Buf} (h : Sz N (x :: bs)) (hN : 1 ≤ N) :
    ∃ v, firstSample x = .ok v := by
  have := h x (by simp)
  cases x with
  | nil => simp at this; omega
  | cons v x => exact ⟨v, rfl⟩

theorem rhpf_total {s : Rhpf} {ok : Nat → Prop} (hc : Call N ins out)
    (hf : Fed s.order (ins.map Prod.fst) ok) : ∃ s' o, procRhpf m s ins out = .ok (s', o) := by
  obtain ⟨b, rest, rfl, _⟩ := hc.outs
  obtain ⟨n, _, hn, _, hat⟩ := hf.at hc
  unfold procRhpf
  split
  · obtain ⟨x, bs, h1, _⟩ := hc.one
    simp only at h1
    subst h1
    simp only [bind, Except.bind, chan_zero]
    exact ⟨_, _, rfl⟩
  · simp only [List.length_cons, List.length_nil] at hn
    obtain ⟨x, bs, h1, _⟩ := hat 0 (by omega)
    obtain ⟨y, cs, h2, hy⟩ := hat 1 (by omega)
    obtain ⟨v, hv⟩ := firstSample_total hy hc.pos
    simp only [h1, h2, bind, Except.bind, chan_zero, hv]
    exact ⟨_, _, rfl⟩
  · exact ⟨_, _, rfl⟩

theorem patternValue_total {bar step : Nat} {bpm : Fl} {sr : Nat} {l : List (Fl × Fl)} (h : l = [] ∨ bar ≠ 0)
    (v : Fl) : ∃ w, patternValue bar step bpm sr l v = .ok w := by
  rcases h with rfl | h
  · exact ⟨v, rfl⟩
  · induction l generalizing v with
    | nil => exact ⟨v, rfl⟩
    | cons e l ih =>
      simp only [patternValue, if_neg h]
      exact ih _

theorem rlpf_total {s : Rlpf} {ok : Nat → Prop} (hc : Call N ins out)
    (h : s.pattern = [] ∨ (barDur s.bpm s.span s.sr).toUsize ≠ 0)
    (hf : Fed s.order (ins.map Prod.fst) ok) : ∃ s' o, procRlpf m s ins out = .ok (s', o) ∧
      (s'.pattern = [] ∨ (barDur s'.bpm s'.span s'.sr).toUsize ≠ 0) := by
  obtain ⟨b, rest, rfl, _⟩ := hc.outs
  obtain ⟨n, _, hn, _, hat⟩ := hf.at hc
  unfold procRlpf
  split
  · obtain ⟨x, bs, h1, _⟩ := hc.one
    simp only at h1
    subst h1
    have hstep : ∀ st y, ∃ r, rlpfStep m s st y = .ok r := by
      intro st y
      obtain ⟨w, hw⟩ := patternValue_total (step := st.2.1) (bpm := s.bpm) (sr := s.sr) h st.1
      simp only [rlpfStep, hw, bind, Except.bind]
      exact ⟨_, rfl⟩
    obtain ⟨r, hr, _⟩ := runM_total (I := fun _ => True) (J := fun _ => True) _
      (fun st y _ _ => (hstep st y).imp fun _ h => ⟨h, trivial⟩) (s.cutoff, s.step, s.mem) trivial x
      (fun _ _ => trivial)
    simp only [bind, Except.bind, chan_zero, hr]
    exact ⟨_, _, rfl, h⟩
  · simp only [List.length_cons, List.length_nil] at hn
    obtain ⟨x, bs, h1, _⟩ := hat 0 (by omega)
    obtain ⟨y, cs, h2, hy⟩ := hat 1 (by omega)
    obtain ⟨v, hv⟩ := firstSample_total hy hc.pos
    simp only [h1, h2, bind, Except.bind, chan_zero, hv]
    exact ⟨_, _, rfl, h⟩
  · exact ⟨_, _, rfl, h⟩

theorem apf_total {s : Apf} (hc : Call N ins out) (h : s.bufx.Wf ∧ s.bufy.Wf)
    (hf : Fed s.order (ins.map Prod.fst) (· ≤ 1)) : ∃ s' o, procApf s ins out = .ok (s', o) ∧
      s'.bufx.Wf ∧ s'.bufy.Wf := by
  obtain ⟨b, rest, rfl, _⟩ := hc.outs
  obtain ⟨n, hok, hn, _, hat⟩ := hf.at hc
  unfold procApf
  split
  · simp only [List.length_cons, List.length_nil] at hn
    obtain ⟨x, bs, h1, _⟩ := hat 0 (by omega)
    have hstep : ∀ (st : Ring × Ring) y, (st.1.Wf ∧ st.2.Wf) → ∃ r, apfStep s.gain st y = .ok r ∧ r.1.1.Wf ∧ r.1.2.Wf := by
      rintro ⟨r1, r2⟩ y ⟨w1, w2⟩
      obtain ⟨u, hu⟩ := Ring.get_ok w1 0
      obtain ⟨v, hv⟩ := Ring.get_ok w2 0
      obtain ⟨p, hp, hpw⟩ := Ring.push_wf w1 y
      obtain ⟨q, hq, hqw⟩ := Ring.push_wf w2 (apfOut s.gain y u v)
      simp only [apfStep, hu, hv, hp, hq, bind, Except.bind]
      exact ⟨_, rfl, hpw, hqw⟩
    obtain ⟨r, hr, hw⟩ := runM_total (I := fun st : Ring × Ring => st.1.Wf ∧ st.2.Wf) (J := fun _ => True) _
      (fun st y w _ => hstep st y w) (s.bufx, s.bufy) h x (fun _ _ => trivial)
    simp only [h1, bind, Except.bind, chan_zero, hr]
    exact ⟨_, _, rfl, hw⟩
  · simp only [List.length_cons, List.length_nil] at hn
    omega
  · exact ⟨_, _, rfl, h⟩

theorem seq_total {s : Sequencer} (hc : Call N ins out) (h : s.speed = .fin 1 ∧ TempoOk s.bpm ∧ 4096 ≤ s.sr)
    (hf : Fed s.order (ins.map Prod.fst) (· = 0)) : ∃ s' o, procSeq m s ins out = .ok (s', o) ∧
      s'.speed = .fin 1 ∧ TempoOk s'.bpm ∧ 4096 ≤ s'.sr := by
  obtain ⟨b, rest, rfl, _⟩ := hc.outs
  obtain ⟨n, rfl, hn, _, _⟩ := hf.at hc
  have hi : ins = [] := by
    rw [← List.length_eq_zero_iff]; omega
  subst hi
  have hb := seqBar_ne h.2.1 h.2.2
  have hs : ∀ k (es : List (Fl × NatRef)) o, ∃ v, seqSample m (barLength s.bpm s.sr s.speed) k seqValue0 es o = .ok v := by
    intro k es
    induction es with
    | nil => exact fun o => ⟨o, rfl⟩
    | cons e es ih =>
      intro o
      simp only [seqSample, h.1, if_neg hb]
      rw [h.1] at ih
      split
      · have : ∃ v, seqValue0 e.2 = .ok v := by
          unfold seqValue0; split <;> exact ⟨_, rfl⟩
        obtain ⟨v, hv⟩ := this
        simp only [hv, bind, Except.bind]
        exact ih _
      · exact ih _
  obtain ⟨r, hr, _⟩ := runM_total (I := fun _ => True) (J := fun _ => True) (fun k (_ : Fl) => do
        let v ← seqSample m (barLength s.bpm s.sr s.speed) k seqValue0 s.events (.fin 0)
        .ok (k + 1, v))
      (fun k y _ _ => by
        obtain ⟨v, hv⟩ := hs k s.events (.fin 0)
        exact ⟨(k + 1, v), by simp only [hv, bind, Except.bind], trivial⟩) s.step trivial b
      (fun _ _ => trivial)
  refine ⟨{ s with step := r.1 }, r.2 :: rest, ?_, h⟩
  unfold procSeq
  simp only [bind, Except.bind] at hr ⊢
  rw [hr]

theorem arrFind_total {events : List NumRef} {pos : Fl} : ∀ (n j : Nat) (c : Fl), (j + n) * 2 ≤ events.length →
    ∃ h, arrFind events pos n j c = .ok h ∧ (∀ i, h = .part i → i < j + n) ∧ (h = .wrap → 0 < j + n) := by
  intro n
  induction n with
  | zero => intro j c _; exact ⟨_, rfl, by simp, by simp⟩
  | succ n ih =>
    intro j c hl
    have hj : j * 2 + 1 < events.length := by omega
    simp only [arrFind, List.getElem?_eq_getElem hj]
    cases he : events[j * 2 + 1] with
    | ref r => exact ⟨_, rfl, by simp, by simp⟩
    | num bar =>
      simp only
      split
      · exact ⟨_, rfl, by simp, by simp⟩
      · split
        · exact ⟨_, rfl, by simp, by omega⟩
        · obtain ⟨h, h1, h2, h3⟩ := ih (j + 1) (c +. bar) (by omega)
          exact ⟨h, h1, fun i hi => by have := h2 i hi; omega, fun hw => by omega⟩

theorem arrange_total {s : Arrange} (hc : Call N ins out)
    (hf : Fed s.order (ins.map Prod.fst) (s.events.length / 2 ≤ ·)) :
    ∃ s' o, procArrange s ins out = .ok (s', o) := by
  obtain ⟨b, rest, rfl, hb⟩ := hc.outs
  obtain ⟨n, hok, _, _, hat⟩ := hf.at hc
  have hin : ∀ j i, j < n → i < N → ∃ v, inputSample ins s.order j i = .ok v := by
    intro j i hj hi
    obtain ⟨x, bs, h1, h2⟩ := hat j hj
    have hx : i < x.length := by rw [h2 x (by simp)]; exact hi
    simp only [inputSample, h1, chan_zero, bind, Except.bind, List.getElem?_eq_getElem hx]
    exact ⟨_, rfl⟩
  have hrun : ∀ (old : Buf) (i step : Nat), i + old.length = N → ∃ r, arrRun s ins i step old = .ok r := by
    intro old
    induction old with
    | nil => intro i step _; exact ⟨_, rfl⟩
    | cons o old ih =>
      intro i step hl
      simp only [List.length_cons] at hl
      obtain ⟨h, h1, h2, h3⟩ := arrFind_total (events := s.events)
        (pos := Fl.ofNat f32 step /. (.fin 240 /. s.bpm *. Fl.ofNat f32 s.sr /. s.speed))
        (s.events.length / 2) 0 (.fin 0) (by omega)
      simp only [arrRun, h1, bind, Except.bind]
      cases h with
      | stop => exact ⟨_, rfl⟩
      | part j =>
        obtain ⟨v, hv⟩ := hin j i (by have := h2 j rfl; omega) (by omega)
        obtain ⟨r, hr⟩ := ih (i + 1) (step + 1) (by omega)
        simp only [hv, hr]
        exact ⟨_, rfl⟩
      | wrap =>
        obtain ⟨v, hv⟩ := hin 0 i (by have := h3 rfl; omega) (by omega)
        obtain ⟨r, hr⟩ := ih (i + 1) 1 (by omega)
        simp only [hv, hr]
        exact ⟨_, rfl⟩
      | none =>
        obtain ⟨r, hr⟩ := ih (i + 1) (step + 1) (by omega)
        simp only [hr]
        exact ⟨_, rfl⟩
  obtain ⟨r, hr⟩ := hrun b 0 s.step (by omega)
  simp only [procArrange, hr, bind, Except.bind]
  exact ⟨_, _, rfl⟩

theorem choose_total {s : Choose} (hc : Call N ins out) (h : s.notes ≠ [] ∧ s.notes.length ≤ 2 ^ 53)
    (hm : ∀ a b, Within (-1) 1 (m.noise a b)) : ∃ s' o, procChoose m s out = .ok (s', o) ∧
      s'.notes ≠ [] ∧ s'.notes.length ≤ 2 ^ 53 := by
  obtain ⟨b, rest, rfl, hb⟩ := hc.outs
  have hlt := chooseIndex_lt (hm s.seed s.drawn) (List.length_pos_iff.mpr h.1) h.2
  cases b with
  | nil => exact ⟨_, _, rfl, h⟩
  | cons x b =>
    simp only [procChoose, List.getElem?_eq_getElem hlt]
    exact ⟨_, _, rfl, h⟩

theorem pointsOnce_total {ps : List (Nat × Fl)} (h : ps ≠ []) (pos : Nat) : ∃ v, pointsOnce false ps pos = .ok v := by
  obtain ⟨a, ha⟩ : ∃ a, ps.getLast? = some a := by
    cases hl : ps.getLast? with
    | none => exact absurd (List.getLast?_eq_none_iff.mp hl) h
    | some a => exact ⟨a, rfl⟩
  have key : ∀ index : Nat, ∃ v, (match ps[index]?, ps[index + 1]? with
      | some a, some b =>
        Except.ok (lerpPoint (Fl.ofNat f32 pos) (Fl.ofNat f32 a.1) (Fl.ofNat f32 b.1 -. Fl.ofNat f32 a.1) a.2 b.2)
      | _, _ =>
        match ps.getLast? with
        | none => .error Panic.missing
        | some a => .ok a.2) = .ok v := by
    intro i
    split
    · exact ⟨_, rfl⟩
    · rw [ha]; exact ⟨_, rfl⟩
  unfold pointsOnce
  cases ps.findIdx? (fun s => decide (pos ≤ s.1)) with
  | none => exact key 0
  | some k =>
    cases k with
    | zero => exact key (2 ^ 64 - 1)
    | succ k => exact key k

theorem pointsLoop_total {ps : List (Nat × Fl)} (h : ps ≠ []) {bar : Nat} (hb : bar ≠ 0) (step : Nat) :
    ∃ v, pointsLoop ps bar step = .ok v := by
  have hl := List.length_pos_iff.mpr h
  have hi : (ps.findIdx? (fun s => decide (step % bar ≤ s.1))).getD (ps.length - 1) < ps.length := by
    cases hx : ps.findIdx? (fun s => decide (step % bar ≤ s.1)) with
    | none => simp only [Option.getD_none]; omega
    | some k =>
      rw [List.findIdx?_eq_some_iff_getElem] at hx
      obtain ⟨h, _⟩ := hx
      simpa using h
  have hj : ∀ i : Nat, (i + 1) % ps.length < ps.length := fun i => Nat.mod_lt _ hl
  simp only [pointsLoop, if_neg hb, List.getElem?_eq_getElem hi, List.getElem?_eq_getElem (hj _)]
  exact ⟨_, rfl⟩

theorem points_total {s : Points} (hc : Call N ins out)
    (h : if s.looping then SpanOk s.span ∧ TempoOk s.bpm ∧ 4096 ≤ s.sr else m.checked = false) :
    ∃ s' o, procPoints m s out = .ok (s', o) ∧
      if s'.looping then SpanOk s'.span ∧ TempoOk s'.bpm ∧ 4096 ≤ s'.sr else m.checked = false := by
  obtain ⟨b, rest, rfl, _⟩ := hc.outs
  unfold procPoints
  split
  · exact ⟨_, _, rfl, h⟩
  · rename_i hne
    have hne' : s.points ≠ [] := fun h => hne h
    have hs : ∀ k, ∃ v, (if s.looping then pointsLoop s.points (pointsBar s.bpm s.span s.sr).toUsize k
        else pointsOnce m.checked s.points k) = .ok v := by
      intro k
      by_cases hl : s.looping = true
      · rw [if_pos hl] at h ⊢
        exact pointsLoop_total hne' (bar_ne h.2.1 h.1 h.2.2) k
      · rw [if_neg hl] at h ⊢
        rw [h]
        exact pointsOnce_total hne' k
    obtain ⟨r, hr, _⟩ := runM_total (I := fun _ => True) (J := fun _ => True) (fun (k : Nat) (_ : Fl) => do
          let v ← if s.looping then pointsLoop s.points (pointsBar s.bpm s.span s.sr).toUsize k
            else pointsOnce m.checked s.points k
          .ok (k + 1, v))
        (fun k y _ _ => by
          obtain ⟨v, hv⟩ := hs k
          refine ⟨(k + 1, v), ?_, trivial⟩
          by_cases hl : s.looping = true
          · rw [if_pos hl] at hv
            simp only [if_pos hl, hv, bind, Except.bind]
          · rw [if_neg hl] at hv
            simp only [if_neg hl, hv, bind, Except.bind]) s.step trivial b
        (fun _ _ => trivial)
    simp only
    rw [hr]
    exact ⟨_, _, rfl, h⟩

theorem sampler_total {s : Sampler} (hc : Call N ins out) (h2 : 2 ≤ out.length)
    (h : Fine s.sample ∧ ∀ v, v ∈ s.voices → v.1 ≤ s.clock) : ∃ s' o, procSampler s ins out = .ok (s', o) ∧
      Fine s'.sample ∧ ∀ v, v ∈ s'.voices → v.1 ≤ s'.clock := by
  match out, h2 with
  | l :: r :: rest, _ =>
    match ins with
    | [] => exact ⟨_, _, rfl, h⟩
    | [i] =>
      obtain ⟨x, bs, h1, _⟩ := hc.one
      have hstep : ∀ (st : Sampler) y, (Fine st.sample ∧ ∀ v, v ∈ st.voices → v.1 ≤ st.clock) →
          ∃ q, samplerStep st y = .ok q ∧ Fine q.1.sample ∧ ∀ v, v ∈ q.1.voices → v.1 ≤ q.1.clock := by
        rintro st y ⟨hf, hv⟩
        have hvs : ∀ v, v ∈ (if Fl.lt (.fin 0) y then st.voices ++ [(st.clock, voiceDur st.sample st.sr y)]
            else st.voices) → v.1 ≤ st.clock := by
          intro v hm
          split at hm
          · rcases List.mem_append.mp hm with hm | hm
            · exact hv v hm
            · simp only [List.mem_singleton] at hm
              subst hm
              exact le_refl _
          · exact hv v hm
        have hp := playVoices_ok hf.1 hf.2 st.clock _ hvs (.fin 0, .fin 0) (fun _ => rfl)
        simp only [samplerStep, hp, bind, Except.bind]
        refine ⟨_, rfl, hf, ?_⟩
        intro v hm
        have := hvs v (List.mem_of_mem_filter hm)
        simp only
        omega
      obtain ⟨q, hq, hI⟩ := runM_total (I := fun st : Sampler => Fine st.sample ∧ ∀ v, v ∈ st.voices → v.1 ≤ st.clock)
        (J := fun _ => True) samplerStep (fun st y w _ => hstep st y w) s h x (fun _ _ => trivial)
      simp only [procSampler, h1, chan_zero, hq, bind, Except.bind]
      exact ⟨_, _, rfl, hI⟩
    | _ :: _ :: _ => exact ⟨_, _, rfl, h⟩

theorem psampler_total {s : PSampler} (h2 : 2 ≤ out.length) (h : ∃ bar, bar ≠ 0 ∧ PsInv bar s) :
    ∃ s' o, procPSampler s out = .ok (s', o) ∧ ∃ bar, bar ≠ 0 ∧ PsInv bar s' := by
  match out, h2 with
  | l :: r :: rest, _ =>
    obtain ⟨bar, hb, hp⟩ := h
    obtain ⟨q, hq, hi, _⟩ := psRun_ok hb l.length s hp
    simp only [procPSampler, hq, bind, Except.bind]
    exact ⟨_, _, rfl, bar, hb, hi⟩

theorem patSynth_total {s : PatternSynth} (hc : Call N ins out)
    (h : (.fin 2 *. .fin 1 *. Fl.ofNat f32 s.sr).toUsize ≠ 0) : ∃ s' o, procPatSynth m s ins out = .ok (s', o) ∧
      (.fin 2 *. .fin 1 *. Fl.ofNat f32 s'.sr).toUsize ≠ 0 := by
  obtain ⟨b, rest, rfl, _⟩ := hc.outs
  have hs : ∀ (sr : Nat) (h : (.fin 2 *. .fin 1 *. Fl.ofNat f32 sr).toUsize ≠ 0) k (es : List (Fl × Fl)),
      ∃ v, patStarts m sr k es = .ok v := by
    intro sr h k es
    induction es with
    | nil => exact ⟨_, rfl⟩
    | cons e es ih =>
      obtain ⟨v, hv⟩ := ih
      simp only [patStarts, if_neg h, hv, bind, Except.bind]
      exact ⟨_, rfl⟩
  cases ins with
  | cons e ins => exact ⟨_, _, rfl, h⟩
  | nil =>
    obtain ⟨q, hq, hI⟩ := runM_total
      (I := fun s : PatternSynth => (.fin 2 *. .fin 1 *. Fl.ofNat f32 s.sr).toUsize ≠ 0)
      (J := fun _ => True) (patSynthStep m) (fun st y w _ => by
        obtain ⟨v, hv⟩ := hs st.sr w st.step st.events
        simp only [patSynthStep, hv, bind, Except.bind]
        exact ⟨_, rfl, w⟩) s h b (fun _ _ => trivial)
    simp only [procPatSynth, hq, bind, Except.bind]
    exact ⟨_, _, rfl, hI⟩

theorem sameNode_total {n : Prim} {r : Except Panic (List Buf)} (h : ∃ o, r = .ok o) (hs : n.Safe m) :
    ∃ n' o, sameNode n r = .ok (n', o) ∧ n'.Safe m := by
  obtain ⟨o, rfl⟩ := h
  exact ⟨n, o, rfl, hs⟩

theorem reState_total {σ : Type} {f : σ → Prim} {r : Except Panic (σ × List Buf)}
    (h : ∃ s o, r = .ok (s, o) ∧ (f s).Safe m) : ∃ n' o, reState f r = .ok (n', o) ∧ n'.Safe m := by
  obtain ⟨s, o, rfl, hs⟩ := h
  exact ⟨f s, o, rfl, hs⟩

theorem reState_total' {σ : Type} {f : σ → Prim} {r : Except Panic (σ × List Buf)} (hf : ∀ s, (f s).Safe m)
    (h : ∃ s o, r = .ok (s, o)) : ∃ n' o, reState f r = .ok (n', o) ∧ n'.Safe m := by
  obtain ⟨s, o, rfl⟩ := h
  exact ⟨f s, o, rfl, hf s⟩

/-- A safe node processes its block and stays safe. -/
theorem procPrim_total (hm : ∀ a b, Within (-1) 1 (m.noise a b)) {n : Prim} (hs : n.Safe m) (hc : Call N ins out)
    (h2 : n.twoSided → 2 ≤ out.length)
    (hf : n.keepsOrder = true → Fed n.order (ins.map Prod.fst) n.fits) :
    ∃ n' o, procPrim m n ins out = .ok (n', o) ∧ n'.Safe m := by
  have ht : ∀ a : Arith, (Prim.mul a).Safe m := fun _ => trivial
  obtain ⟨b, rest, hout, _⟩ := hc.outs
  cases n with
  | pass => exact ⟨_, _, rfl, trivial⟩
  | sum => exact ⟨_, _, rfl, trivial⟩
  | sum2 => exact sameNode_total (sum2_total hc) trivial
  | mul a => exact sameNode_total (applyOp_total hc (hf rfl)) trivial
  | add a => exact sameNode_total (applyOp_total hc (hf rfl)) trivial
  | constSig c => subst hout; exact ⟨_, _, rfl, trivial⟩
  | imp i => exact reState_total (imp_total hc hs)
  | noise s => exact ⟨_, _, rfl, trivial⟩
  | speed a =>
    refine sameNode_total ?_ trivial
    subst hout
    have := hc.szOut b (by simp)
    cases b with
    | nil => have := hc.pos; simp at *; omega
    | cons x b => exact ⟨_, rfl⟩
  | pan a => exact sameNode_total (pan_total hc (h2 trivial) (hf rfl)) trivial
  | balance o => exact sameNode_total (balance_total hc (h2 trivial) (hf rfl)) trivial
  | delayn d => exact reState_total (delayn_total hc hs)
  | delayms d => exact reState_total (delayms_total hc hs (hf rfl))
  | osc w o => exact reState_total' (fun _ => trivial) (osc_total hc (hf rfl))
  | sin o => exact reState_total' (fun _ => trivial) (sin_total hc (hf rfl))
  | envperc e => exact reState_total (envperc_total hc hs (hf rfl))
  | adsr e => exact reState_total (adsr_total hc hs (hf rfl))
  | onepole f => exact reState_total' (fun _ => trivial) (onepole_total hc (hf rfl))
  | rhpf f => exact reState_total' (fun _ => trivial) (rhpf_total hc (hf rfl))
  | rlpf f => exact reState_total (rlpf_total hc hs (hf rfl))
  | apf f => exact reState_total (apf_total hc hs (hf rfl))
  | seq s => exact reState_total (seq_total hc hs (hf rfl))
  | arrange a => exact reState_total' (fun _ => trivial) (arrange_total hc (hf rfl))
  | choose c => exact reState_total (choose_total hc hs hm)
  | points p => exact reState_total (points_total hc hs)
  | sampler s => exact reState_total (sampler_total hc (h2 trivial) hs)
  | psampler p => exact reState_total (psampler_total (h2 trivial) hs)
  | msgSynth s => subst hout; exact ⟨_, _, rfl, trivial⟩
  | patSynth s => exact reState_total (patSynth_total hc hs)

end

end Verif
