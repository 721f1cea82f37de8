import Verif.Lemmas.StreamNodes

/-! More primitive nodes that treat blocks sample by sample (helpers). -/

namespace Verif
open Spec

variable {m : Libm} {sel chans : List Nat} {C : Nat}

/-! ### Oscillators -/

theorem Slots.modIn {N : Nat} {D : List Nat} {bufs : List (List Buf)} {ins : Ins} (hS : Slots N chans D bufs ins)
    (hs : ∀ j, j ∈ sel → j < chans.length) (hc : chans.length = 1) {l : List Nat} (hl : l = sel.map (fun j => D.getD j 0)) {d : Nat}
    {o : List Buf} (h : modInput ins l (d, bufs.getD 0 []) = .ok o) : o = bufs.getD 0 [] := by
  unfold modInput at h
  split at h
  · cases h; rfl
  · obtain ⟨j, hj, rfl⟩ := hS.noted hs hl h
    rw [slot_zero hs hc hj]

theorem osc_loop {w : Wave} {o : Osc} (hs : ∀ j, j ∈ sel → j < chans.length) : PrimLoop m (.osc w o) sel chans C := by
  by_cases h0 : chans = []
  · subst h0
    refine ⟨Fl, Fl, fun l p => .osc w { o with phase := p, order := l }, o.phase, fun p _ => .ok (oscStep w o.sr o.freq p (.fin 0)),
      wLeft, fun _ => rfl, ?_⟩
    intro N D bufs ins out l p r _ hS _ hsz _ hr
    obtain ⟨s', b, h, rfl⟩ := reState_back hr
    obtain ⟨rfl, rfl⟩ := hS.none
    match out, hsz, h with
    | [], _, h => cases h
    | x :: rest, hsz, h =>
      cases h
      refine ⟨_, _, (runM_source (step := fun p x => .ok (oscStep w o.sr o.freq p x)) (fun _ _ => rfl) (hsz x (by simp)) [] p).trans
        (runM_pure _ _ _), ?_⟩
      rw [put_left]
  · by_cases h1 : chans.length = 1
    · refine ⟨Fl × Fl, Fl, fun l p => .osc w { o with phase := p.1, inc := p.2, order := l }, (o.phase, o.inc),
        fun p fr => .ok (oscModStep w o.sr p (samp fr 0 0)), wLeft, fun _ => rfl, ?_⟩
      intro N D bufs ins out l p r _ hS _ hsz hl hr
      obtain ⟨s', b, h, rfl⟩ := reState_back hr
      obtain ⟨d, rfl⟩ := hS.only h1
      match out, hsz, h with
      | [], _, h => cases h
      | x :: rest, hsz, h =>
        simp only [procOsc] at h
        rw [except_bind_ok] at h
        obtain ⟨md, h2, h⟩ := h
        rw [except_bind_ok] at h
        obtain ⟨y, h3, h⟩ := h
        cases h
        rw [hS.modIn hs h1 (hl rfl) h2] at h3
        refine ⟨_, _, (one_loop hS h3 (f := fun p x => .ok (oscModStep w o.sr p x))).trans (runM_pure _ _ _), ?_⟩
        rw [put_left]
    · refine PrimLoop.idle ?_
      intro l N D bufs ins out r hS _ hl hr
      obtain ⟨s', o, h, rfl⟩ := reState_back hr
      unfold procOsc at h
      split at h
      · exact absurd (List.length_eq_zero_iff.mp hS.length_eq.symm) h0
      · exact absurd rfl (hS.not_only h1 _)
      · cases h; rfl

theorem sin_loop {o : Osc} (hs : ∀ j, j ∈ sel → j < chans.length) (hC : 0 < C) : PrimLoop m (.sin o) sel chans C := by
  by_cases h0 : chans = []
  · subst h0
    refine ⟨Fl, Fl, fun l p => .sin { o with phase := p, order := l }, o.phase, fun p _ => .ok (sinStep m o.sr p o.freq),
      wAll, fun _ => rfl, ?_⟩
    intro N D bufs ins out l p r _ hS ho hsz _ hr
    obtain ⟨s', b, h, rfl⟩ := reState_back hr
    obtain ⟨rfl, rfl⟩ := hS.none
    match out, ho, hsz, h with
    | [], ho, _, h => simp at ho; omega
    | x :: rest, _, hsz, h =>
      cases h
      refine ⟨_, _, (runM_source (step := fun p _ => .ok (sinStep m o.sr p o.freq)) (fun _ _ => rfl) (hsz x (by simp)) [] p).trans
        (runM_pure (fun p _ => sinStep m o.sr p o.freq) _ _), ?_⟩
      rw [put_all, run_over]
  · by_cases h1 : chans.length = 1
    · refine ⟨Fl, Fl, fun l p => .sin { o with phase := p, order := l }, o.phase,
        fun p fr => .ok (sinStep m o.sr p (samp fr 0 0)), wAll, fun _ => rfl, ?_⟩
      intro N D bufs ins out l p r _ hS _ hsz hl hr
      obtain ⟨s', b, h, rfl⟩ := reState_back hr
      obtain ⟨d, rfl⟩ := hS.only h1
      simp only [procSin] at h
      rw [except_bind_ok] at h
      obtain ⟨md, h2, h⟩ := h
      rw [except_bind_ok] at h
      obtain ⟨y, h3, h⟩ := h
      cases h
      rw [hS.modIn hs h1 (hl rfl) h2] at h3
      refine ⟨_, _, (one_loop hS h3 (f := fun p x => .ok (sinStep m o.sr p x))).trans (runM_pure _ _ _), ?_⟩
      rw [put_all]
    · refine PrimLoop.idle ?_
      intro l N D bufs ins out r hS _ hl hr
      obtain ⟨s', o, h, rfl⟩ := reState_back hr
      unfold procSin at h
      split at h
      · exact absurd (List.length_eq_zero_iff.mp hS.length_eq.symm) h0
      · exact absurd rfl (hS.not_only h1 _)
      · cases h; rfl

/-! ### Envelopes -/

theorem envperc_loop {e : EnvPerc} (hs : ∀ j, j ∈ sel → j < chans.length) : PrimLoop m (.envperc e) sel chans C := by
  by_cases h1 : chans.length = 1
  · refine ⟨Nat × Fl, Fl, fun l p => .envperc { e with pos := p.1, scale := p.2, order := l }, (e.pos, e.scale),
      fun p fr => .ok (percStep (secToSamples e.sr e.attack) (secToSamples e.sr e.decay) p (samp fr 0 0)), wLeft, fun _ => rfl, ?_⟩
    intro N D bufs ins out l p r _ hS _ hsz hl hr
    obtain ⟨s', b, h, rfl⟩ := reState_back hr
    obtain ⟨d, rfl⟩ := hS.only h1
    simp only [procEnvPerc] at h
    rw [except_bind_ok] at h
    obtain ⟨_, _, h⟩ := h
    rw [except_bind_ok] at h
    obtain ⟨input, h2, h⟩ := h
    rw [except_bind_ok] at h
    obtain ⟨y, h3, h⟩ := h
    obtain ⟨j, hj, rfl⟩ := hS.noted hs (hl rfl) h2
    rw [slot_zero hs h1 hj] at h3
    match out, h with
    | [], h => cases h
    | x :: rest, h =>
      cases h
      refine ⟨_, _, (one_loop hS h3 (f := fun p x => .ok (percStep (secToSamples e.sr e.attack)
        (secToSamples e.sr e.decay) p x))).trans (runM_pure _ _ _), ?_⟩
      rw [put_left]
  · refine PrimLoop.idle ?_
    intro l N D bufs ins out r hS _ hl hr
    obtain ⟨s', o, h, rfl⟩ := reState_back hr
    unfold procEnvPerc at h
    split at h
    · exact absurd rfl (hS.not_only h1 _)
    · cases h; rfl

theorem adsr_loop {e : Adsr} (hs : ∀ j, j ∈ sel → j < chans.length) : PrimLoop m (.adsr e) sel chans C := by
  by_cases h1 : chans.length = 1
  · refine ⟨AdsrState, Fl, fun l p => .adsr { e with st := p, order := l }, e.st,
      fun p fr => adsrStep (secToSamples e.sr e.attack) (secToSamples e.sr e.decay) (secToSamples e.sr e.release) e.sustain p
        (samp fr 0 0), wBoth C, fun _ => rfl, ?_⟩
    intro N D bufs ins out l p r _ hS hC hsz hl hr
    obtain ⟨s', b, h, rfl⟩ := reState_back hr
    obtain ⟨d, rfl⟩ := hS.only h1
    simp only [procAdsr] at h
    rw [except_bind_ok] at h
    obtain ⟨input, h2, h⟩ := h
    rw [except_bind_ok] at h
    obtain ⟨y, h3, h⟩ := h
    obtain ⟨j, hj, rfl⟩ := hS.noted hs (hl rfl) h2
    rw [slot_zero hs h1 hj] at h3
    match out, hC, h with
    | [], _, h => cases h
    | x :: rest, hC, h =>
      dsimp only at h
      rw [except_bind_ok] at h
      obtain ⟨⟨k, z⟩, h4, h⟩ := h
      cases h
      exact ⟨k, z, (one_loop hS h3).trans h4, by rw [put_both z x rest hC]⟩
  · refine PrimLoop.idle ?_
    intro l N D bufs ins out r hS _ hl hr
    obtain ⟨s', o, h, rfl⟩ := reState_back hr
    unfold procAdsr at h
    split at h
    · exact absurd rfl (hS.not_only h1 _)
    · cases h; rfl

/-! ### Filters -/

theorem onepole_loop {f : OnePole} (hs : ∀ j, j ∈ sel → j < chans.length) : PrimLoop m (.onepole f) sel chans C := by
  by_cases h1 : chans.length = 1
  · refine ⟨Fl, Fl, fun l p => .onepole { f with y1 := p, order := l }, f.y1, fun p fr => .ok (poleStep f.a f.b p (samp fr 0 0)),
      wLeft, fun _ => rfl, ?_⟩
    intro N D bufs ins out l p r _ hS _ hsz hl hr
    obtain ⟨s', b, h, rfl⟩ := reState_back hr
    obtain ⟨d, rfl⟩ := hS.only h1
    match out, h with
    | [], h => cases h
    | x :: rest, h =>
      simp only [procOnePole] at h
      rw [except_bind_ok] at h
      obtain ⟨y, h3, h⟩ := h
      cases h
      refine ⟨_, _, (one_loop hS h3 (f := fun p x => .ok (poleStep f.a f.b p x))).trans (runM_pure _ _ _), ?_⟩
      rw [put_left]
  · by_cases h2 : chans.length = 2
    · refine ⟨Fl × Fl × Fl, Fl, fun l p => .onepole { f with a := p.1, b := p.2.1, y1 := p.2.2, order := l }, (f.a, f.b, f.y1),
        fun p fr => .ok (poleModStep m p (samp fr (slotOf sel 0) 0, samp fr (slotOf sel 1) 0)), wLeft, fun _ => rfl, ?_⟩
      intro N D bufs ins out l p r _ hS _ hsz hl hr
      obtain ⟨s', b, h, rfl⟩ := reState_back hr
      obtain ⟨x, y, rfl⟩ := hS.pair h2
      match out, h with
      | [], h => cases h
      | x :: rest, h =>
        simp only [procOnePole] at h
        rw [except_bind_ok] at h
        obtain ⟨main, hr0, h⟩ := h
        rw [except_bind_ok] at h
        obtain ⟨ref, hr1, h⟩ := h
        rw [except_bind_ok] at h
        obtain ⟨x0, hx0, h⟩ := h
        rw [except_bind_ok] at h
        obtain ⟨x1, hx1, h⟩ := h
        cases h
        obtain ⟨j0, hj0, rfl⟩ := hS.noted hs (hl rfl) hr0
        obtain ⟨j1, hj1, rfl⟩ := hS.noted hs (hl rfl) hr1
        rw [show slotOf sel 0 = j0 from getD_of hj0, show slotOf sel 1 = j1 from getD_of hj1]
        refine ⟨_, _, (two_loop hS hx0 hx1 (f := fun p x => .ok (poleModStep m p x))).trans (runM_pure _ _ _), ?_⟩
        rw [put_left]
    · refine PrimLoop.idle ?_
      intro l N D bufs ins out r hS _ hl hr
      obtain ⟨s', o, h, rfl⟩ := reState_back hr
      unfold procOnePole at h
      split at h
      · exact absurd rfl (hS.not_only h1 _)
      · exact absurd rfl (hS.not_two h2 _ _)
      · cases h; rfl

theorem rhpf_loop {f : Rhpf} (h2 : chans.length ≠ 2) : PrimLoop m (.rhpf f) sel chans C := by
  by_cases h1 : chans.length = 1
  · refine ⟨Biquad, Fl, fun l p => .rhpf { f with mem := p, order := l }, f.mem,
      fun p fr => .ok (biquadStep (rhpfCoef m f.cutoff f.q f.sr) p (samp fr 0 0)), wLeft, fun _ => rfl, ?_⟩
    intro N D bufs ins out l p r _ hS _ hsz hl hr
    obtain ⟨s', b, h, rfl⟩ := reState_back hr
    obtain ⟨d, rfl⟩ := hS.only h1
    match out, h with
    | [], h => cases h
    | x :: rest, h =>
      simp only [procRhpf] at h
      rw [except_bind_ok] at h
      obtain ⟨y, h3, h⟩ := h
      cases h
      refine ⟨_, _, (one_loop hS h3 (f := fun p x => .ok (biquadStep (rhpfCoef m f.cutoff f.q f.sr) p x))).trans
        (runM_pure _ _ _), ?_⟩
      rw [put_left]
  · refine PrimLoop.idle ?_
    intro l N D bufs ins out r hS _ hl hr
    obtain ⟨s', o, h, rfl⟩ := reState_back hr
    unfold procRhpf at h
    split at h
    · exact absurd rfl (hS.not_only h1 _)
    · exact absurd rfl (hS.not_two h2 _ _)
    · cases h; rfl

theorem rlpf_loop {f : Rlpf} (h2 : chans.length ≠ 2) : PrimLoop m (.rlpf f) sel chans C := by
  by_cases h1 : chans.length = 1
  · refine ⟨Fl × Nat × Biquad, Fl, fun l p => .rlpf { f with cutoff := p.1, step := p.2.1, mem := p.2.2, order := l },
      (f.cutoff, f.step, f.mem), fun p fr => rlpfStep m f p (samp fr 0 0), wLeft, fun _ => rfl, ?_⟩
    intro N D bufs ins out l p r _ hS _ hsz hl hr
    obtain ⟨s', b, h, rfl⟩ := reState_back hr
    obtain ⟨d, rfl⟩ := hS.only h1
    match out, h with
    | [], h => cases h
    | x :: rest, h =>
      simp only [procRlpf] at h
      rw [except_bind_ok] at h
      obtain ⟨y, h3, h⟩ := h
      rw [except_bind_ok] at h
      obtain ⟨⟨k, z⟩, h4, h⟩ := h
      cases h
      exact ⟨k, z, (one_loop hS h3 (f := rlpfStep m f)).trans h4, by rw [put_left]⟩
  · refine PrimLoop.idle ?_
    intro l N D bufs ins out r hS _ hl hr
    obtain ⟨s', o, h, rfl⟩ := reState_back hr
    unfold procRlpf at h
    split at h
    · exact absurd rfl (hS.not_only h1 _)
    · exact absurd rfl (hS.not_two h2 _ _)
    · cases h; rfl

theorem apf_loop {f : Apf} (hs : ∀ j, j ∈ sel → j < chans.length) : PrimLoop m (.apf f) sel chans C := by
  by_cases h1 : chans.length = 1
  · refine ⟨Ring × Ring, Fl, fun l p => .apf { f with bufx := p.1, bufy := p.2, order := l }, (f.bufx, f.bufy),
      fun p fr => apfStep f.gain p (samp fr 0 0), wLeft, fun _ => rfl, ?_⟩
    intro N D bufs ins out l p r _ hS _ hsz hl hr
    obtain ⟨s', b, h, rfl⟩ := reState_back hr
    obtain ⟨d, rfl⟩ := hS.only h1
    match out, h with
    | [], h => cases h
    | x :: rest, h =>
      simp only [procApf] at h
      rw [except_bind_ok] at h
      obtain ⟨main, h2, h⟩ := h
      rw [except_bind_ok] at h
      obtain ⟨y, h3, h⟩ := h
      rw [except_bind_ok] at h
      obtain ⟨⟨k, z⟩, h4, h⟩ := h
      cases h
      obtain ⟨j, hj, rfl⟩ := hS.noted hs (hl rfl) h2
      rw [slot_zero hs h1 hj] at h3
      exact ⟨k, z, (one_loop hS h3 (f := apfStep f.gain)).trans h4, by rw [put_left]⟩
  · by_cases h2 : chans.length = 2
    · refine ⟨Ring × Ring, Fl, fun l p => .apf { f with bufx := p.1, bufy := p.2, order := l }, (f.bufx, f.bufy),
        fun p fr => apfModStep f.gain f.sr p (samp fr (slotOf sel 0) 0, samp fr (slotOf sel 1) 0), wLeft, fun _ => rfl, ?_⟩
      intro N D bufs ins out l p r _ hS _ hsz hl hr
      obtain ⟨s', b, h, rfl⟩ := reState_back hr
      obtain ⟨x, y, rfl⟩ := hS.pair h2
      match out, h with
      | [], h => cases h
      | x :: rest, h =>
        simp only [procApf] at h
        rw [except_bind_ok] at h
        obtain ⟨main, hr0, h⟩ := h
        rw [except_bind_ok] at h
        obtain ⟨ref, hr1, h⟩ := h
        rw [except_bind_ok] at h
        obtain ⟨x0, hx0, h⟩ := h
        rw [except_bind_ok] at h
        obtain ⟨x1, hx1, h⟩ := h
        rw [except_bind_ok] at h
        obtain ⟨⟨k, z⟩, h4, h⟩ := h
        cases h
        obtain ⟨j0, hj0, rfl⟩ := hS.noted hs (hl rfl) hr0
        obtain ⟨j1, hj1, rfl⟩ := hS.noted hs (hl rfl) hr1
        rw [show slotOf sel 0 = j0 from getD_of hj0, show slotOf sel 1 = j1 from getD_of hj1]
        exact ⟨k, z, (two_loop hS hx0 hx1 (f := apfModStep f.gain f.sr)).trans h4, by rw [put_left]⟩
    · refine PrimLoop.idle ?_
      intro l N D bufs ins out r hS _ hl hr
      obtain ⟨s', o, h, rfl⟩ := reState_back hr
      unfold procApf at h
      split at h
      · exact absurd rfl (hS.not_only h1 _)
      · exact absurd rfl (hS.not_two h2 _ _)
      · cases h; rfl

end Verif
