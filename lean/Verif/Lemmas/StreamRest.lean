import Verif.Lemmas.StreamMore
import Verif.Props.Arith

/-! The remaining primitive nodes that treat blocks sample by sample (helpers). -/

namespace Verif
open Spec Props

variable {m : Libm} {sel chans : List Nat} {C : Nat}

/-! ### Sample players -/

theorem silent_range {b : Buf} {N : Nat} (h : b.length = N) : silent b = (List.range N).map (fun _ => .fin 0) := by
  rw [silent, buf_map h]

theorem sampler_loop {s : Sampler} : PrimLoop m (.sampler s) sel chans C := by
  by_cases h1 : chans.length = 1
  · refine ⟨Sampler, Fl × Fl, fun l v => .sampler { v with order := l }, s, fun v fr => samplerStep v (samp fr 0 0), wPair,
      fun _ => rfl, ?_⟩
    intro N D bufs ins out l v r _ hS _ hsz hl hr
    obtain ⟨s', b, h, rfl⟩ := reState_back hr
    obtain ⟨d, rfl⟩ := hS.only h1
    unfold procSampler at h
    split at h
    · rename_i x y rest
      dsimp only at h
      rw [except_bind_ok] at h
      obtain ⟨x0, hx0, h⟩ := h
      rw [except_bind_ok] at h
      obtain ⟨⟨k, z⟩, h4, h⟩ := h
      cases h
      obtain ⟨v', h2, h3⟩ := runM_set (fun v : Sampler => { v with order := l }) (f := samplerStep)
        (fun s x r hr => by
          simp only [samplerStep] at hr
          rw [except_bind_ok] at hr
          obtain ⟨new, h4, hr⟩ := hr
          cases hr
          exact ⟨_, by simp only [samplerStep, h4]; rfl, rfl⟩) h4
      refine ⟨v', z, ?_, ?_⟩
      · have : runM (fun v fr => samplerStep v (samp fr 0 0)) v (slotFrames N bufs) = runM samplerStep v x0 :=
          runM_frames (hS.sized hx0) (fun s t => by rw [samp_frames, (chan_getD hx0).1]) v
        exact this.trans h2
      · rw [put_pair]
        exact Prod.ext (congrArg Prim.sampler h3) rfl
    · cases h
  · refine PrimLoop.stateless (fun _ => (.fin 0, .fin 0)) wPair ?_
    intro l N D bufs ins out r _ hS hC hsz hl hr
    obtain ⟨s', b, h, rfl⟩ := reState_back hr
    unfold procSampler at h
    split at h
    · rename_i x y rest
      split at h
      · exact absurd rfl (hS.not_only h1 _)
      · cases h
        rw [put_pair, List.map_map, List.map_map, silent_range (hsz x (by simp)), silent_range (hsz y (by simp))]
        rfl
    · cases h

/-- The samples of a pattern have one or two channels. -/
def PsOk (p : PSampler) : Prop :=
  (∀ v, v ∈ p.voices → v.1.channels = 1 ∨ v.1.channels = 2) ∧ ∀ e, e ∈ p.pattern → e.1.channels = 1 ∨ e.1.channels = 2

theorem psTrigger_ok {p : PSampler} {step : Nat} : ∀ {l : List (Sample × Fl)} {r : List (Sample × Voice)},
    psTrigger p step l = .ok r → ∀ v, v ∈ r → ∃ e, e ∈ l ∧ v.1 = e.1 := by
  intro l
  induction l with
  | nil => intro r h v hv; cases h; cases hv
  | cons e l ih =>
    intro r h v hv
    simp only [psTrigger] at h
    split at h
    · cases h
    · split at h
      · split at h
        · cases h
        · rw [except_bind_ok] at h
          obtain ⟨r', h1, h⟩ := h
          cases h
          rcases List.mem_cons.mp hv with rfl | hv
          · exact ⟨e, by simp, rfl⟩
          · obtain ⟨e', h2, h3⟩ := ih h1 v hv
            exact ⟨e', by simp [h2], h3⟩
      · obtain ⟨e', h2, h3⟩ := ih h v hv
        exact ⟨e', by simp [h2], h3⟩

theorem addVoice_some {s : Sample} (h : s.channels = 1 ∨ s.channels = 2) {pos : Fl} {o : Fl × Fl} {x : Option (Fl × Fl)}
    (hx : addVoice s pos o = .ok x) : x ≠ none := by
  unfold addVoice at hx
  split at hx
  · rw [except_bind_ok] at hx
    obtain ⟨_, _, hx⟩ := hx
    cases hx; simp
  · split at hx
    · rw [except_bind_ok] at hx
      obtain ⟨a, _, hx⟩ := hx
      split at hx <;> (cases hx; simp)
    · rcases h with h | h <;> contradiction

theorem psPlay_ok {step : Nat} : ∀ {l : List (Sample × Voice)} {o : Fl × Fl} {r},
    (∀ v, v ∈ l → v.1.channels = 1 ∨ v.1.channels = 2) → psPlay step l o = .ok r →
    r.1 = false ∧ ∀ v, v ∈ r.2.1 → v ∈ l := by
  intro l
  induction l with
  | nil => intro o r _ h; cases h; exact ⟨rfl, fun v hv => hv⟩
  | cons a l ih =>
    intro o r hl h
    simp only [psPlay] at h
    split at h
    · cases h
    · split at h
      · split at h
        · cases h
        · rename_i hx
          exact absurd rfl (addVoice_some (hl a (by simp)) hx)
        · rw [except_bind_ok] at h
          obtain ⟨⟨b, q, o2⟩, h1, h⟩ := h
          cases h
          obtain ⟨h2, h3⟩ := ih (fun v hv => hl v (by simp [hv])) h1
          refine ⟨h2, fun v hv => ?_⟩
          rcases List.mem_cons.mp hv with rfl | hv
          · simp
          · simp [h3 v hv]
      · rw [except_bind_ok] at h
        obtain ⟨⟨b, q, o2⟩, h1, h⟩ := h
        cases h
        obtain ⟨h2, h3⟩ := ih (fun v hv => hl v (by simp [hv])) h1
        refine ⟨h2, fun v hv => ?_⟩
        simp only at h2 h3
        subst h2
        simp only [Bool.false_eq_true, if_false] at hv
        simp [h3 v hv]

/-- One sample of the pattern player. -/
def psStep (p : PSampler) (_ : Frame) : Except Panic (PSampler × (Fl × Fl)) := do
  let new ← psTrigger p p.step p.pattern
  let (_, r, o) ← psPlay p.step (p.voices ++ new) (.fin 0, .fin 0)
  .ok ({ p with voices := r, step := p.step + 1 }, o)

theorem psStep_ok {p : PSampler} {fr : Frame} {r} (hp : PsOk p) (h : psStep p fr = .ok r) : PsOk r.1 := by
  simp only [psStep] at h
  rw [except_bind_ok] at h
  obtain ⟨new, h1, h⟩ := h
  rw [except_bind_ok] at h
  obtain ⟨⟨b, q, o⟩, h2, h⟩ := h
  cases h
  refine ⟨fun v hv => ?_, hp.2⟩
  have hv := (psPlay_ok (fun v hv => ?_) h2).2 v hv
  · rcases List.mem_append.mp hv with hv | hv
    · exact hp.1 v hv
    · obtain ⟨e, h3, h4⟩ := psTrigger_ok h1 v hv
      rw [h4]; exact hp.2 e h3
  · rcases List.mem_append.mp hv with hv | hv
    · exact hp.1 v hv
    · obtain ⟨e, h3, h4⟩ := psTrigger_ok h1 v hv
      rw [h4]; exact hp.2 e h3

theorem psTrigger_reorder {p : PSampler} {l : List Nat} {step : Nat} : ∀ {es : List (Sample × Fl)},
    psTrigger { p with order := l } step es = psTrigger p step es := by
  intro es
  induction es with
  | nil => rfl
  | cons e es ih => simp only [psTrigger, ih]

theorem psRun_loop {l : List Nat} : ∀ {xs : List Frame} {p : PSampler} {r}, PsOk p →
    psRun xs.length { p with order := l } = .ok r →
    ∃ p', runM psStep p xs = .ok (p', r.2) ∧ r.1 = { p' with order := l } := by
  intro xs
  induction xs with
  | nil => intro p r _ h; cases h; exact ⟨p, rfl, rfl⟩
  | cons x xs ih =>
    intro p r hp h
    simp only [List.length_cons, psRun, psTrigger_reorder] at h
    rw [except_bind_ok] at h
    obtain ⟨new, h1, h⟩ := h
    rw [except_bind_ok] at h
    obtain ⟨⟨b, q, o⟩, h2, h⟩ := h
    have hs : psStep p x = .ok ({ p with voices := q, step := p.step + 1 }, o) := by
      simp only [psStep, h1, h2, bind, Except.bind]
    have hb : b = false := by
      refine (psPlay_ok (fun v hv => ?_) h2).1
      rcases List.mem_append.mp hv with hv | hv
      · exact hp.1 v hv
      · obtain ⟨e, h3, h4⟩ := psTrigger_ok h1 v hv
        rw [h4]; exact hp.2 e h3
    subst hb
    simp only [Bool.false_eq_true, if_false] at h
    rw [except_bind_ok] at h
    obtain ⟨⟨p', y⟩, h3, h⟩ := h
    cases h
    obtain ⟨p2, h5, h6⟩ := ih (psStep_ok hp hs) h3
    exact ⟨p2, by simp only [runM, hs, h5], h6⟩

theorem psampler_loop {p : PSampler} (hp : PsOk p) : PrimLoop m (.psampler p) sel chans C := by
  refine PrimLoop.of_inv PsOk (fun l v => .psampler { v with order := l }) p psStep wPair (fun _ => rfl) hp
    (fun s fr r h1 h2 => psStep_ok h1 h2) ?_
  intro N D bufs ins out l v r hv _ hS hC hsz hl hr
  obtain ⟨s', b, h, rfl⟩ := reState_back hr
  unfold procPSampler at h
  split at h
  · rename_i x y rest
    rw [except_bind_ok] at h
    obtain ⟨⟨p', z⟩, h1, h⟩ := h
    cases h
    have hx : x.length = (slotFrames N bufs).length := by rw [hsz x (by simp)]; simp [slotFrames]
    rw [hx] at h1
    obtain ⟨p2, h2, h3⟩ := psRun_loop hv h1
    refine ⟨p2, z, h2, ?_⟩
    rw [put_pair]
    exact Prod.ext (congrArg Prim.psampler h3) rfl
  · cases h

/-! ### References -/

theorem pass_loop (hc : chans.length ≤ 1) : PrimLoop m .pass sel chans C := by
  match chans, hc with
  | [], _ =>
    refine PrimLoop.idle ?_
    intro l N D bufs ins out r hS _ _ hr
    obtain ⟨rfl, rfl⟩ := hS.none
    cases hr
    rfl
  | [c], _ =>
    refine PrimLoop.stateless (fun fr => fr.getD 0 []) (wPass c C) ?_
    intro l N D bufs ins out r _ hS hC _ _ hr
    obtain ⟨_, o', _, rfl, rfl, h3, h4⟩ := hS.one
    cases hr
    simp only [procPass]
    rw [passBufs_put h3 h4, hC]
    rfl

/-- The channel `c` of a sum: the sources in the order of the slots. -/
def sumFrame (c : Nat) (fr : Frame) : Fl :=
  flSum (fr.map (fun o => if c < o.length then o.getD c (.fin 0) else o.getD 0 (.fin 0)))

def wSum : Nat → Option (Frame → Fl) := fun c => some (sumFrame c)

/-- What a mixer hears of an input on channel `c`. -/
def hearsOf (c : Nat) (o : List Buf) : Buf := if c < o.length then o.getD c [] else o.getD 0 []

theorem hearsOf_frame {c t : Nat} {o : List Buf} :
    (if c < (frame o t).length then (frame o t).getD c (.fin 0) else (frame o t).getD 0 (.fin 0)) = (hearsOf c o).getD t (.fin 0) := by
  have : ∀ k, (frame o t).getD k (.fin 0) = (o.getD k []).getD t (.fin 0) := by
    intro k
    simp only [frame, List.getD_eq_getElem?_getD, List.getElem?_map]
    cases o[k]? <;> simp
  simp only [this, hearsOf]
  simp only [frame, List.length_map]
  split <;> rfl

theorem addBuf_range {a b : Buf} {N : Nat} (ha : a.length = N) (hb : b.length = N) :
    addBuf a b = (List.range N).map (fun t => a.getD t (.fin 0) +. b.getD t (.fin 0)) := buf_zipWith ha hb _

theorem sum2Chan_eq {N : Nat} {ins : Ins} {c : Nat} (hw : ∀ i, i ∈ ins → (i.2.length = 1 ∨ i.2.length = 2) ∧ ∀ b, b ∈ i.2 → b.length = N)
    {b r : Buf} (hb : b.length = N) (h : sum2Chan ins c b = .ok r) :
    r = (List.range N).map (fun t => flSum (ins.map (fun i => (hearsOf c i.2).getD t (.fin 0)))) := by
  have hear : ∀ i, i ∈ ins → (hearsOf c i.2).length = N := by
    intro i hi
    obtain ⟨h1, h2⟩ := hw i hi
    unfold hearsOf
    split
    · rename_i hc
      apply h2
      rw [List.getD_eq_getElem?_getD, List.getElem?_eq_getElem hc]
      exact List.getElem_mem hc
    · have hc : 0 < i.2.length := by omega
      apply h2
      rw [List.getD_eq_getElem?_getD, List.getElem?_eq_getElem hc]
      exact List.getElem_mem hc
  have step : ∀ i, i ∈ ins → ∀ acc : Buf, (match i.2[c]? with
      | some x => (.ok (addBuf acc x) : Except Panic Buf)
      | none => do
        let x ← chan i.2 0
        .ok (addBuf acc x)) = .ok (addBuf acc (hearsOf c i.2)) := by
    intro i hi acc
    obtain ⟨h1, h2⟩ := hw i hi
    by_cases hc : c < i.2.length
    · rw [List.getElem?_eq_getElem hc]
      simp [hearsOf, hc, List.getD_eq_getElem?_getD]
    · rw [List.getElem?_eq_none (by omega)]
      have h0 : 0 < i.2.length := by omega
      simp only [chan, List.getElem?_eq_getElem h0, bind, Except.bind]
      simp [hearsOf, hc, List.getD_eq_getElem?_getD, List.getElem?_eq_getElem h0]
  have key : ∀ (l : Ins), (∀ i, i ∈ l → i ∈ ins) → ∀ (acc : Buf) (g : Nat → Fl), acc = (List.range N).map g →
      l.foldlM (fun acc i => match i.2[c]? with
        | some x => (.ok (addBuf acc x) : Except Panic Buf)
        | none => do
          let x ← chan i.2 0
          .ok (addBuf acc x)) acc = .ok r →
      r = (List.range N).map (fun t => (l.map (fun i => (hearsOf c i.2).getD t (.fin 0))).foldl (· +. ·) (g t)) := by
    intro l
    induction l with
    | nil => intro _ acc g hg h; cases h; exact hg
    | cons i l ih =>
      intro hl acc g hg h
      rw [List.foldlM_cons, step i (hl i (by simp))] at h
      have hacc : acc.length = N := by rw [hg]; simp
      refine (ih (fun i hi => hl i (by simp [hi])) _ (fun t => g t +. (hearsOf c i.2).getD t (.fin 0)) ?_ h).trans ?_
      · rw [addBuf_range hacc (hear i (hl i (by simp)))]
        apply List.map_congr_left
        intro t ht
        rw [hg]
        have := List.mem_range.mp ht
        simp [List.getD_eq_getElem?_getD, this]
      · rfl
  exact key ins (fun i hi => hi) (silent b) (fun _ => .fin 0) (silent_range hb) h

theorem sum2From_eq {N : Nat} {ins : Ins} {c : Nat}
    (hw : ∀ i, i ∈ ins → (i.2.length = 1 ∨ i.2.length = 2) ∧ ∀ b, b ∈ i.2 → b.length = N) : ∀ {out o : List Buf},
    (∀ b, b ∈ out → b.length = N) → sum2From ins c out = .ok o →
    o = out.mapIdx (fun k _ => (List.range N).map (fun t => flSum (ins.map (fun i => (hearsOf (c + k) i.2).getD t (.fin 0))))) := by
  intro out
  induction out generalizing c with
  | nil => intro o _ h; cases h; rfl
  | cons b out ih =>
    intro o hb h
    simp only [sum2From] at h
    rw [except_bind_ok] at h
    obtain ⟨x, hx, h⟩ := h
    rw [except_bind_ok] at h
    obtain ⟨xs, hxs, h⟩ := h
    cases h
    rw [List.mapIdx_cons, sum2Chan_eq hw (hb b (by simp)) hx, ih (fun y hy => hb y (by simp [hy])) hxs]
    congr 1
    apply List.ext_getElem
    · simp
    · intro k h1 h2
      simp only [List.getElem_mapIdx]
      rw [show c + 1 + k = c + (k + 1) by omega]

theorem sum2_loop (hc : chans.length ≤ 2) (hw : ∀ c, c ∈ chans → c = 1 ∨ c = 2) : PrimLoop m .sum2 sel chans C := by
  refine PrimLoop.stateless id wSum ?_
  intro l N D bufs ins out r _ hS hC hsz _ hr
  obtain ⟨o, h, rfl⟩ := sameNode_inv hr
  have hwi : ∀ i, i ∈ ins → (i.2.length = 1 ∨ i.2.length = 2) ∧ ∀ b, b ∈ i.2 → b.length = N := by
    intro i hi
    have := hS.perm.mem_iff.mp hi
    have h2 : i.2 ∈ bufs := (List.of_mem_zip (a := i.1) (b := i.2) this).2
    refine ⟨hw _ ?_, hS.size _ h2⟩
    rw [← hS.chans]
    exact List.mem_map.mpr ⟨_, h2, rfl⟩
  rw [sum2From_eq hwi hsz h]
  refine Prod.ext rfl ?_
  simp only [put, wSum, List.map_map, Nat.zero_add]
  congr 1
  funext k b
  apply List.map_congr_left
  intro t ht
  have ht := List.mem_range.mp ht
  simp only [Function.comp, id, sumFrame, List.map_map]
  have hfr : bufs.map ((fun o : List Fl => if k < o.length then o.getD k (.fin 0) else o.getD 0 (.fin 0)) ∘ fun o => frame o t) =
      bufs.map (fun o => (hearsOf k o).getD t (.fin 0)) := by
    apply List.map_congr_left
    intro o _
    exact hearsOf_frame
  rw [hfr]
  have hp : (ins.map (fun i => (hearsOf k i.2).getD t (.fin 0))).Perm (bufs.map (fun o => (hearsOf k o).getD t (.fin 0))) := by
    have := hS.perm.map (fun i => (hearsOf k i.2).getD t (.fin 0))
    rwa [show (D.zip bufs).map (fun i => (hearsOf k i.2).getD t (.fin 0)) =
      ((D.zip bufs).map Prod.snd).map (fun o => (hearsOf k o).getD t (.fin 0)) by rw [List.map_map]; rfl,
      List.map_snd_zip (by rw [hS.len])] at this
  have hok : ∀ o, o ∈ bufs → ((hearsOf k o).getD t (.fin 0)).Ok f32 := by
    intro o ho
    have h1 := hw _ (by rw [← hS.chans]; exact List.mem_map.mpr ⟨o, ho, rfl⟩)
    have hmem : hearsOf k o ∈ o := by
      unfold hearsOf
      split
      · rename_i hc
        rw [List.getD_eq_getElem?_getD, List.getElem?_eq_getElem hc]
        exact List.getElem_mem hc
      · have hc : 0 < o.length := by omega
        rw [List.getD_eq_getElem?_getD, List.getElem?_eq_getElem hc]
        exact List.getElem_mem hc
    have hlen := hS.size o ho _ hmem
    apply hS.ok o ho _ hmem
    rw [List.getD_eq_getElem?_getD, List.getElem?_eq_getElem (by omega)]
    exact List.getElem_mem _
  have hb : bufs.length = chans.length := by rw [← hS.chans]; simp
  match bufs, hb, hp, hok with
  | [], _, hp, _ => rw [List.map_nil, List.perm_nil] at hp; rw [hp]; rfl
  | [o], _, hp, _ => rw [List.map_singleton, List.perm_singleton] at hp; rw [hp]; rfl
  | [o1, o2], _, hp, hok =>
    simp only [List.map_cons, List.map_nil] at hp
    obtain ⟨a, b, hi⟩ := List.length_eq_two.mp hp.length_eq
    · rw [hi] at hp ⊢
      rcases List.mem_cons.mp (hp.mem_iff.mp (show a ∈ [a, b] by simp)) with ha | ha
      · rw [ha] at hp
        rw [ha, List.perm_singleton.mp ((List.perm_cons _).mp hp)]
        rfl
      · have ha : a = (hearsOf k o2).getD t (.fin 0) := by simpa using ha
        rw [ha] at hp
        have := (List.perm_cons _).mp (hp.trans (List.Perm.swap _ _ _))
        rw [List.cons.inj (List.perm_singleton.mp this) |>.1, ha]
        exact c42_two_partial _ _ (hok o2 (by simp)) (hok o1 (by simp))
  | _ :: _ :: _ :: _, hb, _, _ => simp at hb; omega

end Verif
