import Verif.Lemmas.Concrete
import Verif.Lemmas.Nodes
import Verif.Lemmas.NodeInv

/-! Nodes keep the number and the lengths of their buffers (helpers). -/

namespace Verif
open Spec

/-- All buffers have length `N`. -/
def Sz (N : Nat) (bs : List Buf) : Prop := ∀ b, b ∈ bs → b.length = N

/-- All inputs have buffers of length `N`. -/
def SzIns (N : Nat) (ins : Ins) : Prop := ∀ e, e ∈ ins → Sz N e.2

/-- The same number of buffers, all of length `N`. -/
def Keep (N : Nat) (out o : List Buf) : Prop := o.length = out.length ∧ Sz N o

theorem Sz.cons {N : Nat} {b : Buf} {bs : List Buf} (h : b.length = N) (hs : Sz N bs) :
    Sz N (b :: bs) := by
  intro x hx
  rcases List.mem_cons.mp hx with rfl | hx
  · exact h
  · exact hs x hx

theorem Sz.tail {N : Nat} {b : Buf} {bs : List Buf} (h : Sz N (b :: bs)) : Sz N bs :=
  fun x hx => h x (List.mem_cons_of_mem _ hx)

theorem Sz.head {N : Nat} {b : Buf} {bs : List Buf} (h : Sz N (b :: bs)) : b.length = N := h b (by simp)

theorem Sz.nil (N : Nat) : Sz N [] := fun _ h => by cases h

theorem Keep.refl {N : Nat} {out : List Buf} (h : Sz N out) : Keep N out out := ⟨rfl, h⟩

theorem Keep.left {N : Nat} {b c : Buf} {rest : List Buf} (h : Sz N (b :: rest)) (hc : c.length = N) :
    Keep N (b :: rest) (c :: rest) := ⟨rfl, .cons hc h.tail⟩

theorem chan_sz {N : Nat} {bs : List Buf} {k : Nat} {b : Buf} (hs : Sz N bs) (h : chan bs k = .ok b) :
    b.length = N := by
  unfold chan at h
  split at h
  · rename_i x hx
    cases h
    exact hs _ (List.mem_of_getElem? hx)
  · cases h

theorem inputAt_sz {N : Nat} {ins : Ins} {order : List Nat} {k : Nat} {bs : List Buf}
    (hs : SzIns N ins) (h : inputAt ins order k = .ok bs) : Sz N bs := by
  unfold inputAt at h
  split at h
  · cases h
  · split at h
    · rename_i e he
      cases h
      exact hs _ (List.mem_of_find?_eq_some he)
    · cases h

theorem run_len {σ ι ο : Type} {f : σ → ι → σ × ο} : ∀ {xs : List ι} {s : σ},
    (run f s xs).2.length = xs.length := by
  intro xs
  induction xs with
  | nil => intro s; rfl
  | cons x xs ih => intro s; simp [run, ih]

theorem runM_len {σ ι ο : Type} {f : σ → ι → Except Panic (σ × ο)} : ∀ {xs : List ι} {s : σ}
    {r : σ × List ο}, runM f s xs = .ok r → r.2.length = xs.length := by
  intro xs
  induction xs with
  | nil => intro s r h; cases h; rfl
  | cons x xs ih =>
    intro s r h
    unfold runM at h
    split at h
    · cases h
    · split at h
      · cases h
      · rename_i q hq
        cases h
        simp [ih hq]

theorem passBufs_keep {N : Nat} {input out : List Buf} (hi : Sz N input) (ho : Sz N out) :
    Keep N out (passBufs input out) := by
  unfold passBufs
  split
  · refine ⟨rfl, ?_⟩
    have := hi.head
    exact .cons this (.cons this (.nil N))
  · refine ⟨by simp; omega, ?_⟩
    intro b hb
    rcases List.mem_append.mp hb with h | h
    · exact hi b (List.mem_of_mem_take h)
    · exact ho b (List.mem_of_mem_drop h)

theorem addBuf_len {N : Nat} {a b : Buf} (ha : a.length = N) (hb : b.length = N) :
    (addBuf a b).length = N := by simp [addBuf, ha, hb]

theorem procSum_keep {N : Nat} {ins : Ins} {out : List Buf} (hi : SzIns N ins) (ho : Sz N out) :
    Keep N out (procSum ins out) := by
  refine ⟨by simp [procSum], ?_⟩
  intro b hb
  unfold procSum at hb
  rw [List.mem_mapIdx] at hb
  obtain ⟨i, hlt, rfl⟩ := hb
  have h0 : (silent out[i]).length = N := by simp [silent, ho _ (List.getElem_mem hlt)]
  generalize silent out[i] = acc at h0
  induction ins generalizing acc with
  | nil => exact h0
  | cons e ins ih =>
    rw [List.foldl_cons]
    refine ih (fun x hx => hi x (List.mem_cons_of_mem _ hx)) _ ?_
    split
    · rename_i x hx
      exact addBuf_len h0 (hi e (by simp) _ (List.mem_of_getElem? hx))
    · exact h0

theorem sum2Chan_len {N : Nat} {ins : Ins} {ch : Nat} {b c : Buf} (hi : SzIns N ins)
    (hb : b.length = N) (h : sum2Chan ins ch b = .ok c) : c.length = N := by
  unfold sum2Chan at h
  have h0 : (silent b).length = N := by simp [silent, hb]
  generalize silent b = acc at h h0
  induction ins generalizing acc with
  | nil => cases h; exact h0
  | cons e ins ih =>
    rw [List.foldlM_cons, except_bind_ok] at h
    obtain ⟨a, ha, h⟩ := h
    refine ih (fun x hx => hi x (List.mem_cons_of_mem _ hx)) _ h ?_
    split at ha
    · rename_i x hx
      cases ha
      exact addBuf_len h0 (hi e (by simp) _ (List.mem_of_getElem? hx))
    · rw [except_bind_ok] at ha
      obtain ⟨x, hx, ha⟩ := ha
      cases ha
      exact addBuf_len h0 (chan_sz (hi e (by simp)) hx)

theorem procSum2_keep {N : Nat} {ins : Ins} {out o : List Buf} (hi : SzIns N ins) (ho : Sz N out)
    (h : procSum2 ins out = .ok o) : Keep N out o := by
  unfold procSum2 at h
  generalize 0 = ch at h
  induction out generalizing ch o with
  | nil => cases h; exact .refl ho
  | cons b bs ih =>
    simp only [sum2From, except_bind_ok] at h
    obtain ⟨c, hc, cs, hcs, h⟩ := h
    cases h
    have := ih ho.tail _ hcs
    exact ⟨by simp [this.1], .cons (sum2Chan_len hi ho.head hc) this.2⟩

theorem setRight_keep {N : Nat} {rest : List Buf} {r l : Buf} {b : Buf} (ho : Sz N (b :: rest))
    (hl : l.length = N) (hr : r.length = N) : Keep N (b :: rest) (l :: setRight rest r) := by
  unfold setRight
  split
  · exact ⟨rfl, .cons hl (.nil N)⟩
  · exact ⟨rfl, .cons hl (.cons hr ho.tail.tail)⟩

theorem rightOf_len {N : Nat} {bs : List Buf} {l : Buf} (hs : Sz N bs) (hl : l.length = N) :
    (rightOf bs l).length = N := by
  unfold rightOf
  split
  · rename_i r hr
    exact hs _ (List.mem_of_getElem? hr)
  · exact hl

theorem applyOp_keep {N : Nat} {op : Fl → Fl → Fl} {order : List Nat} {v : Fl} {ins : Ins}
    {out o : List Buf} (hi : SzIns N ins) (ho : Sz N out) (h : applyOp op order v ins out = .ok o) :
    Keep N out o := by
  unfold applyOp at h
  split at h
  · cases h
  · split at h
    · rename_i main
      simp only [except_bind_ok] at h
      obtain ⟨m0, h0, h⟩ := h
      cases h
      have hm := hi _ (List.mem_singleton.mpr rfl)
      have h1 := chan_sz hm h0
      exact setRight_keep ho (by simp [h1]) (by simp [rightOf_len hm h1])
    · simp only [except_bind_ok] at h
      obtain ⟨main, k1, ref, k2, m0, k3, r0, k4, h⟩ := h
      cases h
      have a := inputAt_sz hi k1
      have b := inputAt_sz hi k2
      have c := chan_sz a k3
      have d := chan_sz b k4
      exact setRight_keep ho (by simp [c, d]) (by simp [rightOf_len a c, rightOf_len b d])
    · cases h; exact .refl ho

theorem procConstSig_keep {N : Nat} {c c' : ConstSig} {out o : List Buf} (ho : Sz N out)
    (h : procConstSig c out = .ok (c', o)) : Keep N out o ∧ c'.order = c.order := by
  unfold procConstSig at h
  split at h
  · cases h
  · cases h; exact ⟨.left ho (by simp [ho.head]), rfl⟩

theorem procImp_keep {N : Nat} {c c' : Impulse} {out o : List Buf} (ho : Sz N out)
    (h : procImp c out = .ok (c', o)) : Keep N out o ∧ c'.order = c.order := by
  unfold procImp at h
  split at h
  · cases h
  · rw [except_bind_ok] at h
    obtain ⟨⟨k, y⟩, h1, h⟩ := h
    cases h
    exact ⟨.left ho ((runM_len h1).trans ho.head), rfl⟩

theorem procNoise_keep {N : Nat} {m : Libm} {s : Noise} {out : List Buf} (ho : Sz N out) :
    Keep N out (procNoise m s out).2 ∧ (procNoise m s out).1.order = s.order := by
  refine ⟨?_, rfl⟩
  show Keep N out (noiseBufs m s.seed s.drawn out).2
  generalize s.drawn = k
  induction out generalizing k with
  | nil => exact .refl ho
  | cons b bs ih =>
    have := ih ho.tail (run (noiseStep m s.seed) k b).1
    exact ⟨by simp [noiseBufs, this.1], .cons (run_len.trans ho.head) this.2⟩

theorem procSpeed_keep {N : Nat} {a : Arith} {out o : List Buf} (ho : Sz N out)
    (h : procSpeed a out = .ok o) : Keep N out o := by
  unfold procSpeed at h
  split at h
  · cases h
  · cases h
  · cases h
    exact .left ho (by have := ho.head; simp [silent] at this ⊢; exact this)

theorem setStereo_keep {N : Nat} {out o : List Buf} {l r : Buf} (ho : Sz N out) (hl : l.length = N)
    (hr : r.length = N) (h : setStereo out l r = .ok o) : Keep N out o := by
  unfold setStereo at h
  split at h
  · cases h
    exact ⟨rfl, .cons hl (.cons hr ho.tail.tail)⟩
  · cases h

theorem procPan_keep {N : Nat} {m : Libm} {a : Arith} {ins : Ins} {out o : List Buf}
    (hi : SzIns N ins) (ho : Sz N out) (h : procPan m a ins out = .ok o) : Keep N out o := by
  unfold procPan at h
  split at h
  · simp only [except_bind_ok] at h
    obtain ⟨x, hx, h⟩ := h
    have := chan_sz (hi _ (List.mem_singleton.mpr rfl)) hx
    exact setStereo_keep ho (by simp [this]) (by simp [this]) h
  · simp only [except_bind_ok] at h
    obtain ⟨ref, k1, main, k2, r, k3, x, k4, h⟩ := h
    have c := chan_sz (inputAt_sz hi k1) k3
    have d := chan_sz (inputAt_sz hi k2) k4
    exact setStereo_keep ho (by simp [c, d]) (by simp [c, d]) h

theorem procBalance_keep {N : Nat} {order : List Nat} {ins : Ins} {out o : List Buf}
    (hi : SzIns N ins) (ho : Sz N out) (h : procBalance order ins out = .ok o) : Keep N out o := by
  unfold procBalance at h
  split at h
  · simp only [except_bind_ok] at h
    obtain ⟨l, k1, r, k2, l0, k3, r0, k4, h⟩ := h
    exact setStereo_keep ho (chan_sz (inputAt_sz hi k1) k3) (chan_sz (inputAt_sz hi k2) k4) h
  · cases h; exact .refl ho

theorem procDelayN_keep {N : Nat} {d d' : DelayN} {ins : Ins} {out o : List Buf} (hi : SzIns N ins)
    (ho : Sz N out) (h : procDelayN d ins out = .ok (d', o)) : Keep N out o ∧ d'.order = d.order := by
  unfold procDelayN at h
  split at h
  · have hm := hi _ (List.mem_singleton.mpr rfl)
    split at h
    · cases h; exact ⟨passBufs_keep hm ho, rfl⟩
    · split at h
      · cases h
      · simp only [except_bind_ok] at h
        obtain ⟨x, hx, ⟨r, y⟩, h1, h⟩ := h
        cases h
        have hy : y.length = N := (runM_len h1).trans (chan_sz hm hx)
        refine ⟨?_, rfl⟩
        split
        · rename_i hc
          refine ⟨?_, .cons hy (.cons hy (.nil N))⟩
          simp [hc.2]
        · exact .left ho hy
  · cases h; exact ⟨.refl ho, rfl⟩

theorem delayMsPlain_keep {N : Nat} : ∀ {rs rs' : List Ring} {out xs o : List Buf}, Sz N out →
    Sz N xs → delayMsPlain rs out xs = .ok (rs', o) → Keep N out o := by
  intro rs
  induction rs with
  | nil =>
    intro rs' out xs o ho _ h
    unfold delayMsPlain at h
    cases h
    exact .refl ho
  | cons r rs ih =>
    intro rs' out xs o ho hx h
    unfold delayMsPlain at h
    split at h
    · rename_i heq
      cases heq
      simp only [except_bind_ok] at h
      obtain ⟨⟨r', y⟩, h1, ⟨rs1, ys⟩, h2, h⟩ := h
      cases h
      have := ih ho.tail hx.tail h2
      exact ⟨by simp [this.1], .cons ((runM_len h1).trans hx.head) this.2⟩
    · cases h; exact .refl ho

theorem mapM_len {α β : Type} {f : α → Except Panic β} : ∀ {l : List α} {r : List β},
    l.mapM f = .ok r → r.length = l.length := by
  intro l
  induction l with
  | nil => intro r h; cases h; rfl
  | cons a l ih =>
    intro r h
    rw [List.mapM_cons] at h
    simp only [except_bind_ok] at h
    obtain ⟨x, _, xs, hxs, h⟩ := h
    cases h
    simp [ih hxs]

theorem delayMsMod_keep {N : Nat} {pos : List (Nat × Fl)} (hp : pos.length = N) :
    ∀ {rs rs' : List Ring} {out xs o : List Buf}, Sz N out →
    Sz N xs → delayMsMod pos rs out xs = .ok (rs', o) → Keep N out o := by
  intro rs
  induction rs with
  | nil =>
    intro rs' out xs o ho _ h
    unfold delayMsMod at h
    cases h
    exact .refl ho
  | cons r rs ih =>
    intro rs' out xs o ho hx h
    unfold delayMsMod at h
    split at h
    · rename_i heq
      cases heq
      simp only [except_bind_ok] at h
      obtain ⟨⟨r', y⟩, h1, ⟨rs1, ys⟩, h2, h⟩ := h
      cases h
      have := ih ho.tail hx.tail h2
      exact ⟨by simp [this.1], .cons ((runM_len h1).trans (by simp [hp, hx.head])) this.2⟩
    · cases h; exact .refl ho

theorem procDelayMs_keep {N : Nat} {d d' : DelayMs} {ins : Ins} {out o : List Buf}
    (hi : SzIns N ins) (ho : Sz N out) (h : procDelayMs d ins out = .ok (d', o)) :
    Keep N out o ∧ d'.order = d.order := by
  unfold procDelayMs at h
  split at h
  · cases h
  · rename_i main more
    have hm := hi _ (List.mem_cons_self)
    split at h
    · cases h; exact ⟨.refl ho, rfl⟩
    · split at h
      · split at h
        · split at h
          · cases h
          · rw [except_bind_ok] at h
            obtain ⟨x, hx, h⟩ := h
            cases h
            exact ⟨.left ho (chan_sz hm hx), rfl⟩
        · rw [except_bind_ok] at h
          obtain ⟨⟨b, y⟩, h1, h⟩ := h
          cases h
          exact ⟨delayMsPlain_keep ho hm h1, rfl⟩
      · simp only [except_bind_ok] at h
        obtain ⟨main', k1, ref, k2, md, k3, pos, k4, ⟨b, y⟩, k5, h⟩ := h
        cases h
        exact ⟨delayMsMod_keep ((mapM_len k4).trans (chan_sz (inputAt_sz hi k2) k3)) ho
          (inputAt_sz hi k1) k5, rfl⟩
      · cases h; exact ⟨.refl ho, rfl⟩

theorem modInput_sz {N : Nat} {ins : Ins} {order : List Nat} {e : Nat × List Buf} {bs : List Buf}
    (hi : SzIns N ins) (he : e ∈ ins) (h : modInput ins order e = .ok bs) : Sz N bs := by
  unfold modInput at h
  split at h
  · cases h; exact hi _ he
  · exact inputAt_sz hi h

theorem procOsc_keep {N : Nat} {w : Wave} {d d' : Osc} {ins : Ins} {out o : List Buf}
    (hi : SzIns N ins) (ho : Sz N out) (h : procOsc w d ins out = .ok (d', o)) :
    Keep N out o ∧ d'.order = d.order := by
  unfold procOsc at h
  split at h
  · split at h
    · cases h
    · cases h; exact ⟨.left ho (run_len.trans ho.head), rfl⟩
  · split at h
    · cases h
    · simp only [except_bind_ok] at h
      obtain ⟨md, k1, x, k2, h⟩ := h
      cases h
      exact ⟨.left ho (run_len.trans (chan_sz (modInput_sz hi (by simp) k1) k2)), rfl⟩
  · cases h; exact ⟨.refl ho, rfl⟩

theorem map_const_keep {N : Nat} {out : List Buf} {y : Buf} (hy : y.length = N) :
    Keep N out (out.map (fun _ => y)) := by
  refine ⟨by simp, ?_⟩
  intro b hb
  obtain ⟨_, _, rfl⟩ := List.mem_map.mp hb
  exact hy

theorem procSin_keep {N : Nat} {m : Libm} {d d' : Osc} {ins : Ins} {out o : List Buf}
    (hi : SzIns N ins) (ho : Sz N out) (h : procSin m d ins out = .ok (d', o)) :
    Keep N out o ∧ d'.order = d.order := by
  unfold procSin at h
  split at h
  · split at h
    · cases h; exact ⟨.refl ho, rfl⟩
    · cases h; exact ⟨map_const_keep (run_len.trans (by simp [ho.head])), rfl⟩
  · simp only [except_bind_ok] at h
    obtain ⟨md, k1, x, k2, h⟩ := h
    cases h
    exact ⟨map_const_keep (run_len.trans (chan_sz (modInput_sz hi (by simp) k1) k2)), rfl⟩
  · cases h; exact ⟨.refl ho, rfl⟩

theorem procEnvPerc_keep {N : Nat} {d d' : EnvPerc} {ins : Ins} {out o : List Buf}
    (hi : SzIns N ins) (ho : Sz N out) (h : procEnvPerc d ins out = .ok (d', o)) :
    Keep N out o ∧ d'.order = d.order := by
  unfold procEnvPerc at h
  split at h
  · simp only [except_bind_ok] at h
    obtain ⟨_, _, input, k1, x, k2, h⟩ := h
    split at h
    · cases h
    · cases h
      exact ⟨.left ho (run_len.trans (chan_sz (inputAt_sz hi k1) k2)), rfl⟩
  · cases h; exact ⟨.refl ho, rfl⟩

theorem procAdsr_keep {N : Nat} {d d' : Adsr} {ins : Ins} {out o : List Buf}
    (hi : SzIns N ins) (ho : Sz N out) (h : procAdsr d ins out = .ok (d', o)) :
    Keep N out o ∧ d'.order = d.order := by
  unfold procAdsr at h
  split at h
  · simp only [except_bind_ok] at h
    obtain ⟨input, k1, x, k2, h⟩ := h
    split at h
    · cases h
    · rw [except_bind_ok] at h
      obtain ⟨⟨s, y⟩, k3, h⟩ := h
      cases h
      have hy : y.length = N := (runM_len k3).trans (chan_sz (inputAt_sz hi k1) k2)
      refine ⟨?_, rfl⟩
      split
      · rename_i hc
        exact ⟨by simp [hc], .cons hy (.cons hy (.nil N))⟩
      · exact .left ho hy
  · cases h; exact ⟨.refl ho, rfl⟩

theorem procOnePole_keep {N : Nat} {m : Libm} {d d' : OnePole} {ins : Ins} {out o : List Buf}
    (hi : SzIns N ins) (ho : Sz N out) (h : procOnePole m d ins out = .ok (d', o)) :
    Keep N out o ∧ d'.order = d.order := by
  unfold procOnePole at h
  split at h
  · split at h
    · cases h
    · rw [except_bind_ok] at h
      obtain ⟨x, k1, h⟩ := h
      cases h
      exact ⟨.left ho (run_len.trans (chan_sz (hi _ (List.mem_singleton.mpr rfl)) k1)), rfl⟩
  · split at h
    · cases h
    · simp only [except_bind_ok] at h
      obtain ⟨main, k1, ref, k2, x, k3, y, k4, h⟩ := h
      cases h
      exact ⟨.left ho (run_len.trans (by
        simp [chan_sz (inputAt_sz hi k1) k3, chan_sz (inputAt_sz hi k2) k4])), rfl⟩
  · cases h; exact ⟨.refl ho, rfl⟩

theorem procRhpf_keep {N : Nat} {m : Libm} {d d' : Rhpf} {ins : Ins} {out o : List Buf}
    (hi : SzIns N ins) (ho : Sz N out) (h : procRhpf m d ins out = .ok (d', o)) :
    Keep N out o ∧ d'.order = d.order := by
  unfold procRhpf at h
  split at h
  · split at h
    · cases h
    · rw [except_bind_ok] at h
      obtain ⟨x, k1, h⟩ := h
      cases h
      exact ⟨.left ho (run_len.trans (chan_sz (hi _ (List.mem_singleton.mpr rfl)) k1)), rfl⟩
  · split at h
    · cases h
    · simp only [except_bind_ok] at h
      obtain ⟨main, k1, ref, k2, c, k3, c0, k4, x, k5, h⟩ := h
      cases h
      exact ⟨.left ho (run_len.trans (chan_sz (inputAt_sz hi k1) k5)), rfl⟩
  · cases h; exact ⟨.refl ho, rfl⟩

theorem procRlpf_keep {N : Nat} {m : Libm} {d d' : Rlpf} {ins : Ins} {out o : List Buf}
    (hi : SzIns N ins) (ho : Sz N out) (h : procRlpf m d ins out = .ok (d', o)) :
    Keep N out o ∧ d'.order = d.order := by
  unfold procRlpf at h
  split at h
  · split at h
    · cases h
    · simp only [except_bind_ok] at h
      obtain ⟨x, k1, ⟨s, y⟩, k2, h⟩ := h
      cases h
      exact ⟨.left ho ((runM_len k2).trans (chan_sz (hi _ (List.mem_singleton.mpr rfl)) k1)), rfl⟩
  · split at h
    · cases h
    · simp only [except_bind_ok] at h
      obtain ⟨main, k1, ref, k2, c, k3, c0, k4, x, k5, h⟩ := h
      cases h
      exact ⟨.left ho (run_len.trans (chan_sz (inputAt_sz hi k1) k5)), rfl⟩
  · cases h; exact ⟨.refl ho, rfl⟩

theorem procApf_keep {N : Nat} {d d' : Apf} {ins : Ins} {out o : List Buf}
    (hi : SzIns N ins) (ho : Sz N out) (h : procApf d ins out = .ok (d', o)) :
    Keep N out o ∧ d'.order = d.order := by
  unfold procApf at h
  split at h
  · split at h
    · cases h
    · simp only [except_bind_ok] at h
      obtain ⟨main, k0, x, k1, ⟨s, y⟩, k2, h⟩ := h
      cases h
      exact ⟨.left ho ((runM_len k2).trans (chan_sz (inputAt_sz hi k0) k1)), rfl⟩
  · split at h
    · cases h
    · simp only [except_bind_ok] at h
      obtain ⟨main, k1, ref, k2, x, k3, md, k4, ⟨s, y⟩, k5, h⟩ := h
      cases h
      exact ⟨.left ho ((runM_len k5).trans (by
        simp [chan_sz (inputAt_sz hi k1) k3, chan_sz (inputAt_sz hi k2) k4])), rfl⟩
  · cases h; exact ⟨.refl ho, rfl⟩

theorem procSeq_keep {N : Nat} {m : Libm} {d d' : Sequencer} {ins : Ins} {out o : List Buf}
    (ho : Sz N out) (h : procSeq m d ins out = .ok (d', o)) :
    Keep N out o ∧ d'.order = d.order := by
  unfold procSeq at h
  split at h
  · split at h
    · cases h
    · simp only [except_bind_ok] at h
      obtain ⟨⟨k, y⟩, k1, h⟩ := h
      cases h
      exact ⟨.left ho ((runM_len k1).trans ho.head), rfl⟩
  · simp only [except_bind_ok] at h
    obtain ⟨first, k1, fb, k2, sp, k3, h⟩ := h
    split at h
    · cases h
    · simp only [except_bind_ok] at h
      obtain ⟨⟨k, y⟩, k4, h⟩ := h
      cases h
      exact ⟨.left ho ((runM_len k4).trans ho.head), rfl⟩

theorem arrRun_len {a : Arrange} {ins : Ins} : ∀ {old : Buf} {i step : Nat} {r : Nat × Buf},
    arrRun a ins i step old = .ok r → r.2.length = old.length := by
  intro old
  induction old with
  | nil => intro i step r h; unfold arrRun at h; cases h; rfl
  | cons o old ih =>
    intro i step r h
    unfold arrRun at h
    simp only [except_bind_ok] at h
    obtain ⟨hit, _, h⟩ := h
    split at h
    · cases h; rfl
    · simp only [except_bind_ok] at h
      obtain ⟨x, _, ⟨s, q⟩, hq, h⟩ := h
      cases h
      simpa using ih hq
    · simp only [except_bind_ok] at h
      obtain ⟨x, _, ⟨s, q⟩, hq, h⟩ := h
      cases h
      simpa using ih hq
    · simp only [except_bind_ok] at h
      obtain ⟨⟨s, q⟩, hq, h⟩ := h
      cases h
      simpa using ih hq

theorem procArrange_keep {N : Nat} {d d' : Arrange} {ins : Ins} {out o : List Buf}
    (ho : Sz N out) (h : procArrange d ins out = .ok (d', o)) :
    Keep N out o ∧ d'.order = d.order := by
  unfold procArrange at h
  split at h
  · cases h
  · rw [except_bind_ok] at h
    obtain ⟨⟨s, y⟩, k1, h⟩ := h
    cases h
    exact ⟨.left ho ((arrRun_len k1).trans ho.head), rfl⟩

theorem procChoose_keep {N : Nat} {m : Libm} {d d' : Choose} {out o : List Buf}
    (ho : Sz N out) (h : procChoose m d out = .ok (d', o)) : Keep N out o ∧ d'.order = d.order := by
  unfold procChoose at h
  simp only at h
  split at h
  · cases h
  · split at h
    · cases h; exact ⟨.refl ho, rfl⟩
    · split at h
      · cases h
      · cases h; exact ⟨.left ho (by simp [ho.head]), rfl⟩

theorem procPoints_keep {N : Nat} {m : Libm} {d d' : Points} {out o : List Buf}
    (ho : Sz N out) (h : procPoints m d out = .ok (d', o)) : Keep N out o ∧ d'.order = d.order := by
  unfold procPoints at h
  split at h
  · cases h; exact ⟨.refl ho, rfl⟩
  · split at h
    · cases h
    · simp only [except_bind_ok] at h
      obtain ⟨⟨k, y⟩, k1, h⟩ := h
      cases h
      exact ⟨.left ho ((runM_len k1).trans ho.head), rfl⟩

theorem samplerStep_order {s : Sampler} {x : Fl} {r : Sampler × (Fl × Fl)}
    (h : samplerStep s x = .ok r) : r.1.order = s.order := by
  unfold samplerStep at h
  simp only [except_bind_ok] at h
  obtain ⟨⟨v, o⟩, _, h⟩ := h
  cases h
  rfl

theorem runM_keep {σ ι ο τ : Type} {f : σ → ι → Except Panic (σ × ο)} {g : σ → τ}
    (hf : ∀ s x r, f s x = .ok r → g r.1 = g s) : ∀ {xs : List ι} {s : σ} {r : σ × List ο},
    runM f s xs = .ok r → g r.1 = g s := by
  intro xs
  induction xs with
  | nil => intro s r h; cases h; rfl
  | cons x xs ih =>
    intro s r h
    unfold runM at h
    split at h
    · cases h
    · rename_i q hq
      split at h
      · cases h
      · rename_i q' hq'
        cases h
        exact (ih hq').trans (hf _ _ _ hq)

theorem procSampler_keep {N : Nat} {d d' : Sampler} {ins : Ins} {out o : List Buf}
    (hi : SzIns N ins) (ho : Sz N out) (h : procSampler d ins out = .ok (d', o)) :
    Keep N out o ∧ d'.order = d.order := by
  unfold procSampler at h
  split at h
  · split at h
    · simp only [except_bind_ok] at h
      obtain ⟨x, k1, ⟨s, y⟩, k2, h⟩ := h
      cases h
      have hy : y.length = N := (runM_len k2).trans (chan_sz (hi _ (List.mem_singleton.mpr rfl)) k1)
      exact ⟨⟨rfl, .cons (by simp [hy]) (.cons (by simp [hy]) ho.tail.tail)⟩,
        runM_keep (g := Sampler.order) (fun _ _ _ h => samplerStep_order h) k2⟩
    · cases h
      exact ⟨⟨rfl, .cons (by simp [silent, ho.head]) (.cons (by simp [silent, ho.tail.head])
        ho.tail.tail)⟩, rfl⟩
  · cases h

theorem psRun_len : ∀ {n : Nat} {p : PSampler} {r : PSampler × List (Fl × Fl)}, psRun n p = .ok r →
    r.2.length = n ∧ r.1.order = p.order := by
  intro n
  induction n with
  | zero => intro p r h; cases h; exact ⟨rfl, rfl⟩
  | succ n ih =>
    intro p r h
    unfold psRun at h
    simp only [except_bind_ok] at h
    obtain ⟨new, _, ⟨b, v, o⟩, _, h⟩ := h
    cases b with
    | true =>
      simp only [if_true] at h
      cases h
      exact ⟨by simp, rfl⟩
    | false =>
      simp only [Bool.false_eq_true, if_false, except_bind_ok] at h
      obtain ⟨⟨p', y⟩, hq, h⟩ := h
      cases h
      have := ih hq
      exact ⟨by simpa using this.1, this.2⟩

theorem procPSampler_keep {N : Nat} {d d' : PSampler} {out o : List Buf}
    (ho : Sz N out) (h : procPSampler d out = .ok (d', o)) : Keep N out o ∧ d'.order = d.order := by
  unfold procPSampler at h
  split at h
  · simp only [except_bind_ok] at h
    obtain ⟨⟨s, y⟩, k2, h⟩ := h
    cases h
    have := psRun_len k2
    have hy : y.length = N := this.1.trans ho.head
    exact ⟨⟨rfl, .cons (by simp [hy]) (.cons (by simp [hy]) ho.tail.tail)⟩, this.2⟩
  · cases h

theorem run_keep {σ ι ο τ : Type} {f : σ → ι → σ × ο} {g : σ → τ}
    (hf : ∀ s x, g (f s x).1 = g s) : ∀ {xs : List ι} {s : σ}, g (run f s xs).1 = g s := by
  intro xs
  induction xs with
  | nil => intro s; rfl
  | cons x xs ih => intro s; exact ih.trans (hf _ _)

theorem procMsgSynth_keep {N : Nat} {m : Libm} {d d' : MsgSynth} {out o : List Buf}
    (ho : Sz N out) (h : procMsgSynth m d out = .ok (d', o)) : Keep N out o ∧ d'.order = d.order := by
  unfold procMsgSynth at h
  split at h
  · cases h
  · cases h
    exact ⟨.left ho (run_len.trans ho.head), run_keep (g := MsgSynth.order) (fun _ _ => rfl)⟩

theorem procPatSynth_keep {N : Nat} {m : Libm} {d d' : PatternSynth} {ins : Ins} {out o : List Buf}
    (ho : Sz N out) (h : procPatSynth m d ins out = .ok (d', o)) :
    Keep N out o ∧ d'.order = d.order := by
  unfold procPatSynth at h
  split at h
  · split at h
    · cases h
    · rw [except_bind_ok] at h
      obtain ⟨⟨s, y⟩, k1, h⟩ := h
      cases h
      refine ⟨.left ho ((runM_len k1).trans ho.head), runM_keep (g := PatternSynth.order) ?_ k1⟩
      intro s x r h
      unfold patSynthStep at h
      simp only [except_bind_ok] at h
      obtain ⟨new, _, h⟩ := h
      cases h
      rfl
  · cases h; exact ⟨.refl ho, rfl⟩

theorem reState_ok {σ ν : Type} {f : σ → ν} {r : Except Panic (σ × List Buf)} {n : ν} {o : List Buf}
    (h : reState f r = .ok (n, o)) : ∃ s, r = .ok (s, o) ∧ n = f s := by
  unfold reState at h
  split at h
  · cases h
  · cases h; exact ⟨_, rfl, rfl⟩

theorem sameNode_ok {ν : Type} {n n' : ν} {r : Except Panic (List Buf)} {o : List Buf}
    (h : sameNode n r = .ok (n', o)) : r = .ok o ∧ n' = n := by
  unfold sameNode at h
  split at h
  · cases h
  · cases h; exact ⟨rfl, rfl⟩

/-- A primitive node keeps the shape of its buffers and its list of inputs. -/
theorem procPrim_keep {N : Nat} {m : Libm} {n n' : Prim} {ins : Ins} {out o : List Buf}
    (hi : SzIns N ins) (ho : Sz N out) (h : procPrim m n ins out = .ok (n', o)) :
    Keep N out o ∧ n'.order = n.order ∧ n'.keepsOrder = n.keepsOrder := by
  cases n with
  | pass =>
    cases h
    refine ⟨?_, rfl, rfl⟩
    unfold procPass
    split
    · exact .refl ho
    · exact passBufs_keep (hi _ List.mem_cons_self) ho
  | sum => cases h; exact ⟨procSum_keep hi ho, rfl, rfl⟩
  | sum2 => obtain ⟨k, rfl⟩ := sameNode_ok h; exact ⟨procSum2_keep hi ho k, rfl, rfl⟩
  | mul a => obtain ⟨k, rfl⟩ := sameNode_ok h; exact ⟨applyOp_keep hi ho k, rfl, rfl⟩
  | add a => obtain ⟨k, rfl⟩ := sameNode_ok h; exact ⟨applyOp_keep hi ho k, rfl, rfl⟩
  | speed a => obtain ⟨k, rfl⟩ := sameNode_ok h; exact ⟨procSpeed_keep ho k, rfl, rfl⟩
  | pan a => obtain ⟨k, rfl⟩ := sameNode_ok h; exact ⟨procPan_keep hi ho k, rfl, rfl⟩
  | balance a => obtain ⟨k, rfl⟩ := sameNode_ok h; exact ⟨procBalance_keep hi ho k, rfl, rfl⟩
  | noise s => cases h; exact ⟨procNoise_keep ho |>.1, rfl, rfl⟩
  | constSig c => obtain ⟨s, k, rfl⟩ := reState_ok h; have := procConstSig_keep ho k; exact ⟨this.1, this.2, rfl⟩
  | imp i => obtain ⟨s, k, rfl⟩ := reState_ok h; have := procImp_keep ho k; exact ⟨this.1, this.2, rfl⟩
  | delayn i => obtain ⟨s, k, rfl⟩ := reState_ok h; have := procDelayN_keep hi ho k; exact ⟨this.1, this.2, rfl⟩
  | delayms i => obtain ⟨s, k, rfl⟩ := reState_ok h; have := procDelayMs_keep hi ho k; exact ⟨this.1, this.2, rfl⟩
  | osc w i => obtain ⟨s, k, rfl⟩ := reState_ok h; have := procOsc_keep hi ho k; exact ⟨this.1, this.2, rfl⟩
  | sin i => obtain ⟨s, k, rfl⟩ := reState_ok h; have := procSin_keep hi ho k; exact ⟨this.1, this.2, rfl⟩
  | envperc i => obtain ⟨s, k, rfl⟩ := reState_ok h; have := procEnvPerc_keep hi ho k; exact ⟨this.1, this.2, rfl⟩
  | adsr i => obtain ⟨s, k, rfl⟩ := reState_ok h; have := procAdsr_keep hi ho k; exact ⟨this.1, this.2, rfl⟩
  | onepole i => obtain ⟨s, k, rfl⟩ := reState_ok h; have := procOnePole_keep hi ho k; exact ⟨this.1, this.2, rfl⟩
  | rhpf i => obtain ⟨s, k, rfl⟩ := reState_ok h; have := procRhpf_keep hi ho k; exact ⟨this.1, this.2, rfl⟩
  | rlpf i => obtain ⟨s, k, rfl⟩ := reState_ok h; have := procRlpf_keep hi ho k; exact ⟨this.1, this.2, rfl⟩
  | apf i => obtain ⟨s, k, rfl⟩ := reState_ok h; have := procApf_keep hi ho k; exact ⟨this.1, this.2, rfl⟩
  | seq i => obtain ⟨s, k, rfl⟩ := reState_ok h; have := procSeq_keep ho k; exact ⟨this.1, this.2, rfl⟩
  | arrange i => obtain ⟨s, k, rfl⟩ := reState_ok h; have := procArrange_keep ho k; exact ⟨this.1, this.2, rfl⟩
  | choose i => obtain ⟨s, k, rfl⟩ := reState_ok h; have := procChoose_keep ho k; exact ⟨this.1, this.2, rfl⟩
  | points i => obtain ⟨s, k, rfl⟩ := reState_ok h; have := procPoints_keep ho k; exact ⟨this.1, this.2, rfl⟩
  | sampler i => obtain ⟨s, k, rfl⟩ := reState_ok h; have := procSampler_keep hi ho k; exact ⟨this.1, this.2, rfl⟩
  | psampler i => obtain ⟨s, k, rfl⟩ := reState_ok h; have := procPSampler_keep ho k; exact ⟨this.1, this.2, rfl⟩
  | msgSynth i => obtain ⟨s, k, rfl⟩ := reState_ok h; have := procMsgSynth_keep ho k; exact ⟨this.1, this.2, rfl⟩
  | patSynth i => obtain ⟨s, k, rfl⟩ := reState_ok h; have := procPatSynth_keep ho k; exact ⟨this.1, this.2, rfl⟩

/-! ### Compound nodes -/

/-- A node with buffers of length `N`. -/
def DataSz (N : Nat) (d : NodeData Prim Buf) : Prop := Sz N d.buffers

/-- All nodes inside have buffers of length `N`. -/
def PatchSz (N : Nat) (g : Patch) : Prop := All (fun _ => DataSz N) g

theorem all_addNode {α : Type} {J : α → Prop} {g : Graph α} {a : α} (hg : All (fun _ => J) g)
    (ha : J a) : All (fun _ => J) (g.addNode a).1 := by
  intro i d hd
  unfold Graph.addNode at hd
  split at hd
  · simp only [Graph.node?] at hd
    rcases Nat.lt_trichotomy i g.slots.length with h | h | h
    · rw [List.getElem?_append_left h] at hd
      exact hg i d hd
    · subst h
      simp at hd
      subst hd
      exact ha
    · rw [List.getElem?_eq_none (by simp; omega)] at hd
      cases hd
  · rename_i j rest _
    simp only [Graph.node?, List.getElem?_set] at hd
    by_cases hj : j = i
    · subst hj
      by_cases hl : j < g.slots.length
      · simp [hl] at hd
        subst hd
        exact ha
      · simp [hl] at hd
    · simp only [hj, if_false] at hd
      exact hg i d hd

theorem fresh_sz {ν : Type} {N ch : Nat} {n : ν} : Sz N (fresh N ch n).buffers := by
  intro b hb
  rw [List.eq_of_mem_replicate hb, List.length_replicate]

theorem patchSz_new {N : Nat} : PatchSz N (Patch.new N) :=
  all_addNode (J := DataSz N) (all_addNode (J := DataSz N)
    (fun i d h => by simp [Graph.empty, Graph.node?] at h) fresh_sz) fresh_sz

theorem patchSz_nodes {N : Nat} {l : List (Nat × Prim)} : ∀ {g : Patch}, PatchSz N g →
    PatchSz N (Patch.nodes N g l) := by
  induction l with
  | nil => intro g h; exact h
  | cons a l ih => intro g h; exact ih (all_addNode (J := DataSz N) h fresh_sz)

theorem patchSz_send {N : Nat} {m : Libm} {g g' : Patch} {i : Nat} {msg : Msg Fl} (hg : PatchSz N g)
    (h : Patch.send m g i msg = .ok g') : PatchSz N g' := by
  refine all_modify (J := DataSz N) ?_ hg h
  intro d d' hd hf
  rw [except_bind_ok] at hf
  obtain ⟨n, _, hf⟩ := hf
  cases hf
  exact hd

theorem patchSz_connect {N : Nat} {m : Libm} {g g' : Patch} {a b : Nat} (hg : PatchSz N g)
    (h : Patch.connect m g a b = .ok g') : PatchSz N g' := by
  unfold Patch.connect at h
  rw [except_bind_ok] at h
  obtain ⟨g1, h1, h2⟩ := h
  obtain ⟨rfl, _, _⟩ := addEdge_ok h1
  exact patchSz_send (g := { g with edges := (a, b) :: g.edges }) hg h2

theorem patchSz_chain {N : Nat} {m : Libm} {l : List Nat} : ∀ {g g' : Patch}, PatchSz N g →
    Patch.chain m g l = .ok g' → PatchSz N g' := by
  induction l with
  | nil => intro g g' hg h; cases h; exact hg
  | cons a l ih =>
    intro g g' hg h
    cases l with
    | nil => cases h; exact hg
    | cons b l =>
      simp only [Patch.chain, except_bind_ok] at h
      obtain ⟨g1, h1, h2⟩ := h
      exact ih (patchSz_connect hg h1) h2

theorem patchSz_chains {N : Nat} {m : Libm} {l : List (List Nat)} : ∀ {g g' : Patch}, PatchSz N g →
    Patch.chains m g l = .ok g' → PatchSz N g' := by
  induction l with
  | nil => intro g g' hg h; cases h; exact hg
  | cons a l ih =>
    intro g g' hg h
    simp only [Patch.chains, except_bind_ok] at h
    obtain ⟨g1, h1, h2⟩ := h
    exact ih (patchSz_chain hg h1) h2

theorem makeCompound_sz {N : Nat} {m : Libm} {c : Comp} {k : Compound}
    (h : makeCompound m N c = some (.ok k)) : PatchSz N k.graph := by
  have synth : ∀ {w a d}, newSynth m N w a d = .ok k → PatchSz N k.graph := by
    intro w a d h
    simp only [newSynth, except_bind_ok] at h
    obtain ⟨g1, h1, g2, h2, g3, h3, h⟩ := h
    cases h
    exact patchSz_chain (all_addNode (J := DataSz N) (patchSz_chain (all_addNode
      (J := DataSz N) (patchSz_chain (patchSz_nodes patchSz_new) h1) fresh_sz) h2)
      fresh_sz) h3
  cases c with
  | bd p =>
    simp only [makeCompound, Option.some.injEq, newBd, except_bind_ok] at h
    obtain ⟨g1, h1, h⟩ := h
    cases h
    exact patchSz_chains (patchSz_nodes patchSz_new) h1
  | hh p =>
    simp only [makeCompound, Option.some.injEq, newHh, except_bind_ok] at h
    obtain ⟨g1, h1, g2, h2, h⟩ := h
    cases h
    exact patchSz_chain (all_addNode (J := DataSz N)
      (patchSz_chain (patchSz_nodes patchSz_new) h1) fresh_sz) h2
  | sn p =>
    simp only [makeCompound, Option.some.injEq, newSn, except_bind_ok] at h
    obtain ⟨g1, h1, h⟩ := h
    cases h
    exact patchSz_chains (patchSz_nodes patchSz_new) h1
  | sawsynth a d => exact synth (Option.some.inj h)
  | squsynth a d => exact synth (Option.some.inj h)
  | trisynth a d => exact synth (Option.some.inj h)
  | plate mix =>
    have h := Option.some.inj h
    unfold newPlate at h
    rw [except_bind_ok] at h
    obtain ⟨l, _, h⟩ := h
    rw [except_bind_ok] at h
    obtain ⟨g, h1, h⟩ := h
    cases h
    exact patchSz_chains (patchSz_nodes patchSz_new) h1
  | _ => cases h

theorem compoundMsg_sz {N : Nat} {m : Libm} {c c' : Compound} {g : Msg Fl} (hc : PatchSz N c.graph)
    (h : c.msg m g = .ok c') : PatchSz N c'.graph := by
  have tag : ∀ {c c' : Compound} {k : Nat} {g : Msg Fl}, PatchSz N c.graph →
      c.sendTag m k g = .ok c' → PatchSz N c'.graph := by
    intro c c' k g hc h
    unfold Compound.sendTag at h
    split at h
    · cases h
    · rw [except_bind_ok] at h
      obtain ⟨p, h1, h⟩ := h
      cases h
      exact patchSz_send hc h1
  unfold Compound.msg at h
  split at h
  · exact tag hc h
  · exact tag hc h
  · exact tag hc h
  · simp only [except_bind_ok] at h
    obtain ⟨c1, h1, c2, h2, c3, h3, h⟩ := h
    exact tag (tag (tag (tag hc h1) h2) h3) h
  · rw [except_bind_ok] at h
    obtain ⟨o, _, h⟩ := h
    cases h
    exact hc

theorem procCompound_keep {N : Nat} {m : Libm} {ho : HashOrder} {c c' : Compound} {ins : Ins}
    {out o : List Buf} (hc : PatchSz N c.graph) (hi : SzIns N ins) (hout : Sz N out)
    (h : procCompound m ho c ins out = .ok (c', o)) :
    Keep N out o ∧ PatchSz N c'.graph ∧ c'.order = c.order ∧ c'.kind = c.kind := by
  have feed : c.feed m ho ins out = .ok (c', o) →
      Keep N out o ∧ PatchSz N c'.graph ∧ c'.order = c.order ∧ c'.kind = c.kind := by
    intro h
    unfold Compound.feed at h
    simp only [except_bind_ok] at h
    obtain ⟨main, k1, x, k2, g, k3, ⟨g2, y⟩, k4, l, k5, r, k6, o', k7, h⟩ := h
    cases h
    have hx := chan_sz (inputAt_sz hi k1) k2
    have hg : PatchSz N g := by
      refine all_modify (J := DataSz N) ?_ hc k3
      intro d d' hd hf
      split at hf
      · cases hf
      · rename_i b rest hb
        cases hf
        have hd : Sz N d.buffers := hd
        rw [hb] at hd
        exact Sz.cons hx hd.tail
    unfold Patch.nextBlock at k4
    rw [except_bind_ok] at k4
    obtain ⟨g3, k8, k4⟩ := k4
    have hg3 : PatchSz N g3 := (process_inv (J := fun _ => DataSz N) (R := fun _ _ => True)
      (fun _ => trivial) (fun _ _ _ _ _ => trivial) (by
        intro i d ins n' b' h1 h2 h3
        refine ⟨(procPrim_keep (N := N) ?_ h1 h3).1.2, trivial⟩
        intro e he
        obtain ⟨dk, h4, h5⟩ := h2.2 e.1 e.2 he
        rw [← h5]
        exact h4) hg k8).1
    split at k4
    · cases k4
    · rename_i d hd
      cases k4
      have := hg3 _ _ hd
      exact ⟨setStereo_keep hout (chan_sz this k5) (chan_sz this k6) k7, hg3, rfl, rfl⟩
  unfold procCompound at h
  split at h
  · exact feed h
  · exact feed h
  · cases h
    exact ⟨.refl hout, hc, rfl, rfl⟩

/-! ### The engine's language -/

variable {P : Plat} {N : Nat} {parse : Name → Except Panic (Option (Ast Comp))}

/-- The scripted nodes in `T` respect their buffers. -/
structure ExtShape (P : Plat) (N : Nat) (T : P.ext.State → Prop) : Prop where
  new : ∀ b code sr s, P.ext.new b code sr = .ok s → T s
  set : ∀ s p t s', T s → P.ext.set s p t = .ok s' → T s'
  proc : ∀ s o ins b s' b', T s → (∀ e, e ∈ ins → BlockLen N e.2) → BlockLen N b →
    P.ext.proc s o ins b = .ok (s', b') → T s' ∧ b'.length = b.length ∧ BlockLen N b'

/-- The nodes of the engine that respect their buffers: all, as long as the scripted ones do. -/
def GShape (P : Plat) (N : Nat) (T : P.ext.State → Prop) : GNode P → Prop
  | .prim _ => True
  | .compound c => PatchSz N c.graph
  | .script _ s => T s

theorem liftP_ok {α : Type} {x : Except Panic α} {a : α} (h : liftP x = .ok a) : x = .ok a := by
  unfold liftP at h
  split at h
  · cases h; rfl
  · cases h

theorem map_ok {α β : Type} {f : α → β} {x : Except Panic α} {b : β} (h : f <$> x = .ok b) :
    ∃ a, x = .ok a ∧ b = f a := by
  cases x with
  | error e => cases h
  | ok a => cases h; exact ⟨a, rfl, rfl⟩

theorem makeNode_shape {T : P.ext.State → Prop} (hx : ExtShape P N T) {samples : List (Name × Sample)}
    {sr seed : Nat} {bpm : Fl} {c : Comp} {nd : NodeData (GNode P) Buf} {rs : List Name}
    (h : makeNode P N samples sr bpm seed c = .ok (nd, rs)) :
    GShape P N T nd.node ∧ Sz N nd.buffers := by
  unfold makeNode at h
  split at h
  · rw [except_bind_ok] at h
    obtain ⟨⟨ch, n⟩, _, h⟩ := h
    cases h
    exact ⟨trivial, fresh_sz⟩
  · split at h
    · rename_i r hr
      rw [except_bind_ok] at h
      obtain ⟨k, hk, h⟩ := h
      cases h
      rw [liftP_ok hk] at hr
      exact ⟨makeCompound_sz hr, fresh_sz⟩
    · split at h
      · rw [except_bind_ok] at h
        obtain ⟨s, hs, h⟩ := h
        cases h
        exact ⟨hx.new _ _ _ _ (liftP_ok hs), fresh_sz⟩
      · rw [except_bind_ok] at h
        obtain ⟨s, hs, h⟩ := h
        cases h
        exact ⟨hx.new _ _ _ _ (liftP_ok hs), fresh_sz⟩
      · cases h

/-- A message to a scripted node. -/
theorem scriptMsg_cases {o : List Nat} {s : P.ext.State} {g : Msg Fl} {n' : GNode P}
    (h : msgG P (.script o s) g = .ok n') :
    (∃ p t s', g = .setToSymbol p t ∧ P.ext.set s p t = .ok s' ∧ n' = .script o s') ∨
    ∃ o', (∀ p t, g ≠ .setToSymbol p t) ∧ orderMsg true o g = .ok o' ∧ n' = .script o' s := by
  have key : (do
      let o ← orderMsg true o g
      .ok (.script o s)) = Except.ok n' → ∃ o', orderMsg true o g = .ok o' ∧ n' = .script o' s := by
    intro h
    rw [except_bind_ok] at h
    obtain ⟨o', h1, h⟩ := h
    cases h
    exact ⟨o', h1, rfl⟩
  cases g with
  | setToSymbol p t =>
    obtain ⟨a, k, rfl⟩ := map_ok h
    exact .inl ⟨p, t, a, rfl, k, rfl⟩
  | setToNumber p v => exact .inr ((key h).imp fun _ k => ⟨fun _ _ => nofun, k⟩)
  | setBPM v => exact .inr ((key h).imp fun _ k => ⟨fun _ _ => nofun, k⟩)
  | index i => exact .inr ((key h).imp fun _ k => ⟨fun _ _ => nofun, k⟩)
  | indexOrder p i => exact .inr ((key h).imp fun _ k => ⟨fun _ _ => nofun, k⟩)
  | resetOrder => exact .inr ((key h).imp fun _ k => ⟨fun _ _ => nofun, k⟩)

/-- The nodes of the real language respect the shape of their buffers. -/
theorem glicol_shape {T : P.ext.State → Prop} (hx : ExtShape P N T) :
    Shape (glicol P N parse) N (GShape P N T) := by
  refine ⟨trivial, trivial, ?_, ?_, ?_⟩
  · intro samples sr bpm seed c nd rs h
    exact makeNode_shape hx (c := c) h
  · intro n m n' hn h
    have h : msgG P n m = .ok n' := h
    cases n with
    | prim n => obtain ⟨a, _, rfl⟩ := map_ok h; trivial
    | compound c => obtain ⟨a, k, rfl⟩ := map_ok h; exact compoundMsg_sz (m := P.libm) hn k
    | script o s =>
      obtain ⟨p, t, s', _, k, rfl⟩ | ⟨o', _, _, rfl⟩ := scriptMsg_cases h
      · exact hx.set _ _ _ _ hn k
      · exact hn
  · intro n ins b n' b' hn hi hb h
    have h : procG P n ins b = .ok (n', b') := h
    cases n with
    | prim n =>
      obtain ⟨s, k, rfl⟩ := reState_ok h
      have := (procPrim_keep hi hb k).1
      exact ⟨trivial, this.1, this.2⟩
    | compound c =>
      obtain ⟨s, k, rfl⟩ := reState_ok h
      have := procCompound_keep hn hi hb k
      exact ⟨this.2.1, this.1.1, this.1.2⟩
    | script o s =>
      obtain ⟨s', k, rfl⟩ := reState_ok h
      exact hx.proc _ _ _ _ _ _ hn hi hb k

end Verif
