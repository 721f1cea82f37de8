import Verif.Lemmas.GlueMem

/-! # Lemmas for C78: what the glue hands over -/

namespace Verif.Glue

variable {A : Alloc}

theorem encodeString_spec {E : Encoder} (hE : E ≠ .missing) {m : Mem} {arg : List Nat} {v : View}
    (hu : ∀ u ∈ arg, u < 65536) (hlen : v.byteLength m = 3 * arg.length) :
    ∃ m', encodeString E m arg v = some ((encode arg).length, m') ∧ m'.buf = m.buf ∧ m'.size = m.size ∧
      contents m' (v.off, (encode arg).length) = encode arg ∧
      (∀ a, ¬ In (v.off, (encode arg).length) a → m'.byte a = m.byte a) ∧
      (encode arg).length ≤ 3 * arg.length := by
  obtain ⟨h1, h2⟩ := encodeFit_eq arg (v.byteLength m) hu (by omega)
  have hmod : (encode arg).map (· % 256) = encode arg := by
    conv => rhs; rw [← List.map_id (encode arg)]
    apply List.map_congr_left
    intro b hb
    have := encode_lt arg hu b hb
    simp; omega
  obtain ⟨m', e, hb, hs, hc, ho⟩ := set_spec (m := m) (v := v) (xs := encode arg) (i := 0) (by omega)
  rw [hmod] at hc
  refine ⟨m', ?_, hb, hs, hc, ho, h2⟩
  cases E with
  | missing => exact absurd rfl hE
  | plain => simp [encodeString, e]
  | into => simp [encodeString, h1, e]

/-- What is handed over, and the part of the string for which an encoder is needed. -/
theorem passString_handed (hA : Sound A) (E : Encoder) (arg : List Nat) (s : St A) (hs : Ok s)
    (hu : ∀ u ∈ arg, u < 65536) (hE : E ≠ .missing ∨ ∀ u ∈ arg, u ≤ 0x7F) :
    (∃ p s', passStringToWasm0 E arg s = some (p, s') ∧ s'.vecLen = (encode arg).length ∧
      Handed s s' p (encode arg)) ∨
    (passStringToWasm0 E arg s = none ∧ Refused A (3 * arg.length)) := by
  rcases hm : A.malloc arg.length 1 s.al s.mem with _ | ⟨q0, c1, m1⟩
  · right
    exact ⟨by simp only [passStringToWasm0, hm], .inl ⟨_, _, _, _, by omega, hm⟩⟩
  obtain ⟨hl1, hi1, -, ha1, hk1, ht1⟩ := hA.malloc _ 1 _ _ hs.inside (by omega) _ _ _ hm
  generalize hq : unsigned q0 = q at *
  have hf1 : fresh m1 s.u8 = whole m1 := (hs.u8.later ht1).fresh
  obtain ⟨pre, rest, m2, e2, harg, hpre, hrest, hb2, hs2, hc2, ho2⟩ :=
    asciiLoop_spec (whole m1) q rfl arg 0 m1 rfl (by simpa [whole] using hi1)
  simp only [Nat.zero_add, Nat.add_zero] at e2 hc2 ho2
  have hw12 : whole m1 = whole m2 := by rw [whole, whole, hb2, hs2]
  have ht2 : Later s.mem m2 := ht1.trans (.of_eq hb2 hs2)
  have hlen : arg.length = pre.length + rest.length := by rw [harg]; simp
  have hk2 : Keeps (A.live s.al) s.mem m2 := by
    refine hk1.trans (Keeps.of_apart ha1 ?_)
    intro a ha
    apply ho2
    intro h; apply ha
    simp only [In] at h ⊢; omega
  have henc : encode arg = pre ++ encode rest := by rw [harg]; exact encode_ascii pre rest hpre
  unfold passStringToWasm0
  simp only [hm, hq, getUint8Memory0, hf1, e2]
  by_cases hr : rest = []
  · subst hr
    have hpl : pre.length = arg.length := by simp at hlen; omega
    have hee : encode arg = pre := by rw [henc, encode]; simp
    rw [if_neg (by simpa using hpl)]
    left
    refine ⟨q, _, rfl, by rw [hee], ?_⟩
    rw [hee]
    refine ⟨by rw [hl1, hpl], hc2, by rw [hpl]; exact ha1, hk2, ?_, rfl, ht2⟩
    refine ⟨?_, by rw [hw12]; exact .whole m2, hs.f32.later ht2, hs.i32.later ht2⟩
    intro r hr
    simp only [hl1, List.mem_cons] at hr
    rcases hr with rfl | hr
    · simp only [hs2]; exact hi1
    · exact Nat.le_trans (hs.inside r hr) ht2.size
  · have hrl : 0 < rest.length := List.length_pos_iff.2 hr
    rw [if_pos (by omega)]
    have hE' : E ≠ .missing := by
      rcases hE with h | h
      · exact h
      · exfalso
        cases rest with
        | nil => exact hr rfl
        | cons u rest =>
          have h1 := hrest u (by simp)
          have h2 := h u (by rw [harg]; simp)
          omega
    have hin2 : ∀ r ∈ A.live c1, r.1 + r.2 ≤ m2.size := by
      intro r hr
      rw [hl1] at hr
      rcases List.mem_cons.1 hr with rfl | hr
      · simp only [hs2]; exact hi1
      · exact Nat.le_trans (hs.inside r hr) ht2.size
    rcases hm3 : A.realloc q arg.length (pre.length + rest.length * 3) 1 c1 m2 with
      _ | ⟨q3, c3, m3⟩
    · right
      exact ⟨by simp only [hm3], .inr ⟨_, _, _, _, _, _, by omega, hm3⟩⟩
    obtain ⟨hl3, hi3, ha3, hk3, ht3, hc3⟩ := hA.realloc _ _ _ _ _ _ _ hl1 hin2 ha1 _ _ _ hm3
    simp only [hm3]
    generalize hp : unsigned q3 = p at *
    have hf3 : fresh m3 (some (whole m1)) = whole m3 := by
      rw [hw12]; exact ((Cached.whole m2).later ht3).fresh
    have ht3' : Later s.mem m3 := ht2.trans ht3
    simp only [hf3]
    have hmin : min (p + pre.length) m3.size = p + pre.length := by omega
    have hmin' : min (p + (pre.length + rest.length * 3)) m3.size =
        p + (pre.length + rest.length * 3) := by omega
    obtain ⟨m4, e4, hb4, hs4, hc4, ho4, hle⟩ := encodeString_spec hE' (m := m3) (arg := rest)
      (v := subarray (whole m3) (p + pre.length) (p + (pre.length + rest.length * 3)))
      (fun u hu' => hu u (by rw [harg]; simp [hu']))
      (by simp only [View.byteLength, subarray, whole, if_true, hmin, hmin']; omega)
    have hoff : (subarray (whole m3) (p + pre.length) (p + (pre.length + rest.length * 3))).off =
        p + pre.length := by simp [subarray, whole, hmin]
    rw [hoff] at hc4 ho4
    rw [e4]
    simp only
    have ht4 : Later s.mem m4 := ht3'.trans (.of_eq hb4 hs4)
    have hk4 : Keeps (A.live s.al) m3 m4 := by
      refine Keeps.of_apart ha3 ?_
      intro a ha
      apply ho4
      intro h; apply ha
      simp only [In] at h ⊢; omega
    have hin4 : ∀ r ∈ A.live c3, r.1 + r.2 ≤ m4.size := by
      intro r hr
      rw [hl3] at hr
      rcases List.mem_cons.1 hr with rfl | hr
      · simp only [hs4]; exact hi3
      · exact Nat.le_trans (hs.inside r hr) ht4.size
    rcases hm5 : A.realloc p (pre.length + rest.length * 3) (pre.length + (encode rest).length) 1 c3 m4
      with _ | ⟨q5, c5, m5⟩
    · right
      exact ⟨by simp only [hm5], .inr ⟨_, _, _, _, _, _, by omega, hm5⟩⟩
    obtain ⟨hl5, hi5, ha5, hk5, ht5, hc5⟩ := hA.realloc _ _ _ _ _ _ _ hl3 hin4 ha3 _ _ _ hm5
    have hlene : (encode arg).length = pre.length + (encode rest).length := by rw [henc]; simp
    have ht5' : Later s.mem m5 := ht4.trans ht5
    simp only [hm5]
    left
    refine ⟨_, _, rfl, by rw [hlene], ?_⟩
    refine ⟨by rw [hlene]; exact hl5, ?_, by rw [hlene]; exact ha5,
      ((hk2.trans hk3).trans hk4).trans hk5, ?_, rfl, ht5'⟩
    · dsimp only
      have hmn : min (pre.length + rest.length * 3) (pre.length + (encode rest).length) =
          (encode arg).length := by omega
      rw [hmn] at hc5
      rw [hc5, contents_list]
      refine ⟨rfl, ?_⟩
      intro i hi
      rw [contents_list] at hc4 hc2
      have hi' : i < (pre ++ encode rest).length := by rw [← henc]; exact hi
      have hge : (encode arg)[i] = (pre ++ encode rest)[i] := by simp only [henc]
      rw [hge]
      by_cases hip : i < pre.length
      · rw [List.getElem_append_left hip, ← hc2.2 i hip]
        rw [ho4 _ (by simp only [In]; omega)]
        have := List.getElem_of_eq hc3 (i := i) (by simp [contents]; omega)
        simpa [contents] using this
      · rw [List.getElem_append_right (by omega), ← hc4.2 (i - pre.length) (by rw [List.length_append] at hi'; omega)]
        congr 1; omega
    · refine ⟨?_, ?_, hs.f32.later ht5', hs.i32.later ht5'⟩
      · intro r hr
        simp only [hl5, List.mem_cons] at hr
        rcases hr with rfl | hr
        · exact hi5
        · exact Nat.le_trans (hs.inside r hr) ht5'.size
      · exact (Cached.whole m3).later ((Later.of_eq hb4 hs4).trans ht5)

theorem bytesOf_eq (xs : List Nat) : xs.flatMap wordBytes = bytesOf xs := rfl

theorem bytesOf_length (xs : List Nat) : (bytesOf xs).length = xs.length * 4 := by
  induction xs with
  | nil => rfl
  | cons x xs ih =>
    have : bytesOf (x :: xs) = wordBytes x ++ bytesOf xs := rfl
    rw [this]; simp [wordBytes, ih]; omega

theorem bytesOf_mod (xs : List Nat) : (bytesOf xs).map (· % 256) = bytesOf xs := by
  induction xs with
  | nil => rfl
  | cons x xs ih =>
    have : bytesOf (x :: xs) = wordBytes x ++ bytesOf xs := rfl
    rw [this, List.map_append, ih]; simp [wordBytes]

theorem passArray8_handed (hA : Sound A) (arg : List Nat) (s : St A) (hs : Ok s)
    (hu : ∀ u ∈ arg, u < 256) :
    (∃ p s', passArray8ToWasm0 arg s = some (p, s') ∧ s'.vecLen = arg.length ∧ Handed s s' p arg) ∨
    (passArray8ToWasm0 arg s = none ∧ Refused A arg.length) := by
  rcases hm : A.malloc (arg.length * 1) 1 s.al s.mem with _ | ⟨q0, c1, m1⟩
  · exact .inr ⟨by simp only [passArray8ToWasm0, hm], .inl ⟨_, _, _, _, by omega, hm⟩⟩
  obtain ⟨hl1, hi1, -, ha1, hk1, ht1⟩ := hA.malloc _ 1 _ _ hs.inside (by omega) _ _ _ hm
  rw [Nat.mul_one] at hl1 hi1 ha1
  have hf1 : fresh m1 s.u8 = whole m1 := (hs.u8.later ht1).fresh
  have hmod : arg.map (· % 256) = arg := by
    conv => rhs; rw [← List.map_id arg]
    apply List.map_congr_left
    intro b hb
    have := hu b hb
    simp; omega
  obtain ⟨m2, e2, hb2, hs2, hc2, ho2⟩ := set_spec (m := m1) (v := whole m1) (xs := arg)
    (i := unsigned q0) (by rw [whole_byteLength rfl rfl]; exact hi1)
  simp only [whole, Nat.zero_add] at hc2 ho2
  rw [hmod] at hc2
  have hw : whole m1 = whole m2 := by rw [whole, whole, hb2, hs2]
  have ht2 : Later s.mem m2 := ht1.trans (.of_eq hb2 hs2)
  left
  refine ⟨unsigned q0, { s with al := c1, mem := m2, u8 := some (whole m1), vecLen := arg.length }, ?_, rfl,
    hl1, hc2, ha1, ?_, ?_, rfl, ht2⟩
  · simp only [passArray8ToWasm0, hm, getUint8Memory0, hf1, e2]
  · exact hk1.trans (Keeps.of_apart ha1 ho2)
  · refine ⟨?_, by rw [hw]; exact .whole m2, hs.f32.later ht2, hs.i32.later ht2⟩
    intro r hr
    simp only [hl1, List.mem_cons] at hr
    rcases hr with rfl | hr
    · simp only [hs2]; exact hi1
    · exact Nat.le_trans (hs.inside r hr) ht2.size

theorem passArrayF32_handed (hA : Sound A) (arg : List Nat) (s : St A) (hs : Ok s) :
    (∃ p s', passArrayF32ToWasm0 arg s = some (p, s') ∧ s'.vecLen = arg.length ∧
      Handed s s' p (bytesOf arg)) ∨
    (passArrayF32ToWasm0 arg s = none ∧ Refused A (4 * arg.length)) := by
  rcases hm : A.malloc (arg.length * 4) 4 s.al s.mem with _ | ⟨q0, c1, m1⟩
  · exact .inr ⟨by simp only [passArrayF32ToWasm0, hm], .inl ⟨_, _, _, _, by omega, hm⟩⟩
  obtain ⟨hl1, hi1, hal, ha1, hk1, ht1⟩ := hA.malloc _ 4 _ _ hs.inside (by omega) _ _ _ hm
  rw [← bytesOf_length] at hl1 hi1 ha1
  have hf1 : fresh m1 s.f32 = whole m1 := (hs.f32.later ht1).fresh
  have hq : unsigned q0 / 4 * 4 = unsigned q0 := by omega
  obtain ⟨m2, e2, hb2, hs2, hc2, ho2⟩ := set_spec (m := m1) (v := whole m1) (xs := bytesOf arg)
    (i := unsigned q0) (by rw [whole_byteLength rfl rfl]; exact hi1)
  simp only [whole, Nat.zero_add] at hc2 ho2
  rw [bytesOf_mod] at hc2
  have hw : whole m1 = whole m2 := by rw [whole, whole, hb2, hs2]
  have ht2 : Later s.mem m2 := ht1.trans (.of_eq hb2 hs2)
  left
  refine ⟨unsigned q0, { s with al := c1, mem := m2, f32 := some (whole m1), vecLen := arg.length }, ?_, rfl,
    hl1, hc2, ha1, ?_, ?_, rfl, ht2⟩
  · simp only [passArrayF32ToWasm0, hm, getFloat32Memory0, hf1, bytesOf_eq, hq, e2]
  · exact hk1.trans (Keeps.of_apart ha1 ho2)
  · refine ⟨?_, hs.u8.later ht2, by rw [hw]; exact .whole m2, hs.i32.later ht2⟩
    intro r hr
    simp only [hl1, List.mem_cons] at hr
    rcases hr with rfl | hr
    · simp only [hs2]; exact hi1
    · exact Nat.le_trans (hs.inside r hr) ht2.size

theorem elements_whole {m : Mem} {r n : Nat} (h : r + n ≤ m.size) :
    elements m (subarray (whole m) r (r + n)) = contents m (r, n) := by
  have h1 : min r m.size = r := by omega
  have h2 : min (r + n) m.size = r + n := by omega
  have h3 : r + n - r = n := by omega
  simp [elements, subarray, whole, View.byteLength, contents, h1, h2, h3]

/-- Reading a vector which a call has left: its elements are copied and the block is given back. -/
theorem takeVec_spec (hA : Sound A) {width retptr : Nat} (hw : width = 1 ∨ width = 4) (s : St A)
    (m0 : Mem) (l : List (Nat × Nat)) (xs : List Nat) (hret : retptr % 4 = 0)
    (hg : Gives A width retptr l m0 s.al s.mem xs)
    (hc1 : Cached s.mem s.u8) (hc2 : Cached s.mem s.f32) (hc3 : Cached s.mem s.i32) :
    ∃ s', takeVec width retptr s = (xs, s') ∧ A.live s'.al = l ∧ Keeps l m0 s'.mem ∧ Ok s' ∧
      s'.sp = s.sp := by
  obtain ⟨r, hl, hcon, hin, hsz, hr, hx, hw0, hw1, hk, ht⟩ := hg
  have hblock := hin (r, xs.length) (by rw [hl]; simp)
  simp only at hblock
  have e0 : retptr / 4 * 4 = retptr := by omega
  have hmul : xs.length / width * width = xs.length := by
    rcases hw with rfl | rfl <;> omega
  have hrr : r / width * width = r := by rcases hw with rfl | rfl <;> omega
  rcases hf : A.free r xs.length width s.al s.mem with ⟨c', m'⟩
  obtain ⟨hlf, hkf, htf⟩ := hA.free _ _ _ _ _ _ hl _ _ hf
  have hin' : ∀ q ∈ A.live c', q.1 + q.2 ≤ m'.size := by
    intro q hq
    rw [hlf] at hq
    exact Nat.le_trans (hin q (by rw [hl]; simp [hq])) htf.size
  have hwh : Cached m' (some (whole s.mem)) := (Cached.whole s.mem).later htf
  rcases hw with rfl | rfl
  · refine ⟨{ s with al := c', mem := m', u8 := some (whole s.mem), i32 := some (whole s.mem) }, ?_,
      hlf, hk.trans hkf, ⟨hin', ?_, ?_, ?_⟩, ?_⟩
    rotate_left
    · exact hwh
    · exact hc2.later htf
    · exact hwh
    · rfl
    · simp only [takeVec, getInt32Memory0, getUint8Memory0, hc3.fresh, hc1.fresh, if_true, e0,
        whole_byteLength rfl rfl]
      rw [if_pos (by omega), if_pos (by omega), hw0, hw1, hrr, hmul, elements_whole hblock, hcon]
      simp only [hf]
  · refine ⟨{ s with al := c', mem := m', f32 := some (whole s.mem), i32 := some (whole s.mem) }, ?_,
      hlf, hk.trans hkf, ⟨hin', ?_, ?_, ?_⟩, ?_⟩
    rotate_left
    · exact hc1.later htf
    · exact hwh
    · exact hwh
    · rfl
    · simp only [takeVec, getInt32Memory0, getFloat32Memory0, hc3.fresh, hc2.fresh, e0,
        whole_byteLength rfl rfl, if_neg (show ¬ (4 = 1) by omega)]
      rw [if_pos (by omega), if_pos (by omega), hw0, hw1, hrr, hmul, elements_whole hblock, hcon]
      simp only [hf]

theorem takeVec_sp (width retptr : Nat) (s : St A) : (takeVec width retptr s).2.sp = s.sp := by
  unfold takeVec getInt32Memory0 getUint8Memory0 getFloat32Memory0
  simp only
  split <;> rfl

theorem passArray8_sp {code : List Nat} {s s' : St A} {p : Nat}
    (h : passArray8ToWasm0 code s = some (p, s')) : s'.sp = s.sp := by
  unfold passArray8ToWasm0 getUint8Memory0 at h
  rcases hm : A.malloc (code.length * 1) 1 s.al s.mem with _ | ⟨q, c, m⟩
  · simp only [hm] at h; cases h
  · simp only [hm] at h
    generalize set m (fresh m s.u8) code (unsigned q) = o at h
    cases o with
    | none => cases h
    | some m' => obtain ⟨rfl, rfl⟩ := Prod.mk.inj (Option.some.inj h); rfl

theorem Refused.mono {n k : Nat} (h : Refused A n) (hk : n ≤ k) : Refused A k := by
  rcases h with ⟨a, b, c, d, e, f⟩ | ⟨a, b, c, d, e, g, h1, h2⟩
  · exact .inl ⟨a, b, c, d, by omega, f⟩
  · exact .inr ⟨a, b, c, d, e, g, by omega, h2⟩

theorem asciiLoop_offset (v : View) (ptr : Nat) : ∀ (arg : List Nat) (off : Nat) (m : Mem),
    (∃ u ∈ arg, 0x7F < u) → (asciiLoop v ptr arg off m).1 < off + arg.length := by
  intro arg
  induction arg with
  | nil => intro off m h; simp at h
  | cons c arg ih =>
    intro off m h
    rw [asciiLoop]
    split
    · simp
    · rename_i hc
      obtain ⟨u, hu, hu'⟩ := h
      have := ih (off + 1) (store m v (ptr + off) c) (by
        rcases List.mem_cons.1 hu with rfl | hu
        · omega
        · exact ⟨u, hu, hu'⟩)
      simp only [List.length_cons]
      omega

theorem passString_missing (s : St A) (us : List Nat) (h : ∃ u ∈ us, 0x7F < u) :
    passStringToWasm0 .missing us s = none := by
  unfold passStringToWasm0
  rcases hm : A.malloc us.length 1 s.al s.mem with _ | ⟨q, c, m⟩
  · simp only [hm]
  · have hlt := asciiLoop_offset (fresh m s.u8) (unsigned q) us 0 m h
    rcases hl : asciiLoop (fresh m s.u8) (unsigned q) us 0 m with ⟨off, rest, m'⟩
    rw [hl] at hlt
    simp only [hm, getUint8Memory0, hl]
    simp only at hlt
    rw [if_pos (by omega)]
    split
    · rfl
    · simp only [encodeString]

end Verif.Glue
