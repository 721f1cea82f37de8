import Verif.Spec.Glue

/-! # Lemmas for C78 -/

namespace Verif.Glue

/-! ## Encoding -/

theorem pointBytes_char (c : Char) :
    pointBytes c.toNat = (String.utf8EncodeChar c).map UInt8.toNat := by
  have hc : c.toNat < 0x110000 := by
    have h := c.valid
    have e : c.val.toNat = c.toNat := rfl
    simp only [UInt32.isValidChar, Nat.isValidChar, e] at h
    omega
  unfold pointBytes String.utf8EncodeChar
  have e : c.val.toNat = c.toNat := rfl
  simp only [e]
  by_cases h1 : c.toNat < 0x80
  · have : c.toNat ≤ 0x7f := by omega
    simp only [h1, this, if_true, List.map_cons, List.map_nil, UInt8.toNat_ofNat']
    congr 1; omega
  · by_cases h2 : c.toNat < 0x800
    · have a : ¬ c.toNat ≤ 0x7f := by omega
      have b : c.toNat ≤ 0x7ff := by omega
      simp only [h1, h2, a, b, if_true, if_false, List.map_cons, List.map_nil, UInt8.toNat_ofNat']
      congr 1
      · omega
      · congr 1; omega
    · by_cases h3 : c.toNat < 0x10000
      · have a : ¬ c.toNat ≤ 0x7f := by omega
        have b : ¬ c.toNat ≤ 0x7ff := by omega
        have d : c.toNat ≤ 0xffff := by omega
        simp only [h1, h2, h3, a, b, d, if_true, if_false, List.map_cons, List.map_nil,
          UInt8.toNat_ofNat']
        congr 1
        · omega
        · congr 1
          · omega
          · congr 1; omega
      · have a : ¬ c.toNat ≤ 0x7f := by omega
        have b : ¬ c.toNat ≤ 0x7ff := by omega
        have d : ¬ c.toNat ≤ 0xffff := by omega
        simp only [h1, h2, h3, a, b, d, if_false, List.map_cons, List.map_nil, UInt8.toNat_ofNat']
        congr 1
        · omega
        · congr 1
          · omega
          · congr 1
            · omega
            · congr 1; omega

theorem utf8_cons (c : Char) (cs : List Char) : utf8 (c :: cs) = pointBytes c.toNat ++ utf8 cs := by
  simp [utf8, pointBytes_char]

theorem char_not_surrogate (c : Char) : c.toNat < 0xD800 ∨ 0xE000 ≤ c.toNat := by
  have h := c.valid
  have e : c.val.toNat = c.toNat := rfl
  simp only [UInt32.isValidChar, Nat.isValidChar, e] at h
  omega

theorem encode_reads {us cs} (h : Reads us cs) : encode us = utf8 cs := by
  induction h with
  | nil => simp [encode, utf8]
  | @one c us cs hc _ ih =>
    have := char_not_surrogate c
    have e : nextPoint c.toNat us = (c.toNat, us) := by
      unfold nextPoint; rw [if_neg (by omega), if_neg (by omega)]
    rw [encode, e, utf8_cons, ih]
  | @two c hi lo us cs h1 h2 h3 _ ih =>
    have e : nextPoint (0xD800 + hi) ((0xDC00 + lo) :: us) = (c.toNat, us) := by
      unfold nextPoint
      rw [if_pos (by omega)]
      simp only
      rw [if_pos (by omega), h3, show 0xD800 + hi - 0xD800 = hi by omega,
        show 0xDC00 + lo - 0xDC00 = lo by omega]
    rw [encode, e, utf8_cons, ih]
  | @high hi us cs h1 h2 _ ih =>
    have e : nextPoint (0xD800 + hi) us = (0xFFFD, us) := by
      unfold nextPoint
      rw [if_pos (by omega)]
      cases us with
      | nil => rfl
      | cons l us =>
        simp only
        have := h2 l (by simp)
        rw [if_neg (by omega)]
    rw [encode, e, utf8_cons, ih]; rfl
  | @low lo us cs h1 _ ih =>
    have e : nextPoint (0xDC00 + lo) us = (0xFFFD, us) := by
      unfold nextPoint; rw [if_neg (by omega), if_pos (by omega)]
    rw [encode, e, utf8_cons, ih]; rfl

/-- Every string of UTF-16 units is a text. -/
theorem reads_total : ∀ us : List Nat, (∀ u ∈ us, u < 65536) → ∃ cs, Reads us cs
  | [], _ => ⟨[], .nil⟩
  | u :: us, hu => by
    have hu0 := hu u (by simp)
    have hrest : ∀ x ∈ us, x < 65536 := fun x hx => hu x (by simp [hx])
    by_cases hs : u < 0xD800 ∨ 0xE000 ≤ u
    · obtain ⟨cs, hcs⟩ := reads_total us hrest
      have hv : Nat.isValidChar u := by unfold Nat.isValidChar; omega
      have e : (Char.ofNat u).toNat = u := by
        unfold Char.ofNat; rw [dif_pos hv]; unfold Char.ofNatAux Char.toNat
        simp
      refine ⟨Char.ofNat u :: cs, ?_⟩
      have := Reads.one (c := Char.ofNat u) (by rw [e]; exact hu0) hcs
      rwa [e] at this
    · by_cases hh : u < 0xDC00
      · obtain ⟨hi, rfl⟩ : ∃ hi, u = 0xD800 + hi := ⟨u - 0xD800, by omega⟩
        by_cases hl : ∃ l us', us = l :: us' ∧ 0xDC00 ≤ l ∧ l < 0xE000
        · obtain ⟨l, us', rfl, hl1, hl2⟩ := hl
          obtain ⟨lo, rfl⟩ : ∃ lo, l = 0xDC00 + lo := ⟨l - 0xDC00, by omega⟩
          obtain ⟨cs, hcs⟩ := reads_total us' fun x hx => hrest x (by simp [hx])
          have hv : Nat.isValidChar (0x10000 + hi * 0x400 + lo) := by
            unfold Nat.isValidChar; omega
          have e : (Char.ofNat (0x10000 + hi * 0x400 + lo)).toNat = 0x10000 + hi * 0x400 + lo := by
            unfold Char.ofNat; rw [dif_pos hv]; unfold Char.ofNatAux Char.toNat
            simp; omega
          exact ⟨_, Reads.two (by omega) (by omega) e hcs⟩
        · obtain ⟨cs, hcs⟩ := reads_total us hrest
          refine ⟨_, Reads.high (by omega) ?_ hcs⟩
          intro l hl'
          cases us with
          | nil => simp at hl'
          | cons l' us' =>
            simp at hl'
            subst hl'
            by_cases hcon : l' < 56320 ∨ 57344 ≤ l'
            · exact hcon
            · exact absurd ⟨_, _, rfl, by omega, by omega⟩ hl
      · obtain ⟨lo, rfl⟩ : ∃ lo, u = 0xDC00 + lo := ⟨u - 0xDC00, by omega⟩
        obtain ⟨cs, hcs⟩ := reads_total us hrest
        exact ⟨_, Reads.low (by omega) hcs⟩
termination_by us => us.length

/-- It is one text only. -/
theorem reads_unique {us cs} (h : Reads us cs) : ∀ {cs'}, Reads us cs' → cs' = cs := by
  induction h with
  | nil => intro cs' h'; cases h'; rfl
  | @one c us cs hc _ ih =>
    intro cs' h'
    have hns := char_not_surrogate c
    generalize hn : c.toNat = n at h' hns
    cases h' with
    | @one c' _ cs2 hc' h2 => rw [ih h2, Char.toNat_inj.1 hn]
    | two h1 h2 h3 h4 => omega
    | high h1 h2 h3 => omega
    | low h1 h2 => omega
  | @two c hi lo us cs h1 h2 h3 _ ih =>
    intro cs' h'
    generalize ha : 0xD800 + hi = a at h'
    generalize hb : 0xDC00 + lo = b at h'
    cases h' with
    | @one c' _ cs2 hc' k2 => have := char_not_surrogate c'; omega
    | @two c' hi' lo' _ cs2 k1 k2 k3 k4 =>
      rw [ih k4, Char.toNat_inj.1 (show c'.toNat = c.toNat by omega)]
    | high k1 k2 k3 => have := k2 b (by simp); omega
    | low k1 k2 => omega
  | @high hi us cs h1 h2 _ ih =>
    intro cs' h'
    generalize ha : 0xD800 + hi = a at h'
    cases h' with
    | @one c' _ cs2 hc' k2 => have := char_not_surrogate c'; omega
    | @two _ _ lo' _ _ k1 k2 k3 k4 => have := h2 (0xDC00 + lo') (by simp); omega
    | high k1 k2 k3 => rw [ih k3]
    | low k1 k2 => omega
  | @low lo us cs h1 _ ih =>
    intro cs' h'
    generalize ha : 0xDC00 + lo = a at h'
    cases h' with
    | @one c' _ cs2 hc' k2 => have := char_not_surrogate c'; omega
    | two k1 k2 k3 k4 => omega
    | high k1 k2 k3 => omega
    | low k1 k2 => rw [ih k2]

theorem pointBytes_length (c : Nat) : (pointBytes c).length ≤ 4 ∧ (c < 0x10000 → (pointBytes c).length ≤ 3) := by
  unfold pointBytes
  repeat' split
  all_goals (constructor <;> simp_all)
  all_goals omega

theorem next_cost (u : Nat) (hu : u < 65536) (rest : List Nat) :
    (pointBytes (nextPoint u rest).1).length + 3 * (nextPoint u rest).2.length ≤ 3 * (rest.length + 1) := by
  unfold nextPoint
  repeat' split
  all_goals simp only []
  all_goals first
    | (have := (pointBytes_length 0xFFFD).2 (by omega); omega)
    | (have := (pointBytes_length u).2 (by omega); omega)
    | skip
  rename_i l more _
  have := (pointBytes_length (0x10000 + (u - 0xD800) * 0x400 + (l - 0xDC00))).1
  simp only [List.length_cons]
  omega

theorem nextPoint_mem {u rest x} (h : x ∈ (nextPoint u rest).2) : x ∈ rest := by
  unfold nextPoint at h
  repeat' split at h
  all_goals simp_all

theorem encodeFit_eq : ∀ (us : List Nat) (room : Nat), (∀ u ∈ us, u < 65536) → 3 * us.length ≤ room →
    encodeFit us room = encode us ∧ (encode us).length ≤ 3 * us.length
  | [], room, _, _ => by simp [encodeFit, encode]
  | u :: us, room, hu, hr => by
    have hc := next_cost u (hu u (by simp)) us
    have hlen := nextPoint_length u us
    simp only [List.length_cons] at hr
    obtain ⟨ih1, ih2⟩ := encodeFit_eq (nextPoint u us).2 (room - (pointBytes (nextPoint u us).1).length)
      (fun x hx => hu x (by simp [nextPoint_mem hx])) (by omega)
    rw [encodeFit, encode]
    rw [if_pos (by omega), ih1]
    refine ⟨rfl, ?_⟩
    simp only [List.length_append, List.length_cons]
    omega
termination_by us => us.length
decreasing_by have := nextPoint_length u us; simp; omega

theorem encode_ascii (pre rest : List Nat) (h : ∀ u ∈ pre, u ≤ 0x7F) :
    encode (pre ++ rest) = pre ++ encode rest := by
  induction pre with
  | nil => rfl
  | cons u pre ih =>
    have hu := h u (by simp)
    have e : nextPoint u (pre ++ rest) = (u, pre ++ rest) := by
      unfold nextPoint; rw [if_neg (by omega), if_neg (by omega)]
    have e2 : pointBytes u = [u] := by unfold pointBytes; rw [if_pos (by omega)]
    rw [List.cons_append, encode, e, e2, ih fun x hx => h x (by simp [hx])]
    rfl

theorem pointBytes_lt (c : Nat) (hc : c < 0x110000) : ∀ b ∈ pointBytes c, b < 256 := by
  unfold pointBytes
  repeat' split
  all_goals (intro b hb; simp at hb; omega)

theorem nextPoint_lt (u : Nat) (hu : u < 65536) (rest : List Nat) : (nextPoint u rest).1 < 0x110000 := by
  unfold nextPoint
  repeat' split
  all_goals simp only []
  all_goals omega

theorem encode_lt : ∀ (us : List Nat), (∀ u ∈ us, u < 65536) → ∀ b ∈ encode us, b < 256
  | [], _, b, hb => by simp [encode] at hb
  | u :: us, hu, b, hb => by
    rw [encode] at hb
    rcases List.mem_append.1 hb with hb | hb
    · exact pointBytes_lt _ (nextPoint_lt u (hu u (by simp)) us) b hb
    · exact encode_lt (nextPoint u us).2 (fun x hx => hu x (by simp [nextPoint_mem hx])) b hb
termination_by us => us.length
decreasing_by have := nextPoint_length u us; simp; omega

end Verif.Glue
