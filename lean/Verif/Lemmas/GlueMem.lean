import Verif.Lemmas.Glue

/-! # Lemmas for C78: memory, views and the allocator -/

namespace Verif.Glue

variable {A : Alloc}

theorem contents_congr {m m' : Mem} {r : Nat × Nat} :
    contents m' r = contents m r ↔ ∀ i, i < r.2 → m'.byte (r.1 + i) = m.byte (r.1 + i) := by
  simp [contents]

theorem contents_list {m : Mem} {p n : Nat} {xs : List Nat} :
    contents m (p, n) = xs ↔ xs.length = n ∧ ∀ i (h : i < xs.length), m.byte (p + i) = xs[i] := by
  constructor
  · rintro rfl
    simp [contents]
  · rintro ⟨h1, h2⟩
    apply List.ext_getElem
    · simp [contents, h1]
    · intro i hi1 hi2
      rw [← h2 i hi2]
      simp [contents]

theorem Later.refl (m : Mem) : Later m m := .inl ⟨rfl, rfl⟩

theorem Later.trans {a b c : Mem} (h1 : Later a b) (h2 : Later b c) : Later a c := by
  unfold Later at *; omega

theorem Later.size {a b : Mem} (h : Later a b) : a.size ≤ b.size := by unfold Later at h; omega

theorem Later.of_eq {m m' : Mem} (h1 : m'.buf = m.buf) (h2 : m'.size = m.size) : Later m m' :=
  .inl ⟨h1, h2⟩

theorem Cached.later {m m' : Mem} {c : Option View} (h : Cached m c) (hl : Later m m') :
    Cached m' c := by
  intro v hv
  rcases h v hv with h | h
  · left; unfold Later at hl; omega
  · rcases hl with ⟨h1, h2⟩ | ⟨h1, _⟩
    · right; rw [h, whole, whole, h1, h2]
    · left; rw [h]; exact h1

theorem Cached.fresh {m : Mem} {c : Option View} (h : Cached m c) : fresh m c = whole m := by
  cases c with
  | none => rfl
  | some v =>
    simp only [Glue.fresh]
    rcases h v rfl with h | h
    · rw [if_pos (by simp only [View.byteLength]; rw [if_neg (by omega)])]
    · rw [h]; split <;> rfl

theorem Cached.whole (m : Mem) : Cached m (some (whole m)) := by
  intro v hv
  obtain rfl := Option.some.inj hv
  exact .inr rfl

theorem whole_byteLength {m m' : Mem} (h1 : m'.buf = m.buf) (h2 : m'.size = m.size) :
    (whole m).byteLength m' = m'.size := by
  simp [View.byteLength, whole, h1, h2]

theorem Keeps.refl (l : List (Nat × Nat)) (m : Mem) : Keeps l m m := fun _ _ => rfl

theorem Keeps.trans {l : List (Nat × Nat)} {a b c : Mem} (h1 : Keeps l a b) (h2 : Keeps l b c) :
    Keeps l a c := fun r hr => (h2 r hr).trans (h1 r hr)

/-- Writing inside of a block which is apart from others keeps what they hold. -/
theorem Keeps.of_apart {l : List (Nat × Nat)} {m m' : Mem} {b : Nat × Nat}
    (hap : ∀ r ∈ l, Apart b r) (hsame : ∀ a, ¬ In b a → m'.byte a = m.byte a) : Keeps l m m' := by
  intro r hr
  rw [contents_congr]
  intro i hi
  apply hsame
  intro hb
  exact hap r hr _ ⟨hb, by unfold In; omega⟩

/-- What `set` does on a view. -/
theorem set_spec {m : Mem} {v : View} {xs : List Nat} {i : Nat}
    (h : i + xs.length ≤ v.byteLength m) :
    ∃ m', set m v xs i = some m' ∧ m'.buf = m.buf ∧ m'.size = m.size ∧
      contents m' (v.off + i, xs.length) = xs.map (· % 256) ∧
      ∀ a, ¬ In (v.off + i, xs.length) a → m'.byte a = m.byte a := by
  refine ⟨_, if_pos h, rfl, rfl, ?_, ?_⟩
  · rw [contents_list]
    refine ⟨by simp, ?_⟩
    intro j hj
    simp only [List.length_map] at hj
    dsimp only
    rw [if_pos (by omega), show v.off + i + j - (v.off + i) = j by omega, List.getElem?_eq_getElem hj]
    simp
  · intro a ha
    dsimp only
    split
    · rw [List.getElem?_eq_none]
      · rfl
      · unfold In at ha; simp only at ha; omega
    · rfl

/-- The loop over the ASCII prefix. -/
theorem asciiLoop_spec (v : View) (ptr : Nat) (hv : v.off = 0) :
    ∀ (arg : List Nat) (off : Nat) (m : Mem), v.buf = m.buf → ptr + off + arg.length ≤ v.len →
    ∃ pre rest m', asciiLoop v ptr arg off m = (off + pre.length, rest, m') ∧ arg = pre ++ rest ∧
      (∀ u ∈ pre, u ≤ 0x7F) ∧ (∀ u ∈ rest.head?, 0x7F < u) ∧ m'.buf = m.buf ∧ m'.size = m.size ∧
      contents m' (ptr + off, pre.length) = pre ∧
      ∀ a, ¬ In (ptr + off, pre.length) a → m'.byte a = m.byte a := by
  intro arg
  induction arg with
  | nil =>
    intro off m hb hl
    exact ⟨[], [], m, by simp [asciiLoop], rfl, by simp, by simp, rfl, rfl, by simp [contents],
      fun _ _ => rfl⟩
  | cons c arg ih =>
    intro off m hb hl
    by_cases hc : c > 0x7F
    · exact ⟨[], c :: arg, m, by simp [asciiLoop, hc], rfl, by simp, by simpa using hc, rfl, rfl,
        by simp [contents], fun _ _ => rfl⟩
    · simp only [List.length_cons] at hl
      have hst : store m v (ptr + off) c =
          { m with byte := fun a => if a = ptr + off then c else m.byte a } := by
        unfold store View.byteLength
        rw [if_pos hb, if_pos (by omega), hv]
        simp only [Nat.zero_add]
        rw [show c % 256 = c by omega]
      obtain ⟨pre, rest, m', h1, h2, h3, h4, h5, h6, h7, h8⟩ := ih (off + 1)
        (store m v (ptr + off) c) (by rw [hst]; exact hb) (by omega)
      refine ⟨c :: pre, rest, m', ?_, by rw [h2]; rfl, ?_, h4, by rw [h5, hst], by rw [h6, hst], ?_, ?_⟩
      · rw [asciiLoop, if_neg hc, h1]; simp; omega
      · intro u hu
        rcases List.mem_cons.1 hu with rfl | hu
        · omega
        · exact h3 u hu
      · rw [contents_list] at h7 ⊢
        refine ⟨rfl, ?_⟩
        intro i hi
        cases i with
        | zero =>
          simp only [List.getElem_cons_zero, Nat.add_zero]
          rw [h8 _ (by unfold In; simp only; omega), hst]
          simp
        | succ i =>
          simp only [List.length_cons] at hi
          simp only [List.getElem_cons_succ]
          rw [← h7.2 i (by omega)]
          congr 1; omega
      · intro a ha
        simp only [In, List.length_cons] at ha
        rw [h8 a (by unfold In; simp only; omega), hst]
        simp only
        rw [if_neg (by omega)]

end Verif.Glue
