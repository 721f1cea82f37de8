import Verif.Lemmas.GluePass

/-! # C78: texts, samples and results cross the border of the compiled program unharmed

The statements are in the vocabulary of Spec/Glue.lean. They hold for every allocator which keeps its
promises, also if it enlarges the memory at every request, so that no cached view may be used again. -/

namespace Verif.Props.Glue

open Verif Verif.Glue

variable {A : Alloc}

/-- **C78.** A JavaScript string which is handed over (the name of a sample, a message) arrives as the
UTF-8 encoding of its text, in a new block of exactly that length, and no other block in use is changed.
An encoder is needed unless the string is ASCII. It fails only if the allocator refuses a request for at
most three bytes per unit of the string. -/
theorem c78_text_arrives_partial (hA : Sound A) (E : Encoder) (s : St A) (hs : Ok s) (us : List Nat)
    (hu : ∀ u ∈ us, u < 65536) (hE : E ≠ .missing ∨ ∀ u ∈ us, u ≤ 0x7F) (cs : List Char)
    (hr : Reads us cs) :
    (∃ p s', sendMsg E us s = some (p, (utf8 cs).length, s') ∧ Handed s s' p (utf8 cs)) ∨
    (sendMsg E us s = none ∧ Refused A (3 * us.length)) := by
  have e := encode_reads hr
  rcases passString_handed hA E us s hs hu hE with ⟨p, s', h1, h2, h3⟩ | ⟨h1, h2⟩
  · left
    refine ⟨p, s', ?_, e ▸ h3⟩
    simp only [sendMsg, h1]
    rw [← e, ← h2]
  · right
    exact ⟨by simp only [sendMsg, h1], h2⟩

/-- **C78.** Every string is a text in this sense, and only one. -/
theorem c78_every_string_is_text (us : List Nat) (hu : ∀ u ∈ us, u < 65536) : 
    ∃ cs, Reads us cs ∧ ∀ cs', Reads us cs' → cs' = cs := by
  obtain ⟨cs, hcs⟩ := reads_total us hu
  exact ⟨cs, hcs, fun cs' h => reads_unique hcs h⟩

/-- **C78.** When `wasm.add_sample` is called, name and samples are both there: the second allocation has
not disturbed the first block. -/
theorem c78_sample_arrives_partial (hA : Sound A) (E : Encoder) (s : St A) (hs : Ok s) (us sample : List Nat)
    (hu : ∀ u ∈ us, u < 65536) (hE : E ≠ .missing ∨ ∀ u ∈ us, u ≤ 0x7F) (cs : List Char)
    (hr : Reads us cs) :
    (∃ p0 p1 s', addSample E us sample s = some (p0, (utf8 cs).length, p1, sample.length, s') ∧
      A.live s'.al = (p1, sample.length * 4) :: (p0, (utf8 cs).length) :: A.live s.al ∧
      contents s'.mem (p0, (utf8 cs).length) = utf8 cs ∧
      contents s'.mem (p1, sample.length * 4) = bytesOf sample ∧
      Keeps (A.live s.al) s.mem s'.mem ∧ Ok s') ∨
    (addSample E us sample s = none ∧ Refused A (max (3 * us.length) (4 * sample.length))) := by
  have e := encode_reads hr
  rcases passString_handed hA E us s hs hu hE with ⟨p0, s1, h1, h2, h3⟩ | ⟨h1, h2⟩
  · rw [e] at h2 h3
    rcases passArrayF32_handed hA sample s1 h3.ok with ⟨p1, s2, g1, g2, g3⟩ | ⟨g1, g2⟩
    · left
      refine ⟨p0, p1, s2, by simp only [addSample, h1, g1, h2, g2], ?_, ?_, ?_, ?_, g3.ok⟩
      · rw [g3.live, h3.live, bytesOf_length]
      · rw [g3.keeps _ (by rw [h3.live]; simp)]; exact h3.holds
      · have := g3.holds
        rwa [bytesOf_length] at this
      · exact h3.keeps.trans fun r hr => g3.keeps r (by rw [h3.live]; simp [hr])
    · right
      exact ⟨by simp only [addSample, h1, g1], g2.mono (by omega)⟩
  · right
    exact ⟨by simp only [addSample, h1], h2.mono (by omega)⟩

/-- **C78.** `update` gives back what the compiled program computed from the very bytes which were
passed, and nothing of what it used stays allocated. Here `f` is what the program computes. It fails only
if memory is refused or the program traps. -/
theorem c78_update_is_transparent (hA : Sound A) (f : List Nat → List Nat) (s : St A) (hs : Ok s)
    (code : List Nat) (hc : ∀ b ∈ code, b < 256) (hsp : s.sp % 16 = 0) (hsp16 : 16 ≤ s.sp)
    (hstack : s.sp ≤ s.mem.size ∧ ∀ r ∈ A.live s.al, Apart ((s.sp - 16).toNat, 8) r)
    (call : (retptr ptr len : Nat) → Call A)
    (hcall : ∀ retptr ptr len al m l al' m', A.live al = (ptr, len) :: l →
      (∀ r ∈ A.live al, r.1 + r.2 ≤ m.size) → retptr % 4 = 0 →
      retptr + 8 ≤ m.size → (∀ r ∈ l, Apart (retptr, 8) r) →
      call retptr ptr len al m = (.ok al', m') →
      Gives A 1 retptr l m al' m' (f (contents m (ptr, len)))) :
    (∃ s', Glue.update call code s = (some (f code), s') ∧ A.live s'.al = A.live s.al ∧
      Keeps (A.live s.al) s.mem s'.mem ∧ Ok s' ∧ s'.sp = s.sp) ∨
    ((Glue.update call code s).1 = none ∧ (Refused A code.length ∨
      ∃ p al m m', contents m (p, code.length) = code ∧
        call (s.sp - 16).toNat p code.length al m = (.error (), m'))) := by
  have hs' : Ok { s with sp := s.sp - 16 } := ⟨hs.inside, hs.u8, hs.f32, hs.i32⟩
  rcases passArray8_handed hA code { s with sp := s.sp - 16 } hs' hc with ⟨p, s1, h1, h2, h3⟩ | ⟨h1, h2⟩
  · have hret : (s.sp - 16).toNat % 4 = 0 := by omega
    rcases e : call (s.sp - 16).toNat p code.length s1.al s1.mem with ⟨_ | al', m'⟩
    · right
      exact ⟨by simp only [Glue.update, h1, h2, e], .inr ⟨p, s1.al, s1.mem, m', h3.holds, e⟩⟩
    left
    have hsz : s.mem.size ≤ s1.mem.size := h3.later.size
    have hg := hcall (s.sp - 16).toNat p code.length s1.al s1.mem _ al' m' h3.live h3.ok.inside hret
      (by omega) hstack.2 e
    rw [h3.holds] at hg
    have hl : Later s1.mem m' := by obtain ⟨_, _, _, _, _, _, _, _, _, _, h⟩ := hg; exact h
    obtain ⟨s2, e2, g1, g2, g3, g4⟩ := takeVec_spec hA (.inl rfl) { s1 with al := al', mem := m' } s1.mem
      _ _ hret hg (h3.ok.u8.later hl) (h3.ok.f32.later hl) (h3.ok.i32.later hl)
    rw [h2] at e2
    refine ⟨{ s2 with sp := s2.sp + 16 }, ?_, g1, h3.keeps.trans g2, ⟨g3.inside, g3.u8, g3.f32, g3.i32⟩,
      ?_⟩
    · simp only [Glue.update, h1, h2, e, e2]
    · simp only [g4, h3.stack]; omega
  · right
    exact ⟨by simp only [Glue.update, h1], .inl h2⟩

/-- **C78.** `process` gives back the block which the compiled program rendered, and nothing stays
allocated. -/
theorem c78_process_is_transparent (hA : Sound A) (xs : List Nat) (s : St A) (hs : Ok s)
    (hsp : s.sp % 16 = 0) (hsp16 : 16 ≤ s.sp) (call : Nat → Call A) (al' : A.σ) (m' : Mem)
    (hcall : call (s.sp - 16).toNat s.al s.mem = (.ok al', m'))
    (hg : Gives A 4 (s.sp - 16).toNat (A.live s.al) s.mem al' m' (bytesOf xs)) :
    ∃ s', Glue.process call s = (some (bytesOf xs), s') ∧ A.live s'.al = A.live s.al ∧
      Keeps (A.live s.al) s.mem s'.mem ∧ Ok s' ∧ s'.sp = s.sp := by
  have hret : (s.sp - 16).toNat % 4 = 0 := by omega
  have hl : Later s.mem m' := by obtain ⟨_, _, _, _, _, _, _, _, _, _, h⟩ := hg; exact h
  obtain ⟨s2, e2, g1, g2, g3, g4⟩ := takeVec_spec hA (.inr rfl)
    { s with sp := s.sp - 16, al := al', mem := m' } s.mem _ _ hret hg (hs.u8.later hl)
    (hs.f32.later hl) (hs.i32.later hl)
  refine ⟨{ s2 with sp := s2.sp + 16 }, ?_, g1, g2, ⟨g3.inside, g3.u8, g3.f32, g3.i32⟩, ?_⟩
  · simp only [Glue.process, hcall, e2]
  · simp only [g4]; omega

/-- **C78.** Whatever the compiled program does, also if it traps, the stack pointer is afterwards where
it was. -/
theorem c78_stack_pointer_restored (s : St A) (code : List Nat) (call : Nat → Call A)
    (call' : (retptr ptr len : Nat) → Call A) :
    (Glue.process call s).2.sp = s.sp ∧ (Glue.update call' code s).2.sp = s.sp := by
  constructor
  · unfold Glue.process
    simp only
    rcases call (s.sp - 16).toNat s.al s.mem with ⟨_ | al, m⟩
    · simp only; omega
    · simp only [takeVec_sp]; omega
  · unfold Glue.update
    simp only
    rcases h : passArray8ToWasm0 code { s with sp := s.sp - 16 } with _ | ⟨p, s1⟩
    · simp only; omega
    · have hs1 := passArray8_sp h
      simp only at hs1
      simp only
      rcases call' (s.sp - 16).toNat p s1.vecLen s1.al s1.mem with ⟨_ | al, m⟩
      · simp only [hs1]; omega
      · simp only [takeVec_sp, hs1]; omega

/-- **C78.** Where there is no `TextEncoder` — in the worklets of some browsers — a name or a
message with a character outside of ASCII never arrives: the call throws, for every allocator and in
every state. The strings which arrive are then exactly the ASCII ones. -/
theorem c78_ascii_only_without_encoder (s : St A) (us : List Nat) (h : ∃ u ∈ us, 0x7F < u) :
    sendMsg .missing us s = none ∧ ∀ sample, addSample .missing us sample s = none := by
  have : passStringToWasm0 .missing us s = none := passString_missing s us h
  exact ⟨by simp only [sendMsg, this], fun sample => by simp only [addSample, this]⟩

/-! ## The hypotheses can be met

An allocator which takes new memory at every request: each request enlarges the memory, so that every
cached view is detached, and `realloc` always moves the block. It has given away all addresses when the
memory has 2^32 bytes. -/

/-- The allocator of the examples. -/
def grower : Alloc where
  σ := List (Nat × Nat)
  live := id
  malloc n al c m :=
    let p := (m.size / al + 1) * al
    if p + n < 4294967296 then
      some (if p < 2147483648 then p else (p : Int) - 4294967296, (p, n) :: c,
        { m with buf := m.buf + 1, size := p + n })
    else none
  realloc q old new _ c m :=
    let p := m.size
    if p + new < 4294967296 then
      some (if p < 2147483648 then p else (p : Int) - 4294967296, (p, new) :: c.erase (q, old),
        { buf := m.buf + 1, size := p + new + 1, byte := fun a =>
            if p ≤ a ∧ a < p + min old new then m.byte (q + (a - p)) else m.byte a })
    else none
  free q n _ c m := (c.erase (q, n), m)

theorem unsigned_signed {p : Nat} (h : p < 4294967296) :
    unsigned (if p < 2147483648 then (p : Int) else (p : Int) - 4294967296) = p := by
  unfold unsigned; split <;> omega

theorem grower_sound : Sound grower where
  malloc := by
    intro n al c m hin hal p c' m' h
    simp only [grower] at h
    split at h
    · rename_i hlt
      obtain ⟨e1, e2⟩ := Prod.mk.inj (Option.some.inj h)
      obtain ⟨e2, e3⟩ := Prod.mk.inj e2
      subst e1 e2 e3
      have hd := Nat.div_add_mod m.size al
      have hm := Nat.mod_lt m.size hal
      have hge : m.size < (m.size / al + 1) * al := by
        rw [Nat.add_mul, Nat.mul_comm (m.size / al) al]; omega
      rw [unsigned_signed (by omega)]
      refine ⟨rfl, Nat.le_refl _, Nat.mul_mod_left _ _, ?_, fun _ _ => rfl,
        .inr ⟨by simp, by simp only; omega⟩⟩
      intro r hr a ha
      have := hin r hr
      simp only [In] at ha
      omega
    · cases h
  realloc := by
    intro q old new al c m l hl hin hap p c' m' h
    simp only [grower, id] at hl hin h
    subst hl
    split at h
    · obtain ⟨e1, e2⟩ := Prod.mk.inj (Option.some.inj h)
      obtain ⟨e2, e3⟩ := Prod.mk.inj e2
      subst e1 e2 e3
      rw [unsigned_signed (by omega)]
      have hq := hin (q, old) (by simp)
      simp only at hq
      refine ⟨by simp [grower], by simp, ?_, ?_, .inr ⟨by simp, by simp only; omega⟩, ?_⟩
      · intro r hr a ha
        have := hin r (by simp [hr])
        simp only [In] at ha
        omega
      · intro r hr
        rw [contents_congr]
        intro i hi
        have := hin r (by simp [hr])
        simp only
        rw [if_neg (by omega)]
      · simp only [contents]
        apply List.map_congr_left
        intro i hi
        simp only [List.mem_range] at hi
        rw [if_pos (by omega)]
        congr 1; omega
    · cases h
  free := by
    intro q n al c m l hl c' m' h
    simp only [grower, id] at hl h
    subst hl
    obtain ⟨e1, e2⟩ := Prod.mk.inj h
    subst e1 e2
    exact ⟨by simp [grower], fun _ _ => rfl, .inl ⟨rfl, rfl⟩⟩

/-- The state in which the examples start: a block of three bytes is in use, at the address 16, and all
caches hold a view which is detached. -/
def start : St grower where
  al := [(16, 3)]
  mem := ⟨5, 64, fun a => if a = 17 then 200 else 7⟩
  u8 := some ⟨4, 0, 32⟩
  f32 := some ⟨4, 0, 32⟩
  i32 := none
  vecLen := 0
  sp := 48

theorem start_ok : Ok start := by
  refine ⟨?_, ?_, ?_, ?_⟩
  · intro r hr
    simp [start, grower] at hr
    subst hr
    decide
  all_goals
    intro v hv
    simp [start] at hv
    try subst hv; left; decide

/-- The name "né😀": the letter n, a letter of two bytes, one of four bytes (two UTF-16 units). -/
def name : List Nat := [0x6E, 0xE9, 0xD83D, 0xDE00]

theorem name_reads : Reads name ['n', 'é', '😀'] := by
  have h := Reads.one (c := 'n') (by decide)
    (.one (c := 'é') (by decide) (.two (c := '😀') (hi := 0x3D) (lo := 0x200) (by decide) (by decide)
      (by decide) .nil))
  exact h

example : ∃ p s', sendMsg .into name start = some (p, 7, s') ∧
    contents s'.mem (p, 7) = [0x6E, 0xC3, 0xA9, 0xF0, 0x9F, 0x98, 0x80] ∧
    contents s'.mem (16, 3) = [7, 200, 7] := by
  rcases c78_text_arrives_partial grower_sound .into start start_ok name (by decide) (.inl nofun) _ name_reads
    with ⟨p, s', h1, h2⟩ | ⟨h1, _⟩
  · refine ⟨p, s', h1, h2.holds, ?_⟩
    rw [h2.keeps (16, 3) (by simp [start, grower])]
    decide
  · exact absurd h1 (by decide +kernel)

example : ∃ s', addSample .plain name [0x3F800000] start = some (80, 7, 92, 1, s') ∧
    contents s'.mem (80, 7) = [0x6E, 0xC3, 0xA9, 0xF0, 0x9F, 0x98, 0x80] ∧
    contents s'.mem (92, 4) = [0, 0, 0x80, 0x3F] := by
  have hp : (addSample .plain name [0x3F800000] start).map (fun r => (r.1, r.2.2.1)) = some (80, 92) := by
    decide +kernel
  rcases c78_sample_arrives_partial grower_sound .plain start start_ok name [0x3F800000] (by decide) (.inl nofun) _
    name_reads with ⟨p0, p1, s', h1, _, h3, h4, _⟩ | ⟨h1, _⟩
  · rw [h1] at hp
    obtain ⟨rfl, rfl⟩ : p0 = 80 ∧ p1 = 92 := by simpa using hp
    exact ⟨s', h1, h3, h4⟩
  · exact absurd h1 (by decide +kernel)

example : (sendMsg .missing name start).isNone = true ∧
    (sendMsg .missing [0x6E, 0x65] start).isSome = true :=
  ⟨by rw [(c78_ascii_only_without_encoder start name ⟨0xE9, by decide, by decide⟩).1]; rfl,
    by decide +kernel⟩

/-- **C78, violated.** The message "né😀" is lost where there is no `TextEncoder`, though there is memory
enough; the same call with an encoder hands it over. -/
theorem c78_no_encoder_counterexample : Sound grower ∧ Ok start ∧ Reads name ['n', 'é', '😀'] ∧
    (sendMsg .missing name start).isNone = true ∧ (sendMsg .into name start).isSome = true :=
  ⟨grower_sound, start_ok, name_reads, by decide +kernel, by decide +kernel⟩

/-- A compiled program for the examples, whose `update` returns the bytes in reverse order. -/
def backwards (retptr ptr len : Nat) : Call grower := fun al m =>
  let r := m.size + 1
  if r + len < 4294967296 then
    (.ok ((r, len) :: al.erase (ptr, len)),
      { buf := m.buf + 1, size := r + len, byte := fun a =>
          if r ≤ a then ((contents m (ptr, len)).reverse[a - r]?).getD 0
          else if retptr ≤ a ∧ a < retptr + 4 then (wordBytes r).getD (a - retptr) 0
          else if retptr + 4 ≤ a ∧ a < retptr + 8 then (wordBytes len).getD (a - (retptr + 4)) 0
          else m.byte a })
  else (.error (), m)

theorem backwards_gives (retptr ptr len : Nat) (al : grower.σ) (m : Mem) (l : List (Nat × Nat))
    (al' : grower.σ) (m' : Mem) (hl : grower.live al = (ptr, len) :: l)
    (hin : ∀ r ∈ grower.live al, r.1 + r.2 ≤ m.size) (_ : retptr % 4 = 0) (hsz : retptr + 8 ≤ m.size)
    (hap : ∀ r ∈ l, Apart (retptr, 8) r) (h : backwards retptr ptr len al m = (.ok al', m')) :
    Gives grower 1 retptr l m al' m' (contents m (ptr, len)).reverse := by
  simp only [grower, id] at hl hin
  subst hl
  unfold backwards at h
  simp only at h
  split at h
  · rename_i hlt
    obtain ⟨e1, e2⟩ := Prod.mk.inj h
    have e1 := Except.ok.inj e1
    subst e1 e2
    have hlen : (contents m (ptr, len)).reverse.length = len := by simp [contents]
    refine ⟨m.size + 1, ?_, ?_, ?_, ?_, by omega, by omega, ?_, ?_, ?_, .inr ⟨by simp, by simp only; omega⟩⟩
    · simp [grower, contents]
    · rw [contents_list]
      refine ⟨rfl, ?_⟩
      intro i hi
      simp only
      rw [if_pos (by omega), show m.size + 1 + i - (m.size + 1) = i by omega, List.getElem?_eq_getElem hi]
      rfl
    · intro q hq
      simp only [grower, id, List.mem_cons, List.erase_cons_head] at hq
      rcases hq with rfl | hq
      · exact Nat.le_refl _
      · have := hin q (by simp [hq])
        simp only; omega
    · simp only; omega
    · have g : ∀ k, k < 4 → (if m.size + 1 ≤ retptr + k
          then (((contents m (ptr, len)).reverse)[retptr + k - (m.size + 1)]?).getD 0
          else if retptr ≤ retptr + k ∧ retptr + k < retptr + 4 then
            (wordBytes (m.size + 1)).getD (retptr + k - retptr) 0
          else if retptr + 4 ≤ retptr + k ∧ retptr + k < retptr + 8 then
            (wordBytes len).getD (retptr + k - (retptr + 4)) 0
          else m.byte (retptr + k)) = (wordBytes (m.size + 1)).getD k 0 := by
        intro k hk
        rw [if_neg (by omega), if_pos (by omega), show retptr + k - retptr = k by omega]
      simp only [word]
      have g0 := g 0 (by omega)
      simp only [Nat.add_zero] at g0
      rw [g0, g 1 (by omega), g 2 (by omega), g 3 (by omega)]
      simp only [wordBytes, List.getD_cons_zero, List.getD_cons_succ]
      omega
    · have g : ∀ k, 4 ≤ k → k < 8 → (if m.size + 1 ≤ retptr + k
          then (((contents m (ptr, len)).reverse)[retptr + k - (m.size + 1)]?).getD 0
          else if retptr ≤ retptr + k ∧ retptr + k < retptr + 4 then
            (wordBytes (m.size + 1)).getD (retptr + k - retptr) 0
          else if retptr + 4 ≤ retptr + k ∧ retptr + k < retptr + 8 then
            (wordBytes len).getD (retptr + k - (retptr + 4)) 0
          else m.byte (retptr + k)) = (wordBytes len).getD (k - 4) 0 := by
        intro k hk hk'
        rw [if_neg (by omega), if_neg (by omega), if_pos (by omega),
          show retptr + k - (retptr + 4) = k - 4 by omega]
      simp only [word, Nat.add_assoc, Nat.reduceAdd]
      rw [g 4 (by omega) (by omega), g 5 (by omega) (by omega), g 6 (by omega) (by omega),
        g 7 (by omega) (by omega), hlen]
      simp only [wordBytes, List.getD_cons_zero, List.getD_cons_succ, Nat.reduceSub]
      omega
    · intro r hr
      rw [contents_congr]
      intro i hi
      have h1 := hin r (by simp [hr])
      have h2 := hap r hr (r.1 + i)
      simp only [In] at h2
      simp only
      rw [if_neg (by omega), if_neg (by omega), if_neg (by omega)]
  · cases (Prod.mk.inj h).1

theorem start_stack : start.sp ≤ start.mem.size ∧
    ∀ r ∈ grower.live start.al, Apart ((start.sp - 16).toNat, 8) r := by
  refine ⟨by decide, ?_⟩
  intro r hr a ha
  simp [start, grower] at hr
  subst hr
  simp [In, start] at ha
  omega

example : ∃ s', Glue.update backwards [1, 2, 3] start = (some [3, 2, 1], s') ∧
    grower.live s'.al = [(16, 3)] ∧ contents s'.mem (16, 3) = [7, 200, 7] := by
  rcases c78_update_is_transparent grower_sound List.reverse start start_ok [1, 2, 3] (by decide) (by decide)
    (by decide) start_stack backwards backwards_gives with ⟨s', h1, h2, h3, _⟩ | ⟨h1, _⟩
  · refine ⟨s', h1, h2, ?_⟩
    rw [h3 (16, 3) (by simp [start, grower])]
    decide
  · exact absurd h1 (by decide +kernel)

/-- A compiled program for the examples, whose `process` returns the two numbers 1.0 and -1.0. -/
def twoSamples (retptr : Nat) : Call grower := fun al m =>
  (.ok ((128, 8) :: al),
    { buf := m.buf + 1, size := 4096, byte := fun a =>
        if 128 ≤ a ∧ a < 136 then (bytesOf [0x3F800000, 0xBF800000]).getD (a - 128) 0
        else if retptr ≤ a ∧ a < retptr + 4 then (wordBytes 128).getD (a - retptr) 0
        else if retptr + 4 ≤ a ∧ a < retptr + 8 then (wordBytes 2).getD (a - (retptr + 4)) 0
        else m.byte a })

example : ∃ s', Glue.process twoSamples start = (some (bytesOf [0x3F800000, 0xBF800000]), s') ∧
    grower.live s'.al = [(16, 3)] := by
  obtain ⟨s', h1, h2, _⟩ := c78_process_is_transparent grower_sound [0x3F800000, 0xBF800000] start start_ok
    (by decide) (by decide) twoSamples _ _ rfl ⟨128, rfl, by decide +kernel, (by
      intro q hq
      simp [start, grower, twoSamples] at hq
      rcases hq with rfl | rfl <;> decide), by decide, by decide, by decide, by decide +kernel,
      by decide +kernel, (by
        intro r hr
        simp [start, grower] at hr
        subst hr
        decide +kernel), .inr ⟨by decide, by decide⟩⟩
  exact ⟨s', h1, h2⟩

end Verif.Props.Glue
