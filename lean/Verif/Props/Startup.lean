import Verif.Spec.Startup
import Verif.Spec.Text
import Verif.Props.Glicol

/-! # C74: what is asked of an engine is carried out when the engine has started -/

namespace Verif.Props.Start
open Verif Startup Spec.Start Spec

variable {S : Type}

theorem askeds_append (a b : List (Ev S)) : askeds (a ++ b) = askeds a ++ askeds b := by
  fun_induction askeds a <;> simp_all [askeds]

theorem dids_append (a b : List (Ev S)) : dids (a ++ b) = dids a ++ dids b := by
  fun_induction dids a <;> simp_all [dids]

theorem gaves_append (m : Bool) (a b : List (Ev S)) : gaves m (a ++ b) = gaves m a ++ gaves m b := by
  fun_induction gaves m a <;> simp_all [gaves]

theorem texts_append (m : Bool) (a b : List (Ev S)) : texts m (a ++ b) = texts m a ++ texts m b := by
  simp [texts, askeds_append]

theorem runs_append (s : Sys S) (xs ys : List (Do S)) :
    runs s (xs ++ ys) = ((runs (runs s xs).1 ys).1, (runs s xs).2 ++ (runs (runs s xs).1 ys).2) := by
  induction xs generalizing s with
  | nil => rfl
  | cons d ds ih => simp only [List.cons_append, runs, ih, List.append_assoc]

/-- An invariant of state and events holds after every schedule. -/
theorem runs_inv {I : Sys S → List (Ev S) → Prop} (hstep : ∀ s l d, I s l → I (step s d).1 (l ++ (step s d).2))
    (xs : List (Do S)) {s : Sys S} {l : List (Ev S)} (h : I s l) : I (runs s xs).1 (l ++ (runs s xs).2) := by
  induction xs generalizing s l with
  | nil => simpa [runs] using h
  | cons d ds ih =>
    have := ih (hstep s l d h)
    simpa only [runs, List.append_assoc] using this

/-- The calls on the port. -/
def pending : List (PortMsg S) → List (Nat × Call S)
  | [] => []
  | .load :: l => pending l
  | .call k c :: l => (k, c) :: pending l

theorem pending_append (a b : List (PortMsg S)) : pending (a ++ b) = pending a ++ pending b := by
  fun_induction pending a <;> simp_all [pending]

/-- Numbers of calls grow; what the module has done and what still waits was asked, in order. -/
structure Inv (s : Sys S) (l : List (Ev S)) : Prop where
  below : ∀ p ∈ askeds l, p.1 < s.count
  sorted : (dids l ++ pending s.port).Pairwise (fun p q => p.1 < q.1)
  asked : ∀ p ∈ dids l ++ pending s.port, p ∈ askeds l

theorem inv_call {s : Sys S} {l : List (Ev S)} (h : Inv s l) (c : Call S) : Inv (call s c).1 (l ++ (call s c).2) := by
  have hbelow : ∀ p ∈ dids l ++ pending s.port, p.1 < s.count := fun p hp => h.below p (h.asked p hp)
  have posted : ∀ n : Sys S, n.count = s.count + 1 → n.port = s.port ++ [.call s.count c] → Inv n (l ++ [.asked s.count c]) := by
    intro n hc hp
    refine ⟨?_, ?_, ?_⟩
    · intro p hp'
      rw [askeds_append] at hp'
      rcases List.mem_append.1 hp' with h1 | h1
      · have := h.below p h1; omega
      · simp only [askeds, List.mem_singleton] at h1
        subst h1; rw [hc]; exact Nat.lt_succ_self _
    · rw [hp, pending_append, dids_append]
      simp only [dids, List.append_nil, pending]
      rw [← List.append_assoc, List.pairwise_append]
      refine ⟨h.sorted, List.pairwise_singleton _ _, ?_⟩
      intro a ha b hb
      simp only [List.mem_singleton] at hb
      subst hb
      exact hbelow a ha
    · intro p hp'
      rw [hp, pending_append, dids_append] at hp'
      simp only [dids, List.append_nil, pending, ← List.append_assoc] at hp'
      rw [askeds_append]
      rcases List.mem_append.1 hp' with h1 | h1
      · exact List.mem_append_left _ (h.asked p h1)
      · exact List.mem_append_right _ (by simpa [askeds] using h1)
  have queued : ∀ n : Sys S, n.count = s.count + 1 → n.port = s.port → Inv n (l ++ [.asked s.count c]) := by
    intro n hc hp
    refine ⟨?_, ?_, ?_⟩
    · intro p hp'
      rw [askeds_append] at hp'
      rcases List.mem_append.1 hp' with h1 | h1
      · have := h.below p h1; omega
      · simp only [askeds, List.mem_singleton] at h1
        subst h1; rw [hc]; exact Nat.lt_succ_self _
    · rw [hp, dids_append]; simpa [dids] using h.sorted
    · intro p hp'
      rw [hp, dids_append] at hp'
      rw [askeds_append]
      exact List.mem_append_left _ (h.asked p (by simpa [dids] using hp'))
  unfold call
  by_cases hw : s.wired = false
  · rw [if_pos hw]
    refine ⟨?_, ?_, ?_⟩
    · intro p hp
      rw [askeds_append] at hp
      have := h.below p (by simpa [askeds] using hp)
      show p.1 < s.count + 1
      omega
    · rw [dids_append]; simpa [dids] using h.sorted
    · intro p hp
      rw [dids_append] at hp
      rw [askeds_append]
      exact List.mem_append_left _ (h.asked p (by simpa [dids] using hp))
  · rw [if_neg hw]
    cases c with
    | run t => by_cases hs : s.sab = true <;> simp only [hs, if_true, if_false, Bool.false_eq_true]
               · exact queued _ rfl rfl
               · exact posted _ rfl rfl
    | msg t => by_cases hs : s.sab = true <;> simp only [hs, if_true, if_false, Bool.false_eq_true]
               · exact queued _ rfl rfl
               · exact posted _ rfl rfl
    | bpm v => exact posted _ rfl rfl
    | sample n x => exact posted _ rfl rfl
    | file n x => exact posted _ rfl rfl

/-- A step that does not touch the port and is not a call. -/
theorem Inv.keep {s n : Sys S} {l es : List (Ev S)} (h : Inv s l) (hc : n.count = s.count) (hp : pending n.port = pending s.port)
    (ha : askeds es = []) (hd : dids es = []) : Inv n (l ++ es) := by
  refine ⟨?_, ?_, ?_⟩
  · intro p hp'
    rw [askeds_append, ha, List.append_nil] at hp'
    rw [hc]; exact h.below p hp'
  · rw [dids_append, hd, hp, List.append_nil]; exact h.sorted
  · intro p hp'
    rw [dids_append, hd, hp, List.append_nil] at hp'
    rw [askeds_append, ha, List.append_nil]
    exact h.asked p hp'

theorem inv_step (s : Sys S) (l : List (Ev S)) (d : Do S) (h : Inv s l) : Inv (step s d).1 (l ++ (step s d).2) := by
  cases d with
  | call c => exact inv_call h c
  | addModule => exact h.keep (by simp only [step]; split <;> rfl) (by simp only [step]; split <;> rfl) rfl rfl
  | fetched =>
    refine h.keep (by simp only [step]; split <;> rfl) ?_ rfl rfl
    simp only [step]; split
    · simp [pending_append, pending]
    · rfl
  | handle =>
    simp only [step]
    cases hp : s.port with
    | nil => simpa using h
    | cons m rest =>
      cases m with
      | load => exact h.keep rfl (by rw [hp]; rfl) rfl rfl
      | call k c =>
        have h2 := h.sorted; have h3 := h.asked
        rw [hp] at h2 h3
        simp only [pending] at h2 h3
        by_cases ho : s.on = true
        · simp only [ho, if_true]
          refine ⟨?_, ?_, ?_⟩
          · intro p hp'
            rw [askeds_append] at hp'
            exact h.below p (by simpa [askeds] using hp')
          · rw [dids_append]; simpa [dids] using h2
          · intro p hp'
            rw [dids_append] at hp'
            rw [askeds_append]
            exact List.mem_append_left _ (h3 p (by simpa [dids] using hp'))
        · simp only [ho, if_false, Bool.false_eq_true, List.append_nil]
          refine ⟨h.below, ?_, ?_⟩
          · rw [List.pairwise_append] at h2 ⊢
            exact ⟨h2.1, (List.pairwise_cons.1 h2.2.1).2, fun a ha b hb => h2.2.2 a ha b (List.mem_cons_of_mem _ hb)⟩
          · intro p hp'
            refine h3 p ?_
            rcases List.mem_append.1 hp' with h4 | h4
            · exact List.mem_append_left _ h4
            · exact List.mem_append_right _ (List.mem_cons_of_mem _ h4)
  | instantiated => exact h.keep (by simp only [step]; split <;> rfl) (by simp only [step]; split <;> rfl) rfl rfl
  | notice =>
    simp only [step]
    split
    · split
      · exact h.keep rfl rfl rfl rfl
      · exact h.keep rfl rfl rfl rfl
    · exact h.keep rfl rfl rfl rfl
  | decoded i =>
    simp only [step]
    split
    · exact h.keep rfl rfl rfl rfl
    · exact inv_call (s := { s with fetches := s.fetches.eraseIdx i }) ⟨h.below, h.sorted, h.asked⟩ _
  | process =>
    simp only [step, tick]
    split
    · refine h.keep rfl rfl ?_ ?_ <;> cases s.code.isEmpty <;> cases s.param.isEmpty <;> rfl
    · exact h.keep rfl rfl rfl rfl

theorem inv_init (sab : Bool) (files : List (Name × S)) : Inv (init sab files) [] :=
  ⟨by simp [askeds], by simp [dids, pending, init], by simp [dids, pending, init]⟩

/-! ### Facts about the stages -/

theorem call_stage (s : Sys S) (c : Call S) : (call s c).1.on = s.on ∧ (call s c).1.ready = s.ready ∧
    (call s c).1.compiling = s.compiling ∧ (call s c).1.wired = s.wired ∧ (call s c).1.fetching = s.fetching ∧
    (call s c).1.sab = s.sab ∧ s.count ≤ (call s c).1.count ∧ .loaded ∉ (call s c).2 := by
  unfold call
  by_cases hw : s.wired = false
  · rw [if_pos hw]; simp
  · rw [if_neg hw]
    cases c <;> (try by_cases hs : s.sab = true) <;> simp_all

theorem step_on {s : Sys S} (d : Do S) (h : s.on = true) : (step s d).1.on = true := by
  cases d with
  | call c => simp only [step, (call_stage s c).1, h]
  | decoded i =>
    simp only [step]
    split
    · exact h
    · rw [(call_stage _ _).1]; exact h
  | handle => simp only [step]; split <;> exact h
  | process => simp only [step, tick]; split <;> exact h
  | addModule => simp only [step]; split <;> exact h
  | fetched => simp only [step]; split <;> exact h
  | instantiated => simp only [step]; split <;> first | rfl | exact h
  | notice => simp only [step]; split <;> (try split) <;> exact h

theorem step_sab (s : Sys S) (d : Do S) : (step s d).1.sab = s.sab := by
  cases d with
  | call c => simp only [step, (call_stage s c).2.2.2.2.2.1]
  | decoded i =>
    simp only [step]
    split
    · rfl
    · rw [(call_stage _ _).2.2.2.2.2.1]
  | handle => simp only [step]; split <;> rfl
  | process => simp only [step, tick]; split <;> rfl
  | addModule => simp only [step]; split <;> rfl
  | fetched => simp only [step]; split <;> rfl
  | instantiated => simp only [step]; split <;> rfl
  | notice => simp only [step]; split <;> (try split) <;> rfl

theorem runs_sab (s : Sys S) (xs : List (Do S)) : (runs s xs).1.sab = s.sab :=
  runs_inv (I := fun t _ => t.sab = s.sab) (fun t _ d h => (step_sab t d).trans h) xs (l := []) rfl

/-- `ready` is only sent, and `onLoaded` only called, when the module is there. -/
def Awake (s : Sys S) (l : List (Ev S)) : Prop := (s.ready = true → s.on = true) ∧ (.loaded ∈ l → s.on = true)

theorem awake_step (s : Sys S) (l : List (Ev S)) (d : Do S) (h : Awake s l) : Awake (step s d).1 (l ++ (step s d).2) := by
  refine ⟨fun hr => ?_, fun hl => ?_⟩
  · by_cases ho : s.on = true
    · exact step_on d ho
    · have h1 : s.ready = false := by
        cases hr' : s.ready with
        | false => rfl
        | true => exact absurd (h.1 hr') ho
      cases d with
      | call c => simp only [step, (call_stage s c).2.1, h1] at hr; cases hr
      | decoded i =>
        simp only [step] at hr ⊢
        split at hr
        · rw [h1] at hr; cases hr
        · rw [(call_stage _ _).2.1] at hr; simp only [h1] at hr; cases hr
      | handle => simp only [step] at hr; split at hr <;> simp only [h1] at hr <;> cases hr
      | process => simp only [step, tick] at hr; split at hr <;> simp only [h1] at hr <;> cases hr
      | addModule => simp only [step] at hr; split at hr <;> simp only [h1] at hr <;> cases hr
      | fetched => simp only [step] at hr; split at hr <;> simp only [h1] at hr <;> cases hr
      | instantiated =>
        simp only [step] at hr ⊢
        split at hr
        · rename_i hc; rw [if_pos hc]
        · rw [h1] at hr; cases hr
      | notice => simp [step, h1] at hr
  · rcases List.mem_append.1 hl with hl | hl
    · exact step_on d (h.2 hl)
    · cases d with
      | call c => exact absurd hl (call_stage s c).2.2.2.2.2.2.2
      | decoded i =>
        simp only [step] at hl
        split at hl
        · cases hl
        · exact absurd hl (call_stage _ _).2.2.2.2.2.2.2
      | handle =>
        simp only [step] at hl
        split at hl
        · cases hl
        · cases hl
        · split at hl <;> simp at hl
      | process =>
        simp only [step, tick] at hl
        split at hl
        · revert hl; cases s.code.isEmpty <;> cases s.param.isEmpty <;> simp
        · cases hl
      | addModule => cases hl
      | fetched => cases hl
      | instantiated => cases hl
      | notice =>
        cases hr : s.ready with
        | true => exact step_on _ (h.1 hr)
        | false => simp only [step, hr] at hl; cases hl

theorem awake {sab : Bool} {files : List (Name × S)} (xs : List (Do S)) :
    Awake (runs (init sab files) xs).1 (runs (init sab files) xs).2 :=
  runs_inv (l := []) awake_step xs ⟨fun h => (by cases h), fun h => (by cases h)⟩

/-- When the module is there, a call by the port is not lost. -/
def Late (s : Sys S) (l : List (Ev S)) : Prop :=
  s.on = true ∧ ∀ p ∈ askeds l, ByPort s.sab p.2 → p ∈ dids l ++ pending s.port

theorem call_wired {s : Sys S} (hw : s.wired = true) (c : Call S) : (call s c).2 = [.asked s.count c] ∧
    ((call s c).1.port = s.port ++ [.call s.count c] ∨ ((call s c).1.port = s.port ∧ ¬ ByPort s.sab c)) := by
  unfold call
  rw [if_neg (by rw [hw]; decide)]
  cases c with
  | bpm v => exact ⟨rfl, .inl rfl⟩
  | sample n x => exact ⟨rfl, .inl rfl⟩
  | file n x => exact ⟨rfl, .inl rfl⟩
  | run t =>
    by_cases hs : s.sab = true
    · simp [hs, ByPort]
    · simp [hs]
  | msg t =>
    by_cases hs : s.sab = true
    · simp [hs, ByPort]
    · simp [hs]

theorem late_call {s : Sys S} {l : List (Ev S)} (h : Late s l) (c : Call S) : Late (call s c).1 (l ++ (call s c).2) := by
  refine ⟨(call_stage s c).1.trans h.1, ?_⟩
  rw [(call_stage s c).2.2.2.2.2.1]
  intro p hp hb
  by_cases hw : s.wired = false
  · unfold call at hp ⊢
    simp only [if_pos hw] at hp ⊢
    simp only [askeds_append, askeds, List.append_nil] at hp
    simpa [dids_append, dids] using h.2 p hp hb
  · obtain ⟨h1, h2⟩ := call_wired (s := s) (by simpa using hw) c
    rw [h1, askeds_append] at hp
    rw [h1, dids_append]
    simp only [dids, List.append_nil]
    simp only [askeds] at hp
    rcases h2 with h2 | ⟨h2, h3⟩
    · rw [h2, pending_append]
      rcases List.mem_append.1 hp with h4 | h4
      · rw [← List.append_assoc]; exact List.mem_append_left _ (h.2 p h4 hb)
      · simp only [List.mem_singleton] at h4
        simp [pending, h4]
    · rw [h2]
      rcases List.mem_append.1 hp with h4 | h4
      · exact h.2 p h4 hb
      · simp only [List.mem_singleton] at h4
        subst h4
        exact absurd hb h3

theorem Late.keep {s n : Sys S} {l es : List (Ev S)} (h : Late s l) (ho : n.on = true) (hs : n.sab = s.sab)
    (hp : pending n.port = pending s.port) (ha : askeds es = []) (hd : dids es = []) : Late n (l ++ es) := by
  refine ⟨ho, fun p hp' hb => ?_⟩
  rw [askeds_append, ha, List.append_nil] at hp'
  rw [dids_append, hd, hp, List.append_nil]
  exact h.2 p hp' (hs ▸ hb)

theorem late_step (s : Sys S) (l : List (Ev S)) (d : Do S) (h : Late s l) : Late (step s d).1 (l ++ (step s d).2) := by
  have ho := step_on d h.1
  have hs := step_sab s d
  cases d with
  | call c => exact late_call h c
  | decoded i =>
    simp only [step] at ho hs ⊢
    split
    · exact h.keep h.1 rfl rfl rfl rfl
    · exact late_call (s := { s with fetches := s.fetches.eraseIdx i }) h _
  | addModule => exact h.keep ho hs (by simp only [step]; split <;> rfl) rfl rfl
  | fetched =>
    refine h.keep ho hs ?_ rfl rfl
    simp only [step]; split
    · simp [pending_append, pending]
    · rfl
  | instantiated => exact h.keep ho hs (by simp only [step]; split <;> rfl) rfl rfl
  | notice =>
    simp only [step]
    split
    · split
      · exact h.keep h.1 rfl rfl rfl rfl
      · exact h.keep h.1 rfl rfl rfl rfl
    · exact h.keep h.1 rfl rfl rfl rfl
  | process =>
    simp only [step, tick]
    split
    · refine h.keep h.1 rfl rfl ?_ ?_ <;> cases s.code.isEmpty <;> cases s.param.isEmpty <;> rfl
    · exact h.keep h.1 rfl rfl rfl rfl
  | handle =>
    simp only [step]
    cases hp : s.port with
    | nil => simpa using h
    | cons m rest =>
      cases m with
      | load => exact h.keep h.1 rfl (by rw [hp]; rfl) rfl rfl
      | call k c =>
        refine ⟨h.1, fun p hp' hb => ?_⟩
        simp only [h.1, if_true, askeds_append, askeds, List.append_nil] at hp'
        have := h.2 p hp' hb
        rw [hp] at this
        simp only [h.1, if_true, dids_append]
        simpa [dids, pending] using this

/-! ### The property -/

/-- **C74** for calls that take the way over the port (all calls without shared memory, tempo and samples with it) and are made
after `onLoaded` was called: the wasm module carries out each of them once, in the order in which they were made, and all of
them once the port is empty; nothing is carried out that was not asked. -/
theorem c74_calls_after_loading_partial (sab : Bool) (files : List (Name × S)) (xs ys : List (Do S)) {s₁ s₂ : Sys S} {l₁ l₂ : List (Ev S)}
    (h₁ : runs (init sab files) xs = (s₁, l₁)) (hl : .loaded ∈ l₁) (h₂ : runs s₁ ys = (s₂, l₂)) :
    (dids (l₁ ++ l₂)).Pairwise (fun p q => p.1 < q.1) ∧ (∀ p ∈ dids (l₁ ++ l₂), p ∈ askeds (l₁ ++ l₂)) ∧
    (s₂.port = [] → ∀ p ∈ askeds l₂, ByPort sab p.2 → p ∈ dids l₂) := by
  have hi := runs_inv inv_step xs (inv_init sab files)
  have ha := awake (sab := sab) (files := files) xs
  have hs := runs_sab (init sab files) xs
  rw [h₁] at hi ha hs
  simp only [List.nil_append] at hi
  have hi2 := runs_inv inv_step ys hi
  have hl2 := runs_inv late_step ys (l := []) (s := s₁) ⟨ha.2 hl, by simp [askeds]⟩
  have hs2 := runs_sab s₁ ys
  rw [h₂] at hi2 hl2 hs2
  simp only [List.nil_append] at hl2
  refine ⟨(List.pairwise_append.1 hi2.sorted).1, fun p hp => hi2.asked p (List.mem_append_left _ hp), fun hp p hp' hb => ?_⟩
  have := hl2.2 p hp' (by rw [hs2, hs]; exact hb)
  simpa [hp, pending] using this

/-- No call is carried out that was made before the audio node existed: it throws. -/
theorem c74_calls_before_the_node_throw (sab : Bool) (files : List (Name × S)) (xs : List (Do S)) (h : .addModule ∉ xs) :
    askeds (runs (init sab files) xs).2 = [] := by
  have key : ∀ (xs : List (Do S)) (s : Sys S), .addModule ∉ xs → s.wired = false → askeds (runs s xs).2 = [] := by
    intro xs
    induction xs with
    | nil => intro s _ _; rfl
    | cons d ds ih =>
      intro s hx hw
      have hd : ∀ t : Sys S, t.wired = false → ∀ c, askeds (call t c).2 = [] := by
        intro t ht c
        unfold call; rw [if_pos ht]; rfl
      have hne : d ≠ .addModule := fun he => hx (he ▸ List.mem_cons_self)
      simp only [runs, askeds_append]
      have h1 : askeds (step s d).2 = [] ∧ (step s d).1.wired = false := by
        cases d with
        | addModule => exact absurd rfl hne
        | call c => exact ⟨hd s hw c, by simp only [step, (call_stage s c).2.2.2.1, hw]⟩
        | decoded i =>
          simp only [step]
          split
          · exact ⟨rfl, hw⟩
          · exact ⟨hd { s with fetches := s.fetches.eraseIdx i } hw _, by rw [(call_stage _ _).2.2.2.1]; exact hw⟩
        | fetched => simp only [step]; exact ⟨rfl, by split <;> exact hw⟩
        | handle =>
          simp only [step]; split
          · exact ⟨rfl, hw⟩
          · exact ⟨rfl, hw⟩
          · exact ⟨by split <;> rfl, hw⟩
        | instantiated => simp only [step]; exact ⟨rfl, by split <;> exact hw⟩
        | notice => simp only [step]; split <;> (try split) <;> exact ⟨rfl, hw⟩
        | process =>
          simp only [step, tick]; split
          · refine ⟨?_, hw⟩
            cases s.code.isEmpty <;> cases s.param.isEmpty <;> rfl
          · exact ⟨rfl, hw⟩
      rw [h1.1, ih _ (fun hm => hx (List.mem_cons_of_mem _ hm)) h1.2]
      rfl
  exact key xs _ h rfl

/-- Nothing that was asked before call number `m` and goes by the port will be carried out. -/
structure Gone (m : Nat) (s : Sys S) (l : List (Ev S)) : Prop where
  count : m ≤ s.count
  none : ∀ p ∈ dids l, m ≤ p.1
  stage : (s.on = false ∧ s.compiling = false ∧ (∀ x ∈ s.port, x ≠ .load)) ∨
    (s.on = false ∧ s.compiling = false ∧ ∃ pre post, s.port = pre ++ .load :: post ∧ (∀ x ∈ pre, x ≠ .load) ∧ ∀ p ∈ pending post, m ≤ p.1) ∨
    (∀ p ∈ pending s.port, m ≤ p.1)

theorem gone_call {m : Nat} {s : Sys S} {l : List (Ev S)} (h : Gone m s l) (c : Call S) : Gone m (call s c).1 (l ++ (call s c).2) := by
  obtain ⟨h1, h2, h3, _, _, _, h4, _⟩ := call_stage s c
  have hport : (call s c).1.port = s.port ∨ (call s c).1.port = s.port ++ [.call s.count c] := by
    by_cases hw : s.wired = true
    · rcases (call_wired hw c).2 with h | h
      · exact .inr h
      · exact .inl h.1
    · refine .inl ?_
      unfold call; rw [if_pos (by simpa using hw)]
  have hd : dids (call s c).2 = [] := by
    by_cases hw : s.wired = true
    · rw [(call_wired hw c).1]; rfl
    · unfold call; rw [if_pos (by simpa using hw)]; rfl
  refine ⟨Nat.le_trans h.count h4, by rw [dids_append, hd, List.append_nil]; exact h.none, ?_⟩
  rw [h1, h3]
  rcases hport with hp | hp
  · rw [hp]; exact h.stage
  · rw [hp]
    rcases h.stage with ⟨a, b, k⟩ | ⟨a, b, pre, post, k, kn, k'⟩ | k
    · refine .inl ⟨a, b, ?_⟩
      intro x hx
      rcases List.mem_append.1 hx with hx | hx
      · exact k x hx
      · simp only [List.mem_singleton] at hx; subst hx; simp
    · refine .inr (.inl ⟨a, b, pre, post ++ [.call s.count c], by rw [k]; simp, kn, ?_⟩)
      intro p hp
      rw [pending_append] at hp
      rcases List.mem_append.1 hp with hp | hp
      · exact k' p hp
      · simp only [pending, List.mem_singleton] at hp; subst hp; exact h.count
    · refine .inr (.inr ?_)
      intro p hp
      rw [pending_append] at hp
      rcases List.mem_append.1 hp with hp | hp
      · exact k p hp
      · simp only [pending, List.mem_singleton] at hp; subst hp; exact h.count

theorem Gone.keep {m : Nat} {s n : Sys S} {l es : List (Ev S)} (h : Gone m s l) (hc : n.count = s.count) (hp : n.port = s.port)
    (ho : n.on = s.on) (hi : n.compiling = s.compiling) (hd : dids es = []) : Gone m n (l ++ es) :=
  ⟨hc ▸ h.count, by rw [dids_append, hd, List.append_nil]; exact h.none, by rw [hp, ho, hi]; exact h.stage⟩

theorem gone_step {m : Nat} (s : Sys S) (l : List (Ev S)) (d : Do S) (h : Gone m s l) : Gone m (step s d).1 (l ++ (step s d).2) := by
  cases d with
  | call c => exact gone_call h c
  | decoded i =>
    simp only [step]
    split
    · exact h.keep rfl rfl rfl rfl rfl
    · exact gone_call (s := { s with fetches := s.fetches.eraseIdx i }) ⟨h.count, h.none, h.stage⟩ _
  | addModule => simp only [step]; split <;> exact h.keep rfl rfl rfl rfl rfl
  | fetched =>
    simp only [step]
    split
    · refine ⟨h.count, by rw [dids_append]; simpa [dids] using h.none, ?_⟩
      rcases h.stage with ⟨a, b, k⟩ | ⟨a, b, pre, post, k, kn, k'⟩ | k
      · exact .inr (.inl ⟨a, b, s.port, [], rfl, k, by simp [pending]⟩)
      · exact .inr (.inl ⟨a, b, pre, post ++ [.load], by simp [k], kn, by simpa [pending_append, pending] using k'⟩)
      · exact .inr (.inr (by simpa [pending_append, pending] using k))
    · exact h.keep rfl rfl rfl rfl rfl
  | instantiated =>
    simp only [step]
    split
    · rename_i hc
      refine ⟨h.count, by rw [dids_append]; simpa [dids] using h.none, ?_⟩
      rcases h.stage with ⟨a, b, k⟩ | ⟨a, b, _⟩ | k
      · rw [b] at hc; cases hc
      · rw [b] at hc; cases hc
      · exact .inr (.inr k)
    · exact h.keep rfl rfl rfl rfl rfl
  | notice => simp only [step]; split <;> (try split) <;> exact h.keep rfl rfl rfl rfl rfl
  | process =>
    simp only [step, tick]
    split
    · refine h.keep rfl rfl rfl rfl ?_
      cases s.code.isEmpty <;> cases s.param.isEmpty <;> rfl
    · exact h.keep rfl rfl rfl rfl rfl
  | handle =>
    simp only [step]
    cases hp : s.port with
    | nil => exact h.keep rfl rfl rfl rfl rfl
    | cons x rest =>
      cases x with
      | load =>
        refine ⟨h.count, by rw [dids_append]; simpa [dids] using h.none, .inr (.inr ?_)⟩
        rcases h.stage with ⟨a, b, k⟩ | ⟨a, b, pre, post, k, kn, k'⟩ | k
        · exact absurd rfl (k .load (by rw [hp]; simp))
        · rw [hp] at k
          cases pre with
          | nil => cases k; exact k'
          | cons y pre => cases k; exact absurd rfl (kn _ List.mem_cons_self)
        · rw [hp] at k; exact k
      | call j c =>
        have hst := h.stage
        rw [hp] at hst
        have off : s.on = false → dids (if s.on = true then [Ev.did j c] else []) = [] := by
          intro ho; simp [ho, dids]
        rcases hst with ⟨a, b, k⟩ | ⟨a, b, pre, post, k, kn, k'⟩ | k
        · refine ⟨h.count, ?_, .inl ⟨a, b, fun x hx => k x (List.mem_cons_of_mem _ hx)⟩⟩
          rw [dids_append, off a, List.append_nil]; exact h.none
        · refine ⟨h.count, ?_, ?_⟩
          · rw [dids_append, off a, List.append_nil]; exact h.none
          · cases pre with
            | nil => cases k
            | cons y pre =>
              cases k
              exact .inr (.inl ⟨a, b, pre, post, rfl, fun x hx => kn x (List.mem_cons_of_mem _ hx), k'⟩)
        · refine ⟨h.count, ?_, .inr (.inr fun p hp => k p (List.mem_cons_of_mem _ hp))⟩
          intro p hp'
          rw [dids_append] at hp'
          rcases List.mem_append.1 hp' with hp' | hp'
          · exact h.none p hp'
          · have : p = (j, c) := by
              revert hp'
              cases s.on <;> simp [dids]
            subst this
            exact k _ List.mem_cons_self

/-- Before the file is fetched nothing is compiled and no `load` is on the port. -/
theorem unfetched : ∀ (xs : List (Do S)), .fetched ∉ xs → ∀ s : Sys S,
    (s.on = false ∧ s.compiling = false ∧ ∀ x ∈ s.port, x ≠ .load) →
    (runs s xs).1.on = false ∧ (runs s xs).1.compiling = false ∧ ∀ x ∈ (runs s xs).1.port, x ≠ .load := by
  intro xs
  induction xs with
  | nil => intro _ s h; exact h
  | cons d ds ih =>
    intro hx s h
    have hne : d ≠ .fetched := fun he => hx (he ▸ List.mem_cons_self)
    have hcall : ∀ t : Sys S, (t.on = false ∧ t.compiling = false ∧ ∀ x ∈ t.port, x ≠ .load) → ∀ c,
        (call t c).1.on = false ∧ (call t c).1.compiling = false ∧ ∀ x ∈ (call t c).1.port, x ≠ .load := by
      intro t ht c
      refine ⟨(call_stage t c).1.trans ht.1, (call_stage t c).2.2.1.trans ht.2.1, ?_⟩
      by_cases hw : t.wired = true
      · rcases (call_wired hw c).2 with h | h
        · rw [h]
          intro x hx
          rcases List.mem_append.1 hx with hx | hx
          · exact ht.2.2 x hx
          · simp only [List.mem_singleton] at hx; subst hx; simp
        · rw [h.1]; exact ht.2.2
      · unfold call; rw [if_pos (by simpa using hw)]; exact ht.2.2
    refine ih (fun hm => hx (List.mem_cons_of_mem _ hm)) (step s d).1 ?_
    cases d with
    | fetched => exact absurd rfl hne
    | call c => exact hcall s h c
    | decoded i =>
      simp only [step]
      split
      · exact h
      · exact hcall { s with fetches := s.fetches.eraseIdx i } h _
    | addModule => simp only [step]; split <;> exact h
    | handle =>
      simp only [step]
      cases hp : s.port with
      | nil => exact h
      | cons x rest =>
        cases x with
        | load => exact absurd rfl (h.2.2 _ (by rw [hp]; exact List.mem_cons_self))
        | call k c => exact ⟨h.1, h.2.1, fun x hx => h.2.2 x (by rw [hp]; exact List.mem_cons_of_mem _ hx)⟩
    | instantiated => simp only [step, h.2.1]; exact h
    | notice => simp only [step]; split <;> (try split) <;> exact h
    | process => simp only [step, tick]; split <;> exact h

/-- **C74 does not hold before loading**: a call that was made before the wasm file had arrived, and takes the way over the
port, returns normally and is never carried out, whatever happens afterwards. Without shared memory these are all calls. -/
theorem c74_early_calls_are_lost (sab : Bool) (files : List (Name × S)) (xs ys : List (Do S)) (h : .fetched ∉ xs)
    {s₁ : Sys S} {l₁ : List (Ev S)} (h₁ : runs (init sab files) xs = (s₁, l₁)) :
    ∀ p ∈ askeds l₁, ByPort sab p.2 → p ∉ dids (l₁ ++ (runs s₁ ys).2) := by
  have hi := runs_inv inv_step xs (inv_init sab files)
  have hu := unfetched xs h (init sab files) ⟨rfl, rfl, by simp [init]⟩
  have hn : ∀ (xs : List (Do S)), .fetched ∉ xs → dids (runs (init sab files) xs).2 = [] := by
    intro xs
    induction xs using List.reverseRecOn with
    | nil => intro _; rfl
    | append_singleton xs d ih =>
      intro hx
      have hx' : .fetched ∉ xs := fun hm => hx (List.mem_append_left _ hm)
      have hu := unfetched xs hx' (init sab files) ⟨rfl, rfl, by simp [init]⟩
      rw [runs_append]
      simp only [runs, List.append_nil, dids_append, ih hx', List.nil_append]
      generalize (runs (init sab files) xs).1 = t at hu
      have hc : ∀ (t : Sys S) c, dids (call t c).2 = [] := by
        intro t c
        by_cases hw : t.wired = true
        · rw [(call_wired hw c).1]; rfl
        · unfold call; rw [if_pos (by simpa using hw)]; rfl
      cases d with
      | call c => exact hc t c
      | decoded i => simp only [step]; split; rfl; exact hc _ _
      | addModule => rfl
      | fetched => rfl
      | instantiated => rfl
      | notice => simp only [step]; split <;> (try split) <;> rfl
      | process => simp only [step, tick, hu.1]; rfl
      | handle =>
        simp only [step]; split
        · rfl
        · rfl
        · simp [hu.1, dids]
  have hn' := hn xs h
  rw [h₁] at hi hu hn'
  simp only [List.nil_append] at hi hn'
  have hg := runs_inv (gone_step (m := s₁.count)) ys (l := []) (s := s₁) ⟨Nat.le_refl _, by simp [dids], .inl hu⟩
  intro p hp _ hd
  rw [dids_append, hn', List.nil_append] at hd
  have := hg.none p (by simpa using hd)
  have := hi.below p hp
  omega

/-! ### Samples and `onLoaded` -/

/-- While no file has been read, none was asked for. -/
def Unread (s : Sys S) (l : List (Ev S)) : Prop := s.known = [] → ∀ p ∈ askeds l, ¬ IsFile p.2

theorem unread_call {s : Sys S} {l : List (Ev S)} (h : Unread s l) (c : Call S) : Unread (call s c).1 (l ++ (call s c).2) := by
  unfold call
  by_cases hw : s.wired = false
  · rw [if_pos hw]
    intro hk p hp
    rw [askeds_append] at hp
    exact h hk p (by simpa [askeds] using hp)
  · rw [if_neg hw]
    have other : ¬ IsFile c → ∀ n : Sys S, n.known = s.known → Unread n (l ++ [.asked s.count c]) := by
      intro hc n hn hk p hp
      rw [askeds_append] at hp
      rcases List.mem_append.1 hp with hp | hp
      · exact h (hn ▸ hk) p hp
      · simp only [askeds, List.mem_singleton] at hp; subst hp; exact hc
    cases c with
    | run t => exact other (fun h => h) _ (by cases s.sab <;> rfl)
    | msg t => exact other (fun h => h) _ (by cases s.sab <;> rfl)
    | bpm v => exact other (fun h => h) _ rfl
    | sample n x => exact other (fun h => h) _ rfl
    | file n x => intro hk; cases hk

theorem Unread.keep {s n : Sys S} {l es : List (Ev S)} (h : Unread s l) (hk : n.known = s.known) (ha : askeds es = []) :
    Unread n (l ++ es) := by
  intro hk' p hp
  rw [askeds_append, ha, List.append_nil] at hp
  exact h (hk ▸ hk') p hp

theorem unread_step (s : Sys S) (l : List (Ev S)) (d : Do S) (h : Unread s l) : Unread (step s d).1 (l ++ (step s d).2) := by
  cases d with
  | call c => exact unread_call h c
  | decoded i =>
    simp only [step]
    split
    · exact h.keep rfl rfl
    · exact unread_call (s := { s with fetches := s.fetches.eraseIdx i }) h _
  | addModule => simp only [step]; split <;> exact h.keep rfl rfl
  | fetched => simp only [step]; split <;> exact h.keep rfl rfl
  | instantiated => simp only [step]; split <;> exact h.keep rfl rfl
  | notice => simp only [step]; split <;> (try split) <;> exact h.keep rfl rfl
  | handle =>
    simp only [step]; split
    · exact h.keep rfl rfl
    · exact h.keep rfl rfl
    · exact h.keep rfl (by split <;> rfl)
  | process =>
    simp only [step, tick]; split
    · refine h.keep rfl ?_
      cases s.code.isEmpty <;> cases s.param.isEmpty <;> rfl
    · exact h.keep rfl rfl

/-- Only the page's handler of `ready` calls `onLoaded`, and only while there are no samples. -/
theorem loaded_step {s : Sys S} {d : Do S} (h : .loaded ∈ (step s d).2) : s.known = [] := by
  cases d with
  | call c => exact absurd h (call_stage s c).2.2.2.2.2.2.2
  | decoded i =>
    simp only [step] at h
    split at h
    · cases h
    · exact absurd h (call_stage _ _).2.2.2.2.2.2.2
  | addModule => cases h
  | fetched => cases h
  | instantiated => cases h
  | notice =>
    simp only [step] at h
    split at h
    · split at h
      · rename_i hk; simpa using hk
      · simp at h
    · cases h
  | handle =>
    simp only [step] at h
    split at h
    · cases h
    · cases h
    · split at h <;> simp at h
  | process =>
    simp only [step, tick] at h
    split at h
    · revert h; cases s.code.isEmpty <;> cases s.param.isEmpty <;> simp
    · cases h

/-- **C74 does not hold for the option `loadSamples`**: when `onLoaded` is called, no file has been read, in no schedule. -/
theorem c74_no_file_when_loaded (sab : Bool) (files : List (Name × S)) (xs : List (Do S)) (d : Do S)
    (h : .loaded ∈ (step (runs (init sab files) xs).1 d).2) :
    ∀ p ∈ askeds (runs (init sab files) xs).2, ¬ IsFile p.2 := by
  have hu := runs_inv unread_step xs (s := init sab files) (l := []) (fun _ p hp => by cases hp)
  simp only [List.nil_append] at hu
  exact hu (loaded_step h)

/-- A file that was read before the engine was ready keeps `onLoaded` from ever being called. -/
theorem c74_early_file_prevents_onLoaded (sab : Bool) (files : List (Name × S)) (xs : List (Do S)) {p : Nat × Call S}
    (hp : p ∈ askeds (runs (init sab files) xs).2) (hf : IsFile p.2) (hl : .loaded ∉ (runs (init sab files) xs).2) (ys : List (Do S)) :
    .loaded ∉ (runs (init sab files) (xs ++ ys)).2 := by
  induction ys using List.reverseRecOn with
  | nil => simpa using hl
  | append_singleton ys d ih =>
    rw [← List.append_assoc, runs_append]
    intro hm
    rcases List.mem_append.1 hm with hm | hm
    · exact ih hm
    · refine c74_no_file_when_loaded sab files (xs ++ ys) d (by simpa [runs] using hm) p ?_ hf
      rw [runs_append, askeds_append]
      exact List.mem_append_left _ hp

/-! ### The queues of shared memory -/

/-- The contents of a queue. -/
def queue (m : Bool) (s : Sys S) : Name := if m then s.param else s.code

/-- Nothing is lost in a queue as long as all texts fit into it. -/
def Whole (m : Bool) (s : Sys S) (l : List (Ev S)) : Prop :=
  s.sab = true ∧ ((texts m l).length ≤ 2048 → (gaves m l).flatten ++ queue m s = texts m l)

theorem Whole.keep {m : Bool} {s n : Sys S} {l es : List (Ev S)} (h : Whole m s l) (hs : n.sab = s.sab) (hq : queue m n = queue m s)
    (ha : askeds es = []) (hg : gaves m es = []) : Whole m n (l ++ es) := by
  refine ⟨hs.trans h.1, ?_⟩
  have : texts m (l ++ es) = texts m l := by rw [texts_append]; simp [texts, ha]
  rw [this, gaves_append, hg, List.append_nil, hq]
  exact h.2

theorem enqueue_fits {q t : Name} (h : q.length + t.length ≤ 2048) : enqueue q t = q ++ t := by
  unfold enqueue
  rw [List.take_of_length_le (by omega)]

theorem whole_call {m : Bool} {s : Sys S} {l : List (Ev S)} (h : Whole m s l) (c : Call S) : Whole m (call s c).1 (l ++ (call s c).2) := by
  by_cases hw : s.wired = true
  · refine ⟨(call_stage s c).2.2.2.2.2.1.trans h.1, ?_⟩
    rw [(call_wired hw c).1, texts_append, gaves_append]
    have ht : texts m [(.asked s.count c : Ev S)] = textOf m c := by simp [texts, askeds]
    rw [ht]
    simp only [gaves, List.append_nil]
    intro hlen
    rw [List.length_append] at hlen
    have h2 := h.2 (by omega)
    have hl : (queue m s).length + (textOf m c).length ≤ 2048 := by
      have := congrArg List.length h2
      rw [List.length_append] at this
      omega
    have hq : queue m (call s c).1 = queue m s ++ textOf m c := by
      unfold call
      rw [if_neg (by rw [hw]; decide)]
      have hs := h.1
      cases c with
      | run t =>
        cases m
        · simp only [hs, if_true, queue, Bool.false_eq_true, if_false, textOf] at hl ⊢
          exact enqueue_fits hl
        · simp [hs, queue, textOf]
      | msg t =>
        cases m
        · simp [hs, queue, textOf]
        · simp only [hs, if_true, queue, textOf] at hl ⊢
          exact enqueue_fits hl
      | bpm v => cases m <;> simp [queue, textOf]
      | sample n x => cases m <;> simp [queue, textOf]
      | file n x => cases m <;> simp [queue, textOf]
    rw [hq, ← List.append_assoc, h2]
  · have hc : call s c = ({ s with count := s.count + 1 }, [.threw s.count c]) := by
      unfold call; rw [if_pos (by simpa using hw)]
    rw [hc]
    exact h.keep rfl rfl rfl rfl

theorem whole_step {m : Bool} (s : Sys S) (l : List (Ev S)) (d : Do S) (h : Whole m s l) : Whole m (step s d).1 (l ++ (step s d).2) := by
  cases d with
  | call c => exact whole_call h c
  | decoded i =>
    simp only [step]
    split
    · exact h.keep rfl rfl rfl rfl
    · exact whole_call (s := { s with fetches := s.fetches.eraseIdx i }) h _
  | addModule => simp only [step]; split <;> exact h.keep rfl rfl rfl rfl
  | fetched => simp only [step]; split <;> exact h.keep rfl rfl rfl rfl
  | instantiated => simp only [step]; split <;> exact h.keep rfl rfl rfl rfl
  | notice => simp only [step]; split <;> (try split) <;> exact h.keep rfl rfl rfl rfl
  | handle =>
    simp only [step]; split
    · exact h.keep rfl rfl rfl rfl
    · exact h.keep rfl rfl rfl rfl
    · exact h.keep rfl rfl (by split <;> rfl) (by split <;> rfl)
  | process =>
    simp only [step, tick]; split
    · refine ⟨h.1, ?_⟩
      have ht : ∀ es : List (Ev S), askeds es = [] → texts m (l ++ es) = texts m l := by
        intro es he; rw [texts_append]; simp [texts, he]
      rw [ht _ (by cases s.code.isEmpty <;> cases s.param.isEmpty <;> rfl), gaves_append]
      intro hlen
      rw [← h.2 hlen, List.flatten_append]
      cases m <;> cases hc : s.code <;> cases hp : s.param <;> simp [queue, gaves, hc, hp]
    · exact h.keep rfl rfl rfl rfl

/-- **C74** for programs and messages where shared memory is used: as long as all texts of the page together fit into the
queue, what was sent before the engine was loaded waits in the queue, and by any call of `process` after loading the wasm
module has been given all of it, in order. -/
theorem c74_queued_texts_wait_partial (files : List (Name × S)) (xs : List (Do S)) (m : Bool)
    (hl : .loaded ∈ (runs (init true files) xs).2) (hfit : (texts m (runs (init true files) xs).2).length ≤ 2048) :
    (gaves m (runs (init true files) (xs ++ [.process])).2).flatten = texts m (runs (init true files) xs).2 := by
  have hw := runs_inv (whole_step (m := m)) xs (s := init true files) (l := []) ⟨rfl, fun _ => by cases m <;> rfl⟩
  have ha := awake (sab := true) (files := files) xs
  rw [runs_append]
  simp only [List.nil_append] at hw
  generalize (runs (init true files) xs).1 = t at hw ha ⊢
  generalize (runs (init true files) xs).2 = l at hw ha hl hfit ⊢
  have := hw.2 hfit
  rw [← this]
  have hs : (runs t [.process]).2 = (if t.code.isEmpty then [] else [.gave false t.code]) ++
      (if t.param.isEmpty then [] else [.gave true t.param]) := by
    simp [runs, step, tick, ha.2 hl, hw.1]
  rw [hs, gaves_append, List.flatten_append]
  cases m <;> cases hc : t.code <;> cases hp : t.param <;> simp [queue, gaves, hc, hp]

/-- **C74 does not hold for the order of calls** where shared memory is used: of a message and a program sent between two
calls of `process` the wasm module is given the program first, in every state in which it is there and the queues are empty. -/
theorem c74_message_overtaken (s : Sys S) (hs : s.sab = true) (hw : s.wired = true) (ho : s.on = true) (hc : s.code = [])
    (hp : s.param = []) {m t : Name} (hm : m.length < 2048) (ht : t.length ≤ 2048) (hne : t ≠ []) :
    (runs s [.call (.msg m), .call (.run t), .process]).2 =
      [.asked s.count (.msg m), .asked (s.count + 1) (.run t), .gave false t, .gave true (closed m)] := by
  have hcl : (closed m).length ≤ 2048 ∧ closed m ≠ [] := by
    unfold closed
    split
    · rename_i h
      exact ⟨by omega, by intro h'; rw [h'] at h; cases h⟩
    · exact ⟨by simp; omega, by simp⟩
  have e1 : enqueue [] (closed m) = closed m := by simp [enqueue, List.take_of_length_le hcl.1]
  have e2 : enqueue [] t = t := by simp [enqueue, List.take_of_length_le ht]
  simp [runs, step, call, tick, hs, hw, ho, hc, hp, e1, e2, hne, hcl.2]

/-- After these calls of a new engine the next block is `out`. -/
def After (P : Plat) (N : Nat) (parse : Name → Except Panic (Option (Ast Comp))) (ops : List (Spec.Op (glicol P N parse)))
    (out : List Buf) : Prop :=
  ∃ e e', ops.foldlM Spec.Op.apply (Engine.new _ N) = .ok e ∧ e.nextBlock .ident [] = .ok (e', out)

/-- Computes that block. -/
def after (P : Plat) (N : Nat) (parse : Name → Except Panic (Option (Ast Comp))) (ops : List (Spec.Op (glicol P N parse))) :
    Option (List Buf) :=
  match ops.foldlM Spec.Op.apply (Engine.new _ N) with
  | .error _ => none
  | .ok e =>
    match nextBlockFuel 1000 .ident e [] with
    | some (.ok (_, out)) => some out
    | _ => none

theorem after_spec {P : Plat} {N : Nat} {parse : Name → Except Panic (Option (Ast Comp))} {ops : List (Spec.Op (glicol P N parse))}
    {out : List Buf} (h : after P N parse ops = some out) : After P N parse ops out := by
  unfold after at h
  split at h
  · cases h
  · rename_i e he
    split at h
    · rename_i e' o hp
      cases h
      exact ⟨e, e', he, nextBlockFuel_spec hp⟩
    · cases h

/-- A page with shared memory plays `o: constsig 1`, then sends the message `o,0,0,5` and the program `o: constsig 2`. Carried
out in this order they give 2; the wasm module is given the program first, and plays 5. -/
theorem c74_order_counterexample (P : Plat) (fe : Name → Option Fl) :
    (∃ xs, (runs (init true ([] : List (Name × Unit))) xs).2 = [.loaded, .asked 0 (.run c!"o: constsig 1"), .gave false c!"o: constsig 1",
      .asked 1 (.msg c!"o,0,0,5"), .asked 2 (.run c!"o: constsig 2"), .gave false c!"o: constsig 2", .gave true c!"o,0,0,5;"]) ∧
    After P 2 (Parse.parse fe) [.update .ident c!"o: constsig 1", .sendMsg c!"o,0,0,5;", .update .ident c!"o: constsig 2"]
      [[.fin 2, .fin 2], [.fin 2, .fin 2]] ∧
    After P 2 (Parse.parse fe) [.update .ident c!"o: constsig 1", .update .ident c!"o: constsig 2", .sendMsg c!"o,0,0,5;"]
      [[.fin 5, .fin 5], [.fin 5, .fin 5]] :=
  ⟨⟨[.addModule, .fetched, .handle, .instantiated, .notice, .call (.run c!"o: constsig 1"), .process, .call (.msg c!"o,0,0,5"),
    .call (.run c!"o: constsig 2"), .process], by kernel_rfl⟩, after_spec (by kernel_rfl), after_spec (by kernel_rfl)⟩

/-! ### Examples -/

/-- After loading a tempo and a program sent by the port are carried out. -/
example : (runs (init false ([] : List (Name × Unit))) [.addModule, .fetched, .handle, .instantiated, .notice, .call (.bpm (.fin 60)),
    .call (.run c!"o: sin 1"), .handle, .handle]).2 =
    [.loaded, .asked 0 (.bpm (.fin 60)), .asked 1 (.run c!"o: sin 1"), .did 0 (.bpm (.fin 60)), .did 1 (.run c!"o: sin 1")] := by
  kernel_rfl

/-- Before loading the program is lost, without a sign of it. -/
example : (runs (init false ([] : List (Name × Unit))) [.addModule, .call (.run c!"o: sin 1"), .fetched, .handle, .handle,
    .instantiated, .notice, .handle, .process]).2 = [.asked 0 (.run c!"o: sin 1"), .loaded] := by
  kernel_rfl

/-- With shared memory it waits. -/
example : (runs (init true ([] : List (Name × Unit))) [.addModule, .call (.run c!"o: sin 1"), .process, .fetched, .handle,
    .instantiated, .notice, .process]).2 = [.asked 0 (.run c!"o: sin 1"), .loaded, .gave false c!"o: sin 1"] := by
  kernel_rfl

/-- `onLoaded` is called before the first of the default samples has been read. -/
example : (runs (init true [(c!"bd", ())]) [.addModule, .fetched, .handle, .instantiated, .notice, .decoded 0, .handle]).2 =
    [.loaded, .asked 0 (.file c!"bd" ()), .did 0 (.file c!"bd" ())] := by
  kernel_rfl

/-- A file read before the engine is ready: `onLoaded` is not called. -/
example : (runs (init true ([] : List (Name × Unit))) [.addModule, .call (.file c!"bd" ()), .fetched, .handle, .handle, .instantiated,
    .notice]).2 = [.asked 0 (.file c!"bd" ()), .failed] := by
  kernel_rfl

/-- Before the audio node exists a call throws. -/
example : (runs (init true ([] : List (Name × Unit))) [.call (.run c!"o: sin 1"), .addModule]).2 = [.threw 0 (.run c!"o: sin 1")] := by
  kernel_rfl

end Verif.Props.Start
