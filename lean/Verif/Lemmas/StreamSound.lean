import Verif.Lemmas.StreamEval
import Verif.Props.Sound

/-! Programs made of nodes that treat blocks sample by sample (helpers). -/

namespace Verif
open Spec Props

/-! ### Components -/

theorem forall₂_length {α β : Type} {R : α → β → Prop} {l : List α} {m : List β} (h : List.Forall₂ R l m) :
    l.length = m.length := h.length_eq

/-- The blocks of the sources, block after block. -/
theorem fed_slots {N : Nat} {chans nums : List Nat} {sigs : List (List (List Buf))} {inputs : List Ins} (hn : nums.Nodup)
    (hl : nums.length = chans.length) (hs : List.Forall₂ (Signal32 N) chans sigs) (hf : FedBy nums sigs inputs) :
    ∃ bs, List.Forall₂ (fun inp bufs => Slots N chans nums bufs inp) inputs bs ∧
      ∀ (t : Nat) bufs, bs[t]? = some bufs → List.Forall₂ (fun s b => s[t]? = some b) sigs bufs := by
  have hsl : ∀ (t : Nat) inp, inputs[t]? = some inp → ∃ bufs, List.Forall₂ (fun s b => s[t]? = some b) sigs bufs ∧
      Slots N chans nums bufs inp := by
    intro t inp ht
    obtain ⟨bufs, h1, h2⟩ := hf t inp ht
    refine ⟨bufs, h1, hn, ?_, ?_, ?_, h2, ?_⟩
    · rw [hl, hs.length_eq, h1.length_eq]
    · clear h2 hl hf
      induction hs generalizing bufs with
      | nil => cases h1; rfl
      | @cons c s cs ss hcs _ ih =>
        cases h1 with
        | cons a b => rw [List.map_cons, ih _ b, (hcs _ (List.mem_of_getElem? a)).1]
    · intro o ho
      obtain ⟨s, hsm, hso⟩ := forall₂_left (List.Forall₂.flip h1) o ho
      obtain ⟨c, _, hc⟩ := forall₂_left (List.Forall₂.flip hs) s hsm
      exact fun b hb => ((hc o (List.mem_of_getElem? hso)).2 b hb).1
    · intro o ho
      obtain ⟨s, hsm, hso⟩ := forall₂_left (List.Forall₂.flip h1) o ho
      obtain ⟨c, _, hc⟩ := forall₂_left (List.Forall₂.flip hs) s hsm
      exact fun b hb => ((hc o (List.mem_of_getElem? hso)).2 b hb).2
  clear hf hs hl hn
  have key : ∀ (n : Nat) (inputs : List Ins), (∀ (t : Nat) inp, inputs[t]? = some inp →
      ∃ bufs, List.Forall₂ (fun s b => s[n + t]? = some b) sigs bufs ∧ Slots N chans nums bufs inp) →
      ∃ bs, List.Forall₂ (fun inp bufs => Slots N chans nums bufs inp) inputs bs ∧
        ∀ (t : Nat) bufs, bs[t]? = some bufs → List.Forall₂ (fun s b => s[n + t]? = some b) sigs bufs := by
    intro n inputs
    induction inputs generalizing n with
    | nil => intro _; exact ⟨[], .nil, fun t b h => by cases h⟩
    | cons inp inputs ih =>
      intro h
      obtain ⟨b, h1, h2⟩ := h 0 inp rfl
      obtain ⟨bs, h3, h4⟩ := ih (n + 1) (fun t inp ht => by
        have := h (t + 1) inp ht
        rwa [show n + (t + 1) = n + 1 + t by omega] at this)
      refine ⟨b :: bs, .cons h2 h3, ?_⟩
      intro t bufs ht
      cases t with
      | zero => cases ht; exact h1
      | succ t =>
        have := h4 t bufs ht
        rwa [show n + (t + 1) = n + 1 + t by omega]
  obtain ⟨bs, h1, h2⟩ := key 0 inputs (by simpa using hsl)
  exact ⟨bs, h1, by simpa using h2⟩

/-- A component plays the same on the same streams, however they are cut into blocks. -/
theorem play_agree {P : Plat} {N M : Nat} (hN : 0 < N) (hM : 0 < M) {env : Env} {c : Comp} {sel chans : List Nat}
    (hx : (∃ code, c = .eval code) → ExtStream P)
    (hf : StreamFree env.samples c chans.length) (hs : ∀ j, j ∈ sel → j < chans.length) (hw : ∀ c, c ∈ chans → c = 1 ∨ c = 2)
    {nums nums' : List Nat} (hn : nums.Nodup) (hn' : nums'.Nodup) (hl : nums.length = chans.length)
    (hl' : nums'.length = chans.length) {sigs sigs' : List (List (List Buf))} (hsig : List.Forall₂ (Signal32 N) chans sigs)
    (hsig' : List.Forall₂ (Signal32 M) chans sigs')
    (ha : List.Forall₂ (fun s s' => Agree (stream N s) (stream M s')) sigs sigs') {inputs inputs' : List Ins}
    (hfed : FedBy nums sigs inputs) (hfed' : FedBy nums' sigs' inputs') {msgs msgs' : List (Msg Fl)}
    (hm : ∀ g, g ∈ msgs → IsWiring g) (hm' : ∀ g, g ∈ msgs' → IsWiring g)
    (hc : NotesInputs c → msgs = (sel.map (fun j => nums.getD j 0)).map .index)
    (hc' : NotesInputs c → msgs' = (sel.map (fun j => nums'.getD j 0)).map .index) {outs outs' : List (List Buf)}
    (h : play P N env c msgs inputs = .ok outs) (h' : play P M env c msgs' inputs' = .ok outs') :
    Agree (stream N outs) (stream M outs') ∧ ∃ C, (∀ o, o ∈ outs → o.length = C) ∧ ∀ o, o ∈ outs' → o.length = C := by
  have hall : ∃ C, ∃ (σ ο : Type) (s0 : σ) (f : σ → Frame → Except Panic (σ × ο)) (w : Nat → Option (ο → Fl)),
      ∀ N D bs ins msgs outs, 0 < N → List.Forall₂ (fun inp bufs => Slots N chans D bufs inp) ins bs →
        (∀ g, g ∈ msgs → IsWiring g) → (NotesInputs c → msgs = (sel.map (fun j => D.getD j 0)).map .index) →
        play P N env c msgs ins = .ok outs →
        ∃ s' ys, runM f s0 (bs.flatMap (slotFrames N)) = .ok (s', ys) ∧ stream N outs = ys.map (outFrame w C) ∧
          ∀ o, o ∈ outs → o.length = C := by
    rcases hf with ⟨code, rfl⟩ | hf
    · exact eval_loop (hx ⟨_, rfl⟩) hs
    · exact play_loop hf hs hw
  obtain ⟨C, σ, ο, s0, f, w, hloop⟩ := hall
  obtain ⟨bs, h1, h2⟩ := fed_slots hn hl hsig hfed
  obtain ⟨bs', h1', h2'⟩ := fed_slots hn' hl' hsig' hfed'
  obtain ⟨s1, ys, k1, k2, k3⟩ := hloop N nums bs inputs msgs outs hN h1 hm hc h
  obtain ⟨s1', ys', k1', k2', k3'⟩ := hloop M nums' bs' inputs' msgs' outs' hM h1' hm' hc' h'
  refine ⟨?_, C, k3, k3'⟩
  rw [k2, k2']
  exact agree_map _ (runM_agree k1 k1' (frames_agree hN hM h2 h2' ha))

/-! ### The output -/

/-- One side of a frame. -/
def sideF (c : Nat) : List Fl → Fl
  | [l] => l
  | [l, r] => if c = 0 then l else r
  | _ => .fin 0

theorem sideAt_frame {c s : Nat} {x : List Buf} {v : Fl} (h : sideAt c s x = some v) : v = sideF c (frame x s) := by
  unfold sideAt at h
  split at h
  · simp [frame, sideF, List.getD_eq_getElem?_getD, h]
  · split at h
    · rename_i hc
      subst hc
      simp [frame, sideF, List.getD_eq_getElem?_getD, h]
    · rename_i hc
      simp [frame, sideF, List.getD_eq_getElem?_getD, h, hc]
  · cases h

theorem sideAt_mem {c s : Nat} {x : List Buf} {v : Fl} (h : sideAt c s x = some v) : ∃ b, b ∈ x ∧ v ∈ b := by
  unfold sideAt at h
  split at h
  · exact ⟨_, by simp, List.mem_of_getElem? h⟩
  · split at h
    · exact ⟨_, by simp, List.mem_of_getElem? h⟩
    · exact ⟨_, by simp, List.mem_of_getElem? h⟩
  · cases h

/-- Up to two summands may be added in any order. -/
theorem flSum_two {a b : List Fl} (h : a.Perm b) (hl : a.length ≤ 2) (hok : ∀ x, x ∈ a → x.Ok f32) : flSum a = flSum b := by
  match a, hl with
  | [], _ => rw [List.nil_perm.mp h]
  | [x], _ => rw [List.singleton_perm.mp h]
  | [x, y], _ =>
    rcases perm_pair h.symm with rfl | rfl
    · rfl
    · exact c42_two_partial _ _ (hok x (by simp)) (hok y (by simp))

theorem forall₂_map {α β : Type} {R : α → β → Prop} {l : List α} {m : List β} (g : α → β) (h : List.Forall₂ R l m)
    (hg : ∀ x y, x ∈ l → R x y → y = g x) : m = l.map g := by
  induction h with
  | nil => rfl
  | cons hab _ ih => rw [List.map_cons, hg _ _ (by simp) hab, ih (fun x y hx => hg x y (by simp [hx]))]

/-! ### Programs -/

section
variable {P : Plat} {N M : Nat} {parse parse' : Name → Except Panic (Option (Ast Comp))}
  {e0 e1 : Engine (glicol P N parse)} {f0 f1 : Engine (glicol P M parse')} {new : Ast Comp} {b : Bool}
  {exts exts' : List (List Buf)} {start start' : Place → List Buf} {sig sig' : Place → List (List Buf)}

/-- The sum at the output. -/
theorem output_agree (hN : 0 < N) (hM : 0 < M) (h : Sounds e0 e1 new b exts start sig) (h' : Sounds f0 f1 new b exts' start' sig')
    (hok : ∀ q, Flow Comp.refs new b q .dest → ∀ o, o ∈ sig q → ∀ b, b ∈ o → ∀ x, x ∈ b → x.Ok f32)
    (htwo : ∀ Q : List Place, Q.Nodup → (∀ q, q ∈ Q → Flow Comp.refs new b q .dest) → Q.length ≤ 2)
    (ha : ∀ q, Flow Comp.refs new b q .dest → Agree (stream N (sig q)) (stream M (sig' q))) :
    Agree (stream N (sig .dest)) (stream M (sig' .dest)) := by
  intro t x y hx hy
  rw [stream_at hN] at hx
  rw [stream_at hM] at hy
  rw [Option.map_eq_some_iff] at hx hy
  obtain ⟨o, ho, rfl⟩ := hx
  obtain ⟨o', ho', rfl⟩ := hy
  have ht : t / N < exts.length := by
    rw [← h.length .dest (.refl _)]; exact (List.getElem?_eq_some_iff.mp ho).1
  have ht' : t / M < exts'.length := by
    rw [← h'.length .dest (.refl _)]; exact (List.getElem?_eq_some_iff.mp ho').1
  obtain ⟨srcs, s1, s2, o1, ho1, ho2, ho3⟩ := h.output _ ht
  obtain ⟨srcs', s1', s2', o1', ho1', ho2', ho3'⟩ := h'.output _ ht'
  rw [ho] at ho1; cases ho1
  rw [ho'] at ho1'; cases ho1'
  have hperm : srcs.Perm srcs' := (List.perm_ext_iff_of_nodup s1 s1').mpr (fun q => by rw [s2, s2'])
  apply List.ext_getElem?
  intro c
  by_cases hc : c < 2
  · obtain ⟨vs, z, v1, v2, v3⟩ := ho3 c _ hc (Nat.mod_lt t hN)
    obtain ⟨vs', z', v1', v2', v3'⟩ := ho3' c _ hc (Nat.mod_lt t hM)
    simp only [frame, List.getElem?_map, v2, v2', Option.map_some, List.getD_eq_getElem?_getD, v3, v3', Option.getD_some,
      Option.some.injEq]
    -- the summands, from the streams
    let g : Place → Fl := fun q => sideF c (((stream N (sig q))[t]?).getD [])
    have e1 : vs = srcs.map g := by
      refine forall₂_map g v1 ?_
      rintro q v _ ⟨x, hx, hv⟩
      simp only [g, stream_at hN, hx, Option.map_some, Option.getD_some]
      exact sideAt_frame hv
    have e2 : vs' = srcs'.map g := by
      refine forall₂_map g v1' ?_
      rintro q v hq ⟨x, hx, hv⟩
      have hfl := (s2' q).mp hq
      have hq1 : q ∈ srcs := (s2 q).mpr hfl
      obtain ⟨v0, _, x0, hx0, _⟩ := forall₂_left v1 q hq1
      have e3 : (stream N (sig q))[t]? = some (frame x0 (t % N)) := by rw [stream_at hN, hx0]; rfl
      have e4 : (stream M (sig' q))[t]? = some (frame x (t % M)) := by rw [stream_at hM, hx]; rfl
      simp only [g, e3, Option.getD_some]
      rw [ha q hfl t _ _ e3 e4]
      exact sideAt_frame hv
    have hsum : ∀ x, x ∈ vs → x.Ok f32 := by
      intro v hv
      obtain ⟨q, hq, x, hx, hxv⟩ := forall₂_left (List.Forall₂.flip v1) v hv
      obtain ⟨bf, hb1, hb2⟩ := sideAt_mem hxv
      exact hok q ((s2 q).mp hq) x (List.mem_of_getElem? hx) bf hb1 v hb2
    refine flSum_two ?_ ?_ hsum
    · rw [e1, e2]; exact hperm.map g
    · rw [e1, List.length_map]; exact htwo srcs s1 (fun q hq => (s2 q).mp hq)
  · simp only [frame]
    rw [List.getElem?_eq_none (by simp; omega), List.getElem?_eq_none (by simp; omega)]

theorem refPlaces_unique (hw : ProgWf new) (hin : ['~', 'i', 'n', 'p', 'u', 't'] ∉ new.map Prod.fst) : ∀ {refs : List Name}
    {qs qs' : List Place}, (∀ r, r ∈ refs → '.' ∉ r) → RefPlaces new b refs qs → RefPlaces new b refs qs' → qs = qs' := by
  intro refs
  induction refs with
  | nil => intro qs qs' _ h1 h2; cases h1; cases h2; rfl
  | cons r refs ih =>
    intro qs qs' hr h1 h2
    cases h1 with
    | pattern _ _ _ _ => exact absurd (by simp) (hr _ List.mem_cons_self)
    | named _ hc hrest =>
      generalize hrr : r :: refs = l at h2
      cases h2 with
      | nil => cases hrr
      | pattern _ _ _ _ => cases hrr; exact absurd (by simp) (hr _ List.mem_cons_self)
      | named _ hc' hrest' =>
        cases hrr
        have := chain_unique hw hin hc hc'
        cases this
        rw [ih (fun r h => hr r (by simp [h])) hrest hrest']

/-- The places of references are places from which a signal flows. -/
theorem refPlaces_flow : ∀ {refs : List Name} {qs : List Place}, RefPlaces new b refs qs →
    ∀ q, q ∈ qs → ∃ r k n, r ∈ refs ∧ Means r k ∧ Chain new b k (n + 1) ∧ q = .at k n := by
  intro refs qs h
  induction h with
  | nil => intro q hq; cases hq
  | @named r n rs qs h1 h2 _ ih =>
    intro q hq
    rcases List.mem_cons.mp hq with rfl | hq
    · exact ⟨r, r, n, by simp, .named h1, h2, rfl⟩
    · obtain ⟨r', k, n', a, c⟩ := ih q hq
      exact ⟨r', k, n', by simp [a], c⟩
  | @pattern base l rs qs h1 h2 h3 _ ih =>
    intro q hq
    rcases List.mem_append.mp hq with hq | hq
    · obtain ⟨k, n, a, d, rfl⟩ := (h3 q).mp hq
      exact ⟨_, k, n, by simp, .pattern h1 a, d, rfl⟩
    · obtain ⟨r', k, n', a, c⟩ := ih q hq
      exact ⟨r', k, n', by simp [a], c⟩

theorem refPlaces_chain : ∀ {refs : List Name} {qs : List Place}, RefPlaces new b refs qs → ∀ r, r ∈ refs → '.' ∉ r →
    ∃ n, Chain new b r (n + 1) := by
  intro refs qs h
  induction h with
  | nil => intro r hr; cases hr
  | @named r n rs qs h1 h2 _ ih =>
    intro r' hr hd
    rcases List.mem_cons.mp hr with rfl | hr
    · exact ⟨n, h2⟩
    · exact ih r' hr hd
  | @pattern base l rs qs h1 h2 h3 _ ih =>
    intro r' hr hd
    rcases List.mem_cons.mp hr with rfl | hr
    · exact absurd (by simp) hd
    · exact ih r' hr hd

/-- The two runs agree about a place. -/
def SameAt (N M : Nat) (sig sig' : Place → List (List Buf)) (q : Place) : Prop :=
  Agree (stream N (sig q)) (stream M (sig' q)) ∧
    ∃ C, (C = 1 ∨ C = 2) ∧ (∀ o, o ∈ sig q → o.length = C) ∧ ∀ o, o ∈ sig' q → o.length = C

/-- What one run says about the inputs of a component. -/
theorem run_inputs (h : Sounds e0 e1 new b exts start sig) {p : Place} {inputs : List Ins} (hlen : inputs.length = exts.length)
    (hne : exts ≠ []) (hloop : ∀ q, Flow Comp.refs new b q p → ¬ Leads Comp.refs new b p q)
    (hears : Hears (Flow Comp.refs new b) (Leads Comp.refs new b) (Sits e1) start sig p inputs) :
    ∃ Q : List Place, Q.Nodup ∧ (∀ q, q ∈ Q ↔ Flow Comp.refs new b q p) ∧
      ∃ num : Place → Nat, (∀ q, q ∈ Q → Sits e1 q (num q)) ∧
        ∀ Q' : List Place, Q'.Perm Q → (Q'.map num).Nodup ∧ FedBy (Q'.map num) (Q'.map sig) inputs := by
  have hloop' : ∀ q, Flow Comp.refs new b q p → q ≠ p := by
    rintro q hq rfl
    exact hloop q hq (.refl _)
  have h0 : 0 < inputs.length := by rw [hlen]; exact List.length_pos_iff.mpr hne
  obtain ⟨Q, q1, q2, q3⟩ := hears 0 _ (List.getElem?_eq_getElem h0)
  have q2' : ∀ q, q ∈ Q ↔ Flow Comp.refs new b q p := fun q => (q2 q).trans ⟨fun h => h.1, fun h => ⟨h, hloop' q h⟩⟩
  have hnum : ∀ q, ∃ n, q ∈ Q → Sits e1 q n := by
    intro q
    by_cases hq : q ∈ Q
    · obtain ⟨x, _, hx⟩ := forall₂_left (List.Forall₂.flip q3) q hq
      exact ⟨x.1, fun _ => hx.1⟩
    · exact ⟨0, fun h => absurd h hq⟩
  obtain ⟨num, hnum⟩ := Classical.axiomOfChoice hnum
  refine ⟨Q, q1, q2', num, fun q hq => hnum q hq, ?_⟩
  intro Q' hQ'
  have hmem : ∀ q, q ∈ Q' ↔ q ∈ Q := fun q => hQ'.mem_iff
  constructor
  · refine List.Nodup.map_on ?_ (hQ'.nodup_iff.mpr q1)
    intro q hq r hr hqr
    exact (h.numbers _ _ _ _ (hnum q ((hmem q).mp hq)) (hnum r ((hmem r).mp hr))).mpr hqr
  · intro t inp ht
    obtain ⟨srcs, s1, s2, s3⟩ := hears t inp ht
    have hps : srcs.Perm Q' := (List.perm_ext_iff_of_nodup s1 (hQ'.nodup_iff.mpr q1)).mpr
      (fun q => by rw [s2, hmem, q2])
    have hinp : inp = srcs.map (fun q => (num q, ((sig q)[t]?).getD [])) := by
      refine forall₂_map _ (List.Forall₂.flip s3) ?_
      rintro q x hq ⟨hx1, hx2⟩
      have hfl := ((s2 q).mp hq).1
      have e1 := (h.numbers _ _ _ _ hx1 (hnum q ((q2' q).mpr hfl))).mp rfl
      rcases hx2 with hx2 | ⟨hx2, _⟩
      · rw [hx2]; exact Prod.ext e1 rfl
      · exact absurd hx2 (hloop q hfl)
    have hsig : ∀ q, q ∈ Q' → ∃ x, (sig q)[t]? = some x := by
      intro q hq
      obtain ⟨x, _, hx⟩ := forall₂_left (List.Forall₂.flip s3) q (hps.mem_iff.mpr hq)
      rcases hx.2 with hx2 | ⟨hx2, _⟩
      · exact ⟨_, hx2⟩
      · exact absurd hx2 (hloop q ((q2' q).mp ((hmem q).mp hq)))
    refine ⟨Q'.map (fun q => ((sig q)[t]?).getD []), ?_, ?_⟩
    · rw [List.forall₂_map_left_iff, List.forall₂_map_right_iff, List.forall₂_same]
      intro q hq
      obtain ⟨x, hx⟩ := hsig q hq
      rw [hx]; rfl
    · rw [List.zip_map', hinp]
      exact hps.map _

theorem wiring_isWiring {refs : List Name} {srcs : List Nat} {left : Option Nat} :
    ∀ g : Msg Fl, g ∈ wiring refs srcs left → IsWiring g := by
  intro g hg
  unfold wiring at hg
  rcases List.mem_append.mp hg with hg | hg
  · split at hg
    · cases hg
    · rcases List.mem_cons.mp hg with rfl | hg
      · trivial
      · obtain ⟨_, _, rfl⟩ := List.mem_map.mp hg; trivial
  · obtain ⟨_, _, rfl⟩ := List.mem_map.mp hg; trivial

/-- The places that a component is told about, in order. -/
def toldPlaces (k : Name) (i : Nat) (qs : List Place) : List Place :=
  (match i with | 0 => [] | j + 1 => [.at k j]) ++ qs

theorem told_nums (h : Sounds e0 e1 new b exts start sig) {k : Name} {i : Nat} {Q qs : List Place} {num : Place → Nat}
    (hnum : ∀ q, q ∈ Q → Sits e1 q (num q)) (hQ : ∀ q, q ∈ toldPlaces k i qs → q ∈ Q) {srcs : List Nat} {left : Option Nat}
    (h4 : List.Forall₂ (Sits e1) qs srcs) (h5 : ∀ n, left = some n ↔ ∃ j, i = j + 1 ∧ Sits e1 (.at k j) n) :
    left.toList ++ srcs = (toldPlaces k i qs).map num := by
  have hs : srcs = qs.map num := by
    refine forall₂_map num h4 ?_
    intro q n hq hn
    exact (h.numbers _ _ _ _ hn (hnum q (hQ q (by simp [toldPlaces, hq])))).mp rfl
  unfold toldPlaces at *
  rw [List.map_append, hs]
  congr 1
  cases i with
  | zero =>
    cases left with
    | none => rfl
    | some n => obtain ⟨j, hj, _⟩ := (h5 n).mp rfl; cases hj
  | succ j =>
    have := (h5 (num (.at k j))).mpr ⟨j, rfl, hnum _ (hQ _ (by simp))⟩
    rw [this]
    rfl

theorem getD_idxOf {Q : List Place} [DecidableEq Place] {num : Place → Nat} {q : Place} (h : q ∈ Q) :
    (Q.map num).getD (Q.idxOf q) 0 = num q := by
  have hlt := List.idxOf_lt_length_of_mem h
  rw [List.getD_eq_getElem?_getD, List.getElem?_map, List.getElem?_eq_getElem hlt, List.getElem_idxOf hlt]
  rfl

open Classical in
theorem component_agree (hst : HasFormula new → ExtStream P) (hN : 0 < N) (hM : 0 < M) (hw : ProgWf new) (hin : ['~', 'i', 'n', 'p', 'u', 't'] ∉ new.map Prod.fst)
    (h : Sounds e0 e1 new b exts start sig) (h' : Sounds f0 f1 new b exts' start' sig') (hne : exts ≠ []) (hne' : exts' ≠ [])
    (hset : (⟨f0.samples, f0.sr, f0.bpm, f0.seed⟩ : Env) = ⟨e0.samples, e0.sr, e0.bpm, e0.seed⟩)
    {k : Name} {comps : List Comp} {i : Nat} {c : Comp}
    (hk : (k, comps) ∈ new) (hi : comps[i]? = some c) (hlead : Leads Comp.refs new b (.at k i) .dest) {old old' : List Comp}
    (hold : IsOld e0 k old) (hnew : ∀ o, o ∈ old → Comp.eq o c = false) (hold' : IsOld f0 k old')
    (hnew' : ∀ o, o ∈ old' → Comp.eq o c = false)
    (hfree : ∀ Q : List Place, Q.Nodup → (∀ q, q ∈ Q ↔ Flow Comp.refs new b q (.at k i)) → StreamFree e0.samples c Q.length)
    (hrefs : NotesInputs c → ∀ r, r ∈ c.refs → '.' ∉ r)
    (hloop : ∀ q, Flow Comp.refs new b q (.at k i) → ¬ Leads Comp.refs new b (.at k i) q)
    (hok : ∀ q, Flow Comp.refs new b q (.at k i) → ∀ o, o ∈ sig q → ∀ b, b ∈ o → ∀ x, x ∈ b → x.Ok f32)
    (hok' : ∀ q, Flow Comp.refs new b q (.at k i) → ∀ o, o ∈ sig' q → ∀ b, b ∈ o → ∀ x, x ∈ b → x.Ok f32)
    (ih : ∀ q, Flow Comp.refs new b q (.at k i) → SameAt N M sig sig' q) : SameAt N M sig sig' (.at k i) := by
  obtain ⟨refs, qs, srcs, left, inputs, r1, r2, r3, r4, r5, r6, r7, r8, r9⟩ :=
    h.component k comps i c old hk hi hlead hold hnew
  obtain ⟨refs', qs', srcs', left', inputs', r1', r2', r3', r4', r5', r6', r7', r8', r9'⟩ :=
    h'.component k comps i c old' hk hi hlead hold' hnew'
  obtain ⟨Q, q1, q2, num, q3, q4⟩ := run_inputs h r6 hne hloop r7
  obtain ⟨Q', q1', q2', num', q3', q4'⟩ := run_inputs h' r6' hne' hloop r7'
  have hperm : Q.Perm Q' := (List.perm_ext_iff_of_nodup q1 q1').mpr (fun q => by rw [q2, q2'])
  obtain ⟨hnd, hfed⟩ := q4 Q (.refl _)
  obtain ⟨hnd', hfed'⟩ := q4' Q hperm
  have q3'' : ∀ q, q ∈ Q → Sits f1 q (num' q) := fun q hq => q3' q (hperm.mem_iff.mp hq)
  have hbf := hfree Q q1 q2
  -- the numbers of channels
  have hch : ∀ q, ∃ C, q ∈ Q → (C = 1 ∨ C = 2) ∧ (∀ o, o ∈ sig q → o.length = C) ∧ ∀ o, o ∈ sig' q → o.length = C := by
    intro q
    by_cases hq : q ∈ Q
    · obtain ⟨_, C, hC⟩ := ih q ((q2 q).mp hq)
      exact ⟨C, fun _ => hC⟩
    · exact ⟨0, fun h => absurd h hq⟩
  obtain ⟨ch, hch⟩ := Classical.axiomOfChoice hch
  have hlq : ∀ q, q ∈ Q → Leads Comp.refs new b q .dest := fun q hq => .step ((q2 q).mp hq) hlead
  have hsig : List.Forall₂ (Signal32 N) (Q.map ch) (Q.map sig) := by
    rw [List.forall₂_map_left_iff, List.forall₂_map_right_iff, List.forall₂_same]
    intro q hq o ho
    exact ⟨(hch q hq).2.1 o ho, fun x hx => ⟨(h.shape q (hlq q hq) o ho).2 x hx, hok q ((q2 q).mp hq) o ho x hx⟩⟩
  have hsig' : List.Forall₂ (Signal32 M) (Q.map ch) (Q.map sig') := by
    rw [List.forall₂_map_left_iff, List.forall₂_map_right_iff, List.forall₂_same]
    intro q hq o ho
    exact ⟨(hch q hq).2.2 o ho, fun x hx => ⟨(h'.shape q (hlq q hq) o ho).2 x hx, hok' q ((q2 q).mp hq) o ho x hx⟩⟩
  have hag : List.Forall₂ (fun s s' => Agree (stream N s) (stream M s')) (Q.map sig) (Q.map sig') := by
    rw [List.forall₂_map_left_iff, List.forall₂_map_right_iff, List.forall₂_same]
    exact fun q hq => (ih q ((q2 q).mp hq)).1
  have hw2 : ∀ c, c ∈ Q.map ch → c = 1 ∨ c = 2 := by
    intro c hc
    obtain ⟨q, hq, rfl⟩ := List.mem_map.mp hc
    exact (hch q hq).1
  have hbf2 : StreamFree (⟨e0.samples, e0.sr, e0.bpm, e0.seed⟩ : Env).samples c (Q.map ch).length := by
    rw [List.length_map]; exact hbf
  have key : ∃ (sel : List Nat) (msgs msgs' : List (Msg Fl)), (∀ j, j ∈ sel → j < (Q.map ch).length) ∧
      (∀ g, g ∈ msgs → IsWiring g) ∧ (∀ g, g ∈ msgs' → IsWiring g) ∧
      (NotesInputs c → msgs = (sel.map (fun j => (Q.map num).getD j 0)).map .index) ∧
      (NotesInputs c → msgs' = (sel.map (fun j => (Q.map num').getD j 0)).map .index) ∧
      play P N ⟨e0.samples, e0.sr, e0.bpm, e0.seed⟩ c msgs inputs = .ok (sig (.at k i)) ∧
      play P M ⟨f0.samples, f0.sr, f0.bpm, f0.seed⟩ c msgs' inputs' = .ok (sig' (.at k i)) := by
    by_cases hnotes : NotesInputs c
    · have hrr : refs = refs' := r2.trans r2'.symm
      subst hrr
      have hqq := refPlaces_unique hw hin (fun r hr => hrefs hnotes r ((r1 r).mp hr)) r3 r3'
      subst hqq
      have hQ : ∀ q, q ∈ toldPlaces k i qs → q ∈ Q := by
        intro q hq
        rw [q2]
        unfold toldPlaces at hq
        rcases List.mem_append.mp hq with hq | hq
        · cases i with
          | zero => cases hq
          | succ j =>
            rw [List.mem_singleton.mp hq]
            exact .next (.prog hk) (List.getElem?_eq_some_iff.mp hi).1
        · obtain ⟨r, k', n, d1, d2, d3, rfl⟩ := refPlaces_flow r3 q hq
          exact .ref hk hi ((r1 r).mp d1) d2 d3
      refine ⟨(toldPlaces k i qs).map (fun q => Q.idxOf q), _, _, ?_, ?_, ?_, ?_, ?_, r9 hnotes, r9' hnotes⟩
      · intro j hj
        obtain ⟨q, hq, rfl⟩ := List.mem_map.mp hj
        rw [List.length_map]
        exact List.idxOf_lt_length_of_mem (hQ q hq)
      · intro g hg
        obtain ⟨_, _, rfl⟩ := List.mem_map.mp hg; trivial
      · intro g hg
        obtain ⟨_, _, rfl⟩ := List.mem_map.mp hg; trivial
      · intro _
        rw [told_nums h q3 hQ r4 r5]
        refine congrArg (List.map Msg.index) ?_
        rw [List.map_map]
        exact List.map_congr_left (fun q hq => (getD_idxOf (hQ q hq)).symm)
      · intro _
        rw [told_nums h' q3'' hQ r4' r5']
        refine congrArg (List.map Msg.index) ?_
        rw [List.map_map]
        exact List.map_congr_left (fun q hq => (getD_idxOf (hQ q hq)).symm)
    · exact ⟨[], _, _, fun j hj => (by cases hj), wiring_isWiring, wiring_isWiring, fun h => absurd h hnotes,
        fun h => absurd h hnotes, r8, r8'⟩
  obtain ⟨sel, msgs, msgs', k1, k2, k3, k4, k5, k6, k7⟩ := key
  rw [hset] at k7
  obtain ⟨ha, C, hC, hC'⟩ := play_agree hN hM (fun ⟨code, hc⟩ => hst ⟨k, comps, code, hk, hc ▸ List.mem_of_getElem? hi⟩) hbf2 k1 hw2 hnd hnd' (by simp) (by simp) hsig hsig' hag hfed hfed' k2 k3 k4 k5 k6 k7
  refine ⟨ha, C, ?_, hC, hC'⟩
  have hl := h.length _ hlead
  have : 0 < (sig (.at k i)).length := by rw [hl]; exact List.length_pos_iff.mpr hne
  obtain ⟨o, ho⟩ := List.exists_mem_of_length_pos this
  rw [← hC o ho]
  exact (h.shape _ hlead o ho).1

end

end Verif
