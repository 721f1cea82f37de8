import Verif.Lemmas.Double
import Verif.Lemmas.StreamSound
import Verif.Lemmas.Renumber
import Mathlib.Data.List.Perm.Basic

/-! A place of one program that plays the part of a place of another (helpers). -/

namespace Verif.Part
open Verif Spec Props Double

theorem forall₂_get {α β : Type} {R : α → β → Prop} {l : List α} {m : List β} (h : List.Forall₂ R l m) {t : Nat} {y : β}
    (ht : m[t]? = some y) : ∃ x, l[t]? = some x ∧ R x y := by
  induction h generalizing t with
  | nil => cases ht
  | cons hab _ ih =>
    cases t with
    | zero => cases ht; exact ⟨_, rfl, hab⟩
    | succ t => exact ih ht

theorem bufs_halve {t : Nat} {sigs sigs' : List (List (List Buf))} (hs : List.Forall₂ (List.Forall₂ Dup) sigs sigs')
    {bufs' : List (List Buf)} (h : List.Forall₂ (fun s b => s[t]? = some b) sigs' bufs') :
    ∃ bufs, List.Forall₂ (fun s b => s[t]? = some b) sigs bufs ∧ List.Forall₂ Dup bufs bufs' := by
  induction hs generalizing bufs' with
  | nil => cases h; exact ⟨[], .nil, .nil⟩
  | cons hss _ ih =>
    cases h with
    | cons hb hbs =>
      obtain ⟨bufs, i1, i2⟩ := ih hbs
      obtain ⟨x, x1, x2⟩ := forall₂_get hss hb
      exact ⟨x :: bufs, .cons x1 i1, .cons x2 i2⟩

theorem zip_dup {bufs bufs' : List (List Buf)} (h : List.Forall₂ Dup bufs bufs') : ∀ nums : List Nat,
    DupIns (nums.zip bufs) (nums.zip bufs') := by
  induction h with
  | nil => intro nums; simp only [List.zip_nil_right]; exact .nil
  | cons hd _ ih =>
    intro nums
    cases nums with
    | nil => exact .nil
    | cons n nums => exact .cons ⟨rfl, hd⟩ (ih _)

theorem build_list {α β : Type} {R : Nat → α → β → Prop} : ∀ (l : List β) (n : Nat), (∀ (t : Nat) y, l[t]? = some y → ∃ x, R (n + t) x y) →
    ∃ m : List α, m.length = l.length ∧ ∀ (t : Nat) x y, m[t]? = some x → l[t]? = some y → R (n + t) x y
  | [], _, _ => ⟨[], rfl, fun t x y h => by cases h⟩
  | y :: l, n, h => by
    obtain ⟨x, hx⟩ := h 0 y rfl
    obtain ⟨m, m1, m2⟩ := build_list l (n + 1) (fun t y ht => by
      have := h (t + 1) y ht
      rwa [show n + (t + 1) = n + 1 + t by omega] at this)
    refine ⟨x :: m, by simp [m1], ?_⟩
    intro t a b ha hb
    cases t with
    | zero => cases ha; cases hb; exact hx
    | succ t =>
      have := m2 t a b ha hb
      rwa [show n + (t + 1) = n + 1 + t by omega]

theorem forall₂_of_get {α β : Type} {R : α → β → Prop} : ∀ {l : List α} {m : List β}, l.length = m.length →
    (∀ (t : Nat) x y, l[t]? = some x → m[t]? = some y → R x y) → List.Forall₂ R l m
  | [], [], _, _ => .nil
  | [], _ :: _, h, _ => by cases h
  | _ :: _, [], h, _ => by cases h
  | x :: l, y :: m, h, hr => .cons (hr 0 x y rfl rfl) (forall₂_of_get (Nat.succ.inj h) (fun t a b ha hb => hr (t + 1) a b ha hb))

/-- The inputs with the doubled channels taken away. -/
theorem fed_halve {nums : List Nat} {sigs sigs' : List (List (List Buf))} (hs : List.Forall₂ (List.Forall₂ Dup) sigs sigs')
    {inputs' : List Ins} (hf : FedBy nums sigs' inputs') :
    ∃ inputs, List.Forall₂ DupIns inputs inputs' ∧ FedBy nums sigs inputs := by
  have hone : ∀ (t : Nat) inp', inputs'[t]? = some inp' → ∃ inp, DupIns inp inp' ∧
      ∃ bufs, List.Forall₂ (fun s b => s[0 + t]? = some b) sigs bufs ∧ inp.Perm (nums.zip bufs) := by
    intro t inp' ht
    obtain ⟨bufs', h1, h2⟩ := hf t inp' ht
    obtain ⟨bufs, h3, h4⟩ := bufs_halve hs h1
    obtain ⟨w, w1, w2⟩ := List.perm_comp_forall₂ h2 (List.Forall₂.flip (zip_dup h4 nums))
    exact ⟨w, List.Forall₂.flip w1, bufs, by rw [Nat.zero_add]; exact h3, w2⟩
  obtain ⟨inputs, i1, i2⟩ := build_list (R := fun t inp inp' => DupIns inp inp' ∧
    ∃ bufs, List.Forall₂ (fun s b => s[t]? = some b) sigs bufs ∧ inp.Perm (nums.zip bufs)) inputs' 0 hone
  refine ⟨inputs, forall₂_of_get i1 (fun t x y hx hy => (i2 t x y hx hy).1), ?_⟩
  intro t inp ht
  have hlt : t < inputs'.length := by rw [← i1]; exact (List.getElem?_eq_some_iff.mp ht).1
  have := (i2 t _ _ ht (List.getElem?_eq_getElem hlt)).2
  rwa [Nat.zero_add] at this

section
variable {P : Plat} {N : Nat}

/-- Blocks of the same shape are equal if their streams agree. -/
theorem blocks_eq (hN : 0 < N) : ∀ {C : Nat} {a b : List (List Buf)}, a.length = b.length →
    (∀ o, o ∈ a → o.length = C ∧ ∀ x, x ∈ o → x.length = N) → (∀ o, o ∈ b → o.length = C ∧ ∀ x, x ∈ o → x.length = N) →
    Agree (stream N a) (stream N b) → a = b := by
  intro C a b hl ha hb h
  apply List.ext_getElem hl
  intro t h1 h2
  obtain ⟨a1, a2⟩ := ha _ (List.getElem_mem h1)
  obtain ⟨b1, b2⟩ := hb _ (List.getElem_mem h2)
  apply List.ext_getElem (by omega)
  intro c c1 c2
  have l1 := a2 _ (List.getElem_mem c1)
  have l2 := b2 _ (List.getElem_mem c2)
  apply List.ext_getElem (by omega)
  intro s s1 s2
  have hs : s < N := by omega
  have hd : (t * N + s) / N = t := by
    rw [Nat.mul_comm, Nat.mul_add_div hN, Nat.div_eq_of_lt hs, Nat.add_zero]
  have hmod : (t * N + s) % N = s := by
    rw [Nat.mul_comm, Nat.mul_add_mod, Nat.mod_eq_of_lt hs]
  have e1 : (stream N a)[t * N + s]? = some (frame a[t] s) := by
    rw [stream_at hN, hd, hmod, List.getElem?_eq_getElem h1]; rfl
  have e2 : (stream N b)[t * N + s]? = some (frame b[t] s) := by
    rw [stream_at hN, hd, hmod, List.getElem?_eq_getElem h2]; rfl
  have he := h _ _ _ e1 e2
  have hc := congrArg (fun l : List Fl => l[c]?) he
  simp only [frame, List.getElem?_map, List.getElem?_eq_getElem c1, List.getElem?_eq_getElem c2, Option.map_some,
    Option.some.injEq, List.getD_eq_getElem?_getD, List.getElem?_eq_getElem s1, List.getElem?_eq_getElem s2, Option.getD_some] at hc
  exact hc

theorem run_length {T : P.ext.State → Prop} (hx : ExtShape P N T) : ∀ {ins : List Ins} {n : GNode P} {out : List Buf} {outs : List (List Buf)},
    GShape P N T n → BlockLen N out → (∀ i, i ∈ ins → ∀ e, e ∈ i → BlockLen N e.2) →
    runBlocks (procG P) n out ins = .ok outs → ∀ o, o ∈ outs → o.length = out.length
  | [], _, _, _, _, _, _, h => by cases h; intro o ho; cases ho
  | i :: ins, n, out, outs, hn, ho, hi, h => by
    simp only [runBlocks] at h
    split at h
    · cases h
    · rename_i n' out' hp
      split at h
      · cases h
      · rename_i r hr
        cases h
        obtain ⟨s1, s2, s3⟩ := (glicol_shape (parse := fun _ => .ok none) hx).proc n i out n' out' hn (hi i List.mem_cons_self) ho hp
        intro o hmem
        rcases List.mem_cons.mp hmem with rfl | hmem
        · exact s2
        · exact (run_length hx s1 s3 (fun j hj => hi j (by simp [hj])) hr o hmem).trans s2

theorem msgs_shape {T : P.ext.State → Prop} (hx : ExtShape P N T) : ∀ {msgs : List (Msg Fl)} {n n' : GNode P}, GShape P N T n →
    sendMsgs n msgs = .ok n' → GShape P N T n'
  | [], _, _, hn, h => by cases h; exact hn
  | g :: msgs, n, n', hn, h => by
    simp only [sendMsgs] at h
    split at h
    · cases h
    · rename_i n1 h1
      exact msgs_shape hx ((glicol_shape (parse := fun _ => .ok none) hx).msg n g n1 hn h1) h

theorem play_makes {env : Env} {c : Comp} {msgs : List (Msg Fl)} {ins : List Ins} {outs : List (List Buf)}
    (h : play P N env c msgs ins = .ok outs) :
    ∃ d rs, makeNode P N env.samples env.sr env.bpm env.seed c = .ok (d, rs) := by
  unfold play at h
  split at h
  · cases h
  · rename_i d rs hmk
    exact ⟨d, rs, hmk⟩

/-- A component keeps its number of channels. -/
theorem play_channels {T : P.ext.State → Prop} (hx : ExtShape P N T) {env : Env} {c : Comp} {msgs : List (Msg Fl)}
    {ins : List Ins} {outs : List (List Buf)} (hi : ∀ i, i ∈ ins → ∀ e, e ∈ i → BlockLen N e.2)
    (h : play P N env c msgs ins = .ok outs) : ∃ C, ∀ o, o ∈ outs → o.length = C := by
  unfold play at h
  split at h
  · cases h
  · rename_i d rs hmk
    obtain ⟨s1, s2⟩ := makeNode_shape hx hmk
    split at h
    · cases h
    · rename_i n hn
      split at h
      · cases h
      · rename_i r hr
        cases h
        exact ⟨_, run_length hx (msgs_shape hx s1 hn) s2 hi hr⟩

end

section
variable {P : Plat} {N : Nat} {parse parse' : Name → Except Panic (Option (Ast Comp))}
  {e0 e1 : Engine (glicol P N parse)} {f0 f1 : Engine (glicol P N parse')} {A B : Ast Comp} {b : Bool}
  {exts : List (List Buf)} {start start' : Place → List Buf} {sig sig' : Place → List (List Buf)}

theorem refPlaces_map (hw : ProgWf B) (hin : ['~', 'i', 'n', 'p', 'u', 't'] ∉ B.map Prod.fst) {φ : Place → Place} {ρ : Name → Name}
    {refs : List Name} {qs qs' : List Place} (hr : ∀ r, r ∈ refs → '.' ∉ r ∧ '.' ∉ ρ r)
    (he : ∀ r, r ∈ refs → ∀ n, Chain A b r (n + 1) → ∃ n', Chain B b (ρ r) (n' + 1) ∧ φ (.at r n) = .at (ρ r) n')
    (h : RefPlaces A b refs qs) (h' : RefPlaces B b (refs.map ρ) qs') : qs' = qs.map φ := by
  induction refs generalizing qs qs' with
  | nil => cases h; cases h'; rfl
  | cons r refs ih =>
    cases h with
    | pattern _ _ _ _ => exact absurd (by simp) (hr _ List.mem_cons_self).1
    | named _ hc hrest =>
      have hd := (hr r List.mem_cons_self).2
      generalize hrr : (r :: refs).map ρ = l at h'
      cases h' with
      | nil => cases hrr
      | pattern _ _ _ _ =>
        rw [List.map_cons] at hrr
        rw [(List.cons.inj hrr).1] at hd
        exact absurd (by simp) hd
      | named _ hc' hrest' =>
        rw [List.map_cons] at hrr
        obtain ⟨rfl, rfl⟩ := List.cons.inj hrr
        obtain ⟨n', h1, h2⟩ := he r List.mem_cons_self _ hc
        have := chain_unique hw hin hc' h1
        cases this
        rw [ih (fun r h => hr r (by simp [h])) (fun r h => he r (by simp [h])) hrest hrest', List.map_cons, h2]

/-- The same signal, in one or two channels. -/
def SameSig (s s' : List (List Buf)) : Prop :=
  s = s' ∧ ∃ C, (C = 1 ∨ C = 2) ∧ ∀ o, o ∈ s → o.length = C

theorem free_byRole {samples : List (Name × Sample)} {c : Comp} {n : Nat} (h : BlockFree samples c n) : ByRole c n := by
  cases c <;> first | trivial | exact h

theorem getD_idxOf' {Q : List Place} [DecidableEq Place] {num : Place → Nat} {φ : Place → Place} {q : Place} (h : q ∈ Q) :
    ((Q.map φ).map num).getD (Q.idxOf q) 0 = num (φ q) := by
  rw [List.map_map]
  exact getD_idxOf h

open Classical in
theorem component_part_to {T : P.ext.State → Prop} (hx : ExtShape P N T) (hf : ExtFirst P) (hN : 0 < N) (hw : ProgWf B) (hin : ['~', 'i', 'n', 'p', 'u', 't'] ∉ B.map Prod.fst)
    (h : Sounds e0 e1 A b exts start sig) (h' : Sounds f0 f1 B b exts start' sig') (hne : exts ≠ [])
    (hset : (⟨f0.samples, f0.sr, f0.bpm, f0.seed⟩ : Env) = ⟨e0.samples, e0.sr, e0.bpm, e0.seed⟩) {φ ψ : Place → Place}
    {k k' : Name} {comps comps' : List Comp} {i i' : Nat} {c c' : Comp} {ρ : Name → Name}
    (hplay : ∀ env msgs ins, play P N env c' msgs ins = play P N env c msgs ins) (hnote : NotesInputs c' ↔ NotesInputs c)
    (htoldr : toldRefs c' = (toldRefs c).map ρ)
    (hk : (k, comps) ∈ A) (hi : comps[i]? = some c) (hlead : Leads Comp.refs A b (.at k i) .dest)
    (hk' : (k', comps') ∈ B) (hi' : comps'[i']? = some c') (hlead' : Leads Comp.refs B b (.at k' i') .dest) {old old' : List Comp}
    (hold : IsOld e0 k old) (hnew : ∀ o, o ∈ old → Comp.eq o c = false) (hold' : IsOld f0 k' old')
    (hnew' : ∀ o, o ∈ old' → Comp.eq o c' = false)
    (hfree : ∀ Q : List Place, Q.Nodup → (∀ q, q ∈ Q ↔ Flow Comp.refs A b q (.at k i)) → ByRole c Q.length)
    (hrefs : NotesInputs c → ∀ r, r ∈ c.refs → '.' ∉ r ∧ '.' ∉ ρ r)
    (hloop : ∀ q, Flow Comp.refs A b q (.at k i) → ¬ Leads Comp.refs A b (.at k i) q)
    (hloop' : ∀ q, Flow Comp.refs B b q (.at k' i') → ¬ Leads Comp.refs B b (.at k' i') q)
    (hflow : ∀ q', Flow Comp.refs B b q' (.at k' i') ↔ ∃ q, Flow Comp.refs A b q (.at k i) ∧ φ q = q')
    (hinj : ∀ q1 q2, Flow Comp.refs A b q1 (.at k i) → Flow Comp.refs A b q2 (.at k i) → φ q1 = φ q2 → q1 = q2)
    (hleft : (i = 0 ∧ i' = 0) ∨ ∃ j j', i = j + 1 ∧ i' = j' + 1 ∧ φ (.at k j) = .at k' j')
    (hends : NotesInputs c → ∀ r, r ∈ c.refs → ∀ n, Chain A b r (n + 1) → ∃ n', Chain B b (ρ r) (n' + 1) ∧ φ (.at r n) = .at (ρ r) n')
    (hψ : ∀ q, Flow Comp.refs A b q (.at k i) → Leads Comp.refs B b (ψ q) .dest)
    (hok : ∀ q, Flow Comp.refs A b q (.at k i) → ∀ o, o ∈ sig q → ∀ b, b ∈ o → ∀ x, x ∈ b → x.Ok f32)
    (hdup : (∀ q, Flow Comp.refs A b q (.at k i) → sig' (φ q) = sig' (ψ q)) ∨
      ((match c with | .delayn _ | .delayms _ => False | _ => True) ∧
        ∀ q, Flow Comp.refs A b q (.at k i) → List.Forall₂ Dup (sig' (ψ q)) (sig' (φ q))))
    (ih : ∀ q, Flow Comp.refs A b q (.at k i) → SameSig (sig q) (sig' (ψ q))) : SameSig (sig (.at k i)) (sig' (.at k' i')) := by
  have hok' : ∀ q, Flow Comp.refs A b q (.at k i) → ∀ o, o ∈ sig' (ψ q) → ∀ b, b ∈ o → ∀ x, x ∈ b → x.Ok f32 :=
    fun q hq o ho => hok q hq o ((ih q hq).1 ▸ ho)
  obtain ⟨refs, qs, srcs, left, inputs, r1, r2, r3, r4, r5, r6, r7, r8, r9⟩ :=
    h.component k comps i c old hk hi hlead hold hnew
  obtain ⟨refs', qs', srcs', left', inputs', r1', r2', r3', r4', r5', r6', r7', r8', r9'⟩ :=
    h'.component k' comps' i' c' old' hk' hi' hlead' hold' hnew'
  rw [hplay] at r8'
  rw [hplay, hnote] at r9'
  obtain ⟨Q, q1, q2, num, q3, q4⟩ := run_inputs h r6 hne hloop r7
  obtain ⟨Q', q1', q2', num', q3', q4'⟩ := run_inputs h' r6' hne hloop' r7'
  have hnd2 : (Q.map φ).Nodup := List.Nodup.map_on (fun x hx y hy hxy => hinj x y ((q2 x).mp hx) ((q2 y).mp hy) hxy) q1
  have hperm : (Q.map φ).Perm Q' := (List.perm_ext_iff_of_nodup hnd2 q1').mpr (fun q => by
    rw [q2', hflow, List.mem_map]
    exact ⟨fun ⟨a, h1, h2⟩ => ⟨a, (q2 a).mp h1, h2⟩, fun ⟨a, h1, h2⟩ => ⟨a, (q2 a).mpr h1, h2⟩⟩)
  obtain ⟨hnd, hfed⟩ := q4 Q (.refl _)
  obtain ⟨hnd', hfed0⟩ := q4' (Q.map φ) hperm
  have q3'' : ∀ q, q ∈ Q.map φ → Sits f1 q (num' q) := fun q hq => q3' q (hperm.mem_iff.mp hq)
  have hbf := hfree Q q1 q2
  -- without the doubled channels
  obtain ⟨inputs2, hsame, hfed', hlen2⟩ : ∃ inputs2, (∀ msgs, play P N ⟨f0.samples, f0.sr, f0.bpm, f0.seed⟩ c msgs inputs' =
      play P N ⟨f0.samples, f0.sr, f0.bpm, f0.seed⟩ c msgs inputs2) ∧
      FedBy ((Q.map φ).map num') (Q.map (fun q => sig' (ψ q))) inputs2 ∧ inputs2.length = inputs'.length := by
    rcases hdup with hd | ⟨hc, hd⟩
    · refine ⟨inputs', fun _ => rfl, ?_, rfl⟩
      rw [List.map_map] at hfed0
      have : (Q.map (sig' ∘ φ)) = Q.map (fun q => sig' (ψ q)) := List.map_congr_left (fun q hq => hd q ((q2 q).mp hq))
      rw [List.map_map, this] at hfed0
      rw [List.map_map]
      exact hfed0
    · have hs : List.Forall₂ (List.Forall₂ Dup) (Q.map (fun q => sig' (ψ q))) ((Q.map φ).map sig') := by
        rw [List.map_map, List.forall₂_map_left_iff, List.forall₂_map_right_iff, List.forall₂_same]
        exact fun q hq => hd q ((q2 q).mp hq)
      obtain ⟨inputs2, i1, i2⟩ := fed_halve hs hfed0
      exact ⟨inputs2, fun msgs => play_dup hf hc msgs i1, i2, i1.length_eq⟩
  -- the numbers of channels
  have hch : ∀ q, ∃ C, q ∈ Q → (C = 1 ∨ C = 2) ∧ (∀ o, o ∈ sig q → o.length = C) ∧ ∀ o, o ∈ sig' (ψ q) → o.length = C := by
    intro q
    by_cases hq : q ∈ Q
    · obtain ⟨he, C, hC, hC'⟩ := ih q ((q2 q).mp hq)
      exact ⟨C, fun _ => ⟨hC, hC', he ▸ hC'⟩⟩
    · exact ⟨0, fun h => absurd h hq⟩
  obtain ⟨ch, hch⟩ := Classical.axiomOfChoice hch
  have hlq : ∀ q, q ∈ Q → Leads Comp.refs A b q .dest := fun q hq => .step ((q2 q).mp hq) hlead
  have hsig : List.Forall₂ (Signal32 N) (Q.map ch) (Q.map sig) := by
    rw [List.forall₂_map_left_iff, List.forall₂_map_right_iff, List.forall₂_same]
    intro q hq o ho
    exact ⟨(hch q hq).2.1 o ho, fun x hx => ⟨(h.shape q (hlq q hq) o ho).2 x hx, hok q ((q2 q).mp hq) o ho x hx⟩⟩
  have hsig' : List.Forall₂ (Signal32 N) (Q.map ch) (Q.map (fun q => sig' (ψ q))) := by
    rw [List.forall₂_map_left_iff, List.forall₂_map_right_iff, List.forall₂_same]
    intro q hq o ho
    exact ⟨(hch q hq).2.2 o ho, fun x hx => ⟨(h'.shape _ (hψ q ((q2 q).mp hq)) o ho).2 x hx, hok' q ((q2 q).mp hq) o ho x hx⟩⟩
  have hag : List.Forall₂ (fun s s' => Agree (stream N s) (stream N s')) (Q.map sig) (Q.map (fun q => sig' (ψ q))) := by
    rw [List.forall₂_map_left_iff, List.forall₂_map_right_iff, List.forall₂_same]
    intro q hq
    rw [(ih q ((q2 q).mp hq)).1]
    intro t x y h1 h2
    rw [h1] at h2
    exact Option.some.inj h2
  have hw2 : ∀ c, c ∈ Q.map ch → c = 1 ∨ c = 2 := by
    intro c hc
    obtain ⟨q, hq, rfl⟩ := List.mem_map.mp hc
    exact (hch q hq).1
  have key : ∃ (sel : List Nat) (msgs msgs' : List (Msg Fl)), (∀ j, j ∈ sel → j < (Q.map ch).length) ∧
      (∀ g, g ∈ msgs → IsWiring g) ∧ (∀ g, g ∈ msgs' → IsWiring g) ∧
      (NotesInputs c → msgs = (sel.map (fun j => (Q.map num).getD j 0)).map .index) ∧
      (NotesInputs c → msgs' = (sel.map (fun j => ((Q.map φ).map num').getD j 0)).map .index) ∧
      play P N ⟨e0.samples, e0.sr, e0.bpm, e0.seed⟩ c msgs inputs = .ok (sig (.at k i)) ∧
      play P N ⟨f0.samples, f0.sr, f0.bpm, f0.seed⟩ c msgs' inputs' = .ok (sig' (.at k' i')) := by
    by_cases hnotes : NotesInputs c
    · have hrr : refs' = refs.map ρ := by rw [r2', r2, htoldr]
      subst hrr
      have hqq := refPlaces_map hw hin (fun r hr => hrefs hnotes r ((r1 r).mp hr)) (fun r hr => hends hnotes r ((r1 r).mp hr)) r3 r3'
      subst hqq
      have hQ : ∀ q, q ∈ toldPlaces k i qs → q ∈ Q := by
        intro q hq
        rw [q2]
        unfold toldPlaces at hq
        rcases List.mem_append.mp hq with hq | hq
        · cases i with
          | zero => cases hq
          | succ j =>
            rw [List.mem_singleton.mp hq]
            exact .next (.prog hk) (List.getElem?_eq_some_iff.mp hi).1
        · obtain ⟨r, k', n, d1, d2, d3, rfl⟩ := refPlaces_flow r3 q hq
          exact .ref hk hi ((r1 r).mp d1) d2 d3
      have htold : toldPlaces k' i' (qs.map φ) = (toldPlaces k i qs).map φ := by
        rcases hleft with ⟨rfl, rfl⟩ | ⟨j, j', rfl, rfl, hj⟩
        · rfl
        · simp only [toldPlaces, List.map_append, List.map_cons, List.map_nil, hj]
      have hQ' : ∀ q, q ∈ toldPlaces k' i' (qs.map φ) → q ∈ Q.map φ := by
        intro q hq
        rw [htold] at hq
        obtain ⟨x, hx, rfl⟩ := List.mem_map.mp hq
        exact List.mem_map.mpr ⟨x, hQ x hx, rfl⟩
      refine ⟨(toldPlaces k i qs).map (fun q => Q.idxOf q), _, _, ?_, ?_, ?_, ?_, ?_, r9 hnotes, r9' hnotes⟩
      · intro j hj
        obtain ⟨q, hq, rfl⟩ := List.mem_map.mp hj
        rw [List.length_map]
        exact List.idxOf_lt_length_of_mem (hQ q hq)
      · intro g hg
        obtain ⟨_, _, rfl⟩ := List.mem_map.mp hg; trivial
      · intro g hg
        obtain ⟨_, _, rfl⟩ := List.mem_map.mp hg; trivial
      · intro _
        rw [told_nums h q3 hQ r4 r5]
        refine congrArg (List.map Msg.index) ?_
        rw [List.map_map]
        exact List.map_congr_left (fun q hq => (getD_idxOf (hQ q hq)).symm)
      · intro _
        rw [told_nums h' q3'' hQ' r4' r5', htold]
        refine congrArg (List.map Msg.index) ?_
        rw [List.map_map, List.map_map]
        exact List.map_congr_left (fun q hq => (getD_idxOf' (hQ q hq)).symm)
    · exact ⟨[], _, _, fun j hj => (by cases hj), wiring_isWiring, wiring_isWiring, fun h => absurd h hnotes,
        fun h => absurd h hnotes, r8, r8'⟩
  obtain ⟨sel, msgs, msgs', k1, k2, k3, k4, k5, k6, k7⟩ := key
  rw [hsame, hset] at k7
  have hlen : ∀ inp, inp ∈ inputs → ∀ e, e ∈ inp → BlockLen N e.2 := by
    intro inp hinp e he
    obtain ⟨t, ht⟩ := List.mem_iff_getElem?.mp hinp
    obtain ⟨bufs, b1, b2⟩ := hfed t inp ht
    have he2 : e.2 ∈ bufs := (List.of_mem_zip (b2.mem_iff.mp he)).2
    obtain ⟨s, hs, hso⟩ := forall₂_left (List.Forall₂.flip b1) _ he2
    obtain ⟨q, hq, rfl⟩ := List.mem_map.mp hs
    exact (h.shape q (hlq q hq) _ (List.mem_of_getElem? hso)).2
  have hl := h.length _ hlead
  have hl' := h'.length _ hlead'
  have hC12 : ∀ C, (∀ o, o ∈ sig (.at k i) → o.length = C) → C = 1 ∨ C = 2 := by
    intro C hC
    have : 0 < (sig (.at k i)).length := by rw [hl]; exact List.length_pos_iff.mpr hne
    obtain ⟨o, ho⟩ := List.exists_mem_of_length_pos this
    rw [← hC o ho]
    exact (h.shape _ hlead o ho).1
  by_cases hblock : BlockFree e0.samples c Q.length
  · have hbf2 : BlockFree (⟨e0.samples, e0.sr, e0.bpm, e0.seed⟩ : Env).samples c (Q.map ch).length := by
      rw [List.length_map]; exact hblock
    obtain ⟨ha, C, hC, hC'⟩ := play_agree hN hN (fun ⟨code, hc⟩ => by subst hc; exact hblock.elim) (.inr hbf2) k1 hw2 hnd hnd' (by simp) (by simp) hsig hsig' hag hfed hfed' k2 k3 k4 k5 k6 k7
    exact ⟨blocks_eq hN (by rw [hl, hl']) (fun o ho => ⟨hC o ho, (h.shape _ hlead o ho).2⟩)
      (fun o ho => ⟨hC' o ho, (h'.shape _ hlead' o ho).2⟩) ha, C, hC12 C hC, hC⟩
  · have hsigs : Q.map (fun q => sig' (ψ q)) = Q.map sig := List.map_congr_left (fun q hq => (ih q ((q2 q).mp hq)).1.symm)
    rw [hsigs] at hfed'
    obtain ⟨C, hC⟩ := play_channels hx hlen k6
    obtain ⟨d, rs, hd⟩ := play_makes k6
    have hnotes := (Renumber.makeNode_plain hbf hblock hd).2.2
    rw [k4 hnotes] at k6
    rw [k5 hnotes] at k7
    have := Renumber.play_renumber (P := P) hf hbf hblock hnd hnd' (by simp) (by simp) hfed hfed' (by rw [r6, hlen2, r6'])
      (fun j hj => by have := k1 j hj; simpa using this) k6
    rw [k7] at this
    exact ⟨(Except.ok.inj this).symm, C, hC12 C hC, hC⟩

theorem component_part {T : P.ext.State → Prop} (hx : ExtShape P N T) (hf : ExtFirst P) (hN : 0 < N) (hw : ProgWf B) (hin : ['~', 'i', 'n', 'p', 'u', 't'] ∉ B.map Prod.fst)
    (h : Sounds e0 e1 A b exts start sig) (h' : Sounds f0 f1 B b exts start' sig') (hne : exts ≠ [])
    (hset : (⟨f0.samples, f0.sr, f0.bpm, f0.seed⟩ : Env) = ⟨e0.samples, e0.sr, e0.bpm, e0.seed⟩) {φ ψ : Place → Place}
    {k k' : Name} {comps comps' : List Comp} {i i' : Nat} {c : Comp}
    (hk : (k, comps) ∈ A) (hi : comps[i]? = some c) (hlead : Leads Comp.refs A b (.at k i) .dest)
    (hk' : (k', comps') ∈ B) (hi' : comps'[i']? = some c) (hlead' : Leads Comp.refs B b (.at k' i') .dest) {old old' : List Comp}
    (hold : IsOld e0 k old) (hnew : ∀ o, o ∈ old → Comp.eq o c = false) (hold' : IsOld f0 k' old')
    (hnew' : ∀ o, o ∈ old' → Comp.eq o c = false)
    (hfree : ∀ Q : List Place, Q.Nodup → (∀ q, q ∈ Q ↔ Flow Comp.refs A b q (.at k i)) → ByRole c Q.length)
    (hrefs : NotesInputs c → ∀ r, r ∈ c.refs → '.' ∉ r)
    (hloop : ∀ q, Flow Comp.refs A b q (.at k i) → ¬ Leads Comp.refs A b (.at k i) q)
    (hloop' : ∀ q, Flow Comp.refs B b q (.at k' i') → ¬ Leads Comp.refs B b (.at k' i') q)
    (hflow : ∀ q', Flow Comp.refs B b q' (.at k' i') ↔ ∃ q, Flow Comp.refs A b q (.at k i) ∧ φ q = q')
    (hinj : ∀ q1 q2, Flow Comp.refs A b q1 (.at k i) → Flow Comp.refs A b q2 (.at k i) → φ q1 = φ q2 → q1 = q2)
    (hleft : (i = 0 ∧ i' = 0) ∨ ∃ j j', i = j + 1 ∧ i' = j' + 1 ∧ φ (.at k j) = .at k' j')
    (hends : NotesInputs c → ∀ r, r ∈ c.refs → ∀ n, Chain A b r (n + 1) → ∃ n', Chain B b r (n' + 1) ∧ φ (.at r n) = .at r n')
    (hψ : ∀ q, Flow Comp.refs A b q (.at k i) → Leads Comp.refs B b (ψ q) .dest)
    (hok : ∀ q, Flow Comp.refs A b q (.at k i) → ∀ o, o ∈ sig q → ∀ b, b ∈ o → ∀ x, x ∈ b → x.Ok f32)
    (hdup : (∀ q, Flow Comp.refs A b q (.at k i) → sig' (φ q) = sig' (ψ q)) ∨
      ((match c with | .delayn _ | .delayms _ => False | _ => True) ∧
        ∀ q, Flow Comp.refs A b q (.at k i) → List.Forall₂ Dup (sig' (ψ q)) (sig' (φ q))))
    (ih : ∀ q, Flow Comp.refs A b q (.at k i) → SameSig (sig q) (sig' (ψ q))) : SameSig (sig (.at k i)) (sig' (.at k' i')) :=
  component_part_to (ρ := id) hx hf hN hw hin h h' hne hset (fun _ _ _ => rfl) .rfl (by rw [List.map_id]) hk hi hlead hk' hi' hlead' hold hnew
    hold' hnew' hfree (fun hn r hr => ⟨hrefs hn r hr, hrefs hn r hr⟩) hloop hloop' hflow hinj hleft hends hψ hok hdup ih

theorem sideAt_dup {c s : Nat} {o o' : List Buf} (h : Dup o o') : sideAt c s o' = sideAt c s o := by
  rcases h with rfl | ⟨x, rfl, rfl⟩
  · rfl
  · simp only [sideAt]
    split <;> rfl

/-- The outputs are the same if the summands are. -/
theorem output_part (h : Sounds e0 e1 A b exts start sig) (h' : Sounds f0 f1 B b exts start' sig') {φ : Place → Place}
    (hflow : ∀ q', Flow Comp.refs B b q' .dest ↔ ∃ q, Flow Comp.refs A b q .dest ∧ φ q = q')
    (hinj : ∀ q1 q2, Flow Comp.refs A b q1 .dest → Flow Comp.refs A b q2 .dest → φ q1 = φ q2 → q1 = q2)
    (hok : ∀ q, Flow Comp.refs A b q .dest → ∀ o, o ∈ sig q → ∀ b, b ∈ o → ∀ x, x ∈ b → x.Ok f32)
    (htwo : ∀ Q : List Place, Q.Nodup → (∀ q, q ∈ Q → Flow Comp.refs A b q .dest) → Q.length ≤ 2)
    (hd : ∀ q, Flow Comp.refs A b q .dest → List.Forall₂ Dup (sig q) (sig' (φ q))) : sig .dest = sig' .dest := by
  have hl := h.length .dest (.refl _)
  have hl' := h'.length .dest (.refl _)
  apply List.ext_getElem (by rw [hl, hl'])
  intro t t1 t2
  have ht : t < exts.length := by rw [← hl]; exact t1
  obtain ⟨srcs, s1, s2, o, ho1, ho2, ho3⟩ := h.output _ ht
  obtain ⟨srcs', s1', s2', o', ho1', ho2', ho3'⟩ := h'.output _ ht
  rw [List.getElem?_eq_getElem t1] at ho1
  rw [List.getElem?_eq_getElem t2] at ho1'
  rw [Option.some.inj ho1, Option.some.inj ho1']
  have hnd : (srcs.map φ).Nodup := List.Nodup.map_on (fun x hx y hy hxy => hinj x y ((s2 x).mp hx) ((s2 y).mp hy) hxy) s1
  have hperm : (srcs.map φ).Perm srcs' := (List.perm_ext_iff_of_nodup hnd s1').mpr (fun q => by
    rw [s2', hflow, List.mem_map]
    exact ⟨fun ⟨a, h1, h2⟩ => ⟨a, (s2 a).mp h1, h2⟩, fun ⟨a, h1, h2⟩ => ⟨a, (s2 a).mpr h1, h2⟩⟩)
  have hsz := (h.shape .dest (.refl _) _ (List.getElem_mem t1)).2
  have hsz' := (h'.shape .dest (.refl _) _ (List.getElem_mem t2)).2
  rw [Option.some.inj ho1] at hsz
  rw [Option.some.inj ho1'] at hsz'
  apply List.ext_getElem (by omega)
  intro c c1 c2
  have l1 := hsz _ (List.getElem_mem c1)
  have l2 := hsz' _ (List.getElem_mem c2)
  apply List.ext_getElem (by omega)
  intro s z1 z2
  obtain ⟨vs, z, v1, v2, v3⟩ := ho3 c s (by omega) (by omega)
  obtain ⟨vs', z', v1', v2', v3'⟩ := ho3' c s (by omega) (by omega)
  rw [List.getElem?_eq_getElem c1] at v2
  cases v2
  rw [List.getElem?_eq_getElem c2] at v2'
  cases v2'
  rw [List.getElem?_eq_getElem z1] at v3
  rw [List.getElem?_eq_getElem z2] at v3'
  rw [Option.some.inj v3, Option.some.inj v3']
  let g : Place → Fl := fun q => (sideAt c s (((sig' q)[t]?).getD [])).getD (.fin 0)
  have e2 : vs' = srcs'.map g := by
    refine forall₂_map g v1' ?_
    rintro q v _ ⟨x, hx, hv⟩
    simp only [g, hx, Option.getD_some, hv]
  have e1 : vs = srcs.map (fun q => g (φ q)) := by
    refine forall₂_map _ v1 ?_
    rintro q v hq ⟨x, hx, hv⟩
    have hlen := (hd q ((s2 q).mp hq)).length_eq
    obtain ⟨x', hx'⟩ : ∃ x', (sig' (φ q))[t]? = some x' := by
      have := (List.getElem?_eq_some_iff.mp hx).1
      exact ⟨_, List.getElem?_eq_getElem (by omega)⟩
    obtain ⟨y, hy, hdup⟩ := forall₂_get (hd q ((s2 q).mp hq)) hx'
    rw [hx] at hy
    cases hy
    simp only [g, hx', Option.getD_some, sideAt_dup hdup, hv]
  refine flSum_two ?_ ?_ ?_
  · rw [e1, e2, show (fun q => g (φ q)) = g ∘ φ from rfl, ← List.map_map]
    exact hperm.map g
  · rw [e1, List.length_map]; exact htwo srcs s1 (fun q hq => (s2 q).mp hq)
  · intro v hv
    obtain ⟨q, hq, x, hx, hxv⟩ := forall₂_left (List.Forall₂.flip v1) v hv
    obtain ⟨bf, hb1, hb2⟩ := sideAt_mem hxv
    exact hok q ((s2 q).mp hq) x (List.mem_of_getElem? hx) bf hb1 v hb2

end

end Verif.Part
