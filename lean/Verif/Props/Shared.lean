import Verif.Lemmas.Part
import Verif.Lemmas.ScriptFirst
import Verif.Lemmas.Told
import Verif.Spec.Shared
import Verif.Props.Part
import Verif.Props.Rename

/-!
# Writing a chain once instead of twice

C87: a chain that is written twice can be written once and referred to from both places, without changing the sound.
-/

namespace Verif.Props.Shared
open Verif.Props Verif.Spec Verif.Parse Verif.Double Verif.Part Verif.Props.Parted Verif.Props.Rename

/-! ### Helpers -/

theorem num_congr {ρ ρ' : Name → Name} (p : NumRef) (h : ∀ x, x ∈ p.refs → ρ x = ρ' x) : Spec.Rename.num ρ p = Spec.Rename.num ρ' p := by
  cases p with
  | num _ => rfl
  | ref r => simp only [Spec.Rename.num, h r (by simp [NumRef.refs])]

theorem nat_congr {ρ ρ' : Name → Name} (p : NatRef) (h : ∀ x, x ∈ p.refs → ρ x = ρ' x) : Spec.Rename.nat ρ p = Spec.Rename.nat ρ' p := by
  cases p with
  | nat _ => rfl
  | ref r => simp only [Spec.Rename.nat, h r (by simp [NatRef.refs])]

theorem comp_congr {ρ ρ' : Name → Name} (c : Comp) (h : ∀ x, x ∈ c.refs → ρ x = ρ' x) : Spec.Rename.comp ρ c = Spec.Rename.comp ρ' c := by
  cases c with
  | delayn p => simp only [Spec.Rename.comp, nat_congr p h]
  | delayms p | imp p | tri p | squ p | saw p | onepole p | sin p | mul p | add p | pan p | bd p | sn p | hh p =>
    simp only [Spec.Rename.comp, num_congr p h]
  | rhpf p q => simp only [Spec.Rename.comp, num_congr p h]
  | apfmsgain p q => simp only [Spec.Rename.comp, num_congr p h]
  | seq es =>
    simp only [Spec.Rename.comp, Comp.seq.injEq]
    refine List.map_congr_left (fun e he => ?_)
    rw [nat_congr e.2 (fun x hx => h x (List.mem_flatMap.mpr ⟨e, he, hx⟩))]
  | arrange es =>
    simp only [Spec.Rename.comp, Comp.arrange.injEq]
    exact List.map_congr_left (fun e he => num_congr e (fun x hx => h x (List.mem_flatMap.mpr ⟨e, he, hx⟩)))
  | mix ns =>
    simp only [Spec.Rename.comp, Comp.mix.injEq]
    exact List.map_congr_left (fun e he => h e he)
  | lpf p q =>
    cases p with
    | ref r => simp only [Spec.Rename.comp, h r (by simp [Comp.refs, NumRef.refs])]
    | _ => rfl
  | balance x y => simp only [Spec.Rename.comp, h x (by simp [Comp.refs]), h y (by simp [Comp.refs])]
  | get r => simp only [Spec.Rename.comp, h r (by simp [Comp.refs])]
  | _ => rfl

theorem comp_id (c : Comp) : Spec.Rename.comp id c = c := by
  have hn : ∀ p, Spec.Rename.num id p = p := by intro p; cases p <;> rfl
  have hn' : ∀ p, Spec.Rename.nat id p = p := by intro p; cases p <;> rfl
  cases c with
  | delayn p => simp only [Spec.Rename.comp, hn']
  | lpf p q => cases p <;> rfl
  | seq es => simp [Spec.Rename.comp, hn']
  | arrange es =>
    simp only [Spec.Rename.comp, Comp.arrange.injEq]
    exact (List.map_congr_left (fun e _ => hn e)).trans (List.map_id _)
  | mix ns => simp [Spec.Rename.comp]
  | _ => simp only [Spec.Rename.comp, hn, id]

theorem notes_comp {ρ : Name → Name} (c : Comp) : NotesInputs (Spec.Rename.comp ρ c) ↔ NotesInputs c := by
  cases c <;> first | exact .rfl | (rename_i p q; cases p <;> exact .rfl)

theorem byRole_comp {ρ : Name → Name} {c : Comp} {n : Nat} : ByRole (Spec.Rename.comp ρ c) n ↔ ByRole c n := by
  cases c <;> first | exact .rfl | (rename_i p q; cases p <;> exact .rfl)

theorem told_comp {ρ : Name → Name} (h : ∀ a b, ρ a = ρ b → a = b) (c : Comp) : toldRefs (Spec.Rename.comp ρ c) = (toldRefs c).map ρ := by
  rw [← makeRefs_told, ← makeRefs_told, makeRefs_to h]

/-- On the references of a component, if it does not refer to both, the replacement is a renaming. -/
theorem instead_renames {r s : Name} (c : Comp) (h : r ∈ c.refs → s ∉ c.refs) :
    ∃ ρ : Name → Name, (∀ a b, ρ a = ρ b → a = b) ∧ ∀ x, x ∈ c.refs → instead s r x = ρ x := by
  by_cases hs : s ∈ c.refs
  · have hr : r ∉ c.refs := fun hr => h hr hs
    refine ⟨fun x => if x = s then r else if x = r then s else x, ?_, ?_⟩
    · intro a b
      grind
    · intro x hx
      have : x ≠ r := fun he => hr (he ▸ hx)
      simp only [instead]
      rw [if_neg this]
  · refine ⟨id, fun _ _ h => h, fun x hx => ?_⟩
    have : x ≠ s := fun he => hs (he ▸ hx)
    simp only [instead]
    rw [if_neg this]
    rfl

/-- Where a place of the program with both chains is found in the other one. -/
def foundAt (s r : Name) : Place → Place
  | .at j i => .at (instead s r j) i
  | p => p

section
variable {A B : Ast Comp} {r s : Name} {xs : List Comp} {b : Bool}

theorem instead_s {r s : Name} : instead s r s = r := by simp [instead]

theorem instead_ne {r s j : Name} (h : j ≠ s) : instead s r j = j := by simp [instead, h]

theorem shared_comp (h : SharedChain A B r s xs) (hw : ProgWf A) {j : Name} {comps : List Comp} (hj : (j, comps) ∈ A) :
    (instead s r j, comps.map (Spec.Rename.comp (instead s r))) ∈ B := by
  rw [h.chains]
  by_cases hs : j = s
  · subst hs
    have := Option.some.inj ((lookup_of_mem hw.1 hj).symm.trans (lookup_of_mem hw.1 h.second))
    subst this
    rw [instead_s]
    exact ⟨h.different, _, h.first, rfl⟩
  · rw [instead_ne hs]
    exact ⟨hs, _, hj, rfl⟩

theorem shared_chain (h : SharedChain A B r s xs) (hw : ProgWf A) (hin : ['~', 'i', 'n', 'p', 'u', 't'] ∉ A.map Prod.fst) {j : Name} {n : Nat} (hc : Chain A b j n) :
    Chain B b (instead s r j) n := by
  cases hc with
  | prog hj =>
    have := Chain.prog (withInput := b) (shared_comp h hw hj)
    rwa [List.length_map] at this
  | input hb =>
    rw [instead_ne (fun he => hin (List.mem_map.mpr ⟨_, h.second, he.symm⟩))]
    exact .input hb

theorem shared_key (h : SharedChain A B r s xs) {j : Name}
    (hj : j ∈ B.map Prod.fst ∨ (b = true ∧ j = ['~', 'i', 'n', 'p', 'u', 't'])) :
    j ∈ A.map Prod.fst ∨ (b = true ∧ j = ['~', 'i', 'n', 'p', 'u', 't']) := by
  rcases hj with hj | hj
  · obtain ⟨⟨j, comps⟩, hj', rfl⟩ := List.mem_map.mp hj
    obtain ⟨_, c', h1, _⟩ := (h.chains _ _).mp hj'
    exact .inl (List.mem_map.mpr ⟨_, h1, rfl⟩)
  · exact .inr hj

theorem instead_plain (h : SharedChain A B r s xs) {x : Name} (hx : '.' ∉ x) : '.' ∉ instead s r x := by
  unfold instead
  split
  · exact h.plain
  · exact hx

/-- What a component hears. -/
theorem shared_flow (h : SharedChain A B r s xs) (hw : ProgWf A) (hwB : ProgWf B)
    (hin : ['~', 'i', 'n', 'p', 'u', 't'] ∉ A.map Prod.fst) (hinB : ['~', 'i', 'n', 'p', 'u', 't'] ∉ B.map Prod.fst) (hp : Parted.Plain A b)
    {j : Name} {comps : List Comp} {i : Nat} {c : Comp} (hj : (j, comps) ∈ A) (hi : comps[i]? = some c) (q' : Place) :
    Flow Comp.refs B b q' (.at (instead s r j) i) ↔ ∃ q, Flow Comp.refs A b q (.at j i) ∧ foundAt s r q = q' := by
  have h2 := shared_comp h hw hj
  have h3 : (comps.map (Spec.Rename.comp (instead s r)))[i]? = some (Spec.Rename.comp (instead s r) c) := by
    rw [List.getElem?_map, hi]; rfl
  rw [flow_into hwB h2 h3, comp_refs]
  have hmem := List.mem_of_getElem? hi
  constructor
  · rintro (⟨a, rfl, rfl⟩ | ⟨r', k', n', g1, g2, g3, rfl⟩)
    · exact ⟨_, (flow_into hw hj hi).mpr (.inl ⟨a, rfl, rfl⟩), rfl⟩
    · obtain ⟨x, hx, rfl⟩ := List.mem_map.mp g1
      obtain ⟨d1, d2⟩ := hp _ _ _ _ hj hmem hx
      have := means_plain g2 (instead_plain h d1)
      subst this
      obtain ⟨n, hn⟩ := key_chain hw d2
      have := chain_unique hwB hinB (shared_chain h hw hin hn) g3
      cases this
      exact ⟨_, (flow_into hw hj hi).mpr (.inr ⟨x, x, _, hx, .named d1, hn, rfl⟩), rfl⟩
  · rintro ⟨q, hq, rfl⟩
    rw [flow_into hw hj hi] at hq
    rcases hq with ⟨a, rfl, rfl⟩ | ⟨r', k', n, g1, g2, g3, rfl⟩
    · exact .inl ⟨a, rfl, rfl⟩
    · obtain ⟨d1, d2⟩ := hp _ _ _ _ hj hmem g1
      have := means_plain g2 d1
      subst this
      exact .inr ⟨_, _, n, List.mem_map.mpr ⟨_, g1, rfl⟩, .named (instead_plain h d1), shared_chain h hw hin g3, rfl⟩

/-- What the output hears. -/
theorem shared_out (h : SharedChain A B r s xs) (hw : ProgWf A) (hwB : ProgWf B)
    (hin : ['~', 'i', 'n', 'p', 'u', 't'] ∉ A.map Prod.fst) (hinB : ['~', 'i', 'n', 'p', 'u', 't'] ∉ B.map Prod.fst) (q' : Place) :
    Flow Comp.refs B b q' .dest ↔ ∃ q, Flow Comp.refs A b q .dest ∧ foundAt s r q = q' := by
  constructor
  · intro hf
    cases hf with
    | @out j n hc ht =>
      have hjs : j ≠ s := fun he => ht (he ▸ h.silent)
      obtain ⟨n0, hn0⟩ := key_chain hw (shared_key h (chain_key hc))
      have h1 := shared_chain h hw hin hn0
      rw [instead_ne hjs] at h1
      have := chain_unique hwB hinB h1 hc
      cases this
      exact ⟨_, .out hn0 ht, by simp only [foundAt, instead_ne hjs]⟩
  · rintro ⟨q, hf, rfl⟩
    cases hf with
    | @out j n hc ht =>
      have hjs : j ≠ s := fun he => ht (by rw [he]; exact h.silent)
      have := shared_chain h hw hin hc
      simp only [foundAt]
      refine .out this ?_
      rwa [instead_ne hjs]

/-- A component does not hear both chains. -/
theorem shared_inj (h : SharedChain A B r s xs) (hw : ProgWf A)
    (hin : ['~', 'i', 'n', 'p', 'u', 't'] ∉ A.map Prod.fst) (hp : Parted.Plain A b)
    {j : Name} {comps : List Comp} {i : Nat} {c : Comp} (hj : (j, comps) ∈ A) (hi : comps[i]? = some c) {q1 q2 : Place}
    (h1 : Flow Comp.refs A b q1 (.at j i)) (h2 : Flow Comp.refs A b q2 (.at j i)) (he : foundAt s r q1 = foundAt s r q2) : q1 = q2 := by
  have hmem := List.mem_of_getElem? hi
  have hilt := (List.getElem?_eq_some_iff.mp hi).1
  -- a reference to one chain in the other is to its end
  have hend : ∀ {x : Name} {n : Nat}, (x = r ∨ x = s) → Chain A b x (n + 1) → n + 1 = xs.length := by
    rintro x n (rfl | rfl) hc
    · exact chain_unique hw hin hc (.prog h.first)
    · exact chain_unique hw hin hc (.prog h.second)
  have hlen : (j = r ∨ j = s) → comps.length = xs.length := by
    rintro (rfl | rfl)
    · exact chain_unique hw hin (.prog (withInput := b) hj) (.prog h.first)
    · exact chain_unique hw hin (.prog (withInput := b) hj) (.prog h.second)
  have hins : ∀ {x y : Name}, instead s r x = instead s r y → x ≠ y → (x = r ∧ y = s) ∨ (x = s ∧ y = r) := by
    intro x y; unfold instead; grind
  have hnb := h.notBoth j comps c hj hmem
  rw [flow_into hw hj hi] at h1 h2
  rcases h1 with ⟨a1, rfl, rfl⟩ | ⟨x1, k1, n1, g1, g2, g3, rfl⟩ <;> rcases h2 with ⟨a2, e2, rfl⟩ | ⟨x2, k2, n2, g1', g2', g3', rfl⟩
  · have : a1 = a2 := by omega
    subst this; rfl
  · have := means_plain g2' (hp _ _ _ _ hj hmem g1').1
    subst this
    simp only [foundAt, Place.at.injEq] at he
    by_cases hne : j = k2
    · rw [hne, he.2]
    · have := hins he.1 hne
      have e1 := hend (by grind) g3'
      have e2 := hlen (by grind)
      omega
  · have := means_plain g2 (hp _ _ _ _ hj hmem g1).1
    subst this
    simp only [foundAt, Place.at.injEq] at he
    subst e2
    by_cases hne : k1 = j
    · rw [hne, he.2]
    · have := hins he.1 hne
      have e1 := hend (by grind) g3
      have e2 := hlen (by grind)
      omega
  · have := means_plain g2 (hp _ _ _ _ hj hmem g1).1
    subst this
    have := means_plain g2' (hp _ _ _ _ hj hmem g1').1
    subst this
    simp only [foundAt, Place.at.injEq] at he
    by_cases hne : k1 = k2
    · rw [hne, he.2]
    · rcases hins he.1 hne with ⟨rfl, rfl⟩ | ⟨rfl, rfl⟩
      · exact absurd g1' (hnb g1)
      · exact absurd g1 (hnb g1')

theorem shared_heard (h : SharedChain A B r s xs) (hw : ProgWf A) (hwB : ProgWf B)
    (hin : ['~', 'i', 'n', 'p', 'u', 't'] ∉ A.map Prod.fst) (hinB : ['~', 'i', 'n', 'p', 'u', 't'] ∉ B.map Prod.fst) (hp : Parted.Plain A b)
    {q p : Place} (hf : Flow Comp.refs A b q p) : Flow Comp.refs B b (foundAt s r q) (foundAt s r p) := by
  have hcomp : ∀ j comps i c, (j, comps) ∈ A → comps[i]? = some c → p = .at j i → Flow Comp.refs B b (foundAt s r q) (foundAt s r p) := by
    rintro j comps i c hj hi rfl
    exact (shared_flow h hw hwB hin hinB hp hj hi _).mpr ⟨q, hf, rfl⟩
  have hf' := hf
  cases hf with
  | next hc hi =>
    cases hc with
    | prog hk => exact hcomp _ _ _ _ hk (List.getElem?_eq_getElem hi) rfl
    | input _ => omega
  | out _ _ => exact (shared_out h hw hwB hin hinB _).mpr ⟨_, hf', rfl⟩
  | ref hk hi _ _ _ => exact hcomp _ _ _ _ hk hi rfl

theorem shared_leads (h : SharedChain A B r s xs) (hw : ProgWf A) (hwB : ProgWf B)
    (hin : ['~', 'i', 'n', 'p', 'u', 't'] ∉ A.map Prod.fst) (hinB : ['~', 'i', 'n', 'p', 'u', 't'] ∉ B.map Prod.fst) (hp : Parted.Plain A b)
    {q p : Place} (hl : Leads Comp.refs A b q p) : Leads Comp.refs B b (foundAt s r q) (foundAt s r p) := by
  induction hl with
  | refl => exact .refl _
  | step hf _ ih => exact .step (shared_heard h hw hwB hin hinB hp hf) ih

theorem dedup_map {f : Name → Name} {l : List Name} (h : ∀ x, x ∈ l → ∀ y, y ∈ l → f x = f y → x = y) :
    (l.map f).dedup.length = l.dedup.length := by
  have hnd : (l.dedup.map f).Nodup :=
    List.Nodup.map_on (fun x hx y hy => h x (List.mem_dedup.mp hx) y (List.mem_dedup.mp hy)) (List.nodup_dedup l)
  have : (l.map f).dedup.Perm (l.dedup.map f) := (List.perm_ext_iff_of_nodup (List.nodup_dedup _) hnd).mpr (fun x => by simp)
  rw [this.length_eq, List.length_map]

/-- The shorter program does with its signals what the text says if the longer one does. -/
theorem shared_wise (h : SharedChain A B r s xs) (hw : ProgWf A) (hwB : ProgWf B)
    (hin : ['~', 'i', 'n', 'p', 'u', 't'] ∉ A.map Prod.fst) (hs : Wise ByRole A b) : Wise ByRole B b := by
  refine ⟨?_, ?_, ?_⟩
  · obtain ⟨rank, hr⟩ := hs.order
    refine ⟨fun j => if j = r then min (rank r) (rank s) else rank j, ?_⟩
    intro j comps c r' hj hc hr'
    obtain ⟨hjs, comps0, hj0, rfl⟩ := (h.chains _ _).mp hj
    obtain ⟨c0, hc0, rfl⟩ := List.mem_map.mp hc
    rw [comp_refs] at hr'
    obtain ⟨x, hx, rfl⟩ := List.mem_map.mp hr'
    obtain ⟨a1, a2, a3⟩ := hr j comps0 c0 x hj0 hc0 hx
    refine ⟨instead_plain h a1, ?_, ?_⟩
    · rcases a2 with a2 | ⟨hb, rfl⟩
      · obtain ⟨⟨x, cs⟩, hx', rfl⟩ := List.mem_map.mp a2
        exact .inl (List.mem_map.mpr ⟨_, shared_comp h hw hx', rfl⟩)
      · refine .inr ⟨hb, instead_ne (fun he => hin (List.mem_map.mpr ⟨_, h.second, he.symm⟩))⟩
    · show (if _ = _ then _ else _) < (if _ = _ then _ else _)
      have hmin1 := Nat.min_le_left (rank r) (rank s)
      have hmin2 := Nat.min_le_right (rank r) (rank s)
      have hbnd : (if instead s r x = r then min (rank r) (rank s) else rank (instead s r x)) ≤ rank x := by
        by_cases hxs : x = s
        · subst hxs; rw [instead_s, if_pos rfl]; exact hmin2
        · rw [instead_ne hxs]
          by_cases hxr : x = r
          · subst hxr; rw [if_pos rfl]; exact hmin1
          · rw [if_neg hxr]
      by_cases hjr : j = r
      · subst hjr
        rw [if_pos rfl]
        have := Option.some.inj ((lookup_of_mem hw.1 hj0).symm.trans (lookup_of_mem hw.1 h.first))
        subst this
        have a4 := (hr s _ c0 x h.second hc0 hx).2.2
        have : rank x < min (rank j) (rank s) := Nat.lt_min.mpr ⟨a3, a4⟩
        omega
      · rw [if_neg hjr]; omega
  · intro j comps i c hj hi
    obtain ⟨hjs, comps0, hj0, rfl⟩ := (h.chains _ _).mp hj
    rw [List.getElem?_map] at hi
    obtain ⟨c0, hc0, rfl⟩ := Option.map_eq_some_iff.mp hi
    rw [byRole_comp, comp_refs]
    obtain ⟨ρ, ρ1, ρ2⟩ := instead_renames c0 (h.notBoth _ _ _ hj0 (List.mem_of_getElem? hc0))
    rw [dedup_map (fun x hx y hy hxy => ρ1 _ _ (by rw [← ρ2 x hx, ← ρ2 y hy, hxy]))]
    exact hs.parts j comps0 i c0 hj0 hc0
  · refine Nat.le_trans ?_ hs.output
    have hnd : ((B.filter (fun e => !decide ('~' ∈ e.1))).map Prod.fst).Nodup :=
      List.Nodup.sublist (List.Sublist.map _ List.filter_sublist) hwB.1
    have := (List.subperm_of_subset hnd (l₂ := (A.filter (fun e => !decide ('~' ∈ e.1))).map Prod.fst) (by
      intro j hj
      obtain ⟨⟨j, comps⟩, h1, rfl⟩ := List.mem_map.mp hj
      obtain ⟨h1, h2⟩ := List.mem_filter.mp h1
      obtain ⟨hjs, comps0, hj0, rfl⟩ := (h.chains _ _).mp h1
      exact List.mem_map.mpr ⟨_, List.mem_filter.mpr ⟨hj0, h2⟩, rfl⟩)).length_le
    simpa using this

end

section
variable {P : Plat} {N : Nat} {parse parse' : Name → Except Panic (Option (Ast Comp))}
  {e0 e1 : Engine (glicol P N parse)} {f0 f1 : Engine (glicol P N parse')} {A B : Ast Comp} {b : Bool}
  {exts : List (List Buf)} {start start' : Place → List Buf} {sig sig' : Place → List (List Buf)}
  {r s : Name} {xs : List Comp}

/-- The programs sound the same. -/
theorem shared_programs {T : P.ext.State → Prop} (hx : ExtShape P N T) (hxf : ExtFirst P) (hm : Libm32 P.libm) (hN : 0 < N) (hw : ProgWf A) (hwB : ProgWf B)
    (hin : ['~', 'i', 'n', 'p', 'u', 't'] ∉ A.map Prod.fst) (hinB : ['~', 'i', 'n', 'p', 'u', 't'] ∉ B.map Prod.fst)
    (h : Sounds e0 e1 A b exts start sig) (h' : Sounds f0 f1 B b exts start' sig')
    (hset : (⟨f0.samples, f0.sr, f0.bpm, f0.seed⟩ : Env) = ⟨e0.samples, e0.sr, e0.bpm, e0.seed⟩)
    (hsg : ∀ e, e ∈ A → ∀ c, c ∈ e.2 → c.Sg) (ha : AllNew e0 A) (ha' : AllNew f0 B)
    (hs : Wise ByRole A b) (hp : SharedChain A B r s xs)
    (hext : RefersToInput A → ∀ x, x ∈ exts → 2 ≤ x.length ∧ ∀ b, b ∈ x.take 2 → ∀ v, v ∈ b → v.Ok f32) :
    sig .dest = sig' .dest := by
  by_cases hne : exts = []
  · subst hne
    rw [List.length_eq_zero_iff.mp (h.length .dest (.refl _)), List.length_eq_zero_iff.mp (h'.length .dest (.refl _))]
  have hpl : Parted.Plain A b := Parted.plain_of hs
  have hsB := shared_wise hp hw hwB hin hs
  have hfree := wise_free hw hin hs
  have hfreeB := wise_free hwB hinB hsB
  have sgA := places_single hxf hm h hne hsg ha hfree (fun hl => hext (Parted.leads_input hin hpl hl))
  have hlB : ∀ q p, Flow Comp.refs A b q p → Leads Comp.refs A b p .dest → Leads Comp.refs B b (foundAt s r q) .dest :=
    fun q p hf hl => shared_leads (p := .dest) hp hw hwB hin hinB hpl (.step hf hl)
  obtain ⟨rank, hrank⟩ := rank_exists hfree.forward
  have key : ∀ (n : Nat) q p, rank q < n → Flow Comp.refs A b q p → Leads Comp.refs A b p .dest →
      SameSig (sig q) (sig' (foundAt s r q)) := by
    intro n
    induction n with
    | zero => intro q p h; omega
    | succ n ih =>
      intro q p hn hf hd1
      have hlead : Leads Comp.refs A b q .dest := .step hf hd1
      obtain ⟨j, i, n0, rfl, hc, hi⟩ := source_at hf
      cases hc with
      | @prog _ comps hj =>
        have hci := List.getElem?_eq_getElem hi
        have hmem : comps[i] ∈ comps := List.getElem_mem hi
        have p2 := shared_comp hp hw hj
        obtain ⟨ρ, ρ1, ρ2⟩ := instead_renames comps[i] (hp.notBoth _ _ _ hj hmem)
        have p3 : (comps.map (Spec.Rename.comp (instead s r)))[i]? = some (Spec.Rename.comp ρ comps[i]) := by
          rw [List.getElem?_map, hci, ← comp_congr _ ρ2]; rfl
        obtain ⟨old, o1, o2⟩ := ha _ _ hj
        obtain ⟨old', o1', o2'⟩ := ha' _ _ p2
        have hflow := shared_flow hp hw hwB hin hinB hpl hj hci
        have hlead' : Leads Comp.refs B b (.at (instead s r j) i) .dest := hlB _ _ hf hd1
        refine component_part_to hx hxf hN hwB hinB h h' hne hset (φ := foundAt s r) (ψ := foundAt s r) (ρ := ρ)
          (fun _ _ _ => play_to ρ1 ..) (notes_comp _) (told_comp ρ1 _) hj hci hlead p2 p3 hlead' o1
          (o2 _ hmem) o1' (o2' _ (List.mem_of_getElem? p3)) (hfree.parts j comps i _ hj hci hlead) ?_
          (fun q hq => hfree.forward q _ hq hlead) (fun q hq => hfreeB.forward q _ hq hlead') hflow
          (fun q1 q2 h1 h2 he => shared_inj hp hw hin hpl hj hci h1 h2 he) ?_ ?_ (fun q hq => hlB q _ hq hlead)
          (fun q hq => sgA q _ hq hlead) (.inl (fun q hq => rfl)) ?_
        · intro _ x hx
          have := (hpl _ _ _ _ hj hmem hx).1
          exact ⟨this, ρ2 x hx ▸ instead_plain hp this⟩
        · cases i with
          | zero => exact .inl ⟨rfl, rfl⟩
          | succ i => exact .inr ⟨i, i, rfl, rfl, rfl⟩
        · intro _ x hx n1 hc1
          rw [← ρ2 x hx]
          exact ⟨n1, shared_chain hp hw hin hc1, rfl⟩
        · intro q hq
          have := hrank q _ hq hlead
          exact ih q _ (by omega) hq hlead
      | input hb =>
        have : i = 0 := by omega
        subst this
        have hne' : ['~', 'i', 'n', 'p', 'u', 't'] ≠ s := fun he => hin (List.mem_map.mpr ⟨_, hp.second, he.symm⟩)
        have hmv : foundAt s r (.at ['~', 'i', 'n', 'p', 'u', 't'] 0) = .at ['~', 'i', 'n', 'p', 'u', 't'] 0 := by
          simp only [foundAt]; rw [instead_ne hne']
        have hlead' := hlB _ _ hf hd1
        rw [hmv] at hlead' ⊢
        have hi2 := hext (Parted.leads_input hin hpl hlead)
        rw [input_signal h hlead (fun x hx => (hi2 x hx).1), input_signal h' hlead' (fun x hx => (hi2 x hx).1)]
        have h2 : ∀ o, o ∈ exts.map (List.take 2) → o.length = 2 := by
          intro o ho
          obtain ⟨x, hx, rfl⟩ := List.mem_map.mp ho
          have := (hi2 x hx).1
          simp; omega
        exact ⟨rfl, 2, .inr rfl, h2⟩
  refine output_part h h' (shared_out hp hw hwB hin hinB) ?_ (fun q hq => sgA q _ hq (.refl _)) hfree.output ?_
  · intro q1 q2 h1 h2 he
    cases h1 with
    | @out j1 n1 c1 t1 =>
      cases h2 with
      | @out j2 n2 c2 t2 =>
        have d1 : j1 ≠ s := fun he => t1 (by rw [he]; exact hp.silent)
        have d2 : j2 ≠ s := fun he => t2 (by rw [he]; exact hp.silent)
        simpa only [foundAt, instead_ne d1, instead_ne d2] using he
  · intro q hq
    rw [(key (rank q + 1) q _ (Nat.lt_succ_self _) hq (.refl _)).1]
    exact dup_refl _

end

end Verif.Props.Shared

namespace Verif.Props
open Verif.Spec Verif.Parse

variable {P : Plat} {N : Nat}

/-- **C87** (partial). Two texts, one with the same chain written twice, `r: xs` and `s: xs`, the other with this chain written once and
the references to `s` replaced by references to `r` (`SharedChain`), sent to two engines with the same settings: they play the same
blocks, whatever the iteration orders of the maps in either engine. The components are new to the engines. No component refers to both
chains: otherwise it is false (`c87_both_counterexample`). Missing: feedback, references to several chains at once
(as `~a..`), sums of more than two chains, components kept from an earlier text. -/
theorem c87_shared_partial {fe : Name → Option Fl} {T : P.ext.State → Prop} (hx : ExtShape P N T) (hxf : ExtFirst P) (hm : Libm32 P.libm) (hN : 0 < N)
    {e0 e1 e2 f0 f1 f2 : Engine (glicol P N (Parse.parse fe))}
    (hr : CleanReach _ e0) (hr' : CleanReach _ f0) (heN : e0.N = N) (hfN : f0.N = N)
    (hset : (⟨f0.samples, f0.sr, f0.bpm, f0.seed⟩ : Env) = ⟨e0.samples, e0.sr, e0.bpm, e0.seed⟩) (τ σ : TableOrder) (code code' : Name)
    (copied shared : Ast Comp) (hparse : Parse.parse fe code = .ok (some copied)) (hparse' : Parse.parse fe code' = .ok (some shared))
    {r s : Name} {xs : List Comp} (hp : SharedChain copied shared r s xs)
    (hc : CleanProg (glicol P N (Parse.parse fe)) copied) (hc' : CleanProg (glicol P N (Parse.parse fe)) shared)
    (ha : AllNew e0 copied) (ha' : AllNew f0 shared) (hu : e0.updateWithCode τ code = .ok (e1, none))
    (hu' : f0.updateWithCode σ code' = .ok (f1, none)) (b : Bool)
    (hb : b = true ↔ ['~', 'i', 'n', 'p', 'u', 't'] ∈ e1.index.map Prod.fst)
    (hb' : b = true ↔ ['~', 'i', 'n', 'p', 'u', 't'] ∈ f1.index.map Prod.fst)
    (hs : Wise ByRole copied b)
    (steps steps' : List (HashOrder × List Buf)) (outs outs' : List (List Buf)) (hin : steps.map Prod.snd = steps'.map Prod.snd)
    (hext : RefersToInput copied → ∀ x, x ∈ steps.map Prod.snd → 2 ≤ x.length ∧ ∀ b, b ∈ x.take 2 → ∀ v, v ∈ b → v.Ok f32)
    (h : Plays e1 steps e2 outs) (h' : Plays f1 steps' f2 outs') : outs = outs' := by
  obtain ⟨start, sig, rfl, hs1⟩ := c49_texts_sound_as_written_partial hx hr heN τ code copied hparse hc hu steps outs h b hb
  obtain ⟨start', sig', rfl, hs2⟩ := c49_texts_sound_as_written_partial hx hr' hfN σ code' shared hparse' hc' hu' steps' outs' h' b hb'
  rw [← hin] at hs2
  exact Shared.shared_programs hx hxf hm hN (glicol_parserWf P N fe code copied hparse) (glicol_parserWf P N fe code' shared hparse') hc.noInput
    hc'.noInput hs1 hs2 hset (Parse.sg_parse hparse) ha ha' hs hp hext

/-! ### Examples -/

/-- Scripts run in the languages for examples. -/
def scriptedPlat : Plat := ⟨notePlat.libm, .ident, scripts Spec.Demo.fasteval Spec.Demo.rhai⟩

def copiedText : Name := c!"~a: imp 22050 >> meta `echo` >> mul 3\n~b: imp 22050 >> meta `echo` >> mul 3\no: ~a >> add 1\np: constsig 4 >> mul ~b"

def sharedText : Name := c!"~a: imp 22050 >> meta `echo` >> mul 3\no: ~a >> add 1\np: constsig 4 >> mul ~a"

def copiedProg : Ast Comp :=
  [(c!"~a", [.imp (.num (.fin 22050)), .metaScript c!"echo", .mul (.num (.fin 3))]),
   (c!"~b", [.imp (.num (.fin 22050)), .metaScript c!"echo", .mul (.num (.fin 3))]),
   (c!"o", [.get c!"~a", .add (.num (.fin 1))]), (c!"p", [.constsig (.fin 4), .mul (.ref c!"~b")])]

def sharedProg : Ast Comp :=
  [(c!"~a", [.imp (.num (.fin 22050)), .metaScript c!"echo", .mul (.num (.fin 3))]),
   (c!"o", [.get c!"~a", .add (.num (.fin 1))]), (c!"p", [.constsig (.fin 4), .mul (.ref c!"~a")])]

theorem copied_shared : SharedChain copiedProg sharedProg c!"~a" c!"~b" [.imp (.num (.fin 22050)), .metaScript c!"echo", .mul (.num (.fin 3))] := by
  refine ⟨by simp [copiedProg], by simp [copiedProg], by decide, by decide, by decide, ?_, ?_⟩
  · intro j comps
    constructor
    · intro h
      simp only [sharedProg, List.mem_cons, Prod.mk.injEq, List.not_mem_nil, or_false] at h
      rcases h with ⟨rfl, rfl⟩ | ⟨rfl, rfl⟩ | ⟨rfl, rfl⟩
      · exact ⟨by decide, _, by simp [copiedProg]; exact rfl, by decide⟩
      · exact ⟨by decide, _, by simp [copiedProg]; exact rfl, by decide⟩
      · exact ⟨by decide, _, by simp [copiedProg]; exact rfl, by decide⟩
    · rintro ⟨h1, comps', h2, rfl⟩
      simp only [copiedProg, List.mem_cons, Prod.mk.injEq, List.not_mem_nil, or_false] at h2
      rcases h2 with ⟨rfl, rfl⟩ | ⟨rfl, rfl⟩ | ⟨rfl, rfl⟩ | ⟨rfl, rfl⟩
      · exact List.mem_of_getElem? (i := 0) (by decide)
      · exact absurd rfl h1
      · exact List.mem_of_getElem? (i := 1) (by decide)
      · exact List.mem_of_getElem? (i := 2) (by decide)
  · intro j comps c h1 h2 h3
    exact (by decide : ∀ e ∈ copiedProg, ∀ c ∈ e.2, c!"~a" ∈ c.refs → c!"~b" ∉ c.refs) (j, comps) h1 c h2 h3

theorem copiedProg_wise : Wise ByRole copiedProg true := by
  refine ⟨⟨fun k => if k = c!"~a" ∨ k = c!"~b" then 0 else 1, ?_⟩, ?_, by decide⟩
  · intro k comps c r h1 h2 h3
    have := (by decide : ∀ e ∈ copiedProg, ∀ c ∈ e.2, ∀ r ∈ c.refs, '.' ∉ r ∧ r ∈ copiedProg.map Prod.fst ∧
      (if r = c!"~a" ∨ r = c!"~b" then 0 else 1) < (if e.1 = c!"~a" ∨ e.1 = c!"~b" then 0 else 1)) (k, comps) h1 c h2 r h3
    exact ⟨this.1, .inl this.2.1, this.2.2⟩
  · intro k comps i c h1 h2
    simp only [copiedProg, List.mem_cons, Prod.mk.injEq, List.not_mem_nil, or_false] at h1
    rcases h1 with ⟨rfl, rfl⟩ | ⟨rfl, rfl⟩ | ⟨rfl, rfl⟩ | ⟨rfl, rfl⟩ <;>
      rcases i with _ | _ | _ | i <;> simp at h2 <;> subst h2 <;> first | trivial | (show _ ≤ 1; decide)

/-- Both texts, in new engines: the hypotheses of `c87_shared_partial` are met. -/
example (fe : Name → Option Fl) :
    ExtShape scriptedPlat 2 (fun _ => True) ∧ ExtFirst scriptedPlat ∧ Libm32 scriptedPlat.libm ∧ CleanReach _ (Engine.new (glicol scriptedPlat 2 (parse fe)) 2) ∧
    parse fe copiedText = .ok (some copiedProg) ∧ parse fe sharedText = .ok (some sharedProg) ∧
    SharedChain copiedProg sharedProg c!"~a" c!"~b" [.imp (.num (.fin 22050)), .metaScript c!"echo", .mul (.num (.fin 3))] ∧
    CleanProg (glicol scriptedPlat 2 (parse fe)) copiedProg ∧ CleanProg (glicol scriptedPlat 2 (parse fe)) sharedProg ∧
    AllNew (Engine.new (glicol scriptedPlat 2 (parse fe)) 2) copiedProg ∧ AllNew (Engine.new (glicol scriptedPlat 2 (parse fe)) 2) sharedProg ∧
    Wise ByRole copiedProg true ∧ ¬ RefersToInput copiedProg ∧
    (∃ e1 e2, (Engine.new (glicol scriptedPlat 2 (parse fe)) 2).updateWithCode .ident copiedText = .ok (e1, none) ∧
      Plays e1 (List.replicate 2 (.rev, [])) e2 (List.replicate 2 [[.fin 16, .fin 1], [.fin 16, .fin 1]]) ∧
      ['~', 'i', 'n', 'p', 'u', 't'] ∈ e1.index.map Prod.fst) ∧
    ∃ e1 e2, (Engine.new (glicol scriptedPlat 2 (parse fe)) 2).updateWithCode .ident sharedText = .ok (e1, none) ∧
      Plays e1 (List.replicate 2 (.ident, [])) e2 (List.replicate 2 [[.fin 16, .fin 1], [.fin 16, .fin 1]]) ∧
      ['~', 'i', 'n', 'p', 'u', 't'] ∈ e1.index.map Prod.fst := by
  have hn : ∀ prog, AllNew (Engine.new (glicol scriptedPlat 2 (parse fe)) 2) prog :=
    fun prog k comps _ => ⟨[], .inr ⟨rfl, fun a ha => by cases ha⟩, fun _ _ _ ho => by cases ho⟩
  refine ⟨Script.scripts_shape, scripts_first demo_rhai32, notePlat_meets.2, .new 2, by kernel_rfl, by kernel_rfl, copied_shared,
    ⟨?_, show _ ∉ copiedProg.map Prod.fst by decide⟩, ⟨?_, show _ ∉ sharedProg.map Prod.fst by decide⟩, hn _, hn _, copiedProg_wise, ?_,
    Demo.playsText_spec (by kernel_rfl), Demo.playsText_spec (by kernel_rfl)⟩
  · have hall : ∀ e ∈ copiedProg, Distinct Comp.eq e.2 := by unfold Distinct; decide
    exact fun k c hm => hall (k, c) hm
  · have hall : ∀ e ∈ sharedProg, Distinct Comp.eq e.2 := by unfold Distinct; decide
    exact fun k c hm => hall (k, c) hm
  · rintro ⟨j, comps, c, h1, h2, h3⟩
    exact (by decide : ∀ e ∈ copiedProg, ∀ c ∈ e.2, ['~', 'i', 'n', 'p', 'u', 't'] ∉ c.refs) (j, comps) h1 c h2 h3

/-- A component that refers to both chains tells the texts apart: two connections between the same nodes count as one, so that
`mix ~a ~a` hears `~a` once and `balance ~a ~a` finds no right side and is silent. -/
theorem c87_both_counterexample (P : Plat) (fe : Name → Option Fl) :
    Verif.Spec.PagePlay.gets (Engine.new (glicol P 1 (parse fe)) 1)
      [.update .ident c!"~a: constsig 2\n~b: constsig 2\no: mix ~a ~b", .nextBlock .ident []] =
      [.answer none, .block [[.fin 4], [.fin 4]]] ∧
    Verif.Spec.PagePlay.gets (Engine.new (glicol P 1 (parse fe)) 1)
      [.update .ident c!"~a: constsig 2\no: mix ~a ~a", .nextBlock .ident []] =
      [.answer none, .block [[.fin 2], [.fin 2]]] ∧
    Verif.Spec.PagePlay.gets (Engine.new (glicol P 1 (parse fe)) 1)
      [.update .ident c!"~a: constsig 2\n~b: constsig 2\no: balance ~a ~b", .nextBlock .ident []] =
      [.answer none, .block [[.fin 2], [.fin 2]]] ∧
    Verif.Spec.PagePlay.gets (Engine.new (glicol P 1 (parse fe)) 1)
      [.update .ident c!"~a: constsig 2\no: balance ~a ~a", .nextBlock .ident []] =
      [.answer none, .block [[.fin 0], [.fin 0]]] :=
  ⟨Settings.getsFuel_spec (by kernel_rfl), Settings.getsFuel_spec (by kernel_rfl), Settings.getsFuel_spec (by kernel_rfl),
    Settings.getsFuel_spec (by kernel_rfl)⟩

end Verif.Props
