import Verif.Graph

/-! Lemmas about the depth-first traversal (helpers for `Verif.Props.Schedule`). -/

namespace Verif

/-- Reachability along a neighbour function. -/
inductive NReach (nbrs : Nat → List Nat) : Nat → Nat → Prop
  | refl (a) : NReach nbrs a a
  | step {a b c} : NReach nbrs a b → c ∈ nbrs b → NReach nbrs a c

theorem NReach.trans {nbrs : Nat → List Nat} {a b c : Nat} (h1 : NReach nbrs a b)
    (h2 : NReach nbrs b c) : NReach nbrs a c := by
  induction h2 with
  | refl => exact h1
  | step _ hc ih => exact .step ih hc

/-- Loop invariant of the traversal. -/
structure DfsInv (nbrs : Nat → List Nat) (stack disc fin : List Nat) : Prop where
  finDisc : ∀ x, x ∈ fin → x ∈ disc
  gray : ∀ x, x ∈ disc → x ∉ fin → x ∈ stack
  above : ∀ A g B, stack = A ++ g :: B → g ∈ disc → g ∉ fin → g ∉ A →
    ∀ x, x ∈ A → NReach nbrs g x
  kids : ∀ A g B, stack = A ++ g :: B → g ∈ disc → g ∉ fin → g ∉ A →
    ∀ y, y ∈ nbrs g → y ∈ disc ∨ y ∈ A

theorem DfsInv.init (nbrs : Nat → List Nat) (d : Nat) : DfsInv nbrs [d] [] [] where
  finDisc := by simp
  gray := by simp
  above := by simp
  kids := by simp

theorem DfsInv.pop {nbrs : Nat → List Nat} {nx : Nat} {st disc fin : List Nat}
    (h : DfsInv nbrs (nx :: st) disc fin) (hd : nx ∈ disc) (hf : nx ∈ fin) :
    DfsInv nbrs st disc fin where
  finDisc := h.finDisc
  gray := by
    intro x hx hnf
    have := h.gray x hx hnf
    rcases List.mem_cons.mp this with rfl | h'
    · exact absurd hf hnf
    · exact h'
  above := by
    intro A g B heq hgd hgf hgA x hx
    refine h.above (nx :: A) g B (by simp [heq]) hgd hgf ?_ x (by simp [hx])
    intro hmem
    rcases List.mem_cons.mp hmem with rfl | h'
    · exact hgf hf
    · exact hgA h'
  kids := by
    intro A g B heq hgd hgf hgA y hy
    have := h.kids (nx :: A) g B (by simp [heq]) hgd hgf (by
      intro hmem
      rcases List.mem_cons.mp hmem with rfl | h'
      · exact hgf hf
      · exact hgA h') y hy
    rcases this with h1 | h1
    · exact .inl h1
    · rcases List.mem_cons.mp h1 with rfl | h2
      · exact .inl hd
      · exact .inr h2

theorem DfsInv.finish {nbrs : Nat → List Nat} {nx : Nat} {st disc fin : List Nat}
    (h : DfsInv nbrs (nx :: st) disc fin) (hd : nx ∈ disc) (_hf : nx ∉ fin) :
    DfsInv nbrs st disc (nx :: fin) where
  finDisc := by
    intro x hx
    rcases List.mem_cons.mp hx with rfl | h'
    · exact hd
    · exact h.finDisc x h'
  gray := by
    intro x hx hnf
    simp only [List.mem_cons, not_or] at hnf
    have := h.gray x hx hnf.2
    rcases List.mem_cons.mp this with rfl | h'
    · exact absurd rfl hnf.1
    · exact h'
  above := by
    intro A g B heq hgd hgf hgA x hx
    simp only [List.mem_cons, not_or] at hgf
    refine h.above (nx :: A) g B (by simp [heq]) hgd hgf.2 ?_ x (by simp [hx])
    simp [hgf.1, hgA]
  kids := by
    intro A g B heq hgd hgf hgA y hy
    simp only [List.mem_cons, not_or] at hgf
    have := h.kids (nx :: A) g B (by simp [heq]) hgd hgf.2 (by simp [hgf.1, hgA]) y hy
    rcases this with h1 | h1
    · exact .inl h1
    · rcases List.mem_cons.mp h1 with rfl | h2
      · exact .inl hd
      · exact .inr h2

/-- Splitting an append at an element that is not in the first part. -/
theorem split_notin_left {P st A B : List Nat} {g : Nat} (heq : P ++ st = A ++ g :: B)
    (hP : g ∉ P) : ∃ A', A = P ++ A' ∧ st = A' ++ g :: B := by
  induction P generalizing A with
  | nil => exact ⟨A, rfl, heq⟩
  | cons p P ih =>
    simp only [List.mem_cons, not_or] at hP
    cases A with
    | nil =>
      simp only [List.cons_append, List.nil_append, List.cons.injEq] at heq
      exact absurd heq.1.symm hP.1
    | cons a A =>
      simp only [List.cons_append, List.cons.injEq] at heq
      obtain ⟨A', h1, h2⟩ := ih heq.2 hP.2
      exact ⟨A', by simp [heq.1, h1], h2⟩

theorem DfsInv.discover {nbrs : Nat → List Nat} {nx : Nat} {st disc fin : List Nat}
    (h : DfsInv nbrs (nx :: st) disc fin) (hd : nx ∉ disc) :
    DfsInv nbrs (((nbrs nx).filter (fun s => s ∉ nx :: disc)).reverse ++ nx :: st)
      (nx :: disc) fin where
  finDisc := by
    intro x hx
    exact List.mem_cons_of_mem _ (h.finDisc x hx)
  gray := by
    intro x hx hnf
    rcases List.mem_cons.mp hx with rfl | h'
    · simp
    · exact List.mem_append_right _ (h.gray x h' hnf)
  above := by
    intro A g B heq hgd hgf hgA x hx
    have hP : g ∉ ((nbrs nx).filter (fun s => s ∉ nx :: disc)).reverse := by
      intro hmem
      simp only [List.mem_reverse, List.mem_filter, decide_eq_true_eq] at hmem
      exact hmem.2 hgd
    obtain ⟨A', rfl, h2⟩ := split_notin_left heq hP
    by_cases hgn : g = nx
    · subst hgn
      have hA' : A' = [] := by
        cases A' with
        | nil => rfl
        | cons a A' =>
          simp only [List.cons_append, List.cons.injEq] at h2
          exact absurd (by simp [h2.1]) hgA
      subst hA'
      simp only [List.append_nil, List.mem_reverse, List.mem_filter] at hx
      exact .step (.refl g) hx.1
    · have hgd' : g ∈ disc := by
        rcases List.mem_cons.mp hgd with h' | h'
        · exact absurd h' hgn
        · exact h'
      have hgA' : g ∉ A' := fun hm => hgA (List.mem_append_right _ hm)
      have key := h.above A' g B h2 hgd' hgf hgA'
      rcases List.mem_append.mp hx with hx | hx
      · simp only [List.mem_reverse, List.mem_filter] at hx
        have hnx : nx ∈ A' := by
          cases A' with
          | nil =>
            simp only [List.nil_append, List.cons.injEq] at h2
            exact absurd h2.1.symm hgn
          | cons a A' =>
            simp only [List.cons_append, List.cons.injEq] at h2
            simp [h2.1]
        exact .step (key nx hnx) hx.1
      · exact key x hx
  kids := by
    intro A g B heq hgd hgf hgA y hy
    have hP : g ∉ ((nbrs nx).filter (fun s => s ∉ nx :: disc)).reverse := by
      intro hmem
      simp only [List.mem_reverse, List.mem_filter, decide_eq_true_eq] at hmem
      exact hmem.2 hgd
    obtain ⟨A', rfl, h2⟩ := split_notin_left heq hP
    by_cases hyd : y ∈ nx :: disc
    · exact .inl hyd
    · right
      by_cases hgn : g = nx
      · subst hgn
        apply List.mem_append_left
        simp only [List.mem_reverse, List.mem_filter, decide_eq_true_eq]
        exact ⟨hy, hyd⟩
      · have hgd' : g ∈ disc := by
          rcases List.mem_cons.mp hgd with h' | h'
          · exact absurd h' hgn
          · exact h'
        have hgA' : g ∉ A' := fun hm => hgA (List.mem_append_right _ hm)
        rcases h.kids A' g B h2 hgd' hgf hgA' y hy with h1 | h1
        · exact absurd (List.mem_cons_of_mem _ h1) hyd
        · exact List.mem_append_right _ h1

/-- Split a list at the first occurrence of a member. -/
theorem first_occ {l : List Nat} {y : Nat} (h : y ∈ l) : ∃ A B, l = A ++ y :: B ∧ y ∉ A := by
  induction l with
  | nil => cases h
  | cons a l ih =>
    by_cases hay : y = a
    · exact ⟨[], l, by simp [hay], by simp⟩
    · rcases List.mem_cons.mp h with h' | h'
      · exact absurd h' hay
      · obtain ⟨A, B, h1, h2⟩ := ih h'
        exact ⟨a :: A, B, by simp [h1], by simp [hay, h2]⟩

/-- What the traversal returns from a state satisfying the invariant. -/
structure DfsPost (nbrs : Nat → List Nat) (stack fin r : List Nat) : Prop where
  nodup : r.Nodup
  fresh : ∀ x, x ∈ r → x ∉ fin
  sound : ∀ x, x ∈ r → ∃ s, s ∈ stack ∧ NReach nbrs s x
  complete : ∀ x, x ∈ stack → x ∈ fin ∨ x ∈ r
  order : ∀ r1 x r2, r = r1 ++ x :: r2 → ∀ y, y ∈ nbrs x →
    y ∈ fin ∨ y ∈ r1 ∨ (NReach nbrs y x ∧ y ∈ r)

theorem dfs_post (nbrs : Nat → List Nat) (bound : Nat) (stack disc fin : List Nat) :
    ∀ r, dfsPostOrder nbrs bound stack disc fin = .ok r → DfsInv nbrs stack disc fin →
      DfsPost nbrs stack fin r := by
  fun_induction dfsPostOrder nbrs bound stack disc fin with
  | case1 disc fin =>
    intro r hr _
    cases hr
    exact ⟨by simp, by simp, by simp, by simp, by simp⟩
  | case2 nx st disc fin hd hf ih =>
    intro r hr inv
    have post := ih r hr (inv.pop hd hf)
    refine ⟨post.nodup, post.fresh, ?_, ?_, post.order⟩
    · intro x hx
      obtain ⟨s, hs, hr'⟩ := post.sound x hx
      exact ⟨s, List.mem_cons_of_mem _ hs, hr'⟩
    · intro x hx
      rcases List.mem_cons.mp hx with rfl | h'
      · exact .inl hf
      · exact post.complete x h'
  | case3 nx st disc fin hd hf r0 hr0 ih =>
    intro r hr inv
    cases hr
    have post := ih r0 hr0 (inv.finish hd hf)
    refine ⟨?_, ?_, ?_, ?_, ?_⟩
    · refine List.nodup_cons.mpr ⟨?_, post.nodup⟩
      intro hmem
      exact post.fresh nx hmem (by simp)
    · intro x hx
      rcases List.mem_cons.mp hx with rfl | h'
      · exact hf
      · intro hxf
        exact post.fresh x h' (List.mem_cons_of_mem _ hxf)
    · intro x hx
      rcases List.mem_cons.mp hx with rfl | h'
      · exact ⟨x, by simp, .refl x⟩
      · obtain ⟨s, hs, hr'⟩ := post.sound x h'
        exact ⟨s, List.mem_cons_of_mem _ hs, hr'⟩
    · intro x hx
      rcases List.mem_cons.mp hx with rfl | h'
      · exact .inr (by simp)
      · rcases post.complete x h' with h1 | h1
        · rcases List.mem_cons.mp h1 with rfl | h2
          · exact .inr (by simp)
          · exact .inl h2
        · exact .inr (List.mem_cons_of_mem _ h1)
    · intro r1 x r2 heq y hy
      cases r1 with
      | nil =>
        simp only [List.nil_append, List.cons.injEq] at heq
        obtain ⟨rfl, rfl⟩ := heq
        rcases inv.kids [] nx st rfl hd hf (by simp) y hy with h1 | h1
        · by_cases hyf : y ∈ fin
          · exact .inl hyf
          · right; right
            have hyst := inv.gray y h1 hyf
            rcases List.mem_cons.mp hyst with rfl | hyst'
            · exact ⟨.refl y, by simp⟩
            · by_cases hyn : y = nx
              · subst hyn; exact ⟨.refl y, by simp⟩
              · obtain ⟨A, B, hAB, hnA⟩ := first_occ hyst'
                refine ⟨inv.above (nx :: A) y B (by simp [hAB]) h1 hyf ?_ nx (by simp), ?_⟩
                · simp [hyn, hnA]
                · rcases post.complete y hyst' with h2 | h2
                  · rcases List.mem_cons.mp h2 with h3 | h3
                    · exact absurd h3 hyn
                    · exact absurd h3 hyf
                  · exact List.mem_cons_of_mem _ h2
        · cases h1
      | cons a r1 =>
        simp only [List.cons_append, List.cons.injEq] at heq
        obtain ⟨rfl, heq⟩ := heq
        rcases post.order r1 x r2 heq y hy with h1 | h1 | h1
        · rcases List.mem_cons.mp h1 with rfl | h2
          · exact .inr (.inl (by simp))
          · exact .inl h2
        · exact .inr (.inl (List.mem_cons_of_mem _ h1))
        · exact .inr (.inr ⟨h1.1, List.mem_cons_of_mem _ h1.2⟩)
  | case4 nx st disc fin hd hf e he ih =>
    intro r hr; cases hr
  | case5 nx st disc fin hd hb ih =>
    intro r hr inv
    have post := ih r hr (inv.discover hd)
    refine ⟨post.nodup, post.fresh, ?_, ?_, post.order⟩
    · intro x hx
      obtain ⟨s, hs, hr'⟩ := post.sound x hx
      rcases List.mem_append.mp hs with hs | hs
      · simp only [List.mem_reverse, List.mem_filter] at hs
        exact ⟨nx, by simp, NReach.trans (.step (.refl nx) hs.1) hr'⟩
      · exact ⟨s, hs, hr'⟩
    · intro x hx
      exact post.complete x (List.mem_append_right _ hx)
  | case6 nx st disc fin hd hb =>
    intro r hr; cases hr

/-- The traversal does not fail when all indices are within the visit maps. -/
theorem dfs_ok (nbrs : Nat → List Nat) (bound : Nat) (hn : ∀ a b, b ∈ nbrs a → b < bound)
    (stack disc fin : List Nat) :
    (∀ x, x ∈ stack → x < bound) → ∃ r, dfsPostOrder nbrs bound stack disc fin = .ok r := by
  fun_induction dfsPostOrder nbrs bound stack disc fin with
  | case1 => intro _; exact ⟨_, rfl⟩
  | case2 nx st disc fin hd hf ih =>
    intro h
    exact ih (fun x hx => h x (List.mem_cons_of_mem _ hx))
  | case3 nx st disc fin hd hf r0 hr0 ih =>
    intro h
    exact ⟨_, rfl⟩
  | case4 nx st disc fin hd hf e he ih =>
    intro h
    obtain ⟨r, hr⟩ := ih (fun x hx => h x (List.mem_cons_of_mem _ hx))
    rw [he] at hr; cases hr
  | case5 nx st disc fin hd hb ih =>
    intro h
    apply ih
    intro x hx
    rcases List.mem_append.mp hx with hx | hx
    · simp only [List.mem_reverse, List.mem_filter] at hx
      exact hn nx x hx.1
    · exact h x hx
  | case6 nx st disc fin hd hb =>
    intro h
    exact absurd (h nx (by simp)) hb

/-- Two successful traversals with different visit-map sizes return the same order. -/
theorem dfs_bound_indep (nbrs : Nat → List Nat) (b1 b2 : Nat) (stack disc fin : List Nat) :
    ∀ r1 r2, dfsPostOrder nbrs b1 stack disc fin = .ok r1 →
      dfsPostOrder nbrs b2 stack disc fin = .ok r2 → r1 = r2 := by
  fun_induction dfsPostOrder nbrs b1 stack disc fin with
  | case1 =>
    intro r1 r2 h1 h2
    unfold dfsPostOrder at h2
    cases h1; cases h2; rfl
  | case2 nx st disc fin hd hf ih =>
    intro r1 r2 h1 h2
    unfold dfsPostOrder at h2
    simp only [hd, hf, if_true] at h2
    exact ih r1 r2 h1 h2
  | case3 nx st disc fin hd hf r0 hr0 ih =>
    intro r1 r2 h1 h2
    unfold dfsPostOrder at h2
    simp only [hd, hf, if_true, if_false] at h2
    split at h2
    · rename_i r hr
      cases h1; cases h2
      rw [ih r0 r hr0 hr]
    · cases h2
  | case4 nx st disc fin hd hf e he ih =>
    intro r1 r2 h1; cases h1
  | case5 nx st disc fin hd hb ih =>
    intro r1 r2 h1 h2
    unfold dfsPostOrder at h2
    simp only [hd, if_false] at h2
    split at h2
    · exact ih r1 r2 h1 h2
    · cases h2
  | case6 nx st disc fin hd hb =>
    intro r1 r2 h1; cases h1

end Verif
