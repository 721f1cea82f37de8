import Verif.Lemmas.Play

/-! The node of the output keeps what every call preserves (helpers). -/

namespace Verif
open Spec

variable {L : Lang}

/-- A property of single nodes that neither messages nor blocks nor copied input destroy. -/
structure Stays (L : Lang) (S : L.Data → Prop) : Prop where
  msg : ∀ d m n, S d → L.msg d.node m = .ok n → S ⟨n, d.buffers⟩
  copy : ∀ d ch b, S d → S ⟨d.node, d.buffers.set ch b⟩
  proc : ∀ d ins n' b', S d → L.proc d.node ins d.buffers = .ok (n', b') → S ⟨n', b'⟩

namespace Stays
variable {S : L.Data → Prop} (hS : Stays L S)
include hS

theorem rewire {n n' : L.Node} (h : Rewire L n n') : ∀ {b : List (List L.Num)}, S ⟨n, b⟩ → S ⟨n', b⟩ := by
  induction h with
  | refl => exact fun h => h
  | step hm ho _ ih => exact fun h => ih (hS.msg _ _ _ h ho)

theorem copyInput {e e' : Engine L} {ch : Nat} {b : List L.Num} (h : e.copyInput ch b = .ok e') :
    Each (fun d d' => S d → S d') e.graph e'.graph := by
  unfold Engine.copyInput at h
  split at h
  · cases h
  · split at h
    · cases h
    · rw [except_bind_ok] at h
      obtain ⟨g, h1, h⟩ := h
      cases h
      refine each_modify (fun _ h => h) ?_ h1
      intro d d' hf hd
      split at hf
      · cases hf
      · split at hf
        · cases hf
          exact hS.copy _ _ _ hd
        · cases hf

theorem copyInputs {e e' : Engine L} {buf : List (List L.Num)} (h : e.copyInputs buf = .ok e') :
    Each (fun d d' => S d → S d') e.graph e'.graph := by
  unfold Engine.copyInputs at h
  split at h
  · cases h; exact .refl (fun _ h => h) _
  · exact hS.copyInput h
  · rw [except_bind_ok] at h
    obtain ⟨e4, k1, k2⟩ := h
    exact (hS.copyInput k1).trans (fun _ _ _ h1 h2 h => h2 (h1 h)) (hS.copyInput k2)

theorem sendMsg {m : Name} {e e' : Engine L} (h : e.sendMsg m = .ok e') :
    Each (fun d d' => S d → S d') e.graph e'.graph := by
  unfold Engine.sendMsg at h
  simp only at h
  generalize (splitOn ';' _).filter _ = cmds at h
  induction cmds generalizing e with
  | nil =>
    simp only [List.foldlM_nil, pure, Except.pure, Except.ok.injEq] at h
    subst h
    exact .refl (fun _ h => h) _
  | cons c cmds ih =>
    rw [List.foldlM_cons, except_bind_ok] at h
    obtain ⟨e1, h1, h⟩ := h
    refine Each.trans (fun _ _ _ h1 h2 h => h2 (h1 h)) ?_ (ih h)
    unfold Engine.command at h1
    split at h1
    · cases h1; exact .refl (fun _ h => h) _
    · unfold Engine.deliver at h1
      split at h1
      · cases h1; exact .refl (fun _ h => h) _
      · split at h1
        · cases h1
        · rw [except_bind_ok] at h1
          obtain ⟨g, h2, h1⟩ := h1
          cases h1
          refine each_modify (fun _ h => h) ?_ h2
          intro d d' hf hd
          rw [except_bind_ok] at hf
          obtain ⟨n, hn, hf⟩ := hf
          cases hf
          exact hS.msg _ _ _ hd hn

theorem dest (hL : ParserWf L) {N : Nat} (h0 : S (freshData N 2 L.sum2)) {e : Engine L} (hr : Reachable L e) (hN : e.N = N) :
    ∀ d, e.graph.node? e.dest = some d → S d := by
  induction hr with
  | new N' =>
    have hN : N' = N := hN
    subst hN
    intro d hd
    cases hd
    exact h0
  | @step e e1 op hr happ ih =>
    have hNe : e.N = N := (apply_N hL hr happ).symm.trans hN
    have ih := ih hNe
    have hI := inv_reachable hL hr
    cases op with
    | update τ code =>
      simp only [Op.apply, except_bind_ok] at happ
      obtain ⟨⟨e2, r⟩, h1, happ⟩ := happ
      cases happ
      unfold Engine.updateWithCode at h1
      rw [except_bind_ok] at h1
      obtain ⟨p, hp, h1⟩ := h1
      split at h1
      · cases h1; exact ih
      · rename_i new
        have hw := hL code new hp
        cases r with
        | none =>
          obtain ⟨diff, t1, gone1, t2, gone2, g3, cr, g5, hacc⟩ := accepted hI hw h1
          intro d' hd'
          change e2.graph.node? e2.dest = some d' at hd'
          have hdest : e2.dest = e.dest := by rw [hacc.eq]
          rw [hdest] at hd'
          rcases accepted_nodes hacc hd' with ⟨d, k1, k2, k3⟩ | ⟨k1, _⟩
          · have := hS.rewire k3 (b := d.buffers) (ih d k1)
            rw [← k2] at this
            exact this
          · obtain ⟨x, hx⟩ := (hI.live e.dest).mpr (.inl rfl)
            rw [k1] at hx
            cases hx
        | some x =>
          have hs := (sameEngine_of_rejected hI hw h1).1
          intro d hd
          change e2.graph.node? e2.dest = some d at hd
          rw [hs.nodes, hs.dest] at hd
          exact ih d hd
    | sendMsg m =>
      intro d hd
      obtain ⟨d0, k1, k2⟩ := (hS.sendMsg happ).2 _ d hd
      refine k2 (ih d0 ?_)
      have : e1.dest = e.dest := by rw [(onlyNodes_sendMsg happ).eq]
      rw [← this]
      exact k1
    | setBpm v =>
      obtain ⟨h1, _, h3⟩ := setBpm_nodes happ
      intro d hd
      have hdest : e1.dest = e.dest := by rw [h1]
      rw [hdest] at hd
      have := h3 e.dest
      cases hx : e.graph.node? e.dest with
      | none => rw [hx] at this; rw [this] at hd; cases hd
      | some d0 =>
        rw [hx] at this
        obtain ⟨n, hn, hn'⟩ := this
        rw [hn'] at hd
        cases hd
        exact hS.msg _ _ _ (ih d0 hx) hn
    | setSr v => cases happ; exact ih
    | setSeed v => cases happ; exact ih
    | setTrackAmp v => cases happ; exact ih
    | addSample n s => cases happ; exact ih
    | nextBlock ho buf =>
      simp only [Op.apply, except_bind_ok] at happ
      obtain ⟨⟨e2, out⟩, h1, happ⟩ := happ
      cases happ
      obtain ⟨e3, g, d, h2, h3, _, _, rfl⟩ := nextBlock_ok h1
      intro d' hd'
      have hp := (process_inv (J := fun _ _ => True) (R := fun d d' => S d → S d') (fun _ h => h)
        (fun _ _ _ h1 h2 h => h2 (h1 h))
        (fun _ d ins n' b' _ _ h3 => ⟨trivial, fun hd => hS.proc _ _ _ _ hd h3⟩) (fun _ _ _ => trivial) h3).2
      obtain ⟨d1, k1, k2⟩ := hp.2 _ d' hd'
      obtain ⟨d0, j1, j2⟩ := (hS.copyInputs h2).2 _ d1 k1
      refine k2 (j2 (ih d0 ?_))
      have : e3.dest = e.dest := by rw [(onlyNodes_copyInputs h2).eq]
      rw [← this]
      exact j1
    | reset =>
      cases happ
      subst hNe
      intro d hd
      cases hd
      exact h0

end Stays
end Verif
