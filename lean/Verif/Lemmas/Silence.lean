import Verif.Lemmas.Channels
import Verif.Lemmas.Message
import Verif.Props.Api
import Verif.Props.Schedule

/-! The empty program, and texts of several messages (helpers). -/

namespace Verif
open Spec

variable {L : Lang}

/-- The only chain that is not of the program in force is the built-in one, and it has one node. -/
def Builtin (e : Engine L) : Prop :=
  ∀ k c, lookup e.index k = some c → k ∉ oldKeys e → k = inputName ∧ c.length = 1

theorem builtin_reachable (hL : ParserWf L) {e : Engine L} (hr : Reachable L e) : Builtin e := by
  induction hr with
  | new N =>
    intro k c h _
    have h : lookup [(inputName, [2])] k = some c := h
    simp only [lookup] at h
    split at h
    · rename_i hk; cases h; exact ⟨hk.symm, rfl⟩
    · cases h
  | @step e e1 op hr happ ih =>
    have hI := inv_reachable hL hr
    have same : ∀ {e1 : Engine L}, e1.index = e.index → e1.ast = e.ast → Builtin e1 := by
      intro e1 h1 h2 k c hc hk
      rw [h1] at hc
      refine ih k c hc ?_
      unfold oldKeys at hk ⊢
      rw [h2] at hk
      exact hk
    cases op with
    | update τ code =>
      simp only [Op.apply, except_bind_ok] at happ
      obtain ⟨⟨e2, r⟩, h1, happ⟩ := happ
      cases happ
      unfold Engine.updateWithCode at h1
      rw [except_bind_ok] at h1
      obtain ⟨p, hp, h1⟩ := h1
      split at h1
      · cases h1; exact ih
      · rename_i new
        have hw := hL code new hp
        cases r with
        | none =>
          obtain ⟨diff, t1, gone1, t2, gone2, g3, cr, g5, hacc⟩ := accepted hI hw h1
          intro k c hc hk
          have hast : e2.ast = some new := by rw [hacc.eq]
          have hk : k ∉ keys new := fun h => hk (mem_oldKeys.mpr ⟨new, hast, h⟩)
          have hmem : k ∈ keys e2.index := lookup_isSome.mp (by rw [show lookup e2.index k = some c from hc]; rfl)
          have hno : k ∉ oldKeys e := by
            rcases (hacc.facts.memT3 k).mp hmem with ⟨_, h | h⟩ | ⟨p, h⟩
            · exact h
            · exact absurd h hk
            · exact absurd (hacc.facts.addNames k p h) hk
          have := Props.staged_untouched hI hw hacc.staged hk hno
          exact ih k c (this ▸ hc) hno
        | some x =>
          have hs := (sameEngine_of_rejected hI hw h1).1
          exact same hs.index hs.ast
    | sendMsg m =>
      have := (onlyNodes_sendMsg happ).eq
      exact same (by rw [this]) (by rw [this])
    | setBpm v =>
      have := (setBpm_nodes happ).1
      exact same (by rw [this]) (by rw [this])
    | setSr v => cases happ; exact same rfl rfl
    | setSeed v => cases happ; exact same rfl rfl
    | setTrackAmp v => cases happ; exact same rfl rfl
    | addSample n s => cases happ; exact same rfl rfl
    | nextBlock ho buf =>
      simp only [Op.apply, except_bind_ok] at happ
      obtain ⟨⟨e2, out⟩, h1, happ⟩ := happ
      cases happ
      obtain ⟨e3, g, d, h2, h3, _, _, rfl⟩ := nextBlock_ok h1
      have := (onlyNodes_copyInputs h2).eq
      exact same (by show e3.index = _; rw [this]) (by show e3.ast = _; rw [this])
    | reset =>
      cases happ
      intro k c h
      cases h

theorem connectTable_builtin {dest : Nat} : ∀ {t : Table} {g : Graph L.Data},
    (∀ k c, (k, c) ∈ t → k = inputName ∧ c.length = 1) → connectTable dest t g = .ok g
  | [], g, _ => rfl
  | (k, c) :: t, g, h => by
    obtain ⟨hk, hc⟩ := h k c (List.mem_cons_self ..)
    obtain ⟨x, rfl⟩ := List.length_eq_one_iff.mp hc
    subst hk
    have h1 : connectChain g [x] = .ok g := rfl
    have h2 : connectOut dest inputName [x] g = .ok g := by
      unfold connectOut
      rw [if_pos (by decide)]
    simp only [connectTable, h1, h2, bind, Except.bind]
    exact connectTable_builtin (fun k c h' => h k c (List.mem_cons_of_mem _ h'))

/-- The empty program is accepted by every engine, and leaves no connections. -/
theorem update_empty (hL : ParserWf L) {e : Engine L} (hr : Reachable L e) (τ : TableOrder) (code : Name)
    (hp : L.parse code = .ok (some [])) :
    ∃ e', e.updateWithCode τ code = .ok (e', none) ∧ e'.graph.edges = [] ∧ ∀ k, k ∈ keys e'.index → k = inputName := by
  have hI := inv_reachable hL hr
  have hB := builtin_reachable hL hr
  have hnd : (oldKeys e).Nodup := by
    unfold oldKeys
    split
    · exact List.nodup_nil
    · rename_i o ho
      exact (hI.ast o ho).names
  obtain ⟨⟨t1, gone1⟩, hd⟩ := dropChains_total (L := L) (new := []) (t := e.index) hnd (by
    intro k hk
    obtain ⟨o, ho, hk⟩ := mem_oldKeys.mp hk
    exact hI.astKeys o ho k hk)
  obtain ⟨_, hn1, hl1⟩ := dropChains_spec hI.keysNodup hd
  have hb1 : ∀ k c, lookup t1 k = some c → k = inputName ∧ c.length = 1 := by
    intro k c hc
    rw [hl1] at hc
    split at hc
    · cases hc
    · rename_i hk
      refine hB k c hc (fun h => hk ⟨h, by simp⟩)
  have hct : ∀ g : Graph L.Data, connectTable e.dest (τ.ord t1) g = .ok g := by
    intro g
    refine connectTable_builtin ?_
    intro k c hm
    exact hb1 k c (lookup_of_mem hn1 ((τ.perm t1).mem_iff.mp hm))
  refine ⟨{ e with graph := (removeAll e.graph (gone1 ++ [])).clearEdges, index := t1, temp := [], ast := some [], backup := t1 },
    ?_, rfl, ?_⟩
  · have hd' : dropChains (L := L) [] (oldKeys { e with temp := [] }) e.index = .ok (t1, gone1) := hd
    unfold Engine.updateWithCode
    simp only [hp, bind, Except.bind, Engine.updateAst, diffAll, List.reverse_nil, dropNodes, insertNodes,
      List.flatMap_nil, refCheck, connectPairs]
    rw [hd']
    simp only [hct]
  · intro k hk
    obtain ⟨c, hc⟩ := Option.isSome_iff_exists.mp (lookup_isSome.mpr hk)
    exact (hb1 k c hc).1

/-- A call that is not a program. -/
theorem edges_apply {e e' : Engine L} {op : Op L} (hI : Inv e) (hop : ∀ τ code, op ≠ .update τ code) (h : op.apply e = .ok e')
    (he : e.graph.edges = []) : e'.graph.edges = [] := by
  cases op with
  | update τ code => exact absurd rfl (hop τ code)
  | sendMsg m => rw [(onlyNodes_sendMsg h).shape.edges, he]
  | setBpm v => rw [(setBpm_nodes h).2.1.edges, he]
  | setSr v => cases h; exact he
  | setSeed v => cases h; exact he
  | setTrackAmp v => cases h; exact he
  | addSample n s => cases h; exact he
  | nextBlock ho buf =>
    simp only [Op.apply, except_bind_ok] at h
    obtain ⟨⟨e2, out⟩, h1, h⟩ := h
    cases h
    obtain ⟨e3, g, d, h2, h3, h4, _, rfl⟩ := nextBlock_ok h1
    have hsh := (onlyNodes_copyInputs h2).shape
    have hdest : e3.dest = e.dest := by rw [(onlyNodes_copyInputs h2).eq]
    have hE : EdgesLive e3.graph := by
      intro x hx
      rw [hsh.edges, he] at hx
      cases hx
    have := (Props.block_general L.proc ho e3.graph g e3.dest hE
      ((hsh.live e3.dest).mpr (by rw [hdest]; exact (hI.live e.dest).mpr (.inl rfl))) h3).1
    show g.edges = []
    rw [this, hsh.edges, he]
  | reset => cases h; rfl

/-! ### Messages in one text -/

theorem splitOn_snoc (sep : Char) : ∀ a b : Name, splitOn sep (a ++ sep :: b) = splitOn sep a ++ splitOn sep b
  | [], b => by simp [splitOn]
  | c :: a, b => by
    simp only [List.cons_append, splitOn, splitOn_snoc sep a b]
    split
    · rfl
    · cases hs : splitOn sep a with
      | nil => exact absurd hs (splitOn_ne_nil sep a)
      | cons p ps => rfl

theorem foldlM_append' {ε σ τ : Type} (f : σ → τ → Except ε σ) (a b : List τ) (x : σ) :
    (a ++ b).foldlM f x = (a.foldlM f x >>= fun y => b.foldlM f y) := by
  rw [List.foldlM_append]

/-- A text of messages that ends with a semicolon, followed by another. -/
theorem sendMsg_append (e : Engine L) (a b : Name) :
    e.sendMsg (a ++ ';' :: b) = (e.sendMsg (a ++ [';']) >>= fun e1 => e1.sendMsg b) := by
  unfold Engine.sendMsg
  simp only [List.filter_append, List.filter_cons, show (!isWhitespace ';') = true from rfl, if_true, List.filter_nil]
  rw [splitOn_snoc, splitOn_snoc]
  simp only [List.filter_append, splitOn, List.filter_cons, List.isEmpty_nil, Bool.not_true, Bool.false_eq_true, if_false,
    List.filter_nil, List.append_nil, List.foldlM_append]

theorem sendMsg_nil (e : Engine L) : e.sendMsg [] = .ok e := rfl

/-- Texts that end with a semicolon can be sent one by one or in one. -/
theorem sendMsg_flatten : ∀ (ms : List Name) (e : Engine L), (∀ m ∈ ms, m.getLast? = some ';') →
    e.sendMsg ms.flatten = ms.foldlM Engine.sendMsg e
  | [], e, _ => sendMsg_nil e
  | m :: ms, e, h => by
    obtain ⟨a, rfl⟩ := List.getLast?_eq_some_iff.mp (h m (List.mem_cons_self ..))
    rw [List.flatten_cons, List.append_assoc, List.singleton_append, sendMsg_append, List.foldlM_cons]
    cases he : e.sendMsg (a ++ [';']) with
    | error p => rfl
    | ok e1 => exact sendMsg_flatten ms e1 (fun x hx => h x (List.mem_cons_of_mem _ hx))

/-- The same for groups of texts. -/
theorem sendMsg_groups : ∀ (gs : List (List Name)) (e : Engine L), (∀ g ∈ gs, ∀ m ∈ g, m.getLast? = some ';') →
    (gs.map List.flatten).foldlM Engine.sendMsg e = gs.flatten.foldlM Engine.sendMsg e
  | [], e, _ => rfl
  | g :: gs, e, h => by
    rw [List.map_cons, List.foldlM_cons, List.flatten_cons, List.foldlM_append,
      sendMsg_flatten g e (h g (List.mem_cons_self ..))]
    cases he : g.foldlM Engine.sendMsg e with
    | error p => rfl
    | ok e1 => exact sendMsg_groups gs e1 (fun x hx => h x (List.mem_cons_of_mem _ hx))

end Verif
