import Verif.Lemmas.OrderHead
import Verif.Lemmas.StreamSound

/-! Nodes that hear the same under other numbers play the same (helpers). -/

namespace Verif.Renumber
open Verif Spec Props

/-- Two lists of inputs, looked up with two lists of numbers, are the same. -/
structure SameIns (ins : Ins) (l : List Nat) (ins' : Ins) (l' : List Nat) : Prop where
  len : ins.length = ins'.length
  one : ∀ x x', ins = [x] → ins' = [x'] → x.2 = x'.2
  look : ∀ k, inputAt ins l k = inputAt ins' l' k

/-- The kinds of nodes considered here. -/
def Plain : Prim → Prop
  | .speed _ | .rhpf _ | .rlpf _ | .seq _ | .arrange _ | .choose _ | .psampler _ => True
  | _ => False

section
variable {m : Libm} {ins ins' : Ins} {out o : List Buf} {l : List Nat}

theorem arrRun_num {a : Arrange} (h : ∀ {j i}, inputSample ins a.order j i = inputSample ins' l j i) :
    ∀ {b : Buf} {i k : Nat}, arrRun a ins i k b = arrRun { a with order := l } ins' i k b := by
  intro b
  induction b with
  | nil => intro i k; rfl
  | cons x b ih => intro i k; simp only [arrRun, h, ih]

theorem procPrim_renumber {n n' : Prim} (hn : Plain n) (hs : SameIns ins n.order ins' l)
    (h : procPrim m n ins out = .ok (n', o)) : procPrim m (n.setOrder l) ins' out = .ok (n'.setOrder l, o) := by
  obtain ⟨hlen, hone, hlook⟩ := hs
  cases n with
  | speed a =>
    simp only [procPrim, sameNode, procSpeed, Prim.setOrder] at h ⊢
    same_block h
  | choose d =>
    obtain ⟨s, hs, rfl⟩ := reState_node h
    simp only [procPrim, reState, procChoose, Prim.setOrder] at hs ⊢
    same_block hs
  | psampler s =>
    obtain ⟨s', hs, rfl⟩ := reState_node h
    simp only [procPrim, reState, procPSampler, Prim.setOrder, bind, Except.bind] at hs ⊢
    repeat' split at hs
    all_goals first
      | (cases hs; done)
      | (cases hs; rename_i hr; simp only [psRun_set hr]; done)
  | arrange a =>
    obtain ⟨s', hs, rfl⟩ := reState_node h
    have ha : ∀ {b : Buf} {i k : Nat}, arrRun a ins i k b = arrRun { a with order := l } ins' i k b :=
      arrRun_num (fun {j i} => by
        unfold inputSample
        have := hlook j
        simp only [Prim.order] at this
        rw [this])
    simp only [procPrim, reState, procArrange, Prim.setOrder, ha] at hs ⊢
    same_block hs
  | rhpf d =>
    obtain ⟨s, hs, rfl⟩ := reState_node h
    simp only [Prim.order] at hlook
    match ins, ins', hlen with
    | [], [], _ =>
      simp only [procPrim, reState, procRhpf, Prim.setOrder] at hs ⊢
      same_block hs
    | [x], [y], _ =>
      obtain ⟨i, x⟩ := x
      obtain ⟨j, y⟩ := y
      have := hone _ _ rfl rfl
      simp only at this
      subst this
      simp only [procPrim, reState, procRhpf, Prim.setOrder] at hs ⊢
      same_block hs
    | [x, x1], [y, y1], _ =>
      simp only [procPrim, reState, procRhpf, Prim.setOrder, hlook] at hs ⊢
      same_block hs
    | x :: x1 :: x2 :: xs, y :: y1 :: y2 :: ys, _ =>
      simp only [procPrim, reState, procRhpf, Prim.setOrder] at hs ⊢
      same_block hs
  | rlpf d =>
    obtain ⟨s, hs, rfl⟩ := reState_node h
    simp only [Prim.order] at hlook
    have hf : rlpfStep m { d with order := l } = rlpfStep m d := rfl
    match ins, ins', hlen with
    | [], [], _ =>
      simp only [procPrim, reState, procRlpf, Prim.setOrder] at hs ⊢
      same_block hs
    | [x], [y], _ =>
      obtain ⟨i, x⟩ := x
      obtain ⟨j, y⟩ := y
      have := hone _ _ rfl rfl
      simp only at this
      subst this
      simp only [procPrim, reState, procRlpf, Prim.setOrder, hf] at hs ⊢
      same_block hs
    | [x, x1], [y, y1], _ =>
      simp only [procPrim, reState, procRlpf, Prim.setOrder, hlook] at hs ⊢
      same_block hs
    | x :: x1 :: x2 :: xs, y :: y1 :: y2 :: ys, _ =>
      simp only [procPrim, reState, procRlpf, Prim.setOrder] at hs ⊢
      same_block hs
  | seq s =>
    obtain ⟨s', hs, rfl⟩ := reState_node h
    simp only [Prim.order] at hlook
    match ins, ins', hlen with
    | [], [], _ =>
      simp only [procPrim, reState, procSeq, Prim.setOrder] at hs ⊢
      same_block hs
    | x :: xs, y :: ys, _ =>
      have hv : ∀ {ro sh i}, seqValue (x :: xs) ro s.order sh i = seqValue (y :: ys) ro l sh i := by
        intro ro sh i
        funext v
        unfold seqValue
        simp only [hlook]
      simp only [procPrim, reState, procSeq, Prim.setOrder, hlook, hv] at hs ⊢
      same_block hs
  | _ => exact hn.elim

theorem plain_after {n n' : Prim} (hn : Plain n) (h : procPrim m n ins out = .ok (n', o)) : Plain n' := by
  cases n <;> first
    | exact hn.elim
    | (cases sameNode_node h; trivial)
    | (obtain ⟨s, _, rfl⟩ := reState_node h; trivial)

end

variable {P : Plat}

/-- The nodes considered here. -/
def GPlain : GNode P → Prop
  | .prim n => Plain n
  | .compound _ => True
  | .script .. => True

theorem procG_renumber (hf : ExtFirst P) {n n' : GNode P} {ins ins' : Ins} {l : List Nat} {out o : List Buf} (hn : GPlain n)
    (hs : SameIns ins n.order ins' l) (h : procG P n ins out = .ok (n', o)) :
    procG P (n.setOrder l) ins' out = .ok (n'.setOrder l, o) := by
  cases n with
  | prim n =>
    simp only [procG, GNode.setOrder] at h ⊢
    cases hr : procPrim P.libm n ins out with
    | error e => rw [hr] at h; cases h
    | ok r =>
      obtain ⟨n1, o1⟩ := r
      rw [hr] at h
      cases h
      rw [procPrim_renumber hn hs hr]
      rfl
  | compound c =>
    have hx : inputAt ins' l 0 = inputAt ins c.order 0 := (hs.look 0).symm
    have hf : ∀ {r}, c.feed P.libm P.ho ins out = .ok r →
        Compound.feed P.libm P.ho { c with order := l } ins' out = .ok ({ r.1 with order := l }, r.2) := by
      intro r hr
      simp only [Compound.feed, except_bind_ok, hx] at hr ⊢
      obtain ⟨main, h1, x1, h2, g, h3, ⟨g', y⟩, h4, l1, h5, r1, h6, o1, h7, hr⟩ := hr
      cases hr
      exact ⟨main, h1, x1, h2, g, h3, (g', y), h4, l1, h5, r1, h6, o1, h7, rfl⟩
    have hc : ∀ {r}, procCompound P.libm P.ho c ins out = .ok r →
        procCompound P.libm P.ho { c with order := l } ins' out = .ok ({ r.1 with order := l }, r.2) := by
      intro r hr
      have hlen := hs.len
      obtain ⟨kind, g, d, i, t, o⟩ := c
      cases kind with
      | plate => exact hf hr
      | drum =>
        match ins, ins', hlen with
        | [], [], _ => cases hr; rfl
        | [x], [y], _ => exact hf hr
        | x :: x1 :: xs, y :: y1 :: ys, _ => cases hr; rfl
      | synth =>
        match ins, ins', hlen with
        | [], [], _ => cases hr; rfl
        | [x], [y], _ => exact hf hr
        | x :: x1 :: xs, y :: y1 :: ys, _ => cases hr; rfl
    simp only [procG, GNode.setOrder] at h ⊢
    cases hr : procCompound P.libm P.ho c ins out with
    | error e => rw [hr] at h; cases h
    | ok r =>
      rw [hr] at h
      cases h
      rw [hc hr]
      rfl
  | script o s =>
    have hfirst : firstHeard o ins = firstHeard l ins' := by
      have hx : inputAt ins o 0 = inputAt ins' l 0 := hs.look 0
      have hlen := hs.len
      unfold firstHeard
      have he : ins.isEmpty = ins'.isEmpty := by cases ins <;> cases ins' <;> simp_all
      rw [hx, he]
    simp only [procG, GNode.setOrder] at h ⊢
    rw [hf.first s o l ins ins' out hfirst]
    cases hr : P.ext.proc s o ins out with
    | error e => rw [hr] at h; cases h
    | ok r => rw [hr] at h; cases h; rfl

theorem gplain_after {n n' : GNode P} {ins : Ins} {out o : List Buf} (hn : GPlain n) (h : procG P n ins out = .ok (n', o)) :
    GPlain n' := by
  cases n with
  | prim n =>
    simp only [procG] at h
    cases hr : procPrim P.libm n ins out with
    | error e => rw [hr] at h; cases h
    | ok r =>
      obtain ⟨n1, o1⟩ := r
      rw [hr] at h
      cases h
      exact plain_after hn hr
  | compound c =>
    simp only [procG] at h
    cases hr : procCompound P.libm P.ho c ins out with
    | error e => rw [hr] at h; cases h
    | ok r => rw [hr] at h; cases h; trivial
  | script o s =>
    simp only [procG] at h
    cases hr : P.ext.proc s o ins out with
    | error e => rw [hr] at h; cases h
    | ok r => rw [hr] at h; cases h; trivial

theorem runBlocks_renumber (hf : ExtFirst P) {l l' : List Nat} {inputs inputs' : List Ins}
    (hs : List.Forall₂ (fun i i' => SameIns i l i' l') inputs inputs') : ∀ {n : GNode P} {out : List Buf} {outs : List (List Buf)},
    GPlain n → n.order = l → runBlocks (procG P) n out inputs = .ok outs →
    runBlocks (procG P) (n.setOrder l') out inputs' = .ok outs := by
  induction hs with
  | nil => intro n out outs _ _ h; cases h; rfl
  | @cons i i' is is' hi _ ih =>
    intro n out outs hn ho h
    simp only [runBlocks] at h ⊢
    split at h
    · cases h
    · rename_i n' out' h1
      subst ho
      rw [procG_renumber hf hn hi h1]
      simp only
      split at h
      · cases h
      · rename_i r hr
        rw [ih (gplain_after hn h1) (procG_kind h1).2 hr]
        exact h

theorem makeNode_plain {N : Nat} {samples : List (Name × Sample)} {sr : Nat} {bpm : Fl} {seed : Nat} {c : Comp}
    {nd : NodeData (GNode P) Buf} {rs : List Name} {inputs : Nat} (hr : ByRole c inputs) (hb : ¬ BlockFree samples c inputs)
    (h : makeNode P N samples sr bpm seed c = .ok (nd, rs)) : GPlain nd.node ∧ c.keeps = true ∧ NotesInputs c := by
  unfold makeNode at h
  split at h
  · rename_i r hp
    rw [except_bind_ok] at h
    obtain ⟨⟨ch, n⟩, rfl, h⟩ := h
    cases h
    show Plain n ∧ _
    cases c <;> first
      | exact absurd trivial hb
      | exact hr.elim
      | exact absurd hr hb
      | (cases hp; done)
      | (cases hp; exact ⟨trivial, rfl, trivial⟩)
      | skip
    case lpf v q => cases v <;> cases hp <;> exact ⟨trivial, rfl, trivial⟩
    case psampler e v =>
      cases v with
      | none => cases hp
      | some v =>
        have h := Option.some.inj hp
        rw [except_bind_ok] at h
        obtain ⟨l, _, h⟩ := h
        cases h
        exact ⟨trivial, rfl, trivial⟩
  · split at h
    · rename_i r hp
      rw [except_bind_ok] at h
      obtain ⟨k, hk, h⟩ := h
      cases h
      refine ⟨trivial, ?_⟩
      cases c <;> first
        | exact ⟨rfl, trivial⟩
        | (cases hp; done)
    · split at h
      · rw [except_bind_ok] at h
        obtain ⟨s, _, h⟩ := h
        cases h
        exact ⟨trivial, rfl, trivial⟩
      · rw [except_bind_ok] at h
        obtain ⟨s, _, h⟩ := h
        cases h
        exact ⟨trivial, rfl, trivial⟩
      · cases h

/-- What a noted input is found under. -/
theorem look_zip {nums : List Nat} {bufs : List (List Buf)} {ins : Ins} (hn : nums.Nodup) (hl : nums.length = bufs.length)
    (hp : ins.Perm (nums.zip bufs)) {sel : List Nat} (hs : ∀ j, j ∈ sel → j < nums.length) (k : Nat) :
    inputAt ins (sel.map (fun j => nums.getD j 0)) k =
      match sel[k]? with
      | .none => .error .indexOutOfBounds
      | some j => .ok (bufs.getD j []) := by
  unfold Verif.inputAt
  rw [List.getElem?_map]
  cases hk : sel[k]? with
  | none => rfl
  | some j =>
    simp only [Option.map_some]
    have hd := hs j (List.mem_of_getElem? hk)
    have hb : j < bufs.length := hl ▸ hd
    have hmem : (nums.getD j 0, bufs.getD j []) ∈ ins := by
      rw [hp.mem_iff, List.mem_iff_getElem?]
      refine ⟨j, ?_⟩
      rw [List.getElem?_zip_eq_some]
      simp [List.getD_eq_getElem?_getD, List.getElem?_eq_getElem hd, List.getElem?_eq_getElem hb]
    have hnd : (ins.map Prod.fst).Nodup := by
      have hp := hp.map Prod.fst
      rw [hp.nodup_iff, List.map_fst_zip (by rw [hl])]
      exact hn
    have hfind : ins.find? (fun e => e.1 == nums.getD j 0) = some (nums.getD j 0, bufs.getD j []) := by
      clear hp hs hk hb hd hl
      induction ins with
      | nil => cases hmem
      | cons e ins ih =>
        simp only [List.map_cons, List.nodup_cons] at hnd
        rw [List.find?_cons]
        rcases List.mem_cons.mp hmem with he | he
        · rw [← he]; simp
        · have : (e.1 == nums.getD j 0) = false := by
            rw [beq_eq_false_iff_ne]
            intro hc
            exact hnd.1 (hc ▸ List.mem_map.mpr ⟨_, he, rfl⟩)
          rw [this]
          exact ih he hnd.2
    rw [hfind]

theorem forall₂_eq_of {α β : Type} {R : α → β → Prop} (hR : ∀ a b b', R a b → R a b' → b = b') {l : List α} {m m' : List β}
    (h : List.Forall₂ R l m) (h' : List.Forall₂ R l m') : m = m' := by
  induction h generalizing m' with
  | nil => cases h'; rfl
  | cons hab _ ih =>
    cases h' with
    | cons hab' hrest => rw [hR _ _ _ hab hab', ih hrest]

theorem fed_same {nums nums' : List Nat} {sigs : List (List (List Buf))} {inputs inputs' : List Ins} (hn : nums.Nodup)
    (hn' : nums'.Nodup) (hl : nums.length = sigs.length) (hl' : nums'.length = sigs.length) (hf : FedBy nums sigs inputs)
    (hf' : FedBy nums' sigs inputs') (hlen : inputs.length = inputs'.length) {sel : List Nat} (hs : ∀ j, j ∈ sel → j < sigs.length) :
    List.Forall₂ (fun i i' => SameIns i (sel.map (fun j => nums.getD j 0)) i' (sel.map (fun j => nums'.getD j 0))) inputs inputs' := by
  rw [List.forall₂_iff_get]
  refine ⟨hlen, ?_⟩
  intro t h1 h2
  obtain ⟨bufs, b1, b2⟩ := hf t _ (List.getElem?_eq_getElem h1)
  obtain ⟨bufs', b1', b2'⟩ := hf' t _ (List.getElem?_eq_getElem h2)
  have hb : bufs = bufs' := forall₂_eq_of (fun a b b' h h' => by rw [h] at h'; exact Option.some.inj h') b1 b1'
  subst hb
  have hbl : sigs.length = bufs.length := b1.length_eq
  simp only [List.get_eq_getElem]
  refine ⟨?_, ?_, ?_⟩
  · rw [b2.length_eq, b2'.length_eq, List.length_zip, List.length_zip, hl, hl']
  · intro x x' hx hx'
    rw [hx] at b2
    rw [hx'] at b2'
    have e1 := (b2.map Prod.snd)
    have e2 := (b2'.map Prod.snd)
    rw [List.map_snd_zip (by omega)] at e1
    rw [List.map_snd_zip (by omega)] at e2
    have := e1.trans e2.symm
    simpa using this
  · intro k
    rw [look_zip hn (by omega) b2 (fun j hj => by have := hs j hj; omega),
      look_zip hn' (by omega) b2' (fun j hj => by have := hs j hj; omega)]

/-- A component that is told the same inputs under other numbers plays the same. -/
theorem play_renumber (hx : ExtFirst P) {N : Nat} {env : Env} {c : Comp} {inputsN : Nat} (hr : ByRole c inputsN) (hb : ¬ BlockFree env.samples c inputsN)
    {nums nums' : List Nat} {sigs : List (List (List Buf))} {inputs inputs' : List Ins} (hn : nums.Nodup)
    (hn' : nums'.Nodup) (hl : nums.length = sigs.length) (hl' : nums'.length = sigs.length) (hf : FedBy nums sigs inputs)
    (hf' : FedBy nums' sigs inputs') (hlen : inputs.length = inputs'.length) {sel : List Nat} (hs : ∀ j, j ∈ sel → j < sigs.length)
    {outs : List (List Buf)} (h : play P N env c ((sel.map (fun j => nums.getD j 0)).map .index) inputs = .ok outs) :
    play P N env c ((sel.map (fun j => nums'.getD j 0)).map .index) inputs' = .ok outs := by
  have hsame := fed_same hn hn' hl hl' hf hf' hlen hs
  unfold play at h ⊢
  split at h
  · cases h
  · rename_i d rs hd
    obtain ⟨p1, p2, _⟩ := makeNode_plain hr hb hd
    obtain ⟨o1, o2⟩ := makeNode_order p2 hd
    rw [sendMsgs_index o1, o2, List.nil_append] at h
    rw [sendMsgs_index o1, o2, List.nil_append]
    simp only at h ⊢
    split at h
    · cases h
    · rename_i r hrun
      have hpl : GPlain (d.node.setOrder (sel.map (fun j => nums.getD j 0))) := by
        revert p1
        cases d.node with
        | prim n => cases n <;> first | exact id | exact fun h => h
        | compound c => exact id
        | script o s => exact id
      have := runBlocks_renumber hx hsame hpl (GNode.order_set o1) hrun
      rw [GNode.setOrder_set] at this
      rw [this]
      exact h

end Verif.Renumber
