import Verif.Lemmas.SafeG
import Verif.Spec.Compose

/-! What a new node has learnt from the wiring messages (helpers). -/

namespace Verif
open Spec

variable {P : Plat} {N : Nat}

/-- The node with another list of inputs. -/
def Prim.setOrder (l : List Nat) : Prim → Prim
  | .pass => .pass
  | .sum => .sum
  | .sum2 => .sum2
  | .mul a => .mul { a with order := l }
  | .add a => .add { a with order := l }
  | .speed a => .speed { a with order := l }
  | .pan a => .pan { a with order := l }
  | .constSig c => .constSig c
  | .imp i => .imp i
  | .noise n => .noise n
  | .balance _ => .balance l
  | .delayn d => .delayn { d with order := l }
  | .delayms d => .delayms { d with order := l }
  | .osc w o => .osc w { o with order := l }
  | .sin o => .sin { o with order := l }
  | .envperc e => .envperc { e with order := l }
  | .adsr e => .adsr { e with order := l }
  | .onepole f => .onepole { f with order := l }
  | .rhpf f => .rhpf { f with order := l }
  | .rlpf f => .rlpf { f with order := l }
  | .apf f => .apf { f with order := l }
  | .seq s => .seq { s with order := l }
  | .arrange a => .arrange { a with order := l }
  | .choose c => .choose { c with order := l }
  | .points p => .points p
  | .sampler s => .sampler { s with order := l }
  | .psampler p => .psampler { p with order := l }
  | .msgSynth s => .msgSynth { s with order := l }
  | .patSynth s => .patSynth { s with order := l }

/-- The graph node with another list of inputs. -/
def GNode.setOrder (l : List Nat) : GNode P → GNode P
  | .prim n => .prim (n.setOrder l)
  | .compound c => .compound { c with order := l }
  | .script _ s => .script l s

theorem Prim.setOrder_self {n : Prim} : n.setOrder n.order = n := by cases n <;> rfl

theorem Prim.setOrder_set {n : Prim} {l k : List Nat} : (n.setOrder l).setOrder k = n.setOrder k := by
  cases n <;> rfl

theorem Prim.order_set {n : Prim} {l : List Nat} (h : n.keepsOrder = true) : (n.setOrder l).order = l := by
  cases n <;> first | rfl | cases h

theorem Prim.keeps_set {n : Prim} {l : List Nat} : (n.setOrder l).keepsOrder = n.keepsOrder := by
  cases n <;> rfl

theorem GNode.setOrder_self {n : GNode P} : n.setOrder n.order = n := by
  cases n with
  | prim n => exact congrArg GNode.prim Prim.setOrder_self
  | _ => rfl

theorem GNode.setOrder_set {n : GNode P} {l k : List Nat} : (n.setOrder l).setOrder k = n.setOrder k := by
  cases n with
  | prim n => exact congrArg GNode.prim Prim.setOrder_set
  | _ => rfl

theorem GNode.order_set {n : GNode P} {l : List Nat} (h : n.keepsOrder) : (n.setOrder l).order = l := by
  cases n with
  | prim n => exact Prim.order_set h
  | compound c => rfl
  | script o s => rfl

theorem GNode.keeps_set {n : GNode P} {l : List Nat} (h : n.keepsOrder) : (n.setOrder l).keepsOrder := by
  cases n with
  | prim n => exact Prim.keeps_set.trans h
  | compound c => trivial
  | script o s => trivial

/-- A wiring message changes nothing but the list of inputs. -/
theorem msgPrim_set {m : Libm} {n n' : Prim} {g : Msg Fl} (hg : IsWiring g) (hk : n.keepsOrder = true)
    (h : msgPrim m n g = .ok n') : n' = n.setOrder n'.order := by
  have key : ∀ {α : Type} {f : List Nat → α} {b : Bool} {o : List Nat} {c : α → Prim},
      c <$> (do let o ← orderMsg b o g; .ok (f o)) = Except.ok n' → ∃ o', n' = c (f o') := by
    intro α f b o c h
    generalize orderMsg b o g = x at h
    cases x with
    | error e => cases h
    | ok o' => cases h; exact ⟨o', rfl⟩
  have key' : ∀ {b : Bool} {o : List Nat} {c : List Nat → Prim},
      c <$> orderMsg b o g = Except.ok n' → ∃ o', n' = c o' := by
    intro b o c h
    generalize orderMsg b o g = x at h
    cases x with
    | error e => cases h
    | ok o' => cases h; exact ⟨o', rfl⟩
  cases g with
  | setToNumber p v => exact absurd hg (by simp [IsWiring])
  | setToSymbol p v => exact absurd hg (by simp [IsWiring])
  | setBPM v => exact absurd hg (by simp [IsWiring])
  | index i =>
    cases n <;> first
      | (cases hk; done)
      | (cases h; rfl)
      | (obtain ⟨o', rfl⟩ := key h; rfl)
      | (obtain ⟨o', rfl⟩ := key' h; rfl)
  | indexOrder p i =>
    cases n <;> first
      | (cases hk; done)
      | (cases h; rfl)
      | (obtain ⟨o', rfl⟩ := key h; rfl)
      | (obtain ⟨o', rfl⟩ := key' h; rfl)
  | resetOrder =>
    cases n <;> first
      | (cases hk; done)
      | (cases h; rfl)
      | (obtain ⟨o', rfl⟩ := key h; rfl)
      | (obtain ⟨o', rfl⟩ := key' h; rfl)

theorem msgG_set {n n' : GNode P} {g : Msg Fl} (hg : IsWiring g) (hk : n.keepsOrder)
    (h : msgG P n g = .ok n') : n' = n.setOrder n'.order := by
  cases n with
  | prim n =>
    simp only [msgG] at h
    cases hr : msgPrim P.libm n g with
    | error e => rw [hr] at h; cases h
    | ok n1 =>
      rw [hr] at h
      cases h
      exact congrArg GNode.prim (msgPrim_set hg hk hr)
  | compound c =>
    simp only [msgG, compoundMsg_wiring hg] at h
    cases hr : orderMsg (c.kind == .plate) c.order g with
    | error e => rw [hr] at h; cases h
    | ok o' => rw [hr] at h; cases h; rfl
  | script o s =>
    rw [scriptMsg_wiring hg] at h
    cases hr : orderMsg true o g with
    | error e => rw [hr] at h; cases h
    | ok o' => rw [hr] at h; cases h; rfl

/-- One wiring message, on a node that keeps a list; an empty list stays empty when reset. -/
theorem msgG_orderSet {n n' : GNode P} {g : Msg Fl} (hg : UpdateWiring g) (hk : n.keepsOrder)
    (hz : g = .resetOrder → n.order = []) (h : msgG P n g = .ok n') :
    ∃ l, orderMsg true n.order g = .ok l ∧ n' = n.setOrder l := by
  have hset := msgG_set (UpdateWiring.wiring hg) hk h
  by_cases hr : g = .resetOrder
  · subst hr
    have h0 := hz rfl
    refine ⟨[], rfl, ?_⟩
    have : n'.order = [] := by
      cases n with
      | prim n => 
        have := (msgG_wiring (g := .resetOrder) trivial h).2.2 hk (fun _ => hk)
        simp only [orderMsg, if_true, Except.ok.injEq] at this
        exact this.symm
      | compound c =>
        simp only [msgG, compoundMsg_wiring (g := .resetOrder) trivial] at h
        have hc : c.order = [] := h0
        rw [hc] at h
        have : orderMsg (c.kind == .plate) [] Msg.resetOrder = .ok [] := by
          simp [orderMsg]
        rw [this] at h
        cases h
        rfl
      | script o s => cases h; rfl
    rw [hset, this]
  · exact ⟨_, (msgG_wiring (UpdateWiring.wiring hg) h).2.2 hk (fun x => absurd x hr), hset⟩

theorem sendMsgs_foldl {n : GNode P} {ms : List (Msg Fl)} : ms.foldlM (msgG P) n = sendMsgs n ms := by
  induction ms generalizing n with
  | nil => rfl
  | cons m ms ih =>
    rw [List.foldlM_cons, sendMsgs]
    cases h : msgG P n m with
    | error e => rfl
    | ok n' => exact ih

theorem msgG_index {n : GNode P} {a : Nat} (hk : n.keepsOrder) :
    msgG P n (.index a) = .ok (n.setOrder (n.order ++ [a])) := by
  have hx : ∃ n', msgG P n (.index a) = .ok n' := by
    cases n with
    | prim n =>
      obtain ⟨n', h⟩ := msgPrim_total (m := P.libm) (n := n) (g := .index a) trivial
      exact ⟨.prim n', by simp only [msgG, h]; rfl⟩
    | compound c =>
      obtain ⟨o', h⟩ := orderMsg_ok (resets := c.kind == .plate) (o := c.order) (m := .index a) trivial
      refine ⟨.compound { c with order := o' }, ?_⟩
      simp only [msgG, compoundMsg_wiring (g := .index a) trivial, h]
      rfl
    | script o s => exact ⟨.script (o ++ [a]) s, rfl⟩
  obtain ⟨n', h⟩ := hx
  obtain ⟨l, h1, h2⟩ := msgG_orderSet (g := .index a) trivial hk (fun h => by cases h) h
  cases h1
  rw [h, h2]

theorem sendMsgs_index {srcs : List Nat} {n : GNode P} (hk : n.keepsOrder) :
    sendMsgs n (srcs.map .index) = .ok (n.setOrder (n.order ++ srcs)) := by
  induction srcs generalizing n with
  | nil => simp only [List.map_nil, List.append_nil, sendMsgs, GNode.setOrder_self]
  | cons a srcs ih =>
    rw [List.map_cons, sendMsgs, msgG_index hk]
    show sendMsgs _ _ = _
    rw [ih (GNode.keeps_set hk), GNode.order_set hk, GNode.setOrder_set, List.append_assoc]
    rfl

theorem msgG_front {n n' : GNode P} {a : Nat} (hk : n.keepsOrder) (h : msgG P n (.indexOrder 0 a) = .ok n') :
    n' = n.setOrder (a :: n.order) := by
  obtain ⟨l, h1, h2⟩ := msgG_orderSet (g := .indexOrder 0 a) rfl hk (fun h => by cases h) h
  simp only [orderMsg, Nat.zero_le, if_true, List.insertIdx_zero, Except.ok.injEq] at h1
  rw [h2, h1]

/-- The wiring messages of a new node amount to telling it its left neighbour and then the sources of its
references. -/
theorem wiring_canonical {n n' : GNode P} {refs : List Name} {srcs : List Nat} {left : Option Nat}
    (hk : n.keepsOrder) (h0 : n.order = []) (hs : refs = [] → srcs = [])
    (h : (wiring refs srcs left).foldlM (msgG P) n = .ok n') :
    sendMsgs n ((left.toList ++ srcs).map .index) = .ok n' := by
  have hmid : ∃ n1, n1 = n.setOrder srcs ∧ (left.toList.map (Msg.indexOrder 0)).foldlM (msgG P) n1 = .ok n' := by
    unfold wiring at h
    by_cases hr : refs = []
    · rw [hs hr, if_pos hr] at *
      refine ⟨n, ?_, h⟩
      rw [← h0, GNode.setOrder_self]
    · rw [if_neg hr, List.cons_append, List.foldlM_cons, except_bind_ok] at h
      obtain ⟨n1, h1, h⟩ := h
      obtain ⟨l, k1, k2⟩ := msgG_orderSet (g := .resetOrder) trivial hk (fun _ => h0) h1
      simp only [orderMsg, if_true, Except.ok.injEq] at k1
      subst k1
      rw [← h0, GNode.setOrder_self] at k2
      subst k2
      rw [List.foldlM_append, except_bind_ok] at h
      obtain ⟨n2, h2, h⟩ := h
      rw [sendMsgs_foldl, sendMsgs_index hk, h0, List.nil_append, Except.ok.injEq] at h2
      exact ⟨n2, h2.symm, h⟩
  obtain ⟨n1, rfl, h⟩ := hmid
  rw [sendMsgs_index hk, h0, List.nil_append]
  cases left with
  | none => 
    simp only [Option.toList_none, List.map_nil, List.foldlM_nil] at h
    cases h
    rfl
  | some a =>
    simp only [Option.toList_some, List.map_cons, List.map_nil, List.foldlM_cons, List.foldlM_nil] at h
    rw [except_bind_ok] at h
    obtain ⟨n2, h2, h⟩ := h
    cases h
    rw [msgG_front (GNode.keeps_set hk) h2, GNode.setOrder_set, GNode.order_set hk]
    rfl

/-! ### New nodes -/

theorem makePrim_order {m : Libm} {samples : List (Name × Sample)} {sr : Nat} {bpm : Fl} {seed : Nat}
    {c : Comp} {ch : Nat} {n : Prim} (h : makePrim m samples sr bpm seed c = some (.ok (ch, n)))
    (hk : n.keepsOrder = true) : n.order = [] := by
  cases c with
  | psampler e span =>
    cases span with
    | none => cases h
    | some v =>
      have h := Option.some.inj h
      rw [except_bind_ok] at h
      obtain ⟨l, _, h⟩ := h
      cases h
      rfl
  | points ps span looping =>
    have h := Option.some.inj h
    rw [except_bind_ok] at h
    obtain ⟨p, _, h⟩ := h
    cases h
    cases hk
  | patternSynth s span =>
    have h := Option.some.inj h
    rw [except_bind_ok] at h
    obtain ⟨p, hp, h⟩ := h
    cases h
    have hp := liftP_ok hp
    unfold PatternSynth.new at hp
    rw [except_bind_ok] at hp
    obtain ⟨ev, _, hp⟩ := hp
    cases hp
    rfl
  | sp sym =>
    have h := Option.some.inj h
    split at h
    · cases h
    · rw [except_bind_ok] at h
      obtain ⟨p, hp, h⟩ := h
      cases h
      have hp := liftP_ok hp
      unfold Sampler.new at hp
      split at hp
      · cases hp
      · split at hp
        · cases hp
        · cases hp
          rfl
  | lpf s q => cases s <;> cases h <;> rfl
  | apfmsgain d g =>
    have h := Option.some.inj h
    rw [except_bind_ok] at h
    obtain ⟨p, hp, h⟩ := h
    cases h
    have hp := liftP_ok hp
    unfold Apf.new at hp
    rw [except_bind_ok] at hp
    obtain ⟨b, _, hp⟩ := hp
    cases hp
    rfl
  | delayn p => cases p <;> cases h <;> rfl
  | _ => cases h <;> rfl

theorem makeCompound_order {m : Libm} {c : Comp} {k : Compound} (h : makeCompound m N c = some (.ok k)) :
    k.order = [] := by
  cases c with
  | plate mix =>
    have h := Option.some.inj h
    unfold newPlate at h
    rw [except_bind_ok] at h
    obtain ⟨l, _, h⟩ := h
    rw [except_bind_ok] at h
    obtain ⟨g, _, h⟩ := h
    cases h
    rfl
  | bd _ | sn _ | hh _ | sawsynth _ _ | squsynth _ _ | trisynth _ _ =>
    have h := Option.some.inj h
    repeat
      replace h : (_ >>= _) = Except.ok k := h
      rw [except_bind_ok] at h
      obtain ⟨_, _, h⟩ := h
    cases h
    rfl
  | _ => cases h

theorem makeNode_order {samples : List (Name × Sample)} {sr : Nat} {bpm : Fl} {seed : Nat} {c : Comp}
    {nd : NodeData (GNode P) Buf} {rs : List Name} (hc : c.keeps = true)
    (h : makeNode P N samples sr bpm seed c = .ok (nd, rs)) : nd.node.keepsOrder ∧ nd.node.order = [] := by
  unfold makeNode at h
  split at h
  · rename_i r hp
    rw [except_bind_ok] at h
    obtain ⟨⟨ch, n⟩, rfl, h⟩ := h
    cases h
    have hk : n.keepsOrder = true := (makePrim_class hp).1.trans hc
    exact ⟨hk, makePrim_order hp hk⟩
  · split at h
    · rename_i r hp
      rw [except_bind_ok] at h
      obtain ⟨k, hk, h⟩ := h
      cases h
      have hk := liftP_ok hk
      subst hk
      exact ⟨trivial, makeCompound_order hp⟩
    · split at h
      · rw [except_bind_ok] at h
        obtain ⟨s, _, h⟩ := h
        cases h
        exact ⟨trivial, rfl⟩
      · rw [except_bind_ok] at h
        obtain ⟨s, _, h⟩ := h
        cases h
        exact ⟨trivial, rfl⟩
      · cases h

end Verif
