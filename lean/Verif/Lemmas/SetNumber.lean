import Verif.Lemmas.PlaceInv
import Verif.Lemmas.SafeG
import Verif.Spec.Session

/-! Messages that set numbers and texts do not fail (helpers of C93). -/

namespace Verif
open Spec

/-- The primitive nodes that take any number for any setting. -/
def Prim.easy : Prim → Bool
  | .delayn _ | .apf _ | .arrange _ => false
  | _ => true

theorem easy_total {m : Libm} {n : Prim} (h : n.easy = true) (p : Nat) (v : Fl) : ∃ n', msgPrim m n (.setToNumber p v) = .ok n' := by
  cases n <;> first
    | (cases h; done)
    | (rcases p with _ | _ | _ | _ | p <;> exact ⟨_, rfl⟩)

theorem easy_msg {m : Libm} {n n' : Prim} {g : Msg Fl} (h : msgPrim m n g = .ok n') : n'.easy = n.easy := by
  cases n <;> first
    | (cases h; rfl)
    | (obtain ⟨s, -, rfl⟩ := map_ok h; rfl)

theorem easy_proc {m : Libm} {n n' : Prim} {ins : Ins} {b b' : List Buf} (h : procPrim m n ins b = .ok (n', b')) : n'.easy = n.easy := by
  have h1 : ∀ {σ : Type} {f : σ → Prim} {r : Except Panic (σ × List Buf)}, reState f r = .ok (n', b') → ∃ s, n' = f s := by
    intro σ f r h
    unfold reState at h
    split at h
    · cases h
    · cases h; exact ⟨_, rfl⟩
  have h2 : ∀ {x : Prim} {r : Except Panic (List Buf)}, sameNode x r = .ok (n', b') → n' = x := by
    intro x r h
    unfold sameNode at h
    split at h
    · cases h
    · cases h; rfl
  cases n <;> first
    | (obtain ⟨s, rfl⟩ := h1 h; rfl)
    | (obtain rfl := h2 h; rfl)
    | (cases h; rfl)

/-- The primitive nodes that take any text for any setting. -/
def Prim.reads : Prim → Bool
  | .msgSynth _ | .patSynth _ => false
  | _ => true

theorem reads_total {m : Libm} {n : Prim} (h : n.reads = true) (p : Nat) (t : Name) : ∃ n', msgPrim m n (.setToSymbol p t) = .ok n' := by
  cases n <;> first
    | (cases h; done)
    | (rcases p with _ | _ | _ | _ | p <;> exact ⟨_, rfl⟩)

theorem reads_msg {m : Libm} {n n' : Prim} {g : Msg Fl} (h : msgPrim m n g = .ok n') : n'.reads = n.reads := by
  cases n <;> first
    | (cases h; rfl)
    | (obtain ⟨s, -, rfl⟩ := map_ok h; rfl)

theorem reads_proc {m : Libm} {n n' : Prim} {ins : Ins} {b b' : List Buf} (h : procPrim m n ins b = .ok (n', b')) : n'.reads = n.reads := by
  have h1 : ∀ {σ : Type} {f : σ → Prim} {r : Except Panic (σ × List Buf)}, reState f r = .ok (n', b') → ∃ s, n' = f s := by
    intro σ f r h
    unfold reState at h
    split at h
    · cases h
    · cases h; exact ⟨_, rfl⟩
  have h2 : ∀ {x : Prim} {r : Except Panic (List Buf)}, sameNode x r = .ok (n', b') → n' = x := by
    intro x r h
    unfold sameNode at h
    split at h
    · cases h
    · cases h; rfl
  cases n <;> first
    | (obtain ⟨s, rfl⟩ := h1 h; rfl)
    | (obtain rfl := h2 h; rfl)
    | (cases h; rfl)

/-! ### Drums, synths and the reverb -/

/-- The parts of two graphs take the same numbers. -/
def SameEase (d d' : NodeData Prim Buf) : Prop := d'.node.easy = d.node.easy

theorem SameEase.trans {a b c : NodeData Prim Buf} (h1 : SameEase a b) (h2 : SameEase b c) : SameEase a c := Eq.trans h2 h1

/-- The parts to which settings are passed on are there and take any number. -/
structure Compound.Easy (c : Compound) : Prop where
  count : c.tags.length = match c.kind with | .plate => 4 | _ => 1
  parts : ∀ i, i ∈ c.tags → ∃ d, c.graph.node? i = some d ∧ d.node.easy = true

def Compound.easyCheck (c : Compound) : Bool :=
  (c.tags.length == match c.kind with | .plate => 4 | _ => 1) &&
  c.tags.all (fun i => match c.graph.node? i with | some d => d.node.easy | none => false)

theorem easyCheck_easy {c : Compound} (h : c.easyCheck = true) : c.Easy := by
  simp only [Compound.easyCheck, Bool.and_eq_true, beq_iff_eq, List.all_eq_true] at h
  refine ⟨h.1, fun i hi => ?_⟩
  have := h.2 i hi
  split at this
  · rename_i d hd
    exact ⟨d, hd, this⟩
  · cases this

theorem Compound.Easy.keep {c : Compound} (h : c.Easy) {g : Patch} (hg : Each SameEase c.graph g) : Compound.Easy { c with graph := g } := by
  refine ⟨h.count, fun i hi => ?_⟩
  obtain ⟨d, h1, h2⟩ := h.parts i hi
  obtain ⟨d', h3, h4⟩ := hg.1 i d h1
  exact ⟨d', h3, Eq.trans h4 h2⟩

theorem ease_modify {g g' : Patch} {i : Nat} {f : NodeData Prim Buf → Except Panic (NodeData Prim Buf)} (h : g.modify i f = .ok g')
    (hf : ∀ d d', f d = .ok d' → SameEase d d') : Each SameEase g g' := by
  obtain ⟨a, a', h1, h2, -, -, -, h6⟩ := Graph.modify_ok h
  constructor
  · intro j d hd
    rw [h6]
    split
    · rename_i hj
      subst hj
      rw [h1] at hd
      cases hd
      exact ⟨a', rfl, hf _ _ h2⟩
    · exact ⟨d, hd, rfl⟩
  · intro j d hd
    rw [h6] at hd
    split at hd
    · rename_i hj
      subst hj
      cases hd
      exact ⟨a, h1, hf _ _ h2⟩
    · exact ⟨d, hd, rfl⟩

theorem ease_send {m : Libm} {g g' : Patch} {i : Nat} {x : Msg Fl} (h : Patch.send m g i x = .ok g') : Each SameEase g g' := by
  refine ease_modify h fun d d' hd => ?_
  simp only [except_bind_ok] at hd
  obtain ⟨n, h1, hd⟩ := hd
  cases hd
  exact easy_msg h1

theorem ease_feed {g g' : Patch} {i : Nat} {b : Buf} (h : Patch.feed g i b = .ok g') : Each SameEase g g' := by
  refine ease_modify h fun d d' hd => ?_
  split at hd
  · cases hd
  · cases hd
    rfl

theorem ease_block {m : Libm} {ho : HashOrder} {g : Patch} {dest : Nat} {r : Patch × List Buf} (h : Patch.nextBlock m ho g dest = .ok r) :
    Each SameEase g r.1 := by
  simp only [Patch.nextBlock, except_bind_ok] at h
  obtain ⟨g2, h1, h2⟩ := h
  have hr : r.1 = g2 := by
    split at h2
    · cases h2
    · cases h2
      rfl
  rw [hr]
  exact (process_inv (R := SameEase) (J := fun _ _ => True) (fun _ => rfl) (fun _ _ _ => SameEase.trans)
    (fun _ d ins n' b' _ _ h3 => ⟨trivial, easy_proc h3⟩) (fun _ _ _ => trivial) h1).2

theorem compound_proc {m : Libm} {ho : HashOrder} {c c' : Compound} {ins : Ins} {out o : List Buf} (hc : c.Easy)
    (h : procCompound m ho c ins out = .ok (c', o)) : c'.Easy := by
  have feed : c.feed m ho ins out = .ok (c', o) → c'.Easy := by
    intro h
    unfold Compound.feed at h
    simp only [except_bind_ok] at h
    obtain ⟨main, k1, x, k2, g, k3, ⟨g2, y⟩, k4, l, k5, r, k6, o', k7, h⟩ := h
    cases h
    exact (hc.keep (ease_feed k3)).keep (ease_block k4)
  unfold procCompound at h
  split at h
  · exact feed h
  · exact feed h
  · cases h
    exact hc

theorem sendTag_easy {m : Libm} {c c' : Compound} {k : Nat} {x : Msg Fl} (hc : c.Easy) (h : c.sendTag m k x = .ok c') :
    c'.Easy ∧ c'.kind = c.kind := by
  unfold Compound.sendTag at h
  split at h
  · cases h
  · simp only [except_bind_ok] at h
    obtain ⟨g, h1, h⟩ := h
    cases h
    exact ⟨hc.keep (ease_send h1), rfl⟩

theorem sendTag_takes {m : Libm} {c : Compound} {k p : Nat} {v : Fl} (hc : c.Easy) (hk : k < c.tags.length) :
    ∃ c', c.sendTag m k (.setToNumber p v) = .ok c' := by
  unfold Compound.sendTag
  obtain ⟨d, h1, h2⟩ := hc.parts c.tags[k] (List.getElem_mem hk)
  obtain ⟨n, h3⟩ := easy_total (m := m) h2 p v
  rw [List.getElem?_eq_getElem hk]
  simp only [Patch.send, Graph.modify, h1, h3, bind, Except.bind]
  exact ⟨_, rfl⟩

theorem compound_msg {m : Libm} {c c' : Compound} {g : Msg Fl} (hc : c.Easy) (h : c.msg m g = .ok c') : c'.Easy := by
  unfold Compound.msg at h
  split at h
  · exact (sendTag_easy hc h).1
  · exact (sendTag_easy hc h).1
  · exact (sendTag_easy hc h).1
  · simp only [except_bind_ok] at h
    obtain ⟨c1, h1, c2, h2, c3, h3, h⟩ := h
    exact (sendTag_easy (sendTag_easy (sendTag_easy (sendTag_easy hc h1).1 h2).1 h3).1 h).1
  · simp only [except_bind_ok] at h
    obtain ⟨o, -, h⟩ := h
    cases h
    exact ⟨hc.count, hc.parts⟩

theorem compound_total {m : Libm} {c : Compound} (hc : c.Easy) (p : Nat) (v : Fl) : ∃ c', c.msg m (.setToNumber p v) = .ok c' := by
  have hn := hc.count
  cases hk : c.kind with
  | drum =>
    rw [hk] at hn
    rcases p with _ | p
    · obtain ⟨c', h⟩ := sendTag_takes (m := m) (k := 0) (p := 1) (v := v) hc (by rw [hn]; decide)
      exact ⟨c', by simp only [Compound.msg, hk, h]⟩
    · simp only [Compound.msg, hk, orderMsg, bind, Except.bind]
      exact ⟨_, rfl⟩
  | synth =>
    rw [hk] at hn
    rcases p with _ | _ | p
    · obtain ⟨c', h⟩ := sendTag_takes (m := m) (k := 0) (p := 0) (v := v) hc (by rw [hn]; decide)
      exact ⟨c', by simp only [Compound.msg, hk, h]⟩
    · obtain ⟨c', h⟩ := sendTag_takes (m := m) (k := 0) (p := 1) (v := v) hc (by rw [hn]; decide)
      exact ⟨c', by simp only [Compound.msg, hk]; exact h⟩
    · simp only [Compound.msg, hk, orderMsg, bind, Except.bind]
      exact ⟨_, rfl⟩
  | plate =>
    have four : ∀ {c : Compound}, c.Easy → c.kind = .plate → c.tags.length = 4 := fun h hk => by have := h.count; rwa [hk] at this
    rcases p with _ | p
    · obtain ⟨c1, h1⟩ := sendTag_takes (m := m) (k := 0) (p := 0) (v := v) hc (by rw [four hc hk]; decide)
      obtain ⟨e1, k1⟩ := sendTag_easy hc h1
      obtain ⟨c2, h2⟩ := sendTag_takes (m := m) (k := 1) (p := 0) (v := v) e1 (by rw [four e1 (k1.trans hk)]; decide)
      obtain ⟨e2, k2⟩ := sendTag_easy e1 h2
      obtain ⟨c3, h3⟩ := sendTag_takes (m := m) (k := 2) (p := 0) (v := .fin 1 -. v) e2 (by rw [four e2 (k2.trans (k1.trans hk))]; decide)
      obtain ⟨e3, k3⟩ := sendTag_easy e2 h3
      obtain ⟨c4, h4⟩ := sendTag_takes (m := m) (k := 3) (p := 0) (v := .fin 1 -. v) e3 (by rw [four e3 (k3.trans (k2.trans (k1.trans hk)))]; decide)
      exact ⟨c4, by simp only [Compound.msg, hk, h1, h2, h3, h4, bind, Except.bind]⟩
    · simp only [Compound.msg, hk, orderMsg, bind, Except.bind]
      exact ⟨_, rfl⟩

theorem made_easy {r : Except Panic Compound} {k : Compound} (h : r.map Compound.easyCheck = .ok true) (hr : r = .ok k) : k.Easy := by
  rw [hr] at h
  exact easyCheck_easy (Except.ok.inj h)

theorem makeCompound_easy {m : Libm} {N : Nat} {c : Comp} {k : Compound} (h : makeCompound m N c = some (.ok k)) : k.Easy := by
  cases c with
  | bd p => exact made_easy (r := newBd m N (p.value (.fin 0))) (by kernel_rfl) (Option.some.inj h)
  | hh p => exact made_easy (r := newHh m N (p.value (.fin 0))) (by kernel_rfl) (Option.some.inj h)
  | sn p => exact made_easy (r := newSn m N (p.value (.fin 0))) (by kernel_rfl) (Option.some.inj h)
  | sawsynth a d => exact made_easy (r := newSynth m N .saw a d) (by kernel_rfl) (Option.some.inj h)
  | squsynth a d => exact made_easy (r := newSynth m N .squ a d) (by kernel_rfl) (Option.some.inj h)
  | trisynth a d => exact made_easy (r := newSynth m N .tri a d) (by kernel_rfl) (Option.some.inj h)
  | plate x => exact made_easy (r := newPlate m N x) (by kernel_rfl) (Option.some.inj h)
  | _ => cases h

/-! ### Components -/

theorem settable_eq {o c : Comp} (h : Comp.eq o c = true) : Settable o ↔ Settable c := by
  revert h
  fun_cases Comp.eq o c <;> intro h <;> first
    | exact Iff.rfl
    | cases h

theorem textable_eq {o c : Comp} (h : Comp.eq o c = true) : Textable o ↔ Textable c := by
  revert h
  fun_cases Comp.eq o c <;> intro h <;> first
    | exact Iff.rfl
    | cases h

theorem makePrim_easy {m : Libm} {smp : List (Name × Sample)} {sr : Nat} {bpm : Fl} {seed : Nat} {c : Comp} (hc : Settable c) {ch : Nat} {p : Prim}
    (h : makePrim m smp sr bpm seed c = some (.ok (ch, p))) : p.easy = true := by
  cases c with
  | lpf t q => cases t <;> cases h <;> rfl
  | psampler e s =>
    cases s with
    | none => cases h
    | some s =>
      simp only [makePrim, Option.some.injEq, except_bind_ok] at h
      obtain ⟨l, -, h⟩ := h
      cases h
      rfl
  | points ps s l =>
    simp only [makePrim, Option.some.injEq, except_bind_ok] at h
    obtain ⟨l, -, h⟩ := h
    cases h
    rfl
  | patternSynth t s =>
    simp only [makePrim, Option.some.injEq, except_bind_ok] at h
    obtain ⟨l, -, h⟩ := h
    cases h
    rfl
  | sp s =>
    simp only [makePrim, Option.some.injEq] at h
    split at h
    · cases h
    · simp only [except_bind_ok] at h
      obtain ⟨l, -, h⟩ := h
      cases h
      rfl
  | _ => first
    | exact hc.elim
    | (cases h; done)
    | (cases h; rfl)

theorem makePrim_reads {m : Libm} {smp : List (Name × Sample)} {sr : Nat} {bpm : Fl} {seed : Nat} {c : Comp} (hc : Textable c) {ch : Nat} {p : Prim}
    (h : makePrim m smp sr bpm seed c = some (.ok (ch, p))) : p.reads = true := by
  cases c with
  | lpf t q => cases t <;> cases h <;> rfl
  | psampler e s =>
    cases s with
    | none => cases h
    | some s =>
      simp only [makePrim, Option.some.injEq, except_bind_ok] at h
      obtain ⟨l, -, h⟩ := h
      cases h
      rfl
  | points ps s l =>
    simp only [makePrim, Option.some.injEq, except_bind_ok] at h
    obtain ⟨l, -, h⟩ := h
    cases h
    rfl
  | apfmsgain t s =>
    simp only [makePrim, Option.some.injEq, except_bind_ok] at h
    obtain ⟨l, -, h⟩ := h
    cases h
    rfl
  | delayn n => cases n <;> cases h <;> rfl
  | sp s =>
    simp only [makePrim, Option.some.injEq] at h
    split at h
    · cases h
    · simp only [except_bind_ok] at h
      obtain ⟨l, -, h⟩ := h
      cases h
      rfl
  | _ => first
    | exact hc.elim
    | (cases h; done)
    | (cases h; rfl)

variable {P : Plat} {N : Nat} {parse : Name → Except Panic (Option (Ast Comp))}

/-- The nodes that take any number for any setting. -/
def GNode.Easy : GNode P → Prop
  | .prim p => p.easy = true
  | .compound c => c.Easy
  | .script .. => True

theorem easyG_total {n : GNode P} (h : n.Easy) (p : Nat) (v : Fl) : ∃ n', msgG P n (.setToNumber p v) = .ok n' := by
  cases n with
  | prim n =>
    obtain ⟨n', h'⟩ := easy_total (m := P.libm) h p v
    exact ⟨.prim n', by simp only [msgG, h', Functor.map, Except.map]⟩
  | compound c =>
    obtain ⟨c', h'⟩ := compound_total (m := P.libm) h p v
    exact ⟨.compound c', by simp only [msgG, h', Functor.map, Except.map]⟩
  | script o s => exact ⟨.script o s, rfl⟩

theorem easyG_msg {n n' : GNode P} {g : Msg Fl} (hn : n.Easy) (h : msgG P n g = .ok n') : n'.Easy := by
  cases n with
  | prim n =>
    obtain ⟨p, h1, rfl⟩ := map_ok h
    exact (easy_msg h1).trans hn
  | compound c =>
    obtain ⟨p, h1, rfl⟩ := map_ok h
    exact compound_msg hn h1
  | script o s =>
    simp only [msgG] at h
    split at h
    · obtain ⟨p, -, rfl⟩ := map_ok h
      trivial
    · simp only [except_bind_ok] at h
      obtain ⟨o', -, h⟩ := h
      cases h
      trivial

theorem easyG_proc {n n' : GNode P} {ins : Ins} {b b' : List Buf} (hn : n.Easy) (h : procG P n ins b = .ok (n', b')) : n'.Easy := by
  have h1 : ∀ {σ : Type} {f : σ → GNode P} {r : Except Panic (σ × List Buf)}, reState f r = .ok (n', b') → ∃ s, r = .ok (s, b') ∧ n' = f s := by
    intro σ f r h
    unfold reState at h
    split at h
    · cases h
    · cases h; exact ⟨_, rfl, rfl⟩
  cases n with
  | prim n =>
    obtain ⟨s, h2, rfl⟩ := h1 h
    exact (easy_proc h2).trans hn
  | compound c =>
    obtain ⟨s, h2, rfl⟩ := h1 h
    exact compound_proc hn h2
  | script o s =>
    obtain ⟨s, h2, rfl⟩ := h1 h
    trivial

/-- The nodes that take any text for any setting. -/
def GNode.Reads : GNode P → Prop
  | .prim p => p.reads = true
  | .compound _ => True
  | .script .. => False

theorem readsG_total {n : GNode P} (h : n.Reads) (p : Nat) (t : Name) : ∃ n', msgG P n (.setToSymbol p t) = .ok n' := by
  cases n with
  | prim n =>
    obtain ⟨n', h'⟩ := reads_total (m := P.libm) h p t
    exact ⟨.prim n', by simp only [msgG, h', Functor.map, Except.map]⟩
  | compound c =>
    obtain ⟨kind, g, a, b, tags, o⟩ := c
    cases kind <;> exact ⟨_, rfl⟩
  | script o s => exact h.elim

theorem readsG_msg {n n' : GNode P} {g : Msg Fl} (hn : n.Reads) (h : msgG P n g = .ok n') : n'.Reads := by
  cases n with
  | prim n =>
    obtain ⟨p, h1, rfl⟩ := map_ok h
    exact (reads_msg h1).trans hn
  | compound c =>
    obtain ⟨p, h1, rfl⟩ := map_ok h
    trivial
  | script o s => exact hn.elim

theorem readsG_proc {n n' : GNode P} {ins : Ins} {b b' : List Buf} (hn : n.Reads) (h : procG P n ins b = .ok (n', b')) : n'.Reads := by
  have h1 : ∀ {σ : Type} {f : σ → GNode P} {r : Except Panic (σ × List Buf)}, reState f r = .ok (n', b') → ∃ s, r = .ok (s, b') ∧ n' = f s := by
    intro σ f r h
    unfold reState at h
    split at h
    · cases h
    · cases h; exact ⟨_, rfl, rfl⟩
  cases n with
  | prim n =>
    obtain ⟨s, h2, rfl⟩ := h1 h
    exact (reads_proc h2).trans hn
  | compound c =>
    obtain ⟨s, h2, rfl⟩ := h1 h
    trivial
  | script o s => exact hn.elim

/-- The node of a component takes any number, or any text, if the component may be set to it. -/
def TakesAll (c : Comp) (n : GNode P) : Prop := (Settable c → n.Easy) ∧ (Textable c → n.Reads)

theorem takesAll_kept : Kept (glicol P N parse) TakesAll where
  make := by
    intro smp sr bpm seed c nd rs h
    replace h : makeNode P N smp sr bpm seed c = .ok (nd, rs) := h
    unfold makeNode at h
    split at h
    · rename_i r hp
      cases r with
      | error _ => cases h
      | ok r =>
        obtain ⟨ch, p⟩ := r
        cases h
        exact ⟨fun hc => makePrim_easy hc hp, fun hc => makePrim_reads hc hp⟩
    · split at h
      · rename_i r hp
        cases r with
        | error _ => cases h
        | ok k =>
          cases h
          exact ⟨fun _ => makeCompound_easy hp, fun _ => trivial⟩
      · cases c with
        | metaScript code =>
          simp only [except_bind_ok] at h
          obtain ⟨s, -, h⟩ := h
          cases h
          exact ⟨fun _ => trivial, fun hc => hc.elim⟩
        | eval code =>
          simp only [except_bind_ok] at h
          obtain ⟨s, -, h⟩ := h
          cases h
          exact ⟨fun _ => trivial, fun hc => hc.elim⟩
        | _ => cases h
  eq := fun o c n h hq => ⟨fun hc => hq.1 ((settable_eq h).mpr hc), fun hc => hq.2 ((textable_eq h).mpr hc)⟩
  msg := fun c n g n' hq h => ⟨fun hc => easyG_msg (hq.1 hc) h, fun hc => readsG_msg (hq.2 hc) h⟩
  proc := fun c n ins b n' b' hq h => ⟨fun hc => easyG_proc (hq.1 hc) h, fun hc => readsG_proc (hq.2 hc) h⟩

/-- The commands address settings that may be set to what they are set to. -/
def Addressed (a : Ast Comp) (cmds : List Name) : Prop :=
  ∀ cmd, cmd ∈ cmds → ∀ k pos m, parseCommand (glicol P N parse) cmd = some (k, pos, m) →
    (k ≠ inputName ∧ k ∉ a.map Prod.fst) ∨ ∃ comps c, (k, comps) ∈ a ∧ comps[pos]? = some c ∧
      ((∃ par x, Settable c ∧ m = .setToNumber par x) ∨ ∃ par t, Textable c ∧ m = .setToSymbol par t)

/-- The nodes of the places that may be set are there, and there are no other chains but the input. -/
structure Tuned (a : Ast Comp) (e : Engine (glicol P N parse)) : Prop where
  places : ∀ k comps (i : Nat) c, (k, comps) ∈ a → comps[i]? = some c →
    ∃ nodes b d, lookup e.index k = some nodes ∧ nodes[i]? = some b ∧ e.graph.node? b = some d ∧ TakesAll c d.node
  others : ∀ k, k ∉ a.map Prod.fst → k ≠ inputName → lookup e.index k = none

theorem no_others (hL : ParserWf (glicol P N parse)) {e : Engine (glicol P N parse)} (h : CleanReach _ e) {k : Name} (hk : k ∉ oldKeys e)
    (hi : k ≠ inputName) : lookup e.index k = none :=
  lookup_none.mpr fun hm => hi ((mirrors_clean hL (glicol_eqLaws P N parse) h).onlyInput k hm hk)

theorem tuned_reach (hL : ParserWf (glicol P N parse)) {e : Engine (glicol P N parse)} {a : Ast Comp} {ks : List Name}
    (h : ReachBy _ (SteadyOn ks) e) (ha : e.ast = some a) (hks : ∀ k, k ∈ a.map Prod.fst → k ∈ ks) : Tuned a e := by
  refine ⟨?_, fun k hk hi => no_others hL (steady_clean h) (by simp only [oldKeys, ha]; exact hk) hi⟩
  intro k comps i c h1 h2
  have hI := inv_reachable hL (reachBy_reachable h)
  have hm := mirrors_clean hL (glicol_eqLaws P N parse) (steady_clean h)
  obtain ⟨nodes, g1, g2⟩ := hm.len a ha k comps h1
  obtain ⟨hi, -⟩ := List.getElem?_eq_some_iff.mp h2
  obtain ⟨b, hb⟩ : ∃ b, nodes[i]? = some b := ⟨_, List.getElem?_eq_getElem (by rw [g2]; exact hi)⟩
  have hlive : e.graph.Live b := (hI.live b).mpr (.inr (.inr (mem_flat.mpr ⟨k, nodes, lookup_mem g1, List.mem_of_getElem? hb⟩)))
  obtain ⟨d, hd⟩ : ∃ d, e.graph.node? b = some d := hlive
  have q1 := Kept.reach hL (glicol_eqLaws P N parse) takesAll_kept h ha (hks k (List.mem_map.mpr ⟨_, h1, rfl⟩)) h1 (lookup_mem g1) h2 hb hd
  exact ⟨nodes, b, d, g1, hb, hd, q1⟩

theorem commands_total {a : Ast Comp} : ∀ (cmds : List Name) {e : Engine (glicol P N parse)}, Tuned a e →
    Addressed (P := P) (N := N) (parse := parse) a cmds → ∃ e', cmds.foldlM Engine.command e = .ok e'
  | [], e, _, _ => ⟨e, rfl⟩
  | cmd :: cmds, e, ht, hc => by
    have hrest : Addressed (P := P) (N := N) (parse := parse) a cmds := fun x hx => hc x (List.mem_cons_of_mem _ hx)
    have h1 : ∃ e1, e.command cmd = .ok e1 ∧ Tuned a e1 := by
      unfold Engine.command
      cases hp : parseCommand (glicol P N parse) cmd with
      | none => exact ⟨e, rfl, ht⟩
      | some r =>
        obtain ⟨k, pos, m⟩ := r
        rcases hc cmd List.mem_cons_self k pos m hp with ⟨g1, g2⟩ | ⟨comps, c, g1, g2, g3⟩
        · exact ⟨e, by simp only [Engine.deliver, ht.others k g2 g1], ht⟩
        obtain ⟨nodes, b, d, q1, q2, q3, q4⟩ := ht.places k comps pos c g1 g2
        obtain ⟨p', hp'⟩ : ∃ p', msgG P d.node m = .ok p' := by
          rcases g3 with ⟨par, x, h, rfl⟩ | ⟨par, t, h, rfl⟩
          · exact easyG_total (q4.1 h) par x
          · exact readsG_total (q4.2 h) par t
        have hmsg : (glicol P N parse).msg d.node m = .ok p' := hp'
        have hsend : sendTo e.graph b m = .ok { e.graph with slots := e.graph.slots.set b (some ⟨p', d.buffers⟩) } := by
          unfold sendTo Graph.modify
          rw [q3]
          simp only [hmsg, bind, Except.bind]
        refine ⟨{ e with graph := { e.graph with slots := e.graph.slots.set b (some ⟨p', d.buffers⟩) } }, ?_, ?_⟩
        · simp only [Engine.deliver, q1, q2, hsend, bind, Except.bind]
        · obtain ⟨d0, d1, m1, m2, -, -, -, m6⟩ := Graph.modify_ok hsend
          refine ⟨?_, ht.others⟩
          intro k' comps' i' c' w1 w2
          obtain ⟨nodes', b', d', r1, r2, r3, r4⟩ := ht.places k' comps' i' c' w1 w2
          by_cases hbb : b = b'
          · subst hbb
            rw [q3] at m1
            cases m1
            simp only [hmsg, bind, Except.bind, Except.ok.injEq] at m2
            exact ⟨nodes', b, d1, r1, r2, by rw [m6, if_pos rfl], by rw [← m2]; exact (takesAll_kept (parse := parse) (N := N)).msg c' d.node m p' (by rw [q3] at r3; cases r3; exact r4) hp'⟩
          · exact ⟨nodes', b', d', r1, r2, by rw [m6, if_neg hbb]; exact r3, r4⟩
    obtain ⟨e1, h1, ht1⟩ := h1
    obtain ⟨e2, h2⟩ := commands_total cmds ht1 hrest
    refine ⟨e2, ?_⟩
    rw [List.foldlM_cons, h1]
    exact h2

end Verif
