import Verif.Lemmas.SafeMake
import Verif.Lemmas.SafePlate

/-! The real nodes satisfy the laws of `PlayLaws` for safe programs (helpers for C37). -/

namespace Verif
open Spec Props

variable {P : Plat} {N : Nat} {parse : Name → Except Panic (Option (Ast Comp))}

/-- What a node must satisfy so that it cannot fail on a block. -/
def GNode.Safe (N : Nat) : GNode P → Prop
  | .prim n => n.Safe P.libm
  | .compound c => CompoundOk P.libm N c ∨ PlateOk P.libm N c
  | .script .. => True

/-- The numbers a compound node may be set to. -/
def Kind.takesNumber : Kind → Nat → Fl → Prop
  | .drum => fun p v => p = 0 → TimeOk v
  | .synth => fun p v => p ≤ 1 → TimeOk v
  | .plate => fun _ _ => True

/-- The messages of the user that a compound node can take. -/
def Kind.takes (k : Kind) : Msg Fl → Prop
  | .setToNumber p v => k.takesNumber p v
  | _ => True

/-- The codes that a scripted node may be given. -/
def takesCode (script : Bool → Name → Bool → Prop) (isMeta : Bool) : Msg Fl → Prop
  | .setToSymbol p t => p = 0 → ∀ w, script isMeta t w
  | _ => True

/-- The numbers of inputs and the messages a node can take. -/
def GNode.takes (script : Bool → Name → Bool → Prop) (isMeta : P.ext.State → Bool)
    (T : Bool → P.ext.State → Prop) : GNode P → Nat ⊕ Msg Fl → Prop
  | .prim n => Sum.elim n.fits n.takes
  | .compound c => Sum.elim (fun n => c.kind = .plate → 1 ≤ n) c.kind.takes
  | .script _ s => Sum.elim (fun n => T (decide (n ≠ 0)) s) (takesCode script (isMeta s))

/-- The same for components. -/
def Comp.takes (script : Bool → Name → Bool → Prop) (c : Comp) : Nat ⊕ Msg Fl → Prop :=
  Sum.elim (SafeInputs script c) (SafeSet script c)

/-- The nodes that need two channels. -/
def GNode.twoSided : GNode P → Prop
  | .prim n => n.twoSided
  | .compound _ => True
  | .script .. => False

/-- What holds of every node while safe programs are played. -/
structure Good (P : Plat) (N : Nat) (d : NodeData (GNode P) Buf) : Prop where
  safe : d.node.Safe N
  sz : Sz N d.buffers
  ne : d.buffers ≠ []
  two : d.node.twoSided → 2 ≤ d.buffers.length

theorem compoundMsg_bpm {m : Libm} {c : Compound} {v : Fl} : c.msg m (.setBPM v) = .ok c := by
  obtain ⟨k, _⟩ := c
  cases k <;> rfl

theorem procCompound_same {m : Libm} {ho : HashOrder} {c c' : Compound} {ins : Ins}
    {out o : List Buf} (h : procCompound m ho c ins out = .ok (c', o)) :
    c'.order = c.order ∧ c'.kind = c.kind := by
  have feed : c.feed m ho ins out = .ok (c', o) → c'.order = c.order ∧ c'.kind = c.kind := by
    intro h
    unfold Compound.feed at h
    simp only [except_bind_ok] at h
    obtain ⟨main, k1, x, k2, g, k3, ⟨g2, y⟩, k4, l, k5, r, k6, o', k7, h⟩ := h
    cases h
    exact ⟨rfl, rfl⟩
  unfold procCompound at h
  split at h
  · exact feed h
  · exact feed h
  · cases h
    exact ⟨rfl, rfl⟩

/-- What stays the same about a node while it is played. -/
def GNode.like (script : Bool → Name → Bool → Prop) (isMeta : P.ext.State → Bool)
    (T : Bool → P.ext.State → Prop) (n' n : GNode P) : Prop :=
  (n'.keepsOrder ↔ n.keepsOrder) ∧ (n'.empties ↔ n.empties) ∧ n'.order = n.order ∧
    (∀ x, n.takes script isMeta T x → n'.takes script isMeta T x) ∧ (n'.twoSided ↔ n.twoSided)

section
variable {script : Bool → Name → Bool → Prop} {isMeta : P.ext.State → Bool} {T : Bool → P.ext.State → Prop}

theorem Prim.like.lift {n n' : Prim} (h : n'.like n) : GNode.like script isMeta T (.prim n' : GNode P) (.prim n) := by
  obtain ⟨h1, h2, h3, h4, h5⟩ := h
  simp only [GNode.like, GNode.keepsOrder, GNode.empties, GNode.order, GNode.takes, GNode.twoSided]
  rw [h1, h2, h3, h4, h5]
  exact ⟨Iff.rfl, Iff.rfl, rfl, fun _ h => h, Iff.rfl⟩

theorem compound_like {c c' : Compound} (h1 : c'.order = c.order) (h2 : c'.kind = c.kind) :
    GNode.like script isMeta T (.compound c' : GNode P) (.compound c) := by
  simp only [GNode.like, GNode.keepsOrder, GNode.empties, GNode.order, GNode.takes, GNode.twoSided]
  rw [h1, h2]
  exact ⟨trivial, Iff.rfl, rfl, fun _ h => h, trivial⟩

theorem script_like {o : List Nat} {s s' : P.ext.State} (h1 : isMeta s' = isMeta s) (h2 : ∀ w, T w s → T w s') :
    GNode.like script isMeta T (.script o s') (.script o s) := by
  refine ⟨Iff.rfl, Iff.rfl, rfl, fun x hx => ?_, Iff.rfl⟩
  cases x with
  | inl k => exact h2 _ hx
  | inr m => show takesCode script (isMeta s') m; rw [h1]; exact hx

theorem procG_like (hT : ScriptsBehave P N script isMeta T) {n n' : GNode P} {ins : Ins} {b b' : List Buf}
    (h : procG P n ins b = .ok (n', b')) : n'.like script isMeta T n := by
  cases n with
  | prim n =>
    obtain ⟨s, k, rfl⟩ := reState_ok h
    exact (procPrim_like k).lift
  | compound c =>
    obtain ⟨s, k, rfl⟩ := reState_ok h
    have := procCompound_same k
    exact compound_like this.1 this.2
  | script o s =>
    obtain ⟨s', k, rfl⟩ := reState_ok h
    have := hT.keep _ _ _ _ _ _ k
    exact script_like this.1 this.2

theorem msgG_bpm {n n' : GNode P} {v : Fl} (h : msgG P n (.setBPM v) = .ok n') : n'.like script isMeta T n := by
  cases n with
  | prim n =>
    obtain ⟨s, k, rfl⟩ := map_ok h
    exact (msgPrim_bpm k).1.lift
  | compound c =>
    obtain ⟨s, k, rfl⟩ := map_ok h
    rw [compoundMsg_bpm] at k
    cases k
    exact compound_like rfl rfl
  | script o s =>
    cases h
    exact script_like rfl fun _ h => h

theorem user_order {b : Bool} {o o' : List Nat} {g : Msg Fl} (hg : IsUser g) (h : orderMsg b o g = .ok o') : o' = o := by
  cases g with
  | setToNumber p v => cases h; rfl
  | setToSymbol p v => cases h; rfl
  | _ => exact hg.elim

/-- What a number or a text does to a compound node that can take it. -/
theorem compoundMsg_user {m : Libm} {c c' : Compound} {g : Msg Fl} (hg : IsUser g) (ht : c.kind.takes g)
    (h : c.msg m g = .ok c') : c'.order = c.order ∧ c'.kind = c.kind ∧
      (CompoundOk m N c ∨ PlateOk m N c → CompoundOk m N c' ∨ PlateOk m N c') := by
  have tag : ∀ {c c' : Compound} {k : Nat} {g : Msg Fl}, c.sendTag m k g = .ok c' →
      c'.order = c.order ∧ c'.kind = c.kind := by
    intro c c' k g h
    unfold Compound.sendTag at h
    split at h
    · cases h
    · rw [except_bind_ok] at h
      obtain ⟨_, _, h⟩ := h
      cases h
      exact ⟨rfl, rfl⟩
  have time : ∀ {k p : Nat} {v : Fl}, TimeOk v → c.kind ≠ .plate → c.sendTag m k (.setToNumber p v) = .ok c' →
      c'.order = c.order ∧ c'.kind = c.kind ∧ (CompoundOk m N c ∨ PlateOk m N c → CompoundOk m N c' ∨ PlateOk m N c') := by
    intro k p v hv hp h
    refine ⟨(tag h).1, (tag h).2, fun hs => ?_⟩
    rcases hs with hs | hs
    · exact .inl (sendTag_ok hs hv h).1
    · exact absurd hs.kind hp
  unfold Compound.msg at h
  split at h
  · rename_i _ _ v hk
    rw [hk] at ht
    exact time (ht rfl) (by rw [hk]; nofun) h
  · rename_i _ _ v hk
    rw [hk] at ht
    exact time (ht (Nat.zero_le 1)) (by rw [hk]; nofun) h
  · rename_i _ _ v hk
    rw [hk] at ht
    exact time (ht (Nat.le_refl 1)) (by rw [hk]; nofun) h
  · rename_i _ _ v hk
    simp only [except_bind_ok] at h
    obtain ⟨c1, h1, c2, h2, c3, h3, h4⟩ := h
    refine ⟨?_, ?_, fun hs => ?_⟩
    · rw [(tag h4).1, (tag h3).1, (tag h2).1, (tag h1).1]
    · rw [(tag h4).2, (tag h3).2, (tag h2).2, (tag h1).2]
    · rcases hs with hs | hs
      · exact absurd hk hs.kind
      · exact .inr (plate_sendTag (plate_sendTag (plate_sendTag (plate_sendTag hs h1).1 h2).1 h3).1 h4).1
  · rw [except_bind_ok] at h
    obtain ⟨o, ho, h⟩ := h
    cases h
    have := user_order hg ho
    subst this
    exact ⟨rfl, rfl, id⟩

theorem msgG_user (hT : ScriptsBehave P N script isMeta T) {n n' : GNode P} {g : Msg Fl} (hg : IsUser g)
    (ht : n.takes script isMeta T (.inr g)) (h : msgG P n g = .ok n') :
    n'.like script isMeta T n ∧ (n.Safe N → n'.Safe N) := by
  cases n with
  | prim n =>
    obtain ⟨s, k, rfl⟩ := map_ok h
    have := msgPrim_user hg ht k
    exact ⟨this.1.lift, this.2⟩
  | compound c =>
    obtain ⟨s, k, rfl⟩ := map_ok h
    have := compoundMsg_user (N := N) hg ht k
    exact ⟨compound_like this.1 this.2.1, this.2.2⟩
  | script o s =>
    obtain ⟨p, t, s', rfl, k, rfl⟩ | ⟨o', hns, k, rfl⟩ := scriptMsg_cases h
    · have := hT.set _ _ _ _ k
      exact ⟨script_like this.1 (this.2 ht), id⟩
    · cases g with
      | setToNumber p v => cases k; exact ⟨script_like rfl fun _ h => h, id⟩
      | setToSymbol p t => exact absurd rfl (hns p t)
      | _ => exact hg.elim

theorem msgG_wire {n n' : GNode P} {g : Msg Fl} (hg : IsWiring g) (h : msgG P n g = .ok n') :
    (∀ x, n.takes script isMeta T x → n'.takes script isMeta T x) ∧ (n'.twoSided ↔ n.twoSided) := by
  cases n with
  | prim n =>
    obtain ⟨s, k, rfl⟩ := map_ok h
    have hl := (msgPrim_safe hg k).2
    simp only [GNode.takes, GNode.twoSided]
    rw [hl.1, hl.2.1, hl.2.2]
    exact ⟨fun _ h => h, Iff.rfl⟩
  | compound c =>
    obtain ⟨s, k, rfl⟩ := map_ok h
    rw [compoundMsg_wiring hg, except_bind_ok] at k
    obtain ⟨o, _, k⟩ := k
    cases k
    exact ⟨fun _ h => h, Iff.rfl⟩
  | script o s =>
    rw [scriptMsg_wiring hg, except_bind_ok] at h
    obtain ⟨o', _, h⟩ := h
    cases h
    exact ⟨fun _ h => h, Iff.rfl⟩

end

theorem makeCompound_safe {m : Libm} {c : Comp} {k : Compound} {ck : Bool} {sr : Nat}
    (hs : SafeSettings ck sr c) (h : makeCompound m N c = some (.ok k)) :
    CompoundOk m N k ∨ PlateOk m N k := by
  by_cases hp : ∃ x, c = .plate x
  · obtain ⟨x, rfl⟩ := hp
    exact .inr (newPlate_ok (Option.some.inj h))
  · exact .inl (makeCompound_ok hs (fun x hx => hp ⟨x, hx⟩) h)

theorem makeNode_good {samples : List (Name × Sample)} {sr : Nat} {bpm : Fl}
    {seed : Nat} {c : Comp} {nd : NodeData (GNode P) Buf} {rs : List Name} (hr : RateOk sr)
    (ht : TempoOk bpm) (hsm : ∀ n s, (n, s) ∈ samples → SampleOk s)
    (hs : SafeSettings P.libm.checked sr c)
    (h : makeNode P N samples sr bpm seed c = .ok (nd, rs)) : Good P N nd := by
  have hne : ∀ {ch : Nat} {n : GNode P}, 1 ≤ ch → (fresh N ch n).buffers ≠ [] := by
    intro ch n hc
    simp only [fresh, ne_eq, List.replicate_eq_nil_iff]
    omega
  have hlen : ∀ {ch : Nat} {n : GNode P}, (fresh N ch n).buffers.length = ch := by
    intro ch n
    simp [fresh]
  unfold makeNode at h
  split at h
  · rename_i r hp
    rw [except_bind_ok] at h
    obtain ⟨⟨ch, n⟩, rfl, h⟩ := h
    cases h
    have := makePrim_ok hr ht hsm hs hp
    exact ⟨this.1, fresh_sz, hne this.2.1, fun k => by rw [hlen]; exact this.2.2 k⟩
  · split at h
    · rename_i r hp
      rw [except_bind_ok] at h
      obtain ⟨k, hk, h⟩ := h
      cases h
      have hk := liftP_ok hk
      subst hk
      exact ⟨makeCompound_safe hs hp, fresh_sz, hne (by decide), fun _ => by rw [hlen]⟩
    · split at h
      · rw [except_bind_ok] at h
        obtain ⟨s, k, h⟩ := h
        cases h
        exact ⟨trivial, fresh_sz, hne (by decide), fun k => k.elim⟩
      · rw [except_bind_ok] at h
        obtain ⟨s, k, h⟩ := h
        cases h
        exact ⟨trivial, fresh_sz, hne (by decide), fun k => k.elim⟩
      · cases h

theorem makeCompound_class {m : Libm} {c : Comp} {k : Compound} {script : Bool → Name → Bool → Prop}
    (h : makeCompound m N c = some (.ok k)) : c.keeps = true ∧ (c.empties = true → k.kind = .plate) ∧
      (∀ n, SafeInputs script c n → k.kind = .plate → 1 ≤ n) ∧ ∀ g, SafeSet script c g → k.kind.takes g := by
  have drum : ∀ {c : Comp} {k : Compound} {r : Except Panic Compound} {t : Kind}, c.keeps = true →
      (c.empties = true → False) → t ≠ .plate → r.map (·.kind) = .ok t →
      (∀ p v, SafeNumber c p v → t.takesNumber p v) → r = .ok k →
      c.keeps = true ∧ (c.empties = true → k.kind = .plate) ∧
      (∀ n, SafeInputs script c n → k.kind = .plate → 1 ≤ n) ∧ ∀ g, SafeSet script c g → k.kind.takes g := by
    intro c k r t h1 h2 h3 h4 h6 h5
    subst h5
    have h4 : k.kind = t := Except.ok.inj h4
    refine ⟨h1, fun h => (h2 h).elim, fun _ _ h => absurd (h4.symm.trans h) h3, fun g hg => ?_⟩
    rw [h4]
    cases g with
    | setToNumber p v => exact h6 p v hg
    | _ => trivial
  cases c with
  | plate mix =>
    have h := Option.some.inj h
    unfold newPlate at h
    rw [except_bind_ok] at h
    obtain ⟨l, _, h⟩ := h
    rw [except_bind_ok] at h
    obtain ⟨g, _, h⟩ := h
    cases h
    exact ⟨rfl, fun _ => rfl, fun _ h _ => h, fun g _ => by cases g <;> trivial⟩
  | bd _ => exact drum (t := .drum) rfl (fun h => by cases h) (fun h => by cases h) (by kernel_rfl) (fun _ _ h => h) (Option.some.inj h)
  | sn _ => exact drum (t := .drum) rfl (fun h => by cases h) (fun h => by cases h) (by kernel_rfl) (fun _ _ h => h) (Option.some.inj h)
  | hh _ => exact drum (t := .drum) rfl (fun h => by cases h) (fun h => by cases h) (by kernel_rfl) (fun _ _ h => h) (Option.some.inj h)
  | sawsynth _ _ =>
    exact drum (t := .synth) rfl (fun h => by cases h) (fun h => by cases h) (by kernel_rfl) (fun _ _ h => h) (Option.some.inj h)
  | squsynth _ _ =>
    exact drum (t := .synth) rfl (fun h => by cases h) (fun h => by cases h) (by kernel_rfl) (fun _ _ h => h) (Option.some.inj h)
  | trisynth _ _ =>
    exact drum (t := .synth) rfl (fun h => by cases h) (fun h => by cases h) (by kernel_rfl) (fun _ _ h => h) (Option.some.inj h)
  | _ => cases h

theorem makeNode_class {script : Bool → Name → Bool → Prop} {isMeta : P.ext.State → Bool}
    {T : Bool → P.ext.State → Prop} (hT : ScriptsBehave P N script isMeta T)
    {samples : List (Name × Sample)} {sr : Nat} {bpm : Fl}
    {seed : Nat} {c : Comp} {nd : NodeData (GNode P) Buf} {rs : List Name}
    (h : makeNode P N samples sr bpm seed c = .ok (nd, rs)) :
    (nd.node.keepsOrder → c.keeps = true) ∧ (c.empties = true → nd.node.empties) ∧
    ∀ x, c.takes script x → nd.node.takes script isMeta T x := by
  unfold makeNode at h
  split at h
  · rename_i r hp
    rw [except_bind_ok] at h
    obtain ⟨⟨ch, n⟩, rfl, h⟩ := h
    cases h
    have := makePrim_class hp
    refine ⟨fun k => this.1 ▸ k, fun k => this.2.1.trans k, fun x hx => ?_⟩
    cases x with
    | inl k => exact this.2.2.1 script k hx
    | inr g =>
      cases g with
      | setToNumber p v => exact this.2.2.2 p v hx
      | _ => trivial
  · split at h
    · rename_i r hp
      rw [except_bind_ok] at h
      obtain ⟨k, hk, h⟩ := h
      cases h
      have hk := liftP_ok hk
      subst hk
      have := makeCompound_class (script := script) hp
      refine ⟨fun _ => this.1, this.2.1, fun x hx => ?_⟩
      cases x with
      | inl k => exact this.2.2.1 k hx
      | inr g => exact this.2.2.2 g hx
    · split at h
      · rw [except_bind_ok] at h
        obtain ⟨s, k, h⟩ := h
        cases h
        have := hT.new _ _ _ _ (liftP_ok k)
        refine ⟨fun _ => rfl, fun _ => trivial, fun x hx => ?_⟩
        cases x with
        | inl k => exact this.2 _ hx
        | inr g =>
          show takesCode script (isMeta s) g
          rw [this.1]
          cases g <;> first | exact hx | trivial
      · rw [except_bind_ok] at h
        obtain ⟨s, k, h⟩ := h
        cases h
        have := hT.new _ _ _ _ (liftP_ok k)
        refine ⟨fun _ => rfl, fun _ => trivial, fun x hx => ?_⟩
        cases x with
        | inl k => exact this.2 _ hx
        | inr g =>
          show takesCode script (isMeta s) g
          rw [this.1]
          cases g <;> first | exact hx | trivial
      · cases h

theorem safe_place {script : Bool → Name → Bool → Prop} {ck : Bool} {sr n i : Nat} {k : Name} {c : Comp}
    (hs : SafeSettings ck sr c) (hp : SafePlace script k n i c) :
    PlacedOk (glicol P N parse) (fun c => c.keeps = true) (fun c => c.empties = true) (Comp.takes script) k n i c := by
  refine ⟨?_, ?_, ?_, hp.inputs⟩
  · intro samples sr' bpm seed nd rs h
    have h := makeNode_refs (P := P) (N := N) h
    rw [h]
    cases c with
    | seq e =>
      have h0 : (Comp.seq e).refs = [] := by
        simp only [Comp.refs, List.flatMap_eq_nil_iff]
        intro x hx
        obtain ⟨q, hq⟩ := hs x hx
        rw [hq]
        rfl
      have : seqRefs e = [] := by
        apply List.eq_nil_iff_forall_not_mem.mpr
        intro r hr
        rw [seqRefs_mem, h0] at hr
        cases hr
      show seqRefs e = (Comp.seq e).refs
      rw [this, h0]
    | _ => rfl
  · intro hk
    have hd : ∀ {p : NumRef}, NumIs TimeOk p → p.refs = [] := by
      intro p hp
      cases p with
      | num v => rfl
      | ref r => exact hp.elim
    cases c with
    | bd p => exact .inr (hd hs)
    | sn p => exact .inr (hd hs)
    | hh p => exact .inr (hd hs)
    | sawsynth _ _ => exact .inr rfl
    | squsynth _ _ => exact .inr rfl
    | trisynth _ _ => exact .inr rfl
    | mix _ => cases hk
    | get _ => cases hk
    | imp _ => cases hk
    | noise _ => cases hk
    | constsig _ => cases hk
    | points _ _ _ => cases hk
    | _ => exact .inl rfl
  · intro hk hi r hr
    rcases hp.noSelf with h | h
    · cases c <;> first | exact h.elim | cases hk
    · exact h hi r hr

/-- The commands of a message, as the specification splits it. -/
theorem splits_commandsOf (msg : Name) : ∃ cmds, Splits msg cmds ∧ ∀ cmd, cmd ∈ commandsOf msg → splitOn ',' cmd ∈ cmds := by
  have hws : msg.filter (fun c => !isWhitespace c) =
      msg.filter (fun c => !decide (c.toNat ∈ whiteSpace)) := by
    apply List.filter_congr
    intro c _
    rw [whitespace_iff]
  refine ⟨(splitOn ';' (msg.filter (fun c => !decide (c.toNat ∈ whiteSpace)))).map (splitOn ','), ⟨?_, ⟨?_, ?_⟩, ?_, ?_⟩, ?_⟩
  · rw [List.map_map]
    have : (join ',' ∘ splitOn ',') = id := by funext s; exact join_splitOn ',' s
    rw [this, List.map_id, join_splitOn]
  · simp [splitOn_ne_nil]
  · intro fs hfs
    obtain ⟨s, _, rfl⟩ := List.mem_map.mp hfs
    exact splitOn_ne_nil _ _
  · intro fs f hfs hf
    obtain ⟨s, _, rfl⟩ := List.mem_map.mp hfs
    exact (splitOn_pieces f hf).1
  · intro fs f hfs hf hsemi
    obtain ⟨s, hs, rfl⟩ := List.mem_map.mp hfs
    exact (splitOn_pieces s hs).1 ((splitOn_pieces f hf).2 ';' hsemi)
  · intro cmd hc
    unfold commandsOf at hc
    rw [hws] at hc
    exact List.mem_map.mpr ⟨cmd, List.mem_of_mem_filter hc, rfl⟩

theorem safe_laws {script : Bool → Name → Bool → Prop} {isMeta : P.ext.State → Bool}
    {T : Bool → P.ext.State → Prop} (hN : 1 ≤ N)
    (hm : ∀ a b, Within (-1) 1 (P.libm.noise a b)) (hsin : SinBounded P.libm)
    (hT : ScriptsBehave P N script isMeta T) :
    PlayLaws (glicol P N parse) N (SafeCall script) (Good P N) GNode.keepsOrder GNode.empties
      GNode.order (GNode.takes script isMeta T) (fun c => c.keeps = true) (fun c => c.empties = true)
      (Comp.takes script) := by
  have total : ∀ (d : NodeData (GNode P) Buf) (ins : Ins), Good P N d →
      (∀ k b, (k, b) ∈ ins → ∃ d, Good P N d ∧ d.buffers = b) → (ins.map Prod.fst).Nodup →
      (d.node.keepsOrder → Fed d.node.order (ins.map Prod.fst) (fun k => d.node.takes script isMeta T (.inl k))) →
      ∃ n' b', procG P d.node ins d.buffers = .ok (n', b') ∧ n'.Safe N ∧ Keep N d.buffers b' := by
    intro d ins hd hin hnd hf
    have hc : Call N ins d.buffers := by
      refine ⟨hN, hd.sz, hd.ne, ?_, ?_, hnd⟩
      · intro e he
        obtain ⟨d', hd', hb⟩ := hin e.1 e.2 he
        rw [← hb]
        exact hd'.sz
      · intro e he
        obtain ⟨d', hd', hb⟩ := hin e.1 e.2 he
        rw [← hb]
        exact hd'.ne
    obtain ⟨n, b⟩ := d
    cases n with
    | prim n =>
      obtain ⟨n', o, h1, h2⟩ := procPrim_total hm hd.safe hc hd.two hf
      refine ⟨.prim n', o, ?_, h2, (procPrim_keep hc.szIns hc.szOut h1).1⟩
      show reState GNode.prim (procPrim P.libm n ins b) = _
      have h1 : procPrim P.libm n ins b = _ := h1
      rw [h1]
      rfl
    | compound c =>
      have hs : CompoundOk P.libm N c ∨ PlateOk P.libm N c := hd.safe
      have hpr : ∃ c' o, procCompound P.libm P.ho c ins b = .ok (c', o) ∧
          (CompoundOk P.libm N c' ∨ PlateOk P.libm N c') := by
        obtain ⟨l, rest, f1, f2, f3⟩ := hf trivial
        rcases hs with hs | hs
        · obtain ⟨c', o, h1, h2⟩ := procCompound_total (ho := P.ho) hm hs hc (hd.two trivial)
            ⟨l, rest, f1, trivial, f3⟩
          exact ⟨c', o, h1, .inl h2⟩
        · obtain ⟨c', o, h1, h2⟩ := procPlate_total (ho := P.ho) hm hsin hs hc (hd.two trivial)
            ⟨l, rest, f1, f2 hs.kind, f3⟩
          exact ⟨c', o, h1, .inr h2⟩
      obtain ⟨c', o, h1, h2⟩ := hpr
      refine ⟨.compound c', o, ?_, h2, (procCompound_keep ?_ hc.szIns hc.szOut h1).1⟩
      · show reState GNode.compound (procCompound P.libm P.ho c ins b) = _
        have h1 : procCompound P.libm P.ho c ins b = _ := h1
        rw [h1]
        rfl
      · intro i x hx
        rcases hs with hs | hs
        · exact (hs.graph.inner i x hx).sz
        · exact (hs.graph.inner i x hx).sz
    | script o s =>
      obtain ⟨l, rest, f1, f2, f3⟩ := hf trivial
      have f1 : o = l ++ rest := f1
      have hl : l = [] ↔ ins = [] := by
        rw [List.eq_nil_iff_forall_not_mem, ← List.map_eq_nil_iff (f := Prod.fst) (l := ins),
          List.eq_nil_iff_forall_not_mem]
        exact forall_congr' fun x => not_congr (f3 x)
      have f2 : T (decide (ins ≠ [])) s := by
        have : decide (ins ≠ []) = decide (l.length ≠ 0) := by
          rw [decide_eq_decide]
          rw [ne_eq, ne_eq, List.length_eq_zero_iff, hl]
        rw [this]
        exact f2
      obtain ⟨s', out, h1, h3, h4⟩ := hT.proc s o ins b f2 hc.szIns hc.szOut hc.ne hc.full hc.nodup (by
        intro hne
        cases l with
        | nil => exact absurd (hl.mp rfl) hne
        | cons k l => exact ⟨k, l ++ rest, f1, (f3 k).mp (by simp)⟩)
      refine ⟨.script o s', out, ?_, trivial, h3, h4⟩
      show reState (GNode.script o) (P.ext.proc s o ins b) = _
      rw [h1]
      rfl
  have good : ∀ {n : GNode P}, n.Safe N → Good P N (freshData (L := glicol P N parse) N 2 n) := by
    intro n hn
    refine ⟨hn, fresh_sz (n := n), ?_, fun _ => ?_⟩
    · show List.replicate 2 _ ≠ []
      simp
    · show 2 ≤ (List.replicate 2 _).length
      exact le_of_eq (List.length_replicate ..).symm
  refine ⟨⟨good trivial, good trivial, ?_, ?_, ?_, ?_, ?_, ?_, ?_⟩, glicol_orderLaws P N parse,
    ?_, ?_, ?_, ?_, ?_, ?_, ?_, ?_, ?_, ?_, ?_, ?_⟩
  · intro e τ code p k cs c nd rs _ hA _ hp hk hc h
    have hs := hA p hp
    exact makeNode_good hs.rate hs.tempo hs.samples (hs.settings k cs c hk hc) h
  · intro d g n hd hg h
    have hw := msgG_wire (script := script) (isMeta := isMeta) (T := T) hg h
    refine ⟨?_, hd.sz, hd.ne, fun k => hd.two (hw.2.mp k)⟩
    obtain ⟨dn, db⟩ := d
    cases dn with
    | prim p =>
      obtain ⟨s, k, rfl⟩ := map_ok h
      exact (msgPrim_safe hg k).1 hd.safe
    | compound c =>
      obtain ⟨s, k, rfl⟩ := map_ok h
      rw [compoundMsg_wiring hg, except_bind_ok] at k
      obtain ⟨o, _, k⟩ := k
      cases k
      rcases hd.safe with hs | hs
      · exact .inl ⟨hs.kind, hs.graph, hs.dest, hs.input, hs.size⟩
      · exact .inr ⟨hs.kind, hs.graph, hs.dest, hs.input, hs.tags⟩
    | script o s =>
      obtain ⟨p, t, s', rfl, _, _⟩ | ⟨o', _, _, rfl⟩ := scriptMsg_cases h
      · exact hg.elim
      · trivial
  · intro d g n hd hg ht h
    have hu := msgG_user (N := N) hT hg ht h
    exact ⟨⟨hu.2 hd.safe, hd.sz, hd.ne, fun k => hd.two (hu.1.2.2.2.2.mp k)⟩, fun g' => hu.1.2.2.2.1 (.inr g')⟩
  · intro e v _ hA d n hd h
    have hw := msgG_bpm (script := script) (isMeta := isMeta) (T := T) h
    refine ⟨?_, hd.sz, hd.ne, fun k => hd.two (hw.2.2.2.2.mp k)⟩
    obtain ⟨dn, db⟩ := d
    cases dn with
    | prim p =>
      obtain ⟨s, k, rfl⟩ := map_ok h
      exact (msgPrim_bpm k).2 hA hd.safe
    | compound c =>
      obtain ⟨s, k, rfl⟩ := map_ok h
      have k : Except.ok c = Except.ok s := compoundMsg_bpm.symm.trans k
      cases k
      exact hd.safe
    | script o s =>
      cases h
      trivial
  · intro d ch b b0 hd hb hl
    refine ⟨hd.safe, ?_, ?_, fun k => ?_⟩
    · intro x hx
      rcases List.mem_or_eq_of_mem_set hx with h | rfl
      · exact hd.sz x h
      · exact hl.symm.trans (hd.sz b0 (List.mem_of_getElem? hb))
    · intro h
      have h : d.buffers.set ch b = [] := h
      have := congrArg List.length h
      rw [List.length_set] at this
      exact hd.ne (List.length_eq_zero_iff.mp this)
    · show 2 ≤ (d.buffers.set ch b).length
      rw [List.length_set]
      exact hd.two k
  · intro d ins n' b' hd hin hnd hf h
    obtain ⟨n1, b1, h1, h2, h3⟩ := total d ins hd hin hnd hf
    have h : procG P d.node ins d.buffers = .ok (n', b') := h
    rw [h1] at h
    cases h
    refine ⟨h2, h3.2, ?_, fun k => ?_⟩
    · intro h
      have h : b' = [] := h
      have hl := h3.1
      rw [h] at hl
      exact hd.ne (List.length_eq_zero_iff.mp hl.symm)
    · have := hd.two ((procG_like hT h1).2.2.2.2.mp k)
      exact le_trans this (le_of_eq h3.1.symm)
  · intro n ins b n' b' h ks hf hk
    have := procG_like hT h
    have hf := hf (this.1.mp hk)
    rw [this.2.2.1]
    exact Fed.mono (fun k => this.2.2.2.1 (.inl k)) hf
  · intro h; cases h
  · intro h; cases h
  · intro m
    cases m <;> trivial
  · intro n g n' hg h
    exact (msgG_wire hg h).1
  · intro n g n' hg ht h
    have := (msgG_user (N := N) hT hg ht h).1
    exact ⟨this.1, this.2.1, this.2.2.1, this.2.2.2.1⟩
  · intro n v n' h
    have := msgG_bpm (script := script) (isMeta := isMeta) (T := T) h
    exact ⟨this.1, this.2.1, this.2.2.1, this.2.2.2.1⟩
  · intro n ins b n' b' h
    have := procG_like hT h
    exact ⟨this.1, this.2.1, this.2.2.1, this.2.2.2.1⟩
  · intro samples sr bpm seed c nd rs h
    exact makeNode_class hT h
  · intro o c h
    have := Comp.class_eq o c h
    refine ⟨fun k => this.1 ▸ k, fun k => this.2.1.trans k, fun x hx => ?_⟩
    cases x with
    | inl k => exact (this.2.2.1 script k).mpr hx
    | inr g =>
      cases g with
      | setToNumber p v => exact (this.2.2.2.1 p v).mpr hx
      | setToSymbol p t => exact (this.2.2.2.2 script p t).mpr hx
      | _ => trivial
  · intro d ins hd hin hnd hf
    obtain ⟨n', b', h, _⟩ := total d ins hd hin hnd hf
    exact ⟨n', b', h⟩
  · intro e τ code p _ hA hp
    have hs := hA p hp
    refine ⟨hs.clean, ?_, hs.kept, ?_⟩
    · rintro r ⟨k, comps, c, h1, h2, h3⟩
      exact hs.refs k comps c h1 h2 r h3
    · intro k comps i c h1 h2
      exact safe_place (hs.settings k comps c h1 (List.mem_of_getElem? h2)) (hs.places k comps i c h1 h2)
  · intro e s _ hA cmd hcmd k p m hp a comps c ha hk hc
    obtain ⟨cmds, h1, h2⟩ := splits_commandsOf s
    have hmem := h2 cmd hcmd
    unfold parseCommand at hp
    split at hp
    · rename_i chain cpos ppos value rest hsp
      rw [hsp] at hmem
      simp only [Option.some.injEq, Prod.mk.injEq] at hp
      obtain ⟨rfl, rfl, rfl⟩ := hp
      exact hA cmds h1 _ _ _ _ _ hmem _ _ _ position_spec position_spec valueMsg_spec a comps c ha hk hc
    · cases hp

end Verif
