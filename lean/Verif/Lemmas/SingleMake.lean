import Verif.Lemmas.Single
import Verif.Lemmas.SetOrder
import Verif.Lemmas.Play
import Verif.Parser.Nodes

/-! Components of parsed programs play f32 numbers (helpers). -/

namespace Verif
open Spec

/-- The numbers of a component that its node hands on without computing are f32 numbers. -/
def Comp.Sg : Comp → Prop
  | .constsig v => Verif.Sg v
  | .speed v => Verif.Sg v
  | .adsr _ _ s _ => Verif.Sg s
  | .choose l => ∀ x, x ∈ l → Verif.Sg x
  | .points ps _ _ => ∀ p, p ∈ ps → Verif.Sg p.2
  | _ => True

theorem sg_wire {m : Libm} {n n' : Prim} {g : Msg Fl} (hg : IsWiring g) (hn : n.Sg) (h : msgPrim m n g = .ok n') : n'.Sg := by
  have key : ∀ {α : Type} {f : List Nat → α} {b : Bool} {o : List Nat} {c : α → Prim},
      c <$> (do let o ← orderMsg b o g; .ok (f o)) = Except.ok n' → ∃ o', n' = c (f o') := by
    intro α f b o c h
    generalize orderMsg b o g = x at h
    cases x with
    | error e => cases h
    | ok o' => cases h; exact ⟨o', rfl⟩
  have key' : ∀ {b : Bool} {o : List Nat} {c : List Nat → Prim},
      c <$> orderMsg b o g = Except.ok n' → ∃ o', n' = c o' := by
    intro b o c h
    generalize orderMsg b o g = x at h
    cases x with
    | error e => cases h
    | ok o' => cases h; exact ⟨o', rfl⟩
  cases g with
  | setToNumber p v => exact absurd hg (by simp [IsWiring])
  | setToSymbol p v => exact absurd hg (by simp [IsWiring])
  | setBPM v => exact absurd hg (by simp [IsWiring])
  | index i =>
    cases n <;> first
      | (cases h; exact hn)
      | (obtain ⟨o', rfl⟩ := key h; exact hn)
      | (obtain ⟨o', rfl⟩ := key' h; exact hn)
  | indexOrder p i =>
    cases n <;> first
      | (cases h; exact hn)
      | (obtain ⟨o', rfl⟩ := key h; exact hn)
      | (obtain ⟨o', rfl⟩ := key' h; exact hn)
  | resetOrder =>
    cases n <;> first
      | (cases h; exact hn)
      | (obtain ⟨o', rfl⟩ := key h; exact hn)
      | (obtain ⟨o', rfl⟩ := key' h; exact hn)

theorem sg_pointList {bpm span : Fl} {sr : Nat} {ps : List (TimeList × Fl)} {l : List (Nat × Fl)}
    (hp : ∀ p, p ∈ ps → Sg p.2) (h : pointList bpm span sr ps = .ok l) : ∀ x, x ∈ l → Sg x.2 := by
  have hm : ∀ x, x ∈ ps.map (fun p => (pointStep bpm span sr p.1, p.2)) → Sg x.2 := by
    intro x hx
    obtain ⟨p, h1, rfl⟩ := List.mem_map.mp hx
    exact hp p h1
  unfold pointList at h
  split at h
  · cases h
  · rename_i p rest heq
    rw [heq] at hm
    cases h
    split
    · exact List.forall_mem_cons.mpr ⟨sg_zero, hm⟩
    · exact hm

theorem sg_makePrim {m : Libm} {samples : List (Name × Sample)} {sr : Nat} {bpm : Fl} {seed : Nat} {c : Comp} {ch : Nat}
    {n : Prim} (hc : c.Sg) (h : makePrim m samples sr bpm seed c = some (.ok (ch, n))) : n.Sg := by
  have hr : ∀ k : Nat, Ring.Sg ⟨List.replicate k (.fin 0), 0⟩ := ring_zero
  have hl : ∀ {α : Type} {r : Except Panic α} {a : α}, liftP r = .ok a → r = .ok a := by
    intro α r a h
    cases r with
    | ok a => cases h; rfl
    | error e => cases h
  unfold makePrim at h
  split at h
  all_goals first
    | (cases h; done)
    | (simp only [Option.some.injEq, except_bind_ok] at h
       obtain ⟨_, _, h⟩ := h
       cases h
       trivial)
    | (cases h; trivial)
    | skip
  · simp only [Option.some.injEq, except_bind_ok] at h
    obtain ⟨p, h1, h⟩ := h
    cases h
    have h1 := hl h1
    unfold Points.new at h1
    rw [except_bind_ok] at h1
    obtain ⟨l, h3, h2⟩ := h1
    cases h2
    exact sg_pointList hc h3
  · split at h
    · cases h
    · simp only [Option.some.injEq, except_bind_ok] at h
      obtain ⟨p, h1, h⟩ := h
      cases h
      trivial
  · cases h
    exact hr _
  · cases h
    exact hr _
  · cases h
    intro r hr'
    rw [List.eq_of_mem_replicate hr']
    exact hr _

theorem sg_sendMsgs {P : Plat} {n : Prim} {n' : GNode P} : ∀ {ms : List (Msg Fl)} {n : Prim}, n.Sg → (∀ g, g ∈ ms → IsWiring g) →
    sendMsgs (.prim n : GNode P) ms = .ok n' → ∃ k, n' = .prim k ∧ k.Sg
  | [], n, hn, _, h => by cases h; exact ⟨_, rfl, hn⟩
  | g :: ms, n, hn, hg, h => by
    rw [List.forall_mem_cons] at hg
    unfold sendMsgs at h
    split at h
    · cases h
    · rename_i n1 h1
      simp only [msgG] at h1
      cases hr : msgPrim P.libm n g with
      | error e => rw [hr] at h1; cases h1
      | ok n2 =>
        rw [hr] at h1
        cases h1
        exact sg_sendMsgs (n := n) (sg_wire hg.1 hn hr) hg.2 h

theorem sg_runBlocks {P : Plat} (hm : Libm32 P.libm) : ∀ {ins : List Ins} {n : Prim} {out : List Buf} {outs : List (List Buf)},
    n.Sg → SgBufs out → (∀ i, i ∈ ins → SgIns i) → runBlocks (procG P) (.prim n) out ins = .ok outs →
    ∀ o, o ∈ outs → SgBufs o
  | [], n, out, outs, _, _, _, h => by cases h; intro o ho; cases ho
  | i :: ins, n, out, outs, hn, ho, hi, h => by
    rw [List.forall_mem_cons] at hi
    unfold runBlocks at h
    split at h
    · cases h
    · rename_i n' out' h1
      obtain ⟨k, rfl, h2⟩ := reState_out (f := GNode.prim) h1
      obtain ⟨k1, k2⟩ := sg_procPrim hm hn hi.1 ho h2
      split at h
      · cases h
      · rename_i r hr
        cases h
        exact List.forall_mem_cons.mpr ⟨k2, sg_runBlocks hm k1 k2 hi.2 hr⟩

/-- A component that builds a primitive node plays f32 numbers. -/
theorem sg_play {P : Plat} (hm : Libm32 P.libm) {N : Nat} {env : Env} {c : Comp} {msgs : List (Msg Fl)} {ins : List Ins}
    {outs : List (List Buf)} (hc : c.Sg) (hp : ∃ r, makePrim P.libm env.samples env.sr env.bpm env.seed c = some r)
    (hg : ∀ g, g ∈ msgs → IsWiring g) (hi : ∀ i, i ∈ ins → SgIns i) (h : play P N env c msgs ins = .ok outs) :
    ∀ o, o ∈ outs → SgBufs o := by
  obtain ⟨r, hr⟩ := hp
  unfold play makeNode at h
  rw [hr] at h
  cases r with
  | error e => cases h
  | ok r =>
    obtain ⟨ch, n⟩ := r
    simp only [bind, Except.bind] at h
    split at h
    · cases h
    · rename_i n' h1
      obtain ⟨k, rfl, hk⟩ := sg_sendMsgs (n := n) (sg_makePrim hc hr) hg h1
      split at h
      · cases h
      · rename_i r' h2
        cases h
        exact sg_runBlocks hm hk (SgBufs.replicate _ _) hi h2

/-! ### Parsed programs -/

namespace Parse

theorem sg_parseF32 {s : Name} {x : Fl} (h : parseF32 s = some x) : Verif.Sg x := by
  unfold parseF32 at h
  simp only at h
  split at h
  · cases h; trivial
  · split at h
    · cases h; trivial
    · rw [Option.map_eq_some_iff] at h
      obtain ⟨_, _, rfl⟩ := h
      exact Fl.round_ok

theorem sg_f32Of {p : Pair} {x : Fl} (h : f32Of p = .ok x) : Verif.Sg x := by
  unfold f32Of need at h
  split at h
  · rename_i a ha
    cases h
    exact sg_parseF32 ha
  · cases h

theorem sg_nextF32 {ps r : List Pair} {x : Fl} (h : nextF32 ps = .ok (x, r)) : Verif.Sg x := by
  unfold nextF32 at h
  simp only [except_bind_ok] at h
  obtain ⟨⟨p, q⟩, _, v, h1, h⟩ := h
  cases h
  exact sg_f32Of h1

theorem collect_all {α β : Type} {f : α → Res β} {Q : β → Prop} (hf : ∀ a b, f a = .ok b → Q b) : ∀ {l : List α} {r : List β},
    collect f l = .ok r → ∀ b, b ∈ r → Q b
  | [], r, h => by cases h; intro b hb; cases hb
  | a :: l, r, h => by
    unfold collect at h
    simp only [except_bind_ok] at h
    obtain ⟨b, h1, bs, h2, h⟩ := h
    cases h
    exact List.forall_mem_cons.mpr ⟨hf a b h1, collect_all hf h2⟩

theorem map_out {α β : Type} {f : α → β} {r : Res α} {b : β} (h : r.map f = .ok b) : ∃ a, r = .ok a ∧ b = f a := by
  cases r with
  | error e => cases h
  | ok a => cases h; exact ⟨a, rfl, rfl⟩

theorem sg_compOf {fe : Name → Option Fl} {r : Rule} {ps : List Pair} {c : Comp} (h : compOf fe r ps = .ok c) : c.Sg := by
  have hone : ∀ {f : NumRef → Comp}, one f ps = .ok c → ∃ p, c = f p := by
    intro f h
    unfold one at h
    rw [except_bind_ok] at h
    obtain ⟨⟨p, _⟩, _, h⟩ := h
    cases h; exact ⟨_, rfl⟩
  have htwo : ∀ {f : Fl → Fl → Comp}, two f ps = .ok c → ∃ p q, c = f p q := by
    intro f h
    unfold two at h
    simp only [except_bind_ok] at h
    obtain ⟨⟨p, _⟩, _, ⟨q, _⟩, _, h⟩ := h
    cases h; exact ⟨_, _, rfl⟩
  have hnum : ∀ {f : Fl → Comp}, oneNum f ps = .ok c → ∃ v, Verif.Sg v ∧ c = f v := by
    intro f h
    unfold oneNum at h
    rw [except_bind_ok] at h
    obtain ⟨⟨p, _⟩, h1, h⟩ := h
    cases h; exact ⟨_, sg_nextF32 h1, rfl⟩
  unfold compOf at h
  split at h
  all_goals first
    | (cases h; done)
    | (cases h; trivial)
    | (obtain ⟨p, rfl⟩ := hone h; trivial)
    | (obtain ⟨p, q, rfl⟩ := htwo h; trivial)
    | (obtain ⟨v, hv, rfl⟩ := hnum h; first | exact hv | trivial)
    | (obtain ⟨v, _, rfl⟩ := map_out h; trivial)
    | (simp only [except_bind_ok] at h
       obtain ⟨_, _, _, _, h⟩ := h
       cases h
       trivial)
    | (simp only [except_bind_ok] at h
       obtain ⟨_, _, _, _, _, _, h⟩ := h
       cases h
       trivial)
    | skip
  · unfold pointsOf at h
    simp only [except_bind_ok] at h
    obtain ⟨⟨inner, ps'⟩, _, ⟨span, l⟩, _, pts, h1, h⟩ := h
    cases h
    refine collect_all (Q := fun p : TimeList × Fl => Verif.Sg p.2) ?_ h1
    intro a b h
    unfold pointOf at h
    simp only [except_bind_ok] at h
    obtain ⟨⟨_, _⟩, _, ⟨_, _⟩, _, _, _, _, _, ⟨v, _⟩, hv, h⟩ := h
    cases h
    exact sg_nextF32 hv
  · unfold seqOf at h
    simp only [except_bind_ok] at h
    obtain ⟨_, _, _, _, h⟩ := h
    cases h
    trivial
  · obtain ⟨l, hl, rfl⟩ := map_out h
    exact collect_all (fun a b h => sg_f32Of h) hl
  · unfold psamplerOf at h
    simp only [except_bind_ok] at h
    obtain ⟨⟨p, _⟩, _, h⟩ := h
    simp only at h
    split at h
    · rw [except_bind_ok] at h
      obtain ⟨_, _, h⟩ := h
      cases h
      trivial
    · rw [except_bind_ok] at h
      obtain ⟨_, _, h⟩ := h
      cases h
      trivial
    · cases h
  · simp only [except_bind_ok] at h
    obtain ⟨_, _, _, _, _, _, _, _, _, _, h⟩ := h
    cases h
    trivial
  · simp only [except_bind_ok] at h
    obtain ⟨_, _, _, _, ⟨c, _⟩, h1, _, _, h⟩ := h
    cases h
    exact sg_nextF32 h1

theorem sg_put {k : Name} {v : List Comp} (hv : ∀ c, c ∈ v → c.Sg) : ∀ {t : Ast Comp},
    (∀ e, e ∈ t → ∀ c, c ∈ e.2 → c.Sg) → ∀ e, e ∈ put k v t → ∀ c, c ∈ e.2 → c.Sg
  | [], _ => by
    intro e he
    rw [put, List.mem_singleton] at he
    subst he
    exact hv
  | (k', v') :: t, ht => by
    rw [List.forall_mem_cons] at ht
    unfold put
    split
    · exact List.forall_mem_cons.mpr ⟨hv, ht.2⟩
    · exact List.forall_mem_cons.mpr ⟨ht.1, sg_put hv ht.2⟩

theorem sg_putAll : ∀ {l : List (Name × List Comp)} {t : Ast Comp}, (∀ e, e ∈ l → ∀ c, c ∈ e.2 → c.Sg) →
    (∀ e, e ∈ t → ∀ c, c ∈ e.2 → c.Sg) → ∀ e, e ∈ putAll l t → ∀ c, c ∈ e.2 → c.Sg
  | [], t, _, ht => ht
  | (k, v) :: l, t, hl, ht => by
    rw [List.forall_mem_cons] at hl
    exact sg_putAll (l := l) hl.2 (sg_put hl.1 ht)

/-- The components of a parsed program. -/
theorem sg_parse {fe : Name → Option Fl} {code : Name} {new : Ast Comp} (h : parse fe code = .ok (some new)) :
    ∀ e, e ∈ new → ∀ c, c ∈ e.2 → c.Sg := by
  unfold parse at h
  split at h
  · rename_i a ha
    cases h
    unfold getAst at ha
    split at ha
    · cases ha
    · rw [except_bind_ok] at ha
      obtain ⟨lines, h1, ha⟩ := ha
      cases ha
      refine sg_putAll ?_ (fun e he => by cases he)
      refine collect_all (Q := fun e : Name × List Comp => ∀ c, c ∈ e.2 → c.Sg) ?_ h1
      intro p e h
      unfold lineOf at h
      simp only [except_bind_ok] at h
      obtain ⟨⟨r, ps⟩, _, h⟩ := h
      simp only at h
      split at h
      · rw [except_bind_ok] at h
        obtain ⟨⟨q, _⟩, _, h⟩ := h
        simp only at h
        split at h
        · rw [except_bind_ok] at h
          obtain ⟨comps, h2, h⟩ := h
          cases h
          refine collect_all ?_ h2
          intro p c h
          unfold nodeOf at h
          rw [except_bind_ok] at h
          obtain ⟨⟨n, _⟩, _, h⟩ := h
          exact sg_compOf h
        · cases h
      · cases h
    · cases ha
  · cases h
  · cases h

end Parse
end Verif
