import Verif.Spec.TempoUse
import Verif.Lemmas.Sim
import Verif.Lemmas.Tempo
import Verif.Props.Settings

/-! # The tempo touches only what counts in bars (C82) -/

namespace Verif.Props.TempoUse
open Verif Spec Verif.Sim Verif.Spec.TempoUse Verif.Spec.PagePlay

variable {P : Plat} {N : Nat} {parse : Name → Except Panic (Option (Ast Comp))}

/-- The same node without a tempo in its state, or two constants with the same value. -/
inductive Same : GNode P → GNode P → Prop
  | same {n : GNode P} : n.steady → Same n n
  | const {c c' : ConstSig} : c.val = c'.val → c.order = c'.order → Same (.prim (.constSig c)) (.prim (.constSig c'))

theorem const_msg {c c' : ConstSig} (h1 : c.val = c'.val) (h2 : c.order = c'.order) (g : Msg Fl) :
    ESim (fun x y : ConstSig => x.val = y.val ∧ x.order = y.order) (c.msg g) (c'.msg g) := by
  have ho : ESim (fun x y : ConstSig => x.val = y.val ∧ x.order = y.order)
      (do let o ← orderMsg false c.order g; .ok { c with order := o }) (do let o ← orderMsg false c'.order g; .ok { c' with order := o }) := by
    rw [h2]
    exact (esim_refl _).bind (fun a b hab => .ok ⟨h1, hab⟩)
  unfold ConstSig.msg
  split
  · exact .ok ⟨rfl, h2⟩
  · exact .ok ⟨h1, h2⟩
  · exact ho

theorem same_sim : NodeSim (glicol P N parse) Same := by
  refine ⟨?_, ?_, .same rfl, .same rfl⟩
  · intro n n' g h
    cases h with
    | same hs =>
      show ESim Same (msgG P n g) (msgG P n g)
      cases hx : msgG P n g with
      | error p => exact .err p
      | ok m => exact .ok (.same (msgG_steady hx hs))
    | const h1 h2 =>
      rename_i c c'
      show ESim Same (msgG P (.prim (.constSig c)) g) (msgG P (.prim (.constSig c')) g)
      have := const_msg h1 h2 g
      simp only [msgG, msgPrim]
      generalize c.msg g = x, c'.msg g = y at this
      cases this with
      | err p => exact .err p
      | ok h => exact .ok (.const h.1 h.2)
  · intro n n' ins b h
    cases h with
    | same hs =>
      show ESim _ (procG P n ins b) (procG P n ins b)
      cases hx : procG P n ins b with
      | error p => exact .err p
      | ok m => exact .ok ⟨.same (procG_steady hx hs), rfl⟩
    | const h1 h2 =>
      rename_i c c'
      show ESim _ (procG P (.prim (.constSig c)) ins b) (procG P (.prim (.constSig c')) ins b)
      cases b with
      | nil => exact .err _
      | cons b bs =>
        simp only [procG, procPrim, procConstSig, reState]
        exact .ok ⟨.const h1 h2, by rw [h1]⟩

theorem same_bpm {n n' : GNode P} (v : Fl) (h : Same n n') : ∃ m, msgG P n (.setBPM v) = .ok m ∧ Same m n' := by
  cases h with
  | same hs => exact ⟨n, msgG_steady_same hs, .same hs⟩
  | const h1 h2 => exact ⟨_, rfl, .const h1 h2⟩

theorem makePrim_steady {m : Libm} {smp : List (Name × Sample)} {sr : Nat} {b : Fl} {seed : Nat} {c : Comp} {ch : Nat} {n : Prim}
    (hc : ¬ Timed c) (h : makePrim m smp sr b seed c = some (.ok (ch, n))) : n.tempo = false ∨ ∃ k, n = .constSig k := by
  cases c with
  | psampler e span => exact absurd trivial hc
  | points ps span looping => exact absurd trivial hc
  | seq e => exact absurd trivial hc
  | patternSynth s span =>
    have h := Option.some.inj h
    rw [except_bind_ok] at h
    obtain ⟨p, hp, h⟩ := h
    cases h
    exact .inl rfl
  | sp sym =>
    have h := Option.some.inj h
    split at h
    · cases h
    · rw [except_bind_ok] at h
      obtain ⟨p, hp, h⟩ := h
      cases h
      exact .inl rfl
  | lpf s q => cases s <;> cases h <;> exact .inl rfl
  | apfmsgain d g =>
    have h := Option.some.inj h
    rw [except_bind_ok] at h
    obtain ⟨p, hp, h⟩ := h
    cases h
    exact .inl rfl
  | delayn p => cases p <;> cases h <;> exact .inl rfl
  | constsig v => cases h; exact .inr ⟨_, rfl⟩
  | _ => cases h <;> exact .inl rfl

theorem makeNode_steady {smp : List (Name × Sample)} {sr : Nat} {b : Fl} {seed : Nat} {c : Comp} {nd : NodeData (GNode P) Buf} {rs : List Name}
    (hc : ¬ Timed c) (h : makeNode P N smp sr b seed c = .ok (nd, rs)) : Same nd.node nd.node := by
  unfold makeNode at h
  split at h
  · rename_i r hp
    rw [except_bind_ok] at h
    obtain ⟨⟨ch, n⟩, rfl, h⟩ := h
    cases h
    rcases makePrim_steady hc hp with h | ⟨k, rfl⟩
    · exact .same h
    · exact .const rfl rfl
  · split at h
    · rw [except_bind_ok] at h
      obtain ⟨k, hk, h⟩ := h
      cases h
      exact .same trivial
    · split at h
      · rw [except_bind_ok] at h
        obtain ⟨s, hs, h⟩ := h
        cases h
        exact .same trivial
      · rw [except_bind_ok] at h
        obtain ⟨s, hs, h⟩ := h
        cases h
        exact .same trivial
      · cases h

theorem make_same {smp : List (Name × Sample)} {sr : Nat} (b b' : Fl) {seed : Nat} {c : Comp} (hc : ¬ Timed c) :
    makeNode P N smp sr b seed c = makeNode P N smp sr b' seed c := by
  cases c with
  | psampler _ _ | points _ _ _ | seq _ | arrange _ => exact absurd trivial hc
  | lpf c q =>
    cases c with
    | pattern _ _ => exact absurd trivial hc
    | _ => rfl
  | delayn p => cases p <;> rfl
  | _ => rfl

theorem make_esim {L : Lang} {R : L.Node → L.Node → Prop} {x y : Except Stop (L.Data × List Name)} (h : x = y)
    (hr : ∀ d rs, y = .ok (d, rs) → R d.node d.node) : ESim (MSim R) x y := by
  subst h
  cases x with
  | error x => exact .err x
  | ok r => exact .ok ⟨⟨hr r.1 r.2 rfl, rfl⟩, rfl⟩

/-- **C82**: in any history of calls whose programs have no component that counts in bars, the calls that set the tempo can be left out without
any difference in what the caller gets. -/
theorem c82_tempo_unused (M : Nat) (ops : List (Op (glicol P N parse))) (h : Untimed ops) :
    gets (Engine.new _ M) ops = gets (Engine.new _ M) (withoutTempo ops) := by
  refine gets_tempo same_sim (fun n n' v hn => same_bpm v hn) _ ?_ ops ?_ _ _ (new_sim same_sim M) rfl rfl rfl
  · intro op
    constructor
    · intro hk
      cases op with
      | setBpm v => exact ⟨v, rfl⟩
      | _ => cases hk
    · rintro ⟨v, rfl⟩
      rfl
  · intro τ code new hm hp k comps hk c hc smp sr b b' seed
    have hu := h τ code new hm hp k comps hk c hc
    exact make_esim (L := glicol P N parse) (make_same b b' hu) (fun d rs hx => makeNode_steady (P := P) (N := N) (smp := smp) (sr := sr) (b := b') (seed := seed) (rs := rs) hu hx)

/-- The tempo set last is the only one a node has. -/
theorem msg_twice (n m : GNode P) (v w : Fl) (h : msgG P n (.setBPM v) = .ok m) : msgG P m (.setBPM w) = msgG P n (.setBPM w) := by
  by_cases hs : n.steady
  · rw [msgG_steady_same hs] at h
    cases h
    rfl
  · cases n with
    | prim n => cases n <;> first | exact absurd rfl hs | (cases h; rfl)
    | compound c => exact absurd trivial hs
    | script o s => exact absurd trivial hs

theorem msg_bpm_ok (n : GNode P) (v : Fl) : ∃ m, msgG P n (.setBPM v) = .ok m := by
  by_cases hs : n.steady
  · exact ⟨n, msgG_steady_same hs⟩
  · cases n with
    | prim n => cases n <;> first | exact absurd rfl hs | exact ⟨_, rfl⟩
    | compound c => exact absurd trivial hs
    | script o s => exact absurd trivial hs

theorem sendAll_twice {L : Lang} (v w : L.Num) (h1 : ∀ n, ∃ m, L.msg n (.setBPM v) = .ok m)
    (h2 : ∀ n m, L.msg n (.setBPM v) = .ok m → L.msg m (.setBPM w) = L.msg n (.setBPM w)) (s : List (Option L.Data)) :
    ∃ s', sendAll (L := L) (.setBPM v) s = .ok s' ∧ sendAll (L := L) (.setBPM w) s' = sendAll (L := L) (.setBPM w) s := by
  induction s with
  | nil => exact ⟨[], rfl, rfl⟩
  | cons x s ih =>
    obtain ⟨s', h3, h4⟩ := ih
    cases x with
    | none => exact ⟨none :: s', by simp only [sendAll, h3]; rfl, by simp only [sendAll, h4]⟩
    | some d =>
      obtain ⟨m, h5⟩ := h1 d.node
      exact ⟨some ⟨m, d.buffers⟩ :: s', by simp only [sendAll, h3, h5]; rfl, by simp only [sendAll, h4, h2 _ _ h5]⟩

theorem setBpm_twice {L : Lang} {v w : L.Num} (h1 : ∀ n, ∃ m, L.msg n (.setBPM v) = .ok m)
    (h2 : ∀ n m, L.msg n (.setBPM v) = .ok m → L.msg m (.setBPM w) = L.msg n (.setBPM w)) (e : Engine L) (ops : List (Op L)) :
    gets e (.setBpm v :: .setBpm w :: ops) = gets e (.setBpm w :: ops) := by
  obtain ⟨s', h3, h4⟩ := sendAll_twice v w h1 h2 e.graph.slots
  simp only [gets, Op.apply, Engine.setBpm, h3, h4, bind, Except.bind]

/-- **C82**: of two tempos set one after the other only the second counts, for any engine with any components. -/
theorem c82_last_tempo (e : Engine (glicol P N parse)) (v w : Fl) (ops : List (Op (glicol P N parse))) :
    gets e (.setBpm v :: .setBpm w :: ops) = gets e (.setBpm w :: ops) :=
  setBpm_twice (L := glicol P N parse) (fun n => msg_bpm_ok n v) (fun n m h => msg_twice n m v w h) e ops

/-- A platform on which powers are 1 (only `2 ^ 0` is asked for below). -/
def tempoPlat : Plat := ⟨{ Demo.libm with powf := fun _ _ => .fin 1 }, .ident, Demo.ext⟩

/-- The condition of `c82_tempo_unused` cannot be dropped: at 2 samples in a second a bar at tempo 120 has 4 samples, at tempo 240 it has 2,
so `seq 60` triggers twice as often. -/
theorem c82_seq_uses_tempo (fe : Name → Option Fl) :
    gets (Engine.new (glicol tempoPlat 4 (Parse.parse fe)) 4) [.setSr 2, .setBpm (.fin 240), .update .ident c!"o: seq 60", .nextBlock .ident []] =
      [.answer none, .block [[.fin 1, .fin 0, .fin 1, .fin 0], List.replicate 4 (.fin 0)]] ∧
    gets (Engine.new (glicol tempoPlat 4 (Parse.parse fe)) 4)
      (withoutTempo [.setSr 2, .setBpm (.fin 240), .update .ident c!"o: seq 60", .nextBlock .ident []]) =
      [.answer none, .block [[.fin 1, .fin 0, .fin 0, .fin 0], List.replicate 4 (.fin 0)]] :=
  ⟨Settings.getsFuel_spec (by kernel_rfl), Settings.getsFuel_spec (by kernel_rfl)⟩

/-- A case of `c82_last_tempo`: `seq 60` plays when the tempo is set twice. -/
example (fe : Name → Option Fl) :
    gets (Engine.new (glicol tempoPlat 4 (Parse.parse fe)) 4)
      [.setSr 2, .update .ident c!"o: seq 60", .setBpm (.fin 77), .setBpm (.fin 240), .nextBlock .ident []] =
      [.answer none, .block [[.fin 1, .fin 0, .fin 1, .fin 0], List.replicate 4 (.fin 0)]] :=
  Settings.getsFuel_spec (by kernel_rfl)

/-- A case of `c82_tempo_unused`: the tempo is changed while `o: constsig 3 >> mul 2` plays and before `o: imp 1` is sent. -/
example (P : Plat) (fe : Name → Option Fl) : ∃ ops : List (Op (glicol P 2 (Parse.parse fe))),
    ops = [.setSr 2, .update .ident c!"o: constsig 3 >> mul 2", .setBpm (.fin 60), .nextBlock .ident [], .update .ident c!"o: imp 1",
      .setBpm (.fin 90), .nextBlock .ident []] ∧
    Untimed ops ∧
    withoutTempo ops = [.setSr 2, .update .ident c!"o: constsig 3 >> mul 2", .nextBlock .ident [], .update .ident c!"o: imp 1",
      .nextBlock .ident []] ∧
    gets (Engine.new _ 2) ops =
      [.answer none, .block (List.replicate 2 [.fin 6, .fin 6]), .answer none, .block (List.replicate 2 [.fin 1, .fin 0])] := by
  refine ⟨_, rfl, ?_, rfl, Settings.getsFuel_spec (by kernel_rfl)⟩
  intro τ code p hm hp k comps hk c hc
  simp only [List.mem_cons, List.not_mem_nil, or_false, reduceCtorEq, false_or, Op.update.injEq] at hm
  have h1 : Parse.parse fe c!"o: constsig 3 >> mul 2" = .ok (some [(c!"o", [.constsig (.fin 3), .mul (.num (.fin 2))])]) := by kernel_rfl
  have h2 : Parse.parse fe c!"o: imp 1" = .ok (some [(c!"o", [.imp (.num (.fin 1))])]) := by kernel_rfl
  rcases hm with ⟨rfl, rfl⟩ | ⟨rfl, rfl⟩
  · rw [h1] at hp
    cases hp
    simp only [List.mem_cons, List.not_mem_nil, or_false, Prod.mk.injEq] at hk
    obtain ⟨rfl, rfl⟩ := hk
    simp only [List.mem_cons, List.not_mem_nil, or_false] at hc
    rcases hc with rfl | rfl <;> exact id
  · rw [h2] at hp
    cases hp
    simp only [List.mem_cons, List.not_mem_nil, or_false, Prod.mk.injEq] at hk
    obtain ⟨rfl, rfl⟩ := hk
    simp only [List.mem_cons, List.not_mem_nil, or_false] at hc
    subst hc
    exact id

end Verif.Props.TempoUse
