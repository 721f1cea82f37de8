import Verif.Lemmas.CompoundParts
import Verif.Spec.LiveCompound

/-! Compound nodes that are changed while they play (helpers for C71). -/

namespace Verif.Props
open Verif Spec

variable {P : Plat}

/-! ### The envelope -/

/-- A change of the settings of an envelope. -/
def setPerc (p : Fl × Fl) (e : Nat × Fl) : Fl × Fl := if e.1 = 0 then (e.2, p.2) else if e.1 = 1 then (p.1, e.2) else p

/-- A block of an envelope after changes. -/
def percLiveStep (sr : Nat) (s : (Fl × Fl) × (Nat × Fl)) (b : Changes × Buf) : ((Fl × Fl) × (Nat × Fl)) × Buf :=
  let p := b.1.foldl setPerc s.1
  let r := run (percStep (secToSamples sr p.1) (secToSamples sr p.2)) s.2 b.2
  ((p, r.1), r.2)

/-- Blocks of an envelope that is changed. -/
def percLive (sr : Nat) (a d : Fl) (bs : List (Changes × Buf)) : List Buf := (run (percLiveStep sr) ((a, d), (0, .fin 1)) bs).2

theorem perc_msgs {sr : Nat} {o : List Nat} {pos : Nat} {sc : Fl} (cs : Changes) (p : Fl × Fl) :
    sendMsgs (.prim (.envperc ⟨p.1, p.2, pos, sc, sr, o⟩) : GNode P) (changeMsgs cs) =
      .ok (.prim (.envperc ⟨(cs.foldl setPerc p).1, (cs.foldl setPerc p).2, pos, sc, sr, o⟩)) := by
  induction cs generalizing p with
  | nil => rfl
  | cons e cs ih =>
    obtain ⟨i, v⟩ := e
    match i with
    | 0 => exact ih (v, p.2)
    | 1 => exact ih (p.1, v)
    | i + 2 => exact ih p

/-- The settings stay small. -/
def Small (sr : Nat) (p : Fl × Fl) : Prop := secToSamples sr p.1 ≤ 2 ^ 44 ∧ secToSamples sr p.2 ≤ 2 ^ 44

theorem small_fold {sr : Nat} {cs : Changes} {p : Fl × Fl} (hp : Small sr p) (h : ∀ e ∈ cs, e.1 ≤ 1 → secToSamples sr e.2 ≤ 2 ^ 44) :
    Small sr (cs.foldl setPerc p) := by
  induction cs generalizing p with
  | nil => exact hp
  | cons e cs ih =>
    refine ih ?_ (fun e' h' => h e' (List.mem_cons_of_mem _ h'))
    have := h e List.mem_cons_self
    unfold setPerc
    split
    · exact ⟨this (by omega), hp.2⟩
    · split
      · exact ⟨hp.1, this (by omega)⟩
      · exact hp

theorem perc_live {sr k : Nat} {rest : List Buf} : ∀ (bs : List (Changes × Buf)) (ins : List Ins) (s : (Fl × Fl) × (Nat × Fl)) (b0 : Buf),
    List.Forall₂ (fun i b => ∃ r, i = [(k, b.2 :: r)]) ins bs → Small sr s.1 →
    (∀ b ∈ bs, ∀ e ∈ b.1, e.1 ≤ 1 → secToSamples sr e.2 ≤ 2 ^ 44) →
    liveBlocks P (.prim (.envperc ⟨s.1.1, s.1.2, s.2.1, s.2.2, sr, [k]⟩)) (b0 :: rest) ((bs.map fun b => changeMsgs b.1).zip ins) =
      .ok ((run (percLiveStep sr) s bs).2.map (· :: rest)) := by
  intro bs ins s b0 hF
  induction hF generalizing s b0 with
  | nil => intros; rfl
  | @cons i b ins bs hi _ ih =>
    intro hs hb
    obtain ⟨r, rfl⟩ := hi
    have hs' := small_fold hs (hb b List.mem_cons_self)
    have hadd : usizeAdd (secToSamples sr (b.1.foldl setPerc s.1).1) (secToSamples sr (b.1.foldl setPerc s.1).2) = .ok _ :=
      if_pos (by have := hs'.1; have := hs'.2; omega)
    have := ih (percLiveStep sr s b).1 (percLiveStep sr s b).2 hs' (fun b' h' => hb b' (List.mem_cons_of_mem _ h'))
    simp only [List.map_cons, List.zip_cons_cons, liveBlocks, perc_msgs, procG, procPrim, procEnvPerc, hadd, inputAt, chan, bind, Except.bind,
      List.getElem?_cons_zero, List.find?_cons_of_pos, beq_self_eq_true, reState, run]
    simp only [percLiveStep] at this
    rw [this]
    rfl

theorem perc_alone_changed {N : Nat} {env : Env} {a d : Fl} (hp : Small env.sr (a, d)) (cs : List Changes) (xs : List Buf)
    (h : ∀ c ∈ cs, ∀ e ∈ c, e.1 ≤ 1 → secToSamples env.sr e.2 ≤ 2 ^ 44) :
    AloneChanged P N env (.envperc a d) cs xs (percLive env.sr a d (cs.zip xs)) := by
  intro k
  have := perc_live (P := P) (sr := env.sr) (k := k) (rest := [List.replicate N (.fin 0)]) (cs.zip xs) ((cs.zip xs).map fun b => [(k, [b.2])])
    ((a, d), (0, .fin 1)) (List.replicate N (.fin 0)) (by
      generalize cs.zip xs = l
      induction l with
      | nil => exact .nil
      | cons b l ih => exact .cons ⟨[], rfl⟩ ih) hp (fun b hb => h b.1 (List.of_mem_zip hb).1)
  have e : ((cs.zip xs).map fun b => changeMsgs b.1).zip ((cs.zip xs).map fun b => ([(k, [b.2])] : Ins)) =
      List.zipWith (fun c x => (changeMsgs c, [(k, [x])])) cs xs := by
    clear this h
    induction cs generalizing xs with
    | nil => rfl
    | cons c cs ih => cases xs with
      | nil => rfl
      | cons x xs => simp only [List.zip_cons_cons, List.map_cons, List.zipWith_cons_cons, ih]
  rw [e] at this
  refine ⟨(percLive env.sr a d (cs.zip xs)).map (· :: [List.replicate N (.fin 0)]), ?_, ?_⟩
  · have hmk : makeNode P N env.samples env.sr env.bpm env.seed (.envperc a d) =
        .ok (fresh N 2 (.prim (.envperc ⟨a, d, 0, .fin 1, env.sr, []⟩)), []) := rfl
    have hm : sendMsgs (.prim (.envperc ⟨a, d, 0, .fin 1, env.sr, []⟩) : GNode P) [.index k] =
        .ok (.prim (.envperc ⟨a, d, 0, .fin 1, env.sr, [k]⟩)) := rfl
    simp only [playChanged, hmk, fresh, hm]
    have e2 : List.replicate 2 (List.replicate N (Fl.fin 0)) = List.replicate N (.fin 0) :: [List.replicate N (.fin 0)] := rfl
    rw [e2, this]
    rfl
  · simp only [List.map_map]
    rfl

/-! ### The parts -/

/-- The node number `n` of a patch plays alone and is changed. -/
def PartLive (P : Plat) (E : List (Nat × Nat)) (g : Patch) (sig : Nat → List (List Buf)) (n : Nat) (cs : List Changes) : Prop :=
  ∃ d inputs, g.node? n = some d ∧ inputs.length = (sig n).length ∧
    liveBlocks P (.prim d.node) d.buffers ((cs.map changeMsgs).zip inputs) = .ok (sig n) ∧
    ∀ (t : Nat) i, inputs[t]? = some i → InputsOf E n i ∧ ∀ k b, (k, b) ∈ i → (sig k)[t]? = some b

/-- What changes do to a compound node: they arrive at the envelope number `T`. -/
def Reaches (P : Plat) (N : Nat) (c : Compound) (T : Nat) (tr : Changes → Changes) (cs : Changes) : Prop :=
  ∀ (g : Patch) e b, g.node? T = some ⟨.envperc e, b⟩ → ∃ g' e',
    sendMsgs (.compound { c with graph := g } : GNode P) (changeMsgs cs) = .ok (.compound { c with graph := g' }) ∧
    g'.edges = g.edges ∧ (∀ j, j ≠ T → g'.node? j = g.node? j) ∧
    sendMsgs (.prim (.envperc e) : GNode P) (changeMsgs (tr cs)) = .ok (.prim (.envperc e')) ∧
    g'.node? T = some ⟨.envperc e', b⟩ ∧
    (CompoundOk P.libm N { c with graph := g } → CompoundOk P.libm N { c with graph := g' })

theorem live_parts {N : Nat} {E : List (Nat × Nat)} {c : Compound} {k T : Nat} {tr : Changes → Changes} (hN : 1 ≤ N)
    (hm : ∀ a b, Within (-1) 1 (P.libm.noise a b)) (mono : Bool) (hA : AcyclicTo E c.dest)
    (hno : ∀ j, (j, c.input) ∉ E) (hfi : Feeds E c.input c.dest) (hfT : Feeds E T c.dest) (hTi : T ≠ c.input) (hkind : c.kind ≠ .plate)
    (hord : c.order = [k]) (bs : List (Changes × List (Fl × Fl))) (hs : Sized N (bs.map Prod.snd))
    (hR : ∀ b ∈ bs, Reaches P N c T tr b.1) :
    ∀ (g : Patch) (out : List Buf), g.edges = E → EdgesLive g → (∃ d, g.node? c.dest = some d) →
      (∃ b, g.node? c.input = some ⟨.pass, [b]⟩) → (∃ e b, g.node? T = some ⟨.envperc e, b⟩) → out.length = 2 → Sz N out →
      CompoundOk P.libm N { c with graph := g } →
      ∃ outs, liveBlocks P (.compound { c with graph := g }) out (changedFrom k mono bs) = .ok outs ∧
      ∃ sig : Nat → List (List Buf), sig c.input = (leftOf (bs.map Prod.snd)).map (fun x => [x]) ∧
        (∀ n, Feeds E n c.dest → (sig n).length = bs.length) ∧
        (∀ n, n ≠ c.input → n ≠ T → Feeds E n c.dest → PartPlays P E g sig n) ∧
        PartLive P E g sig T (bs.map fun b => tr b.1) ∧
        List.Forall₂ (fun s o => ∃ l r, s[0]? = some l ∧ s[1]? = some r ∧ o = [l, r]) (sig c.dest) outs := by
  induction bs with
  | nil =>
    intro g out hE hL hd hi hT ho hsz hok
    refine ⟨[], rfl, fun _ => [], rfl, fun _ _ => rfl, ?_, ?_, .nil⟩
    · intro n _ _ hn
      have : ∃ d, g.node? n = some d := by
        cases hn with
        | refl => exact hd
        | step he _ => rw [← hE] at he; exact (hL _ he).1
      obtain ⟨d, hd⟩ := this
      exact ⟨d, [], hd, rfl, rfl, fun t i h => by cases h⟩
    · obtain ⟨e, b, hT⟩ := hT
      exact ⟨_, [], hT, rfl, rfl, fun t i h => by cases h⟩
  | cons bx bs ih =>
    intro g0 out hE0 hL0 hd0 hi0 hT0 ho hsz hok0
    obtain ⟨cs, x⟩ := bx
    obtain ⟨e0, bT, hT0⟩ := hT0
    obtain ⟨g, e1', hsend, hgE, hgj, hsT, hT, hok⟩ := hR (cs, x) List.mem_cons_self g0 e0 bT hT0
    replace hok := hok hok0
    have hlive : ∀ j, (∃ d, g0.node? j = some d) → ∃ d, g.node? j = some d := by
      intro j hj
      rcases eq_or_ne j T with rfl | h
      · exact ⟨_, hT⟩
      · rw [hgj j h]; exact hj
    have hE : g.edges = E := hgE.trans hE0
    have hL : EdgesLive g := by
      intro e he
      rw [hgE] at he
      exact ⟨hlive _ (hL0 e he).1, hlive _ (hL0 e he).2⟩
    have hd := hlive _ hd0
    obtain ⟨b0, hi0⟩ := hi0
    have hi : g.node? c.input = some ⟨.pass, [b0]⟩ := by rw [hgj _ (Ne.symm hTi)]; exact hi0
    have hx : x.length = N := hs x (by simp)
    -- the block is played
    have hszI : SzIns N [(k, bufsOf mono x)] := by
      intro e he
      simp only [List.mem_singleton] at he
      subst he
      intro b hb
      cases mono <;> simp only [bufsOf, List.mem_cons, List.not_mem_nil, or_false, if_true, Bool.false_eq_true, if_false] at hb
      · rcases hb with rfl | rfl <;> simp [hx]
      · subst hb; simp [hx]
    have hcall : Call N [(k, bufsOf mono x)] out := by
      refine ⟨hN, hsz, fun h => by simp [h] at ho, hszI, ?_, by simp⟩
      intro e he
      simp only [List.mem_singleton] at he
      subst he
      cases mono <;> simp [bufsOf]
    obtain ⟨c', o, h1, hok'⟩ := procCompound_total (ho := P.ho) hm hok hcall (by omega)
      (by show Fed c.order _ _; rw [hord]; exact ⟨[k], [], rfl, trivial, fun x => by simp⟩)
    obtain ⟨k1, -, -, -⟩ := procCompound_keep (fun i d hd => (hok.graph.inner i d hd).sz) hszI hsz h1
    have h1' := h1
    have hproc : procCompound P.libm P.ho { c with graph := g } [(k, bufsOf mono x)] out =
        Compound.feed P.libm P.ho { c with graph := g } [(k, bufsOf mono x)] out := by
      unfold procCompound
      cases hk : c.kind with
      | plate => exact absurd hk hkind
      | drum => simp only
      | synth => simp only
    have hmain : (bufsOf mono x)[0]? = some (x.map Prod.fst) := by cases mono <;> rfl
    have hord0 : c.order[0]? = some k := by rw [hord]; rfl
    simp only [hproc, Compound.feed, inputAt, hord0, List.find?_cons_of_pos, beq_self_eq_true, bind, Except.bind,
      chan, hmain] at h1
    cases hfeed : Patch.feed g c.input (x.map Prod.fst) with
    | error e => rw [hfeed] at h1; cases h1
    | ok g1 =>
      rw [hfeed] at h1
      simp only [Patch.nextBlock, bind, Except.bind] at h1
      cases hpr : process (procPrim P.libm) P.ho g1 c.dest with
      | error e => rw [hpr] at h1; cases h1
      | ok g2 =>
        rw [hpr] at h1
        simp only at h1
        obtain ⟨e1, e2, e3⟩ := feed_nodes hi hfeed
        have hE1 : g1.edges = E := e1.trans hE
        have hs1 := sameShape_modify hfeed
        have hL1 : EdgesLive g1 := by
          intro e he
          rw [e1] at he
          exact ⟨(hs1.live _).mpr (hL e he).1, (hs1.live _).mpr (hL e he).2⟩
        have hd1 : ∃ d, g1.node? c.dest = some d := (hs1.live _).mpr hd
        obtain ⟨b1, b2, b3⟩ := c09_block (procPrim P.libm) P.ho g1 g2 c.dest hL1 hd1 (by rw [hE1]; exact hA) hpr
        rw [hE1] at b1 b2 b3
        have hs2 := sameShape_process hpr
        have hL2 : EdgesLive g2 := (edgesLive_process _ _ _ _ _ hL1 hd1 hpr).1
        have hd2 : ∃ d, g2.node? c.dest = some d := (hs2.live _).mpr hd1
        have hi2 : g2.node? c.input = some ⟨.pass, [x.map Prod.fst]⟩ := by
          obtain ⟨inp, d, d', j1, j2, j3, j4, _⟩ := b1 c.input hfi
          have := inputsOf_nil j1 hno
          subst this
          rw [e3] at j2
          cases j2
          obtain ⟨n1, b1⟩ := d'
          cases j4
          exact j3
        have hT2 : ∃ e b, g2.node? T = some ⟨.envperc e, b⟩ := by
          obtain ⟨inp, d, d', j1, j2, j3, j4, _⟩ := b1 T hfT
          rw [e2 T hTi, hT] at j2
          cases j2
          simp only [procPrim] at j4
          obtain ⟨n1, b1⟩ := d'
          cases hp : procEnvPerc e1' inp bT with
          | error e => rw [hp] at j4; cases j4
          | ok r =>
            rw [hp] at j4
            cases j4
            exact ⟨_, _, j3⟩
        obtain ⟨dd, hdd⟩ := hd2
        rw [hdd] at h1
        simp only at h1
        cases hy0 : dd.buffers[0]? with
        | none => rw [hy0] at h1; cases h1
        | some l =>
          cases hy1 : dd.buffers[1]? with
          | none => rw [hy0, hy1] at h1; cases h1
          | some r =>
            rw [hy0, hy1] at h1
            match out, ho with
            | [o1, o2], _ =>
            cases h1
            obtain ⟨rest, hrest, sig, s1, s2, s3, s3', s4⟩ := ih (fun y hy => hs y (by simp at hy ⊢; exact .inr hy))
              (fun b hb => hR b (List.mem_cons_of_mem _ hb)) g2 [l, r] b3 hL2 ⟨dd, hdd⟩ ⟨_, hi2⟩ hT2 rfl k1.2 hok'
            refine ⟨[l, r] :: rest, ?_, fun n => ((g2.node? n).map (·.buffers)).getD [] :: sig n, ?_, ?_, ?_, ?_, ?_⟩
            · show liveBlocks P _ _ ((changeMsgs cs, [(k, bufsOf mono x)]) :: changedFrom k mono bs) = _
              simp only [liveBlocks, hsend, procG, h1', reState, hrest]
            · simp only [hi2, Option.map_some, Option.getD_some, s1, List.map_cons, leftOf]
            · intro n hn
              simp only [List.length_cons, s2 n hn]
            · intro n hne hnT hn
              obtain ⟨inp, d, d', j1, j2, j3, j4, j5⟩ := b1 n hn
              obtain ⟨d2, inputs, q1, q2, q3, q4⟩ := s3 n hne hnT hn
              rw [j3] at q1
              cases q1
              rw [e2 n hne, hgj n hnT] at j2
              refine ⟨d, inp :: inputs, j2, by simp [q2], ?_, ?_⟩
              · simp only [runBlocks, procG, j4, reState, q3, j3, Option.map_some, Option.getD_some]
              · intro t i ht
                cases t with
                | zero =>
                  cases ht
                  refine ⟨j1, ?_⟩
                  intro k b hkb
                  obtain ⟨dk, u1, u2⟩ := j5 k b hkb
                  simp [u1, u2]
                | succ t => exact q4 t i ht
            · obtain ⟨inp, d, d', j1, j2, j3, j4, j5⟩ := b1 T hfT
              obtain ⟨d2, inputs, q1, q2, q3, q4⟩ := s3'
              rw [j3] at q1
              cases q1
              rw [e2 T hTi, hT] at j2
              cases j2
              refine ⟨_, inp :: inputs, hT0, by simp [q2], ?_, ?_⟩
              · simp only [List.map_cons, List.zip_cons_cons, liveBlocks, hsT, procG, j4, reState, q3, j3, Option.map_some, Option.getD_some]
              · intro t i ht
                cases t with
                | zero =>
                  cases ht
                  refine ⟨j1, ?_⟩
                  intro k b hkb
                  obtain ⟨dk, u1, u2⟩ := j5 k b hkb
                  simp [u1, u2]
                | succ t => exact q4 t i ht
            · exact .cons ⟨l, r, by simp [hdd, hy0], by simp [hdd, hy1], rfl⟩ s4

/-! ### Messages -/

theorem send_perc {m : Libm} {g : Patch} {T : Nat} {e e' : EnvPerc} {b : List Buf} {p : Nat} {v : Fl}
    (h : g.node? T = some ⟨.envperc e, b⟩) (he : e.msg (.setToNumber p v) = .ok e') : ∃ g', Patch.send m g T (.setToNumber p v) = .ok g' ∧
      g'.edges = g.edges ∧ (∀ j, j ≠ T → g'.node? j = g.node? j) ∧ g'.node? T = some ⟨.envperc e', b⟩ := by
  have hs : Patch.send m g T (.setToNumber p v) = .ok { g with slots := g.slots.set T (some ⟨.envperc e', b⟩) } := by
    simp only [Patch.send, Graph.modify, h, msgPrim, he, bind, Except.bind, Functor.map, Except.map]
  obtain ⟨d, d', k1, k2, k3, -, -, k6⟩ := Graph.modify_ok hs
  rw [h] at k1
  cases k1
  simp only [msgPrim, he, bind, Except.bind, Functor.map, Except.map] at k2
  cases k2
  exact ⟨_, hs, k3, fun j hj => by rw [k6, if_neg (fun h => hj h.symm)], by rw [k6, if_pos rfl]⟩

/-- A change that is sent on to the envelope. -/
theorem reach_step {N : Nat} {c : Compound} {T p q : Nat} {v : Fl} {tr : Changes → Changes} {cs : Changes} (ht : c.tags[0]? = some T)
    (hv : TimeOk v) (hmsg : ∀ g, Compound.msg P.libm { c with graph := g } (.setToNumber p v) =
      ({ c with graph := g } : Compound).sendTag P.libm 0 (.setToNumber q v))
    (htr : tr ((p, v) :: cs) = (q, v) :: tr cs) (h : Reaches P N c T tr cs) : Reaches P N c T tr ((p, v) :: cs) := by
  intro g e b hT
  obtain ⟨e1, he1⟩ : ∃ e1, e.msg (.setToNumber q v) = .ok e1 := by
    match q with
    | 0 => exact ⟨_, rfl⟩
    | 1 => exact ⟨_, rfl⟩
    | q + 2 => exact ⟨_, rfl⟩
  obtain ⟨g1, k1, k2, k3, k4⟩ := send_perc (m := P.libm) hT he1
  have hsend : Compound.msg P.libm { c with graph := g } (.setToNumber p v) = .ok { c with graph := g1 } := by
    rw [hmsg]
    simp only [Compound.sendTag, ht, k1, bind, Except.bind]
  obtain ⟨g', e', j1, j2, j3, j4, j5, j6⟩ := h g1 e1 b k4
  refine ⟨g', e', ?_, j2.trans k2, fun j hj => (j3 j hj).trans (k3 j hj), ?_, j5, fun hok => j6 ?_⟩
  · show (match msgG P (.compound { c with graph := g }) (.setToNumber p v) with | .error e => _ | .ok n => sendMsgs n (changeMsgs cs)) = _
    simp only [msgG, hsend, Functor.map, Except.map]
    exact j1
  · rw [htr]
    show (match msgG P (.prim (.envperc e)) (.setToNumber q v) with | .error e => _ | .ok n => sendMsgs n (changeMsgs (tr cs))) = _
    simp only [msgG, msgPrim, he1, Functor.map, Except.map]
    exact j4
  · rw [hmsg] at hsend
    exact (sendTag_ok hok hv hsend).1

/-- A change that is ignored. -/
theorem reach_skip {N : Nat} {c : Compound} {T p : Nat} {v : Fl} {tr : Changes → Changes} {cs : Changes}
    (hmsg : ∀ g, Compound.msg P.libm { c with graph := g } (.setToNumber p v) = .ok { c with graph := g })
    (htr : ∀ e : EnvPerc, sendMsgs (.prim (.envperc e) : GNode P) (changeMsgs (tr ((p, v) :: cs))) = sendMsgs (.prim (.envperc e) : GNode P) (changeMsgs (tr cs)))
    (h : Reaches P N c T tr cs) : Reaches P N c T tr ((p, v) :: cs) := by
  intro g e b hT
  obtain ⟨g', e', j1, j2, j3, j4, j5, j6⟩ := h g e b hT
  refine ⟨g', e', ?_, j2, j3, (htr e).trans j4, j5, j6⟩
  show (match msgG P (.compound { c with graph := g }) (.setToNumber p v) with | .error e => _ | .ok n => sendMsgs n (changeMsgs cs)) = _
  simp only [msgG, hmsg, Functor.map, Except.map]
  exact j1

theorem reach_nil {N : Nat} {c : Compound} {T : Nat} {tr : Changes → Changes} (h : tr [] = []) : Reaches P N c T tr [] := by
  intro g e b hT
  exact ⟨g, e, rfl, rfl, fun _ _ => rfl, by rw [h]; rfl, hT, id⟩

theorem drum_reaches {N : Nat} {c : Compound} {T : Nat} (hk : c.kind = .drum) (ht : c.tags[0]? = some T) (cs : Changes)
    (hv : ∀ e ∈ cs, e.1 = 0 → TimeOk e.2) : Reaches P N c T asDecay cs := by
  induction cs with
  | nil => exact reach_nil rfl
  | cons e cs ih =>
    have := ih (fun e' h' => hv e' (List.mem_cons_of_mem _ h'))
    obtain ⟨p, v⟩ := e
    match p with
    | 0 =>
      refine reach_step (q := 1) ht (hv (0, v) List.mem_cons_self rfl) ?_ rfl this
      intro g
      simp only [Compound.msg, hk]
    | p + 1 =>
      refine reach_skip ?_ (fun e => ?_) this
      · intro g
        simp only [Compound.msg, hk, orderMsg, bind, Except.bind]
      · simp [asDecay]

theorem synth_reaches {N : Nat} {c : Compound} {T : Nat} (hk : c.kind = .synth) (ht : c.tags[0]? = some T) (cs : Changes)
    (hv : ∀ e ∈ cs, e.1 ≤ 1 → TimeOk e.2) : Reaches P N c T id cs := by
  induction cs with
  | nil => exact reach_nil rfl
  | cons e cs ih =>
    have := ih (fun e' h' => hv e' (List.mem_cons_of_mem _ h'))
    obtain ⟨p, v⟩ := e
    match p with
    | 0 =>
      refine reach_step (q := 0) ht (hv (0, v) List.mem_cons_self (Nat.zero_le _)) ?_ rfl this
      intro g
      simp only [Compound.msg, hk]
    | 1 =>
      refine reach_step (q := 1) ht (hv (1, v) List.mem_cons_self (Nat.le_refl _)) ?_ rfl this
      intro g
      simp only [Compound.msg, hk]
    | p + 2 =>
      refine reach_skip ?_ (fun e => rfl) this
      intro g
      simp only [Compound.msg, hk, orderMsg, bind, Except.bind]

/-! ### The envelope inside -/

theorem in_percLive {E : List (Nat × Nat)} {g : Patch} {sig : Nat → List (List Buf)} {n : Nat} {a d : Fl} {N src : Nat} {cs : List Changes} {xs : List Buf}
    (hp : PartLive P E g sig n cs) (hE : ∀ k, (k, n) ∈ E ∧ k ≠ n ↔ k = src)
    (hg : g.node? n = some (fresh N 1 (.envperc ⟨a, d, 0, .fin 1, 44100, [src]⟩)))
    (ho : Small 44100 (a, d)) (hc : ∀ c ∈ cs, ∀ e ∈ c, e.1 ≤ 1 → secToSamples 44100 e.2 ≤ 2 ^ 44) (hcx : cs.length = xs.length)
    (hs : sig src = xs.map (List.replicate 1)) (hl : (sig n).length = xs.length) :
    sig n = (percLive 44100 a d (cs.zip xs)).map (List.replicate 1) := by
  obtain ⟨d0, inputs, h1, h2, h3, h4⟩ := hp
  rw [hg] at h1
  cases h1
  have hF : List.Forall₂ (fun (i : Ins) (b : Changes × Buf) => ∃ r, i = [(src, b.2 :: r)]) inputs (cs.zip xs) := by
    apply forall₂_of_get
    · rw [h2, hl, List.length_zip, hcx, Nat.min_self]
    · intro t i x hi hx
      obtain ⟨k1, k2⟩ := h4 t i hi
      obtain ⟨y, rfl⟩ := inputsOf_one k1 hE
      have := k2 src y (by simp)
      rw [List.getElem?_zip_eq_some] at hx
      rw [hs, List.getElem?_map, hx.2] at this
      cases this
      exact ⟨[], rfl⟩
  have := perc_live (P := P) (sr := 44100) (k := src) (rest := []) (cs.zip xs) inputs ((a, d), (0, .fin 1)) (List.replicate N (.fin 0)) hF ho
    (fun b hb => hc b.1 (List.of_mem_zip hb).1)
  have e : (cs.zip xs).map (fun b => changeMsgs b.1) = cs.map changeMsgs := by
    have : (cs.zip xs).map Prod.fst = cs := List.map_fst_zip (by omega)
    conv_rhs => rw [← this, List.map_map]
    rfl
  rw [e] at this
  have h3' : liveBlocks P (.prim (.envperc ⟨a, d, 0, .fin 1, 44100, [src]⟩)) [List.replicate N (.fin 0)] ((cs.map changeMsgs).zip inputs) = .ok (sig n) := h3
  rw [this] at h3'
  exact (Except.ok.inj h3').symm

@[simp] theorem percLive_length {sr : Nat} {a d : Fl} {bs : List (Changes × Buf)} : (percLive sr a d bs).length = bs.length := run_length _ _ _

theorem percLive_sized {sr N : Nat} {a d : Fl} {cs : List Changes} {xs : List Buf} (h : Sized N xs) : Sized N (percLive sr a d (cs.zip xs)) := by
  unfold percLive
  generalize ((a, d), ((0, .fin 1) : Nat × Fl)) = s
  induction xs generalizing cs s with
  | nil => intro x hx; rw [List.zip_nil_right] at hx; cases hx
  | cons y xs ih =>
    cases cs with
    | nil => intro x hx; cases hx
    | cons c cs =>
      intro x hx
      simp only [List.zip_cons_cons, run, List.mem_cons] at hx
      rcases hx with rfl | hx
      · simp only [percLiveStep, run_length]; exact h y List.mem_cons_self
      · exact ih (fun z hz => h z (List.mem_cons_of_mem _ hz)) _ x hx

end Verif.Props
