import Verif.Spec.PagePlay
import Verif.Props.Wasm
import Verif.Props.Engine
import Verif.Props.Playing
import Verif.Props.Glicol

/-! # The page plays (C76, C77) -/

namespace Verif.Props.PagePlay
open Verif Verif.PagePlay Spec Verif.Spec.PagePlay Verif.Spec.Browser

variable {L : Lang} {rate : Nat} {parseMsg : Name → List Nat}

/-! ### After a panic -/

theorem dead_runs (s : Sys L) (h : s.engine = none) (ds : List (Do L)) : Dead (runs rate parseMsg s ds).2 := by
  induction ds generalizing s with
  | nil => intro x hx; cases hx
  | cons d ds ih =>
    intro x hx
    simp only [runs, List.mem_append] at hx
    have key : (step rate parseMsg s d).1.engine = none ∧ Dead (step rate parseMsg s d).2 := by
      obtain ⟨port, engine, playing⟩ := s
      cases h
      cases d with
      | post m => exact ⟨rfl, fun x hx => by simp only [step, List.mem_singleton] at hx; exact .inl ⟨m, hx⟩⟩
      | take τ =>
        cases port with
        | nil => exact ⟨rfl, fun x hx => by cases hx⟩
        | cons m ms => exact ⟨rfl, fun x hx => by cases hx⟩
      | quantum ho =>
        cases playing <;>
          exact ⟨rfl, fun x hx => by simp only [step, quantum, if_true, Bool.false_eq_true, if_false, List.mem_singleton] at hx; exact .inr ⟨ho, hx⟩⟩
    rcases hx with hx | hx
    · exact key.2 x hx
    · exact ih _ key.1 x hx

/-! ### One message -/

theorem leads_one {e e' : Engine L} {op : Op L} (h : op.apply e = .ok e') : Leads e [op] e' := ⟨e', h, rfl⟩

theorem deliver_error {τ : TableOrder} {e : Engine L} {m : Post L} {p : Panic} (h : deliver rate parseMsg τ e m = .error p) :
    Panics e (calls rate τ m) := by
  cases m with
  | load seed => cases h
  | sample n s => cases h
  | amp v => cases h
  | bpm v =>
    left
    simp only [deliver, bind, Except.bind] at h
    cases hb : e.setBpm v with
    | error q => exact ⟨q, hb⟩
    | ok e' => rw [hb] at h; cases h
  | run code =>
    left
    cases hu : e.updateWithCode τ code with
    | error q => exact ⟨q, by simp only [Op.apply, hu, bind, Except.bind]⟩
    | ok er =>
      obtain ⟨e', r⟩ := er
      obtain ⟨buf, hb, -⟩ := c29_result_buffer τ parseMsg e code hu
      simp only [deliver, hb, bind, Except.bind] at h
      cases h

theorem deliver_run {τ : TableOrder} {e e' : Engine L} {code : Name} {reps : List (List Nat)}
    (h : deliver rate parseMsg τ e (.run code) = .ok (e', reps)) :
    (e.updateWithCode τ code = .ok (e', none) ∧ reps = []) ∨
    ∃ err bytes, e.updateWithCode τ code = .ok (e', some err) ∧ reps = [bytes] ∧ Tells (parseMsg code) err bytes := by
  cases hu : e.updateWithCode τ code with
  | error q => simp only [deliver, Wasm.update, hu, bind, Except.bind] at h; cases h
  | ok er =>
    obtain ⟨e1, r⟩ := er
    obtain ⟨buf, hb, hr⟩ := c29_result_buffer τ parseMsg e code hu
    simp only [deliver, hb, bind, Except.bind] at h
    cases r with
    | none =>
      left
      subst hr
      cases h
      exact ⟨rfl, rfl⟩
    | some err =>
      right
      have hcls : ∃ n, n ≠ 0 ∧ buf.head? = some n ∧ Tells (parseMsg code) err buf := by
        cases err with
        | parsing => exact ⟨1, by decide, by rw [List.head?_eq_getElem?]; exact hr.2.1, hr⟩
        | nonExistSample v =>
          obtain ⟨msg, h1, h2⟩ := hr
          exact ⟨2, by decide, by rw [List.head?_eq_getElem?]; exact h2.2.1, msg, h1, h2⟩
        | nonExistReference v =>
          obtain ⟨msg, h1, h2⟩ := hr
          exact ⟨3, by decide, by rw [List.head?_eq_getElem?]; exact h2.2.1, msg, h1, h2⟩
      obtain ⟨n, hn, hh, ht⟩ := hcls
      rw [hh] at h
      rw [if_neg (by simpa using hn)] at h
      cases h
      exact ⟨err, buf, rfl, rfl, ht⟩

theorem deliver_leads {τ : TableOrder} {e e' : Engine L} {m : Post L} {reps : List (List Nat)}
    (h : deliver rate parseMsg τ e m = .ok (e', reps)) : Leads e (calls rate τ m) e' := by
  cases m with
  | load seed => cases h; exact ⟨_, rfl, _, rfl, rfl⟩
  | sample n s => cases h; exact leads_one rfl
  | amp v => cases h; exact leads_one rfl
  | bpm v =>
    simp only [deliver, bind, Except.bind] at h
    cases hb : e.setBpm v with
    | error q => rw [hb] at h; cases h
    | ok e1 => rw [hb] at h; cases h; exact leads_one hb
  | run code =>
    refine leads_one ?_
    rcases deliver_run h with ⟨h, -⟩ | ⟨_, _, h, -⟩ <;> simp only [Op.apply, h, bind, Except.bind]

theorem deliver_setting {τ : TableOrder} {e e' : Engine L} {m : Post L} {reps : List (List Nat)} (hm : ∀ code, m ≠ .run code)
    (h : deliver rate parseMsg τ e m = .ok (e', reps)) : reps = [] := by
  cases m with
  | load seed => cases h; rfl
  | sample n s => cases h; rfl
  | amp v => cases h; rfl
  | bpm v =>
    simp only [deliver, bind, Except.bind] at h
    cases hb : e.setBpm v with
    | error q => rw [hb] at h; cases h
    | ok e1 => rw [hb] at h; cases h; rfl
  | run code => exact absurd rfl (hm code)

theorem leads_reach (hL : ParserWf L) {e e' : Engine L} {ops : List (Op L)} (hr : Reachable L e) (h : Leads e ops e') :
    Reachable L e' ∧ e'.N = e.N := by
  induction ops generalizing e with
  | nil => cases h; exact ⟨hr, rfl⟩
  | cons op ops ih =>
    obtain ⟨e1, h1, h2⟩ := h
    have := ih (.step op hr h1) h2
    exact ⟨this.1, this.2.trans (apply_N hL hr h1)⟩

/-- What `process` gives the worklet. -/
theorem process_ok (hL : ParserWf L) {S : L.Node → Prop} (hs : Shape L 128 S) {e e' : Engine L} (hr : Reachable L e) (hN : e.N = 128)
    {ho : HashOrder} {out : List (List L.Num)} (h : e.nextBlock ho [] = .ok (e', out)) :
    ∃ l r, out = [l, r] ∧ l.length = 128 ∧ r.length = 128 ∧ Wasm.process ho e 256 = .ok (e', l ++ r) := by
  obtain ⟨l, r, rfl, hl, hr'⟩ := nextBlock_shape hL (hN ▸ hs) hr h
  rw [hN] at hl hr'
  refine ⟨l, r, rfl, hl, hr', ?_⟩
  simp only [Wasm.process, h, bind, Except.bind, Wasm.channelHead, List.getElem?_cons_zero, List.getElem?_cons_succ, hl, hr',
    Nat.reduceDiv, Nat.le_refl, if_true, List.length_take, Nat.min_self, Nat.reduceSub]
  rw [List.take_of_length_le (by omega), List.take_of_length_le (by omega)]

theorem process_error {e : Engine L} (hL : ParserWf L) {S : L.Node → Prop} (hs : Shape L 128 S) (hr : Reachable L e) (hN : e.N = 128)
    {ho : HashOrder} {p : Panic} (h : Wasm.process ho e 256 = .error p) : ∃ q, e.nextBlock ho [] = .error q := by
  cases hb : e.nextBlock ho [] with
  | error q => exact ⟨q, rfl⟩
  | ok er =>
    obtain ⟨e', out⟩ := er
    obtain ⟨l, r, -, -, -, h2⟩ := process_ok hL hs hr hN hb
    rw [h2] at h
    cases h

/-! ### The whole page -/

/-- What a schedule begins with is never a report: reports come with their message. -/
theorem no_report_first (s : Sys L) (ds : List (Do L)) (b : List Nat) (es : List (Ev L)) : (runs rate parseMsg s ds).2 ≠ .report b :: es := by
  induction ds generalizing s with
  | nil => intro h; cases h
  | cons d ds ih =>
    intro h
    simp only [runs] at h
    cases hd : (step rate parseMsg s d).2 with
    | nil => rw [hd] at h; exact ih _ h
    | cons x xs =>
      rw [hd] at h
      cases h
      cases d with
      | post m => cases hd
      | take τ =>
        obtain ⟨port, engine, playing⟩ := s
        cases port with
        | nil => cases hd
        | cons m ms =>
          cases engine with
          | none => cases hd
          | some e =>
            simp only [step, take] at hd
            cases hdel : deliver rate parseMsg τ e m with
            | error p => rw [hdel] at hd; cases hd
            | ok er => obtain ⟨e', reps⟩ := er; rw [hdel] at hd; cases hd
      | quantum ho =>
        obtain ⟨port, engine, playing⟩ := s
        cases playing with
        | false => cases hd
        | true =>
          cases engine with
          | none => cases hd
          | some e =>
            simp only [step, quantum, if_true] at hd
            cases hp : Wasm.process ho e 256 with
            | error p => rw [hp] at hd; cases hd
            | ok er => obtain ⟨e', out⟩ := er; rw [hp] at hd; cases hd

theorem follows_runs (hL : ParserWf L) {S : L.Node → Prop} (hs : Shape L 128 S) (port : List (Post L)) {e : Engine L} (hr : Reachable L e)
    (hN : e.N = 128) (ds : List (Do L)) : Follows rate parseMsg e (runs rate parseMsg ⟨port, some e, true⟩ ds).2 := by
  induction ds generalizing port e with
  | nil => exact .nil e
  | cons d ds ih =>
    cases d with
    | post m => exact .asked (ih _ hr hN)
    | take τ =>
      cases port with
      | nil => exact ih [] hr hN
      | cons m ms =>
        simp only [runs, step, take]
        cases hdel : deliver rate parseMsg τ e m with
        | error p => exact .brokenByMessage (deliver_error hdel) (dead_runs _ rfl ds)
        | ok er =>
          obtain ⟨e', reps⟩ := er
          have hlead := deliver_leads hdel
          have hre := leads_reach hL hr hlead
          have hrest := ih ms hre.1 (hre.2.trans hN)
          by_cases hm : ∃ code, m = .run code
          · obtain ⟨code, rfl⟩ := hm
            rcases deliver_run hdel with ⟨hu, rfl⟩ | ⟨err, bytes, hu, rfl, ht⟩
            · exact .accepted hu (no_report_first _ ds) hrest
            · exact .rejected hu (c01_failed_update_changes_nothing hL hr τ code err hu) ht hrest
          · have hm' : ∀ code, m ≠ .run code := fun code h => hm ⟨code, h⟩
            cases deliver_setting hm' hdel
            exact .setting hm' hlead hrest
    | quantum ho =>
      simp only [runs, step, quantum, if_true]
      cases hp : Wasm.process ho e 256 with
      | error p =>
        obtain ⟨q, hq⟩ := process_error hL hs hr hN hp
        refine .brokenByBlock hq ?_
        intro x hx
        rcases List.mem_cons.mp hx with rfl | hx
        · exact .inr ⟨ho, rfl⟩
        · exact dead_runs ⟨port, none, false⟩ rfl ds x hx
      | ok er =>
        obtain ⟨e', out⟩ := er
        cases hb : e.nextBlock ho [] with
        | error q => simp only [Wasm.process, hb, bind, Except.bind] at hp; cases hp
        | ok er =>
          obtain ⟨e1, o⟩ := er
          obtain ⟨l, r, rfl, hl, hr', h2⟩ := process_ok hL hs hr hN hb
          rw [h2] at hp
          cases hp
          have hst : Op.apply e (.nextBlock ho []) = .ok e' := by simp only [Op.apply, hb, bind, Except.bind]
          have hhalf : (l ++ r).length / 2 = l.length := by rw [List.length_append, hl, hr']
          show Follows rate parseMsg e (.sound ho _ _ :: _)
          rw [hhalf, List.take_left, List.drop_left]
          exact .sound hb hl hr' (ih port (.step _ hr hst) ((apply_N hL hr hst).trans hN))

/-- **C76.** For every schedule of messages posted by the page, messages taken by the worklet and blocks asked for by the browser, what is
seen follows one engine: every message acts on it as the call it stands for, a rejected program is reported (and only a rejected one) and
leaves the engine as it was, every sound is the engine's next block; only a panic of the engine ends this. -/
theorem c76_page_follows_engine (hL : ParserWf L) {S : L.Node → Prop} (hs : Shape L 128 S) (rate : Nat) (parseMsg : Name → List Nat)
    (ds : List (Do L)) : Follows rate parseMsg (Engine.new L 128) (runs rate parseMsg (start L) ds).2 :=
  follows_runs hL hs [] (.new 128) rfl ds

/-! ### The order of messages -/

theorem askeds_append (a b : List (Ev L)) : askeds (a ++ b) = askeds a ++ askeds b := by
  induction a with
  | nil => rfl
  | cons x xs ih => cases x <;> simp only [List.cons_append, askeds, ih]

theorem dids_append (a b : List (Ev L)) : dids (a ++ b) = dids a ++ dids b := by
  induction a with
  | nil => rfl
  | cons x xs ih => cases x <;> simp only [List.cons_append, dids, ih]

theorem reports_plain (reps : List (List Nat)) : askeds (reps.map (Ev.report (L := L))) = [] ∧ dids (reps.map (Ev.report (L := L))) = [] := by
  induction reps with
  | nil => exact ⟨rfl, rfl⟩
  | cons x xs ih => exact ih

theorem dead_dids {evs : List (Ev L)} (h : Dead evs) : dids evs = [] := by
  induction evs with
  | nil => rfl
  | cons x xs ih =>
    have hx := h x (List.mem_cons_self ..)
    have := ih (fun y hy => h y (List.mem_cons_of_mem _ hy))
    rcases hx with ⟨m, rfl⟩ | ⟨ho, rfl⟩ <;> exact this

theorem runs_append (s : Sys L) (d1 d2 : List (Do L)) : runs rate parseMsg s (d1 ++ d2) =
    ((runs rate parseMsg (runs rate parseMsg s d1).1 d2).1, (runs rate parseMsg s d1).2 ++ (runs rate parseMsg (runs rate parseMsg s d1).1 d2).2) := by
  induction d1 generalizing s with
  | nil => rfl
  | cons d d1 ih => simp only [List.cons_append, runs, ih, List.append_assoc]

/-- One step, as far as the messages are concerned. -/
theorem step_order (s : Sys L) (d : Do L) (hp : s.engine ≠ none → s.playing = true) :
    ((step rate parseMsg s d).1.engine ≠ none → (step rate parseMsg s d).1.playing = true) ∧
    dids (step rate parseMsg s d).2 <+: s.port ++ askeds (step rate parseMsg s d).2 ∧
    (s.engine ≠ none → ¬ Broken (step rate parseMsg s d).2 → (step rate parseMsg s d).1.engine ≠ none ∧
      s.port ++ askeds (step rate parseMsg s d).2 = dids (step rate parseMsg s d).2 ++ (step rate parseMsg s d).1.port) ∧
    ((step rate parseMsg s d).1.engine ≠ none →
      s.port ++ askeds (step rate parseMsg s d).2 = dids (step rate parseMsg s d).2 ++ (step rate parseMsg s d).1.port) := by
  obtain ⟨port, engine, playing⟩ := s
  cases d with
  | post m => exact ⟨hp, List.nil_prefix, fun h _ => ⟨h, rfl⟩, fun h => rfl⟩
  | take τ =>
    cases port with
    | nil => exact ⟨hp, List.nil_prefix, fun h _ => ⟨h, rfl⟩, fun h => rfl⟩
    | cons m ms =>
      cases engine with
      | none => exact ⟨hp, List.nil_prefix, fun h => absurd rfl h, fun h => absurd rfl h⟩
      | some e =>
        simp only [step, take]
        cases hd : deliver rate parseMsg τ e m with
        | error p =>
          exact ⟨fun h => absurd rfl h, List.nil_prefix, fun _ h => absurd ⟨τ, .ident, some m, List.mem_cons_self ..⟩ h, fun h => absurd rfl h⟩
        | ok er =>
          obtain ⟨e', reps⟩ := er
          have heq : (m :: ms) ++ askeds (Ev.did τ m :: reps.map Ev.report) = dids (Ev.did τ m :: reps.map (Ev.report (L := L))) ++ ms := by
            simp only [askeds, dids, (reports_plain reps).1, (reports_plain reps).2, List.append_nil, List.cons_append, List.nil_append]
          refine ⟨fun _ => hp (by simp), ⟨ms, heq.symm⟩, fun _ _ => ⟨by simp, heq⟩, fun _ => heq⟩
  | quantum ho =>
    cases engine with
    | none =>
      simp only [step, quantum]
      cases playing <;> exact ⟨fun h => absurd rfl h, List.nil_prefix, fun h => absurd rfl h, fun h => absurd rfl h⟩
    | some e =>
      cases hp (by simp)
      simp only [step, quantum, if_true]
      cases hpr : Wasm.process ho e 256 with
      | error p =>
        exact ⟨fun h => absurd rfl h, List.nil_prefix, fun _ h => absurd ⟨.ident, ho, none, List.mem_cons_self ..⟩ h, fun h => absurd rfl h⟩
      | ok er =>
        obtain ⟨e', out⟩ := er
        exact ⟨fun _ => rfl, List.nil_prefix, fun _ _ => ⟨by simp, List.append_nil _⟩, fun _ => List.append_nil _⟩

theorem order_runs (s : Sys L) (hp : s.engine ≠ none → s.playing = true) (ds : List (Do L)) :
    dids (runs rate parseMsg s ds).2 <+: s.port ++ askeds (runs rate parseMsg s ds).2 ∧
    (s.engine ≠ none → ¬ Broken (runs rate parseMsg s ds).2 →
      s.port ++ askeds (runs rate parseMsg s ds).2 = dids (runs rate parseMsg s ds).2 ++ (runs rate parseMsg s ds).1.port) := by
  induction ds generalizing s with
  | nil => exact ⟨List.nil_prefix, fun _ _ => List.append_nil _⟩
  | cons d ds ih =>
    obtain ⟨h1, h2, h3, h4⟩ := step_order (rate := rate) (parseMsg := parseMsg) s d hp
    obtain ⟨i1, i2⟩ := ih _ h1
    simp only [runs, askeds_append, dids_append]
    refine ⟨?_, ?_⟩
    · by_cases he : (step rate parseMsg s d).1.engine = none
      · rw [dead_dids (dead_runs _ he ds), List.append_nil, ← List.append_assoc]
        exact h2.trans (List.prefix_append _ _)
      · rw [← List.append_assoc, h4 he, List.append_assoc]
        exact (List.prefix_append_right_inj _).mpr i1
    · intro he hb
      have hb1 : ¬ Broken (step rate parseMsg s d).2 := fun ⟨τ, ho, m, h⟩ => hb ⟨τ, ho, m, List.mem_append_left _ h⟩
      have hb2 : ¬ Broken (runs rate parseMsg (step rate parseMsg s d).1 ds).2 := fun ⟨τ, ho, m, h⟩ => hb ⟨τ, ho, m, List.mem_append_right _ h⟩
      obtain ⟨k1, k2⟩ := h3 he hb1
      rw [← List.append_assoc, k2, List.append_assoc, i2 k1 hb2, List.append_assoc]

theorem takes_drain (τs : List TableOrder) : ∀ (s : Sys L), s.port.length ≤ τs.length →
    (runs rate parseMsg s (τs.map .take)).1.port = [] := by
  induction τs with
  | nil => intro s h; exact List.length_eq_zero_iff.mp (Nat.le_zero.mp h)
  | cons τ τs ih =>
    intro s h
    refine ih _ ?_
    obtain ⟨port, engine, playing⟩ := s
    cases port with
    | nil => exact Nat.zero_le _
    | cons m ms =>
      have : (take rate parseMsg τ ⟨m :: ms, engine, playing⟩).1.port = ms := by
        cases engine with
        | none => rfl
        | some e =>
          simp only [take]
          cases deliver rate parseMsg τ e m <;> rfl
      show (take rate parseMsg τ ⟨m :: ms, engine, playing⟩).1.port.length ≤ _
      rw [this]
      exact Nat.le_of_succ_le_succ h

/-- **C76** (order). The messages handed to the engine are, from the first one on, the messages posted, in their order; and if the worklet is
given the time to take as many as were posted and the engine does not panic, they are all of them. -/
theorem c76_messages_in_order (rate : Nat) (parseMsg : Name → List Nat) (ds : List (Do L)) :
    dids (runs rate parseMsg (start L) ds).2 <+: askeds (runs rate parseMsg (start L) ds).2 ∧
    ∀ τs : List TableOrder, (askeds (runs rate parseMsg (start L) ds).2).length ≤ τs.length →
      ¬ Broken (runs rate parseMsg (start L) (ds ++ τs.map .take)).2 →
      dids (runs rate parseMsg (start L) (ds ++ τs.map .take)).2 = askeds (runs rate parseMsg (start L) ds).2 := by
  refine ⟨(order_runs (start L) (fun _ => rfl) ds).1, ?_⟩
  intro τs hlen hb
  have hb0 : ¬ Broken (runs rate parseMsg (start L) ds).2 := by
    rintro ⟨τ, ho, m, h⟩
    refine hb ⟨τ, ho, m, ?_⟩
    rw [runs_append]
    exact List.mem_append_left _ h
  have h0 := (order_runs (start L) (fun _ => rfl) ds).2 (fun h => by cases h) hb0
  have h1 := (order_runs (start L) (fun _ => rfl) (ds ++ τs.map .take)).2 (fun h => by cases h) hb
  have hport : (runs rate parseMsg (start L) (ds ++ τs.map .take)).1.port = [] := by
    rw [runs_append]
    refine takes_drain τs _ (Nat.le_trans ?_ hlen)
    have := congrArg List.length h0
    rw [List.length_append, List.length_append, show (start L).port.length = 0 from rfl] at this
    omega
  have hask : askeds (runs rate parseMsg (start L) (ds ++ τs.map .take)).2 = askeds (runs rate parseMsg (start L) ds).2 := by
    rw [runs_append]
    simp only [askeds_append]
    have : ∀ (s : Sys L) (l : List TableOrder), askeds (runs rate parseMsg s (l.map .take)).2 = [] := by
      intro s l
      induction l generalizing s with
      | nil => rfl
      | cons τ l ih =>
        simp only [List.map_cons, runs, askeds_append, ih, List.append_nil]
        obtain ⟨port, engine, playing⟩ := s
        cases port with
        | nil => rfl
        | cons m ms =>
          cases engine with
          | none => rfl
          | some e =>
            simp only [step, take]
            cases deliver rate parseMsg τ e m with
            | error p => rfl
            | ok er => exact (reports_plain _).1
    rw [this, List.append_nil]
  rw [hport, List.append_nil, hask] at h1
  exact h1.symm

/-! ### A rejected program -/

theorem same_runs (hL : ParserWf L) {S : L.Node → Prop} (hs : Shape L 128 S) {p1 p2 : List (Post L)} {e1 e2 : Engine L}
    (hr1 : Reachable L e1) (hr2 : Reachable L e2) (hN : e1.N = 128) (h : SameEngine e1 e2) {ds : List (Do L)} (hd : NoTake ds) :
    (runs rate parseMsg ⟨p2, some e2, true⟩ ds).2 = (runs rate parseMsg ⟨p1, some e1, true⟩ ds).2 := by
  induction ds generalizing p1 p2 e1 e2 with
  | nil => rfl
  | cons d ds ih =>
    have hd' : NoTake ds := fun d h => hd d (List.mem_cons_of_mem _ h)
    cases d with
    | post m =>
      simp only [runs, step]
      rw [ih hr1 hr2 hN h hd']
    | take τ => exact absurd rfl (hd _ (List.mem_cons_self ..) τ)
    | quantum ho =>
      have hI1 := inv_reachable hL hr1
      have hI2 := inv_reachable hL hr2
      have hN2 : e2.N = 128 := h.N.trans hN
      simp only [runs, step, quantum, if_true]
      cases hb : e1.nextBlock ho [] with
      | ok er =>
        obtain ⟨e1', out⟩ := er
        obtain ⟨e2', k1, k2⟩ := same_nextBlock h hI1.edges ((hI1.live _).mpr (.inl rfl)) hb
        obtain ⟨l, r, rfl, hl, hr, hw1⟩ := process_ok hL hs hr1 hN hb
        obtain ⟨l', r', heq, _, _, hw2⟩ := process_ok hL hs hr2 hN2 k1
        cases heq
        rw [hw1, hw2]
        have hst1 : Op.apply e1 (.nextBlock ho []) = .ok e1' := by simp only [Op.apply, hb, bind, Except.bind]
        have hst2 : Op.apply e2 (.nextBlock ho []) = .ok e2' := by simp only [Op.apply, k1, bind, Except.bind]
        have := ih (p1 := p1) (p2 := p2) (.step _ hr1 hst1) (.step _ hr2 hst2) ((apply_N hL hr1 hst1).trans hN) k2 hd'
        exact congrArg _ this
      | error q =>
        have h1 : ∃ q, Wasm.process ho e1 256 = .error q := ⟨q, by simp only [Wasm.process, hb, bind, Except.bind]⟩
        have h2 : ∃ q, Wasm.process ho e2 256 = .error q := by
          cases hb2 : e2.nextBlock ho [] with
          | error q => exact ⟨q, by simp only [Wasm.process, hb2, bind, Except.bind]⟩
          | ok er =>
            obtain ⟨e2', out⟩ := er
            obtain ⟨e1', k1, _⟩ := same_nextBlock h.symm hI2.edges ((hI2.live _).mpr (.inl rfl)) hb2
            rw [k1] at hb
            cases hb
        obtain ⟨q1, h1⟩ := h1
        obtain ⟨q2, h2⟩ := h2
        rw [h1, h2]
        have key : ∀ (p1 p2 : List (Post L)) (ds : List (Do L)), NoTake ds →
            (runs rate parseMsg ⟨p2, none, false⟩ ds).2 = (runs rate parseMsg ⟨p1, none, false⟩ ds).2 := by
          intro p1 p2 ds hd
          induction ds generalizing p1 p2 with
          | nil => rfl
          | cons d ds ih =>
            have hd' : NoTake ds := fun d h => hd d (List.mem_cons_of_mem _ h)
            cases d with
            | post m => simp only [runs, step]; rw [ih (p1 ++ [m]) (p2 ++ [m]) hd']
            | take τ => exact absurd rfl (hd _ (List.mem_cons_self ..) τ)
            | quantum ho => simp only [runs, step, quantum, Bool.false_eq_true, if_false]; rw [ih p1 p2 hd']
        exact congrArg _ (key p1 p2 ds hd')

theorem alive_runs (hL : ParserWf L) {S : L.Node → Prop} (hs : Shape L 128 S) {port : List (Post L)} {e e' : Engine L} (hr : Reachable L e)
    (hN : e.N = 128) {ds : List (Do L)} {port' : List (Post L)} {b : Bool}
    (h : (runs rate parseMsg ⟨port, some e, true⟩ ds).1 = ⟨port', some e', b⟩) : Reachable L e' ∧ e'.N = 128 ∧ b = true := by
  have dead : ∀ (s : Sys L) (ds : List (Do L)), s.engine = none → (runs rate parseMsg s ds).1.engine = none := by
    intro s ds hs
    induction ds generalizing s with
    | nil => exact hs
    | cons d ds ih =>
      refine ih _ ?_
      obtain ⟨port, engine, playing⟩ := s
      cases hs
      cases d with
      | post m => rfl
      | take τ => cases port <;> rfl
      | quantum ho => cases playing <;> rfl
  induction ds generalizing port e with
  | nil => cases h; exact ⟨hr, hN, rfl⟩
  | cons d ds ih =>
    simp only [runs] at h
    cases d with
    | post m => exact ih hr hN h
    | take τ =>
      cases port with
      | nil => exact ih hr hN h
      | cons m ms =>
        simp only [step, take] at h
        cases hdel : deliver rate parseMsg τ e m with
        | error p =>
          rw [hdel] at h
          have := dead ⟨ms, none, true⟩ ds rfl
          simp only at h
          rw [h] at this
          cases this
        | ok er =>
          obtain ⟨e1, reps⟩ := er
          rw [hdel] at h
          have hre := leads_reach hL hr (deliver_leads hdel)
          exact ih hre.1 (hre.2.trans hN) h
    | quantum ho =>
      simp only [step, quantum, if_true] at h
      cases hp : Wasm.process ho e 256 with
      | error p =>
        rw [hp] at h
        have := dead ⟨port, none, false⟩ ds rfl
        simp only at h
        rw [h] at this
        cases this
      | ok er =>
        obtain ⟨e1, out⟩ := er
        rw [hp] at h
        cases hb : e.nextBlock ho [] with
        | error q => simp only [Wasm.process, hb, bind, Except.bind] at hp; cases hp
        | ok er =>
          obtain ⟨e2, o⟩ := er
          obtain ⟨l, r, rfl, -, -, h2⟩ := process_ok hL hs hr hN hb
          rw [h2] at hp
          cases hp
          have hst : Op.apply e (.nextBlock ho []) = .ok e1 := by simp only [Op.apply, hb, bind, Except.bind]
          exact ih (.step _ hr hst) ((apply_N hL hr hst).trans hN) h

/-- **C76** (the music continues). After any schedule, if the next message is a program that is answered with a report, then until the next
message is taken everything seen and heard is what it would have been without it. -/
theorem c76_music_continues (hL : ParserWf L) {S : L.Node → Prop} (hs : Shape L 128 S) (rate : Nat) (parseMsg : Name → List Nat)
    (d1 : List (Do L)) (τ : TableOrder) (code : Name) (bytes : List Nat)
    (h : (runs rate parseMsg (start L) (d1 ++ [.take τ])).2 = (runs rate parseMsg (start L) d1).2 ++ [.did τ (.run code), .report bytes])
    (d2 : List (Do L)) (hd : NoTake d2) :
    ∃ after, (runs rate parseMsg (start L) (d1 ++ d2)).2 = (runs rate parseMsg (start L) d1).2 ++ after ∧
      (runs rate parseMsg (start L) (d1 ++ .take τ :: d2)).2 =
        (runs rate parseMsg (start L) d1).2 ++ [.did τ (.run code), .report bytes] ++ after := by
  rw [runs_append] at h
  simp only [List.append_cancel_left_eq] at h
  rw [runs_append, runs_append]
  refine ⟨_, rfl, ?_⟩
  show _ ++ ((step rate parseMsg _ (.take τ)).2 ++ _) = _
  simp only [runs, List.append_nil] at h
  rw [h, List.append_assoc]
  congr 2
  generalize hx : (runs rate parseMsg (start L) d1).1 = s at h ⊢
  obtain ⟨port, engine, playing⟩ := s
  cases engine with
  | none => cases port <;> cases h
  | some e =>
    obtain ⟨hr, hN, rfl⟩ := alive_runs hL hs (.new 128) rfl hx
    cases port with
    | nil => cases h
    | cons m ms =>
      simp only [step, take] at h ⊢
      cases hdel : deliver rate parseMsg τ e m with
      | error p => rw [hdel] at h; cases h
      | ok er =>
        obtain ⟨e', reps⟩ := er
        rw [hdel] at h
        simp only [List.cons.injEq, Ev.did.injEq, true_and] at h
        obtain ⟨rfl, hreps⟩ := h
        have hre := leads_reach hL hr (deliver_leads hdel)
        rcases deliver_run hdel with ⟨_, rfl⟩ | ⟨err, bytes', hu, rfl, _⟩
        · cases hreps
        · exact same_runs hL hs hr hre.1 hN (c01_failed_update_changes_nothing hL hr τ code err hu) hd

end Verif.Props.PagePlay
