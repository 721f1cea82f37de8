import Verif.Props.Live
import Verif.Props.Pan

/-!
# `pan` whose position is changed while it plays (C71, C72)
-/

namespace Verif.Props

open Verif Verif.Spec

variable {P : Plat} {N : Nat} {env : Env} {k : Nat} {mono : Bool} {bs : List (Changes × List (Fl × Fl))}

theorem clamp1_limited (v : Fl) : clamp1 v = limited v := by
  cases v with
  | nan => rfl
  | inf n => cases n <;> rfl
  | nz => rfl
  | fin q =>
    have e : clamp1 (.fin q) = if q < -1 then .fin (-1) else if 1 < q then .fin 1 else .fin q := by
      simp [clamp1, Fl.lt]
      rfl
    rw [e, limited]
    split_ifs with h1 h2
    · rw [max_eq_left (le_trans (min_le_left _ _) h1.le)]
    · rw [min_eq_right h2.le]; norm_num
    · rw [min_eq_left (not_lt.mp h2), max_eq_right (not_lt.mp h1)]

/-- The changes with limited values. -/
def limitedAll (cs : Changes) : Changes := cs.map fun e => (e.1, limited e.2)

theorem pan_msgs (o : List Nat) (p : Fl) (cs : Changes) :
    sendMsgs (P := P) (.prim (.pan ⟨p, o⟩)) (changeMsgs cs) = .ok (.prim (.pan ⟨newValue 0 p (limitedAll cs), o⟩)) := by
  have := send_changes (P := P) (wrap := fun p => .prim (.pan ⟨p, o⟩)) (upd := fun v e => if e.1 = 0 then limited e.2 else v) (fun p e => by
    obtain ⟨i, v⟩ := e
    cases i with
    | zero =>
      show _ = Except.ok (GNode.prim (Prim.pan ⟨limited v, o⟩))
      rw [← clamp1_limited]
      rfl
    | succ i => rfl) p cs
  rw [this, newValue, limitedAll, List.foldl_map]

theorem within_limited {v : Fl} (hv : v ≠ .nan) : Within (-1) 1 (limited v) := by
  cases v with
  | nan => exact absurd rfl hv
  | inf n => cases n <;> exact ⟨rfl, by decide +kernel, by decide +kernel⟩
  | nz => exact ⟨rfl, by decide +kernel, by decide +kernel⟩
  | fin q => exact ⟨rfl, le_max_left _ _, max_le (by norm_num) (min_le_right _ _)⟩

theorem setting_mem (p : Nat) (v : Fl) (cs : List Changes) (k : Nat) : setting p v cs k = v ∨ ∃ c ∈ cs, (p, setting p v cs k) ∈ c := by
  unfold setting inEffect
  generalize hl : (List.take (k + 1) (cs.map fun cs => cs.filterMap fun e => if e.1 = p then some e.2 else none)).flatten = l
  rcases List.eq_nil_or_concat l with rfl | ⟨m, w, rfl⟩
  · exact .inl rfl
  · right
    rw [List.concat_eq_append, List.getLastD_concat]
    have hw : w ∈ (List.take (k + 1) (cs.map fun cs => cs.filterMap fun e => if e.1 = p then some e.2 else none)).flatten := by
      rw [hl]
      simp
    obtain ⟨d, hd, hwd⟩ := List.mem_flatten.mp hw
    obtain ⟨c, hc, rfl⟩ := List.mem_map.mp (List.mem_of_mem_take hd)
    obtain ⟨e, he, h⟩ := List.mem_filterMap.mp hwd
    refine ⟨c, hc, ?_⟩
    split at h
    · rename_i h'
      cases h
      rw [← h']
      exact he
    · cases h

/-- **C71, C72 (part)**, `pan`: a position that is set while the node plays is limited to -1 to 1; every sample of the left channel of the input is placed at the position that was
set last. Missing: as for `c72_pan_partial`, and a position that is set to NaN. -/
theorem c71_pan_partial (hm : SqrtClose P.libm) (p : Fl) (hs : Sized N (bs.map Prod.snd)) (hp : Within (-1) 1 p)
    (hc : ∀ b ∈ bs, ∀ e ∈ b.1, e.2 ≠ .nan) (hx : ∀ x ∈ (bs.map Prod.snd).flatten, x.1.isFinite = true ∧ x.1.Ok f32 ∧ |x.1.val| ≤ 2 ^ 100) :
    ∃ outs ls rs, playChanged P N env (.pan (.num p)) [.index k] (changedFrom k mono bs) = .ok outs ∧
      channel 0 outs = some ls ∧ channel 1 outs = some rs ∧
      ls.length = (bs.map Prod.snd).flatten.length ∧ rs.length = (bs.map Prod.snd).flatten.length ∧
      ∀ (t : Nat) x, (bs.map Prod.snd).flatten[t]? = some x → ∃ l r, ls[t]? = some l ∧ rs[t]? = some r ∧
        Panned (setting 0 p (bs.map fun b => b.1.map fun e => (e.1, limited e.2)) (t / N)).val x.1 l r := by
  have hproc : ∀ (p : Fl) (s : Unit) (b : Changes × Ins × List (Fl × Fl)) (out : List Buf), b ∈ inBlocks k mono bs → out.length = 2 →
      procG P (.prim (.pan ⟨p, [k]⟩)) b.2.1 out =
        .ok (.prim (.pan ⟨p, [k]⟩), [b.2.2.map fun x => (panSample P.libm p x.1).1, b.2.2.map fun x => (panSample P.libm p x.1).2]) := by
    intro p s b out hb ho
    obtain ⟨x, -, rfl⟩ := List.mem_map.mp hb
    obtain ⟨a, c, rfl⟩ := List.length_eq_two.mp ho
    simp [procG, procPrim, pan_one, sameNode, reState]
  have hrun : ∀ (f : Fl × Fl → Fl × Fl) (s : Unit) (x : List (Fl × Fl)), run (fun (_ : Unit) x => ((), f x)) s x = ((), x.map f) := by
    intro f s x
    induction x with
    | nil => rfl
    | cons y x ih => simp [run, ih]
  have key : ∀ (ch : Nat) (pr : Fl × Fl → Fl), (∀ y : List (Fl × Fl), [y.map Prod.fst, y.map Prod.snd][ch]? = some (y.map pr)) → _ :=
    fun ch pr hpr => live_pure (P := P) (N := N) (env := env) (c := .pan (.num p)) (msgs := [.index k])
    (fun p (_ : Unit) => .prim (.pan ⟨p, [k]⟩)) changeMsgs (fun p cs => newValue 0 p (limitedAll cs))
    (fun p _ (x : Fl × Fl) => ((), panSample P.libm p x.1)) pr (fun o => o.length = 2) ch
    (fun y _ => [y.map Prod.fst, y.map Prod.snd]) (inBlocks k mono bs) p () (pan_make P N env (.num p)) rfl
    (fun b _ p s => pan_msgs [k] p b.1)
    (fun p s b out hb ho => by
      rw [hproc p s b out hb ho, hrun fun x => panSample P.libm p x.1]
      simp [Function.comp_def])
    (fun p b s out hb ho => ⟨rfl, hpr _⟩) (shaped_fresh N 2 (GNode.prim (P := P) (.pan (arith p)))).1
  obtain ⟨o, h1, h2⟩ := key 0 Prod.fst fun _ => rfl
  obtain ⟨o', h1', h3⟩ := key 1 Prod.snd fun _ => rfl
  rw [h1] at h1'
  cases h1'
  rw [inBlocks_steps] at h1
  have hat := fun t => withPar_at (upd := fun p cs => newValue 0 p (limitedAll cs)) (p := p) (inBlocks_len (k := k) (mono := mono) hs) t
  have hset : ∀ t, ((bs.map Prod.fst).take (t + 1)).foldl (fun p cs => newValue 0 p (limitedAll cs)) p =
      setting 0 p (bs.map fun b => b.1.map fun e => (e.1, limited e.2)) t := by
    intro t
    rw [← setting_eq, ← List.foldl_map (f := limitedAll) (g := newValue 0), ← List.map_take, ← List.map_take, List.map_map]
    rfl
  simp only [inBlocks_items, inBlocks_fst, hset] at hat
  have hlen : (withPar (fun p cs => newValue 0 p (limitedAll cs)) p (inBlocks k mono bs)).flatten.length = (bs.map Prod.snd).flatten.length := by
    rw [← List.length_map (f := Prod.snd), withPar_items, inBlocks_items]
  obtain ⟨st, -, -, h⟩ := run_states (fun (_ : Unit) (q : Fl × Fl × Fl) => ((), panSample P.libm q.1 q.2.1)) ()
    (withPar (fun p cs => newValue 0 p (limitedAll cs)) p (inBlocks k mono bs)).flatten
  refine ⟨o, _, _, h1, h2, h3, by rw [List.length_map, run_length, hlen], by rw [List.length_map, run_length, hlen], fun t x hx' => ?_⟩
  have := (h t _ (by rw [hat, hx']; rfl)).1
  rw [List.getElem?_map, List.getElem?_map, this]
  obtain ⟨x1, x2, x3⟩ := hx x (List.mem_of_getElem? hx')
  refine ⟨_, _, rfl, rfl, pan_sample hm ?_ x1 x2 x3⟩
  rcases setting_mem 0 p (bs.map fun b => b.1.map fun e => (e.1, limited e.2)) (t / N) with e | ⟨c, hc1, hc2⟩
  · rw [e]
    exact hp
  · obtain ⟨b, hb, rfl⟩ := List.mem_map.mp hc1
    obtain ⟨e, he, h⟩ := List.mem_map.mp hc2
    rw [← (Prod.mk.inj h).2]
    exact within_limited (hc b hb e he)

/-! ### Examples -/

/-- The position 0 is changed to 5, which is limited to 1, before the second block. -/
example : (∀ b ∈ [(([] : Changes), [(Fl.fin 1, Fl.fin 0)]), ([(0, .fin 5)], [(.fin 2, .fin 0)])], ∀ e ∈ b.1, e.2 ≠ .nan) ∧
    setting 0 (.fin 0) ([(([] : Changes), [(Fl.fin 1, Fl.fin 0)]), ([(0, .fin 5)], [(.fin 2, .fin 0)])].map fun b => b.1.map fun e => (e.1, limited e.2)) 0 = .fin 0 ∧
    setting 0 (.fin 0) ([(([] : Changes), [(Fl.fin 1, Fl.fin 0)]), ([(0, .fin 5)], [(.fin 2, .fin 0)])].map fun b => b.1.map fun e => (e.1, limited e.2)) 1 = .fin 1 ∧
    Sized 1 ([(([] : Changes), [(Fl.fin 1, Fl.fin 0)]), ([(0, .fin 5)], [(.fin 2, .fin 0)])].map Prod.snd) := by
  refine ⟨by decide +kernel, by decide +kernel, by decide +kernel, ?_⟩
  intro x hx
  simp only [List.map_cons, List.map_nil, List.mem_cons, List.not_mem_nil, or_false] at hx
  rcases hx with rfl | rfl <;> rfl

end Verif.Props
