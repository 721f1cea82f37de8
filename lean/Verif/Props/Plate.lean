import Verif.Lemmas.PlateQuiet
import Verif.Props.Playing

/-!
# The sound of the plate reverb (C68)
-/

namespace Verif.Props
open Verif Spec

variable {P : Plat}

/-! ### A reverb plays -/

theorem plate_blocks {N k : Nat} (hN : 1 ≤ N) (hm : ∀ a b, Within (-1) 1 (P.libm.noise a b)) (hsin : SinBounded P.libm)
    (mono : Bool) (bs : List (Changes × List (Fl × Fl))) (hx : Sized N (bs.map Prod.snd)) (g : Patch) (v : Fl) (out : List Buf)
    (hG : PlateGraph P.libm N g) (hM : Mixes g v) (h2 : out.length = 2) (hs : Sz N out) :
    ∃ outs, liveBlocks P (.compound ⟨.plate, g, 0, 2, [41, 47, 43, 49], [k]⟩) out (changedFrom k mono bs) = .ok outs := by
  induction bs generalizing g v out with
  | nil => exact ⟨[], rfl⟩
  | cons b bs ih =>
    obtain ⟨cs, x⟩ := b
    obtain ⟨g1, hsend, -, hM1, hG1⟩ := plate_msgs (ord := [k]) cs g v hG hM
    have hsz : SzIns N [(k, bufsOf mono x)] := by
      intro e he
      simp only [List.mem_singleton] at he
      subst he
      have := hx x (by simp)
      intro b hb
      cases mono <;> simp only [bufsOf, List.mem_cons, List.not_mem_nil, or_false, if_true, Bool.false_eq_true, if_false] at hb
      · rcases hb with rfl | rfl <;> simp [this]
      · subst hb; simp [this]
    have hcall : Call N [(k, bufsOf mono x)] out := by
      refine ⟨hN, hs, fun h => by simp [h] at h2, hsz, ?_, by simp⟩
      intro e he
      simp only [List.mem_singleton] at he
      subst he
      cases mono <;> simp [bufsOf]
    have hc : PlateOk P.libm N ⟨.plate, g1, 0, 2, [41, 47, 43, 49], [k]⟩ := ⟨rfl, hG1, rfl, rfl, rfl⟩
    obtain ⟨c', o, h1, h2'⟩ := procPlate_total (ho := P.ho) hm hsin hc hcall (by omega) ⟨[k], [], rfl, Nat.le_refl 1, fun x => by simp⟩
    obtain ⟨k1, k2, k3, k4⟩ := procCompound_keep (fun i d hd => (hc.graph.inner i d hd).sz) hsz hs h1
    obtain ⟨g', rfl, hM'⟩ := feed_mixes hG1 hM1 h1
    obtain ⟨r, hr⟩ := ih (fun y hy => hx y (by simp at hy ⊢; exact .inr hy)) g' _ o h2'.graph hM' (k1.1.trans h2) k1.2
    refine ⟨o :: r, ?_⟩
    show liveBlocks P _ out ((changeMsgs cs, [(k, bufsOf mono x)]) :: changedFrom k mono bs) = _
    simp only [liveBlocks, hsend, procG, h1, reState, hr]

/-! ### C68 -/

theorem leftIs_changed (k : Nat) (mono : Bool) (bs : List (Changes × List (Fl × Fl))) :
    List.Forall₂ (fun (s : Changes × Ins) x => LeftIs k s.2 x) (bs.map fun b => (b.1, [(k, bufsOf mono b.2)])) (leftOf (bs.map Prod.snd)) := by
  induction bs with
  | nil => exact .nil
  | cons b bs ih => exact .cons ⟨_, rfl, by cases mono <;> rfl⟩ ih

/-- **C68** (network), up to the length of one line. A `plate` with one input plays what its network of lines gives for the
left channel of the input, on the left and on the right, whatever the platform's order of iteration, and a new mix applies from the
block before which it is sent, while the lines go on. The line `ab` delays by one block more than written (`c68_block_counterexample`). -/
theorem c68_changed_partial (P : Plat) (N : Nat) (env : Env) (mix : Fl) (k : Nat) (mono : Bool) (bs : List (Changes × List (Fl × Fl)))
    (hN : 1 ≤ N) (hm : ∀ a b, Within (-1) 1 (P.libm.noise a b)) (hsin : SinBounded P.libm) (hx : Sized N (bs.map Prod.snd)) :
    ∃ outs L l r, playChanged P N env (.plate mix) [.index k] (changedFrom k mono bs) = .ok outs ∧
      channel 0 outs = some l ∧ channel 1 outs = some r ∧
      PlateNet P.libm N (fun t => setting 0 mix (bs.map Prod.fst) (t / N)) (lefts (bs.map Prod.snd)) L l r := by
  have hK : makeCompound P.libm N (.plate mix) = some (newPlate P.libm N mix) := rfl
  rw [newPlate_eq] at hK
  have h2 : (List.replicate 2 (List.replicate N (Fl.fin 0))).length = 2 := rfl
  obtain ⟨outs, h⟩ := plate_blocks (k := k) hN hm hsin mono bs hx (plateStart P.libm N mix) mix
    (List.replicate 2 (List.replicate N (.fin 0))) (plateStart_ok P.libm N mix) (plateStart_mixes P.libm N mix) h2
    (by intro b hb; rw [List.eq_of_mem_replicate hb, List.length_replicate])
  have hst : changedFrom k mono bs = (bs.map fun b => (b.1, ([(k, bufsOf mono b.2)] : Ins))).map fun s => (changeMsgs s.1, s.2) := by
    rw [List.map_map]
    rfl
  have h' := h
  rw [hst] at h
  obtain ⟨L, l, r, n1, n2, n3⟩ := plate_net hN hm hsin (ord := [k]) rfl (leftIs_changed k mono bs) (by
    intro b hb
    obtain ⟨x, hx', rfl⟩ := List.mem_map.mp hb
    rw [List.length_map]
    exact hx x hx') h2 h
  refine ⟨outs, L, l, r, ?_, n2, n3, ?_⟩
  · simp only [playChanged, makeNode, hK, makePrim, fresh, bind, Except.bind, liftP, sendMsgs, msgG, Compound.msg, orderMsg, List.nil_append,
      Functor.map, Except.map, h']
  · have : (leftOf (bs.map Prod.snd)).flatten = lefts (bs.map Prod.snd) := by simp [leftOf, lefts, List.map_flatten]
    rw [this, List.map_map] at n1
    exact n1

theorem live_still {n : GNode P} {out : List Buf} {k : Nat} {mono : Bool} (xs : List (List (Fl × Fl))) :
    liveBlocks P n out (changedFrom k mono (xs.map fun x => ([], x))) = runBlocks (procG P) n out (oneFrom k mono xs) := by
  induction xs generalizing n out with
  | nil => rfl
  | cons x xs ih =>
    show liveBlocks P n out (([], [(k, bufsOf mono x)]) :: changedFrom k mono (xs.map fun x => ([], x))) =
      runBlocks (procG P) n out ([(k, bufsOf mono x)] :: oneFrom k mono xs)
    simp only [liveBlocks, runBlocks, sendMsgs, ih]
    cases procG P n [(k, bufsOf mono x)] out with
    | error e => rfl
    | ok r =>
      simp only
      cases runBlocks (procG P) r.1 r.2 (oneFrom k mono xs) <;> rfl

theorem setting_still (p : Nat) (v : Fl) (xs : List (List (Fl × Fl))) (t : Nat) :
    setting p v ((xs.map fun x => (([] : Changes), x)).map Prod.fst) t = v := by
  rw [← setting_eq, List.map_map]
  have : ∀ (l : List (List (Fl × Fl))) n, ((l.map (Prod.fst ∘ fun x => (([] : Changes), x))).take n).foldl (newValue p) v = v := by
    intro l
    induction l with
    | nil => intro n; rw [List.map_nil, List.take_nil]; rfl
    | cons x l ih =>
      intro n
      cases n with
      | zero => rfl
      | succ n => exact ih n
  exact this xs _

/-- **C68** (network), up to the length of one line. A `plate` with one input plays what its network of lines gives for the
left channel of the input, on the left and on the right, whatever the platform's order of iteration. The line `ab` delays by
one block more than written (`c68_block_counterexample`). -/
theorem c68_network_partial (P : Plat) (N : Nat) (env : Env) (mix : Fl) (k : Nat) (mono : Bool) (xs : List (List (Fl × Fl)))
    (hN : 1 ≤ N) (hm : ∀ a b, Within (-1) 1 (P.libm.noise a b)) (hsin : SinBounded P.libm) (hx : Sized N xs) :
    ∃ outs L l r, play P N env (.plate mix) [.index k] (oneFrom k mono xs) = .ok outs ∧
      channel 0 outs = some l ∧ channel 1 outs = some r ∧ PlateNet P.libm N (fun _ => mix) (lefts xs) L l r := by
  have hxs : (xs.map fun x => (([] : Changes), x)).map Prod.snd = xs := by rw [List.map_map]; exact List.map_id _
  obtain ⟨outs, L, l, r, h1, h2, h3, h4⟩ := c68_changed_partial P N env mix k mono (xs.map fun x => ([], x)) hN hm hsin (by rwa [hxs])
  simp only [setting_still] at h4
  rw [hxs] at h4
  refine ⟨outs, L, l, r, ?_, h2, h3, h4⟩
  simp only [playChanged, live_still] at h1
  exact h1

theorem scaled_const {v : Fl} {xs ys : List Fl} (h : ScaledBy (fun _ => v) xs ys) : Scaled v xs ys := by
  unfold ScaledBy at h
  rw [h]
  apply List.ext_getElem?
  intro t
  rw [List.getElem?_mapIdx, List.getElem?_map]

/-! ### Before the first reflections -/

/-- What is taken from the standard library: the exponentials of negative numbers are between 0 and 1, those of numbers from
-1 down at most 1/2. -/
structure ExpFalls (m : Libm) : Prop where
  one : ∀ x, x.isFinite = true → x.val ≤ 0 → Within 0 1 (m.exp x)
  half : ∀ x, x.isFinite = true → x.val ≤ -1 → Within 0 (1 / 2) (m.exp x)

section
variable {m : Libm} {late : Nat} {mix : Fl} {x l r : List Fl} {L : PlateLines} (hn : PlateNet m late (fun _ => mix) x L l r)
include hn

theorem net_lengths : L.wet7.length = x.length ∧ L.fb2.length = x.length ∧ L.leftmix.length = x.length ∧
    L.rightmix.length = x.length ∧ L.bb.length = x.length ∧ L.wet6.length = x.length ∧ L.aa.length = x.length := by
  have e1 : L.leftmix.length = x.length := by
    rw [← hn.leftmix.1 L.leftdry (by simp), (scaled_const hn.leftdry), List.length_map]
  have e2 : L.left.length = x.length := by
    have := hn.leftmix.1 L.leftwet (by simp)
    rw [(scaled_const hn.leftwet), List.length_map] at this
    omega
  have e3 : L.aa.length = x.length := by rw [hn.left.1 L.aa (by simp), e2]
  have e4 : L.lsub.length = x.length := by
    have := hn.left.1 L.lsub2 (by simp)
    rw [hn.lsub2, List.length_map] at this
    omega
  have e5 : L.wet7.length = x.length := by
    have h1 := hn.aa.1
    have h2 := hn.wet8.1
    omega
  have e6 : L.fb2.length = x.length := by
    have h0 : L.fb2.length = L.fb1.length := by rw [hn.fb2, List.length_map]
    have h1 := hn.fb1.1
    have h2 := hn.fb.1
    have h3 := hn.lsub.1 L.fa2 (by simp)
    omega
  have e7 : L.rightmix.length = x.length := by
    rw [← hn.rightmix.1 L.rightdry (by simp), (scaled_const hn.rightdry), List.length_map]
  have e8 : L.bb.length = x.length := by rw [hn.lsub.1 L.bb (by simp), e4]
  have e9 : L.wet6.length = x.length := by
    have h1 := hn.wet6.1
    have h2 := hn.wet5.1
    have h3 := hn.wet4.1
    have h4 := hn.wet3.1
    have h5 := hn.wet2.1
    have h6 := hn.wet1.1
    omega
  exact ⟨e5, e6, e1, e7, e8, e9, e3⟩

variable (hsin : SinBounded m)
include hsin

omit hn hsin in
theorem ramp_within (t : Nat) : Within 0 1 (rampAt (num (1 / 10) /. .fin 44100) t) := by
  induction t with
  | zero => exact ⟨rfl, le_refl _, by norm_num [Fl.val, rampAt]⟩
  | succ t ih =>
    have e : Fl.ofNat f32 44100 = .fin 44100 := by decide +kernel
    have hf : Within 0 ((44100 : Nat) : ℚ) (num (1 / 10)) := by
      have h : num (1 / 10) = .fin (13421773 / 134217728) := by decide +kernel
      rw [h]
      exact ⟨rfl, by norm_num [Fl.val], by norm_num [Fl.val]⟩
    have := advance_within (sr := 44100) (by norm_num) (by norm_num) hf ih
    unfold advance at this
    rw [e] at this
    exact this

theorem net_mod {t : Nat} (ht : t < x.length) : Within 24 35 (before L.mod3 t 0) := by
  rw [before_zero, List.getD_eq_getElem?_getD, hn.mod3, List.getElem?_map, List.getElem?_range ht]
  exact mod_range (sin_within hsin (ramp_within t))

variable (hexp : ExpFalls m)
include hexp

omit hn hsin in
theorem pole_slow : (pole m (num (1 / 10))).isFinite = true ∧ (.fin 1 -. pole m (num (1 / 10))).isFinite = true := by
  have : Within 0 1 (pole m (num (1 / 10))) := hexp.one (.fin (-2) *. flPi *. num (1 / 10)) (by decide +kernel) (by decide +kernel)
  refine ⟨this.1, (within_sub (lo := 0) (hi := 1) (x := .fin 1) rfl this.1 rep0 rep1 (by norm_num) (by norm_num) ?_ ?_).1⟩ <;>
    rw [Fl.val_fin] <;> linarith [this.2.1, this.2.2]

omit hn hsin in
theorem pole_fast : (pole m (num (7 / 10))).isFinite = true ∧ Within (1 / 2) 1 (.fin 1 -. pole m (num (7 / 10))) := by
  have : Within 0 (1 / 2) (pole m (num (7 / 10))) := hexp.half (.fin (-2) *. flPi *. num (7 / 10)) (by decide +kernel) (by decide +kernel)
  refine ⟨this.1, within_sub (x := .fin 1) rfl this.1 rephalf rep1 (by norm_num) (by norm_num) ?_ ?_⟩ <;>
    rw [Fl.val_fin] <;> linarith [this.2.1, this.2.2]

/-- The lines behind `wet7`. -/
theorem net_tail {H : Nat} (h : Quiet H L.wet7) : Quiet (H + 394) L.aa ∧ Quiet (H + 3194 + late) L.ab ∧
    Quiet (H + 6398 + late) L.ba3 ∧ Quiet (H + 6398 + late) L.bb ∧ Quiet (H + 6577 + late) L.ca ∧
    Quiet (H + 9256 + late) L.cb ∧ Quiet (H + 9256 + late) L.da2 ∧ Quiet (H + 9256 + late) L.db ∧
    Quiet (H + 9256 + late) L.ea2 ∧ Quiet (H + 9256 + late) L.eb ∧ Quiet (H + 9256 + late) L.fa2 ∧
    Quiet (H + 9256 + late) L.fb ∧ Quiet (H + 9256 + late) L.fb2 := by
  obtain ⟨e1, -, -, -, e5, -, -⟩ := net_lengths hn
  obtain ⟨s1, s2⟩ := pole_slow hexp
  have f7 : (num (7 / 10)).isFinite = true := by decide +kernel
  have f3 : (num (3 / 10)).isFinite = true := by decide +kernel
  have wet8 := quiet_wobble hn.wet8 f7 (fun t ht => net_mod hn hsin (by omega)) h
  have aa := quiet_delayed hn.aa wet8
  have ab := quiet_delayed hn.ab aa
  have ac := quiet_delayed hn.ac ab
  have ba1 := quiet_delayed hn.ba1 ac
  have ba2 := quiet_pole hn.ba2 s2 s1 ba1
  have ba3 := quiet_allpass hn.ba3 (by decide) rfl ba2
  have bb := quiet_allpass hn.bb (by decide) rfl ba3
  have bc := quiet_wobble hn.bc rfl (fun t ht => net_mod hn hsin (by omega)) bb
  have ca := quiet_delayed hn.ca bc
  have cb := quiet_delayed hn.cb ca
  have cc1 := quiet_delayed hn.cc1 cb
  have cc2 := quiet_scaled hn.cc2 f3 cc1
  have da1 := quiet_allpass hn.da1 (by decide) f7 cc2
  have da2 := quiet_delayed hn.da2 da1
  have db := quiet_delayed hn.db da2
  have dc := quiet_delayed hn.dc db
  have ea1 := quiet_pole hn.ea1 s2 s1 dc
  have ea2 := quiet_allpass hn.ea2 (by decide) f7 ea1
  have eb := quiet_allpass hn.eb (by decide) f7 ea2
  have fa1 := quiet_allpass hn.fa1 (by decide) f7 eb
  have fa2 := quiet_delayed hn.fa2 fa1
  have fb := quiet_delayed hn.fb fa2
  have fb1 := quiet_delayed hn.fb1 fb
  have fb2 := quiet_scaled hn.fb2 f3 fb1
  exact ⟨aa, ab.mono (by omega), ba3.mono (by omega), bb.mono (by omega), ca.mono (by omega), cb.mono (by omega),
    da2.mono (by omega), db.mono (by omega), ea2.mono (by omega), eb.mono (by omega), fa2.mono (by omega),
    fb.mono (by omega), fb2.mono (by omega)⟩

/-- Nothing enters the loop before the input has passed the first line. -/
theorem net_loop {T : Nat} (hx : Quiet T x) : Quiet (T + 2205) L.wet6 ∧ Quiet (T + 2205) L.wet7 := by
  obtain ⟨s1, s2⟩ := pole_fast hexp
  have wet1 := quiet_pole hn.wet1 s2.1 s1 hx
  have wet2 := quiet_delayed hn.wet2 wet1
  have wet3 := quiet_allpass hn.wet3 (by decide) rfl wet2
  have wet4 := quiet_allpass hn.wet4 (by decide) rfl wet3
  have wet5 := quiet_allpass hn.wet5 (by decide) rfl wet4
  have wet6 := quiet_allpass hn.wet6 (by decide) rfl wet5
  refine ⟨wet6, ?_⟩
  have : ∀ H, H ≤ T + 2205 → Quiet H L.wet7 := by
    intro H
    induction H with
    | zero => exact fun _ t ht => absurd ht (by omega)
    | succ H ih =>
      intro hH
      have := (net_tail hn hsin hexp (ih (by omega))).2.2.2.2.2.2.2.2.2.2.2.2
      exact quiet_zip hn.wet7 (wet6.mono hH) (this.mono (by omega))
  exact this _ (le_refl _)

/-- The wet signal is silent before the first reflection. -/
theorem net_wet {T : Nat} (hmix : mix.isFinite = true) (hx : Quiet T x) :
    Quiet (T + 2599) L.leftwet ∧ Quiet (T + 5399 + late) L.rightwet := by
  obtain ⟨-, h7⟩ := net_loop hn hsin hexp hx
  obtain ⟨aa, ab, ba3, bb, ca, cb, da2, db, ea2, eb, fa2, fb, -⟩ := net_tail hn hsin hexp h7
  have lsub : Quiet (T + 2599) L.lsub := quiet_mixed hn.lsub (by
    simp only [List.mem_cons, List.not_mem_nil, or_false, forall_eq_or_imp, forall_eq]
    exact ⟨bb.mono (by omega), db.mono (by omega), ea2.mono (by omega), fa2.mono (by omega)⟩)
  have lsub2 := quiet_scaled hn.lsub2 rfl lsub
  have left : Quiet (T + 2599) L.left := quiet_mixed hn.left (by
    simp only [List.mem_cons, List.not_mem_nil, or_false, forall_eq_or_imp, forall_eq]
    exact ⟨aa.mono (by omega), ab.mono (by omega), cb.mono (by omega), lsub2⟩)
  have rsub : Quiet (T + 5399 + late) L.rsub := quiet_mixed hn.rsub (by
    simp only [List.mem_cons, List.not_mem_nil, or_false, forall_eq_or_imp, forall_eq]
    exact ⟨eb.mono (by omega), ab.mono (by omega), ba3.mono (by omega), ca.mono (by omega)⟩)
  have rsub2 := quiet_scaled hn.rsub2 rfl rsub
  have right : Quiet (T + 5399 + late) L.right := quiet_mixed hn.right (by
    simp only [List.mem_cons, List.not_mem_nil, or_false, forall_eq_or_imp, forall_eq]
    exact ⟨da2.mono (by omega), db.mono (by omega), fb.mono (by omega), rsub2⟩)
  exact ⟨quiet_scaled (scaled_const hn.leftwet) hmix left, quiet_scaled (scaled_const hn.rightwet) hmix right⟩

omit hsin hexp

/-- What is heard where the wet signal is zero. -/
theorem net_dry {t : Nat} {v : Fl} (hv : x[t]? = some v) :
    (Within 0 0 (L.leftwet.getD t (.fin 0)) → l[t]? = some (.fin 0 +. v *. (.fin 1 -. mix))) ∧
    (Within 0 0 (L.rightwet.getD t (.fin 0)) → r[t]? = some (.fin 0 +. v *. (.fin 1 -. mix))) := by
  obtain ⟨-, -, e3, e4, -, -, -⟩ := net_lengths hn
  have ht : t < x.length := (List.getElem?_eq_some_iff.mp hv).1
  constructor
  · intro hz
    obtain ⟨vs, p, e⟩ := hn.leftmix.2 t (by omega)
    have hd : before L.leftdry t 0 = v *. (.fin 1 -. mix) := by
      rw [before_zero, List.getD_eq_getElem?_getD, (scaled_const hn.leftdry), List.getElem?_map, hv]
      rfl
    simp only [List.map_cons, List.map_nil, hd] at p
    rw [before_zero] at p
    rw [hn.l, List.getElem?_map, e, Option.map_some, sum_dry p hz]
  · intro hz
    obtain ⟨vs, p, e⟩ := hn.rightmix.2 t (by omega)
    have hd : before L.rightdry t 0 = v *. (.fin 1 -. mix) := by
      rw [before_zero, List.getD_eq_getElem?_getD, (scaled_const hn.rightdry), List.getElem?_map, hv]
      rfl
    simp only [List.map_cons, List.map_nil, hd] at p
    rw [before_zero] at p
    rw [hn.r, List.getElem?_map, e, Option.map_some, sum_dry p hz]

/-- What is heard where the dry signal is zero. -/
theorem net_heard {t : Nat} {a b : ℚ} (ha : f32.Rep a) (hb : f32.Rep b) (h1 : -2 ^ 100 ≤ a) (h2 : b ≤ 2 ^ 100)
    (hv : t < x.length) (hz : Within 0 0 (x.getD t (.fin 0))) (hmix : (.fin 1 -. mix).isFinite = true) :
    (Within a b (L.leftwet.getD t (.fin 0)) → ∃ v, l[t]? = some v ∧ Within a b v) ∧
    (Within a b (L.rightwet.getD t (.fin 0)) → ∃ v, r[t]? = some v ∧ Within a b v) := by
  obtain ⟨-, -, e3, e4, -, -, -⟩ := net_lengths hn
  rw [List.getD_eq_getElem?_getD, List.getElem?_eq_getElem hv] at hz
  constructor
  · intro hw
    obtain ⟨vs, p, e⟩ := hn.leftmix.2 t (by omega)
    have hd : Within 0 0 (before L.leftdry t 0) := by
      rw [before_zero, List.getD_eq_getElem?_getD, (scaled_const hn.leftdry), List.getElem?_map, List.getElem?_eq_getElem hv]
      exact zero_mul hz hmix
    rw [hn.l, List.getElem?_map, e]
    refine ⟨_, rfl, zero_add_within ha hb h1 h2 (sum_one ha hb h1 h2 (p.trans (List.Perm.swap _ _ [])) ?_ ?_) zero_fin⟩
    · show Within a b (before L.leftwet t 0)
      rw [before_zero]
      exact hw
    · intro z hz
      rw [List.mem_singleton.mp hz]
      exact hd
  · intro hw
    obtain ⟨vs, p, e⟩ := hn.rightmix.2 t (by omega)
    have hd : Within 0 0 (before L.rightdry t 0) := by
      rw [before_zero, List.getD_eq_getElem?_getD, (scaled_const hn.rightdry), List.getElem?_map, List.getElem?_eq_getElem hv]
      exact zero_mul hz hmix
    rw [hn.r, List.getElem?_map, e]
    refine ⟨_, rfl, zero_add_within ha hb h1 h2 (sum_one ha hb h1 h2 (p.trans (List.Perm.swap _ _ [])) ?_ ?_) zero_fin⟩
    · show Within a b (before L.rightwet t 0)
      rw [before_zero]
      exact hw
    · intro z hz
      rw [List.mem_singleton.mp hz]
      exact hd

theorem net_size : l.length = x.length ∧ r.length = x.length := by
  obtain ⟨-, -, e3, e4, -, -, -⟩ := net_lengths hn
  exact ⟨by rw [hn.l, List.length_map, e3], by rw [hn.r, List.length_map, e4]⟩

include hsin hexp

/-- The first reflection of a sound that starts with a sample of 1. -/
theorem net_echo (hmix : Within (1 / 16) 1 mix) (hx : Within 1 1 (x.getD 0 (.fin 0))) (hl : 5399 + late < x.length) :
    Within (-(675 / 4096)) (-(2475 / 524288)) (L.leftwet.getD 2599 (.fin 0)) ∧
    Within (2475 / 524288) (675 / 4096) (L.rightwet.getD (5399 + late) (.fin 0)) := by
  obtain ⟨e1, e2, -, -, e5, e6, e7⟩ := net_lengths hn
  obtain ⟨s1, s2⟩ := pole_fast hexp
  have l1 := hn.wet1.1
  have l2 := hn.wet2.1
  have l8 := hn.wet8.1
  have r1 : f32.Rep (3 / 8) := ⟨3, -3, by decide, by decide, by rw [pow2_eq]; norm_num⟩
  have r2 : f32.Rep (3 / 4) := ⟨3, -2, by decide, by decide, by rw [pow2_eq]; norm_num⟩
  have r3 : f32.Rep (9 / 32) := ⟨9, -5, by decide, by decide, by rw [pow2_eq]; norm_num⟩
  have r4 : f32.Rep (9 / 16) := ⟨9, -4, by decide, by decide, by rw [pow2_eq]; norm_num⟩
  have r5 : f32.Rep (45 / 256) := ⟨45, -8, by decide, by decide, by rw [pow2_eq]; norm_num⟩
  have r6 : f32.Rep (45 / 128) := ⟨45, -7, by decide, by decide, by rw [pow2_eq]; norm_num⟩
  have r7 : f32.Rep (225 / 2048) := ⟨225, -11, by decide, by decide, by rw [pow2_eq]; norm_num⟩
  have r8 : f32.Rep (225 / 1024) := ⟨225, -10, by decide, by decide, by rw [pow2_eq]; norm_num⟩
  have r9 : f32.Rep (675 / 4096) := ⟨675, -12, by decide, by decide, by rw [pow2_eq]; norm_num⟩
  have r10 : f32.Rep (2475 / 32768) := ⟨2475, -15, by decide, by decide, by rw [pow2_eq]; norm_num⟩
  have r11 : f32.Rep (2475 / 524288) := ⟨2475, -19, by decide, by decide, by rw [pow2_eq]; norm_num⟩
  have f7 : num (7 / 10) = .fin (11744051 / 16777216) := by decide +kernel
  have n34 : Fl.neg (.fin (3 / 4)) = .fin (-(3 / 4)) := by decide +kernel
  have n58 : Fl.neg (.fin (5 / 8)) = .fin (-(5 / 8)) := by decide +kernel
  have n7 : Fl.neg (num (7 / 10)) = .fin (-(11744051 / 16777216)) := by decide +kernel
  have hx0 : Onset 0 1 1 x := ⟨by omega, fun t ht => absurd ht (by omega), hx⟩
  have wet1 : Onset 0 (1 / 2) 1 L.wet1 := by
    refine ⟨by omega, fun t ht => absurd ht (by omega), ?_⟩
    rw [List.getD_eq_getElem?_getD, hn.wet1.2 0 (by omega)]
    refine add_zero_within rephalf rep1 (by norm_num) (by norm_num) ?_ (mul_zero' zero_fin s1)
    have hb := onset_before hx0
    have hv : (before x 0 0).val = 1 := le_antisymm hb.2.2 hb.2.1
    apply within_mul hb.1 s2.1 rephalf rep1 (by norm_num) (by norm_num) <;> rw [hv, one_mul]
    · exact s2.2.1
    · exact s2.2.2
  have wet2 := onset_delayed hn.wet2 wet1 (by omega)
  have wet3 : Onset (0 + 2205) (-(3 / 4)) (-(3 / 8)) L.wet3 :=
    onset_allpass hn.wet3 (by decide) rfl wet2 (Fmt.rep_neg r2) (Fmt.rep_neg r1) (by norm_num) (by norm_num) (fun v hv => by
      rw [n34]
      apply within_mul rfl hv.1 (Fmt.rep_neg r2) (Fmt.rep_neg r1) (by norm_num) (by norm_num) <;> rw [Fl.val_fin] <;>
        linarith [hv.2.1, hv.2.2])
  have wet4 : Onset (0 + 2205) (9 / 32) (9 / 16) L.wet4 :=
    onset_allpass hn.wet4 (by decide) rfl wet3 r3 r4 (by norm_num) (by norm_num) (fun v hv => by
      rw [n34]
      apply within_mul rfl hv.1 r3 r4 (by norm_num) (by norm_num) <;> rw [Fl.val_fin] <;> linarith [hv.2.1, hv.2.2])
  have wet5 : Onset (0 + 2205) (-(45 / 128)) (-(45 / 256)) L.wet5 :=
    onset_allpass hn.wet5 (by decide) rfl wet4 (Fmt.rep_neg r6) (Fmt.rep_neg r5) (by norm_num) (by norm_num) (fun v hv => by
      rw [n58]
      apply within_mul rfl hv.1 (Fmt.rep_neg r6) (Fmt.rep_neg r5) (by norm_num) (by norm_num) <;> rw [Fl.val_fin] <;>
        linarith [hv.2.1, hv.2.2])
  have wet6 : Onset (0 + 2205) (225 / 2048) (225 / 1024) L.wet6 :=
    onset_allpass hn.wet6 (by decide) rfl wet5 r7 r8 (by norm_num) (by norm_num) (fun v hv => by
      rw [n58]
      apply within_mul rfl hv.1 r7 r8 (by norm_num) (by norm_num) <;> rw [Fl.val_fin] <;> linarith [hv.2.1, hv.2.2])
  obtain ⟨-, h7⟩ := net_loop hn hsin hexp hx0.2.1
  obtain ⟨-, -, ba3, bb, ca, cb, da2, db, ea2, eb, fa2, fb, fb2⟩ := net_tail hn hsin hexp h7
  have wet7 : Onset (0 + 2205) (225 / 2048) (225 / 1024) L.wet7 :=
    onset_zip hn.wet7 (by omega) r7 r8 (by norm_num) (by norm_num) wet6 (fb2.mono (by omega))
  have wet8 : Onset (0 + 2205) (-(675 / 4096)) (-(2475 / 32768)) L.wet8 :=
    onset_wobble hn.wet8 (by rw [f7]; rfl) (fun t ht => net_mod hn hsin (by omega)) wet7 (Fmt.rep_neg r9) (Fmt.rep_neg r10)
      (by norm_num) (by norm_num) (fun v hv => by
      rw [n7]
      apply within_mul rfl hv.1 (Fmt.rep_neg r9) (Fmt.rep_neg r10) (by norm_num) (by norm_num) <;> rw [Fl.val_fin] <;>
        linarith [hv.2.1, hv.2.2])
  have aa := onset_delayed hn.aa wet8 (by omega)
  have ab := onset_delayed hn.ab aa (by omega)
  have mixed : ∀ v, Within (-(675 / 4096)) (-(2475 / 32768)) v → Within (-(675 / 4096)) (-(2475 / 524288)) (v *. mix) := by
    intro v hv
    apply within_mul hv.1 hmix.1 (Fmt.rep_neg r9) (Fmt.rep_neg r11) (by norm_num) (by norm_num)
    · nlinarith [hv.2.1, hv.2.2, hmix.2.1, hmix.2.2]
    · nlinarith [hv.2.1, hv.2.2, hmix.2.1, hmix.2.2]
  have mixed' : ∀ v, Within (2475 / 32768) (675 / 4096) v → Within (2475 / 524288) (675 / 4096) (v *. mix) := by
    intro v hv
    apply within_mul hv.1 hmix.1 r11 r9 (by norm_num) (by norm_num)
    · nlinarith [hv.2.1, hv.2.2, hmix.2.1, hmix.2.2]
    · nlinarith [hv.2.1, hv.2.2, hmix.2.1, hmix.2.2]
  constructor
  · have lsub : Quiet 2600 L.lsub := quiet_mixed hn.lsub (by
      simp only [List.mem_cons, List.not_mem_nil, or_false, forall_eq_or_imp, forall_eq]
      exact ⟨bb.mono (by omega), db.mono (by omega), ea2.mono (by omega), fa2.mono (by omega)⟩)
    have lsub2 := quiet_scaled hn.lsub2 rfl lsub
    have left := onset_mixed hn.left (List.Perm.refl _) (Fmt.rep_neg r9) (Fmt.rep_neg r10) (by norm_num) (by norm_num) aa (by
      simp only [List.mem_cons, List.not_mem_nil, or_false, forall_eq_or_imp, forall_eq]
      exact ⟨ab.2.1.mono (by omega), cb.mono (by omega), lsub2.mono (by omega)⟩)
    exact (onset_scaled (scaled_const hn.leftwet) hmix.1 left mixed).2.2
  · have rsub := onset_mixed hn.rsub (List.Perm.swap _ _ _) (Fmt.rep_neg r9) (Fmt.rep_neg r10) (by norm_num) (by norm_num) ab (by
      simp only [List.mem_cons, List.not_mem_nil, or_false, forall_eq_or_imp, forall_eq]
      exact ⟨eb.mono (by omega), ba3.mono (by omega), ca.mono (by omega)⟩)
    have rsub2 : Onset _ (2475 / 32768) (675 / 4096) L.rsub2 := onset_scaled hn.rsub2 rfl rsub (fun v hv => by
      apply within_mul hv.1 rfl r10 r9 (by norm_num) (by norm_num) <;> rw [Fl.val_fin] <;> linarith [hv.2.1, hv.2.2])
    have right := onset_mixed (l := L.rsub2) (ls := [L.da2, L.db, L.fb]) hn.right
      (List.perm_append_comm (l₁ := [L.da2, L.db, L.fb]) (l₂ := [L.rsub2])) r10 r9 (by norm_num) (by norm_num) rsub2 (by
      simp only [List.mem_cons, List.not_mem_nil, or_false, forall_eq_or_imp, forall_eq]
      exact ⟨da2.mono (by omega), db.mono (by omega), fb.mono (by omega)⟩)
    have := (onset_scaled (scaled_const hn.rightwet) hmix.1 right mixed').2.2
    rwa [show 0 + 2205 + 394 + (2800 + late) = 5399 + late by omega] at this

end

/-- **C68** (before the reflections), up to the moment of the first reflection on the right, which comes one block late. After
silence of `T` samples, only the dry signal is heard for the first 2599 samples on the left, and for the first 5399 samples
and a block on the right: the left channel of the input times `1 - mix`. -/
theorem c68_dry_partial (P : Plat) (N : Nat) (env : Env) (mix : Fl) (k : Nat) (mono : Bool) (xs : List (List (Fl × Fl)))
    (T : Nat) (hN : 1 ≤ N) (hm : ∀ a b, Within (-1) 1 (P.libm.noise a b)) (hsin : SinBounded P.libm) (hexp : ExpFalls P.libm)
    (hx : Sized N xs) (hmix : mix.isFinite = true) (hT : ∀ t v, t < T → (lefts xs)[t]? = some v → Within 0 0 v) :
    ∃ outs l r, play P N env (.plate mix) [.index k] (oneFrom k mono xs) = .ok outs ∧
      channel 0 outs = some l ∧ channel 1 outs = some r ∧ l.length = (lefts xs).length ∧ r.length = (lefts xs).length ∧
      (∀ t v, t < T + 2599 → (lefts xs)[t]? = some v → l[t]? = some (.fin 0 +. v *. (.fin 1 -. mix))) ∧
      (∀ t v, t < T + 5399 + N → (lefts xs)[t]? = some v → r[t]? = some (.fin 0 +. v *. (.fin 1 -. mix))) := by
  obtain ⟨outs, L, l, r, h1, h2, h3, hn⟩ := c68_network_partial P N env mix k mono xs hN hm hsin hx
  have hq : Quiet T (lefts xs) := by
    intro t ht
    rw [List.getD_eq_getElem?_getD]
    cases e : (lefts xs)[t]? with
    | none => exact zero_fin
    | some v => exact hT t v ht e
  obtain ⟨wl, wr⟩ := net_wet hn hsin hexp hmix hq
  obtain ⟨s1, s2⟩ := net_size hn
  exact ⟨outs, l, r, h1, h2, h3, s1, s2, fun t v ht hv => (net_dry hn hv).1 (wl t ht),
    fun t v ht hv => (net_dry hn hv).2 (wr t ht)⟩

/-- **C68** (silence). A reverb that gets silence gives silence for ever. -/
theorem c68_silence (P : Plat) (N : Nat) (env : Env) (mix : Fl) (k : Nat) (mono : Bool) (xs : List (List (Fl × Fl)))
    (hN : 1 ≤ N) (hm : ∀ a b, Within (-1) 1 (P.libm.noise a b)) (hsin : SinBounded P.libm) (hexp : ExpFalls P.libm)
    (hx : Sized N xs) (hmix : mix.isFinite = true) (hmix' : (.fin 1 -. mix).isFinite = true)
    (h0 : ∀ v ∈ lefts xs, Within 0 0 v) :
    ∃ outs l r, play P N env (.plate mix) [.index k] (oneFrom k mono xs) = .ok outs ∧
      channel 0 outs = some l ∧ channel 1 outs = some r ∧ l.length = (lefts xs).length ∧ r.length = (lefts xs).length ∧
      (∀ v ∈ l, Within 0 0 v) ∧ ∀ v ∈ r, Within 0 0 v := by
  obtain ⟨outs, l, r, h1, h2, h3, h4, h5, h6, h7⟩ := c68_dry_partial P N env mix k mono xs (lefts xs).length hN hm hsin hexp hx
    hmix (fun t v _ hv => h0 v (List.mem_of_getElem? hv))
  have key : ∀ ys : List Fl, ys.length = (lefts xs).length →
      (∀ (t : Nat) v, (lefts xs)[t]? = some v → ys[t]? = some (.fin 0 +. v *. (.fin 1 -. mix))) → ∀ v ∈ ys, Within 0 0 v := by
    intro ys hl hy v hv
    obtain ⟨t, ht⟩ := List.mem_iff_getElem?.mp hv
    have hlt := (List.getElem?_eq_some_iff.mp ht).1
    have e := List.getElem?_eq_getElem (l := lefts xs) (i := t) (by omega)
    rw [hy t _ e] at ht
    rw [← Option.some.inj ht]
    exact zero_add_zero zero_fin (zero_mul (h0 _ (List.mem_of_getElem? e)) hmix')
  refine ⟨outs, l, r, h1, h2, h3, h4, h5, key l h4 (fun t v hv => h6 t v ?_ hv), key r h5 (fun t v hv => h7 t v ?_ hv)⟩ <;>
    have := (List.getElem?_eq_some_iff.mp hv).1 <;> omega

/-- A single sample of 1. -/
def Click (n : Nat) (xs : List Fl) : Prop := xs = .fin 1 :: List.replicate n (.fin 0)

/-- **C68** (first reflections), up to the moment of the one on the right. A click is heard at once, then there is silence;
the first reflection comes after 2599 samples on the left, and on the right after 5399 samples and a block, where the network
as written has it after 5399 samples. -/
theorem c68_click_partial (P : Plat) (N : Nat) (env : Env) (mix : Fl) (k : Nat) (mono : Bool) (xs : List (List (Fl × Fl)))
    (n : Nat) (hN : 1 ≤ N) (hm : ∀ a b, Within (-1) 1 (P.libm.noise a b)) (hsin : SinBounded P.libm) (hexp : ExpFalls P.libm)
    (hx : Sized N xs) (hmix : Within (1 / 16) 1 mix) (hc : Click n (lefts xs)) (hn : 5399 + N ≤ n) :
    ∃ outs l r, play P N env (.plate mix) [.index k] (oneFrom k mono xs) = .ok outs ∧
      channel 0 outs = some l ∧ channel 1 outs = some r ∧
      (∀ t, 0 < t → t < 2599 → ∃ v, l[t]? = some v ∧ Within 0 0 v) ∧
      (∃ v, l[2599]? = some v ∧ Within (-(675 / 4096)) (-(2475 / 524288)) v) ∧
      (∀ t, 0 < t → t < 5399 + N → ∃ v, r[t]? = some v ∧ Within 0 0 v) ∧
      ∃ v, r[5399 + N]? = some v ∧ Within (2475 / 524288) (675 / 4096) v := by
  obtain ⟨outs, L, l, r, h1, h2, h3, hnet⟩ := c68_network_partial P N env mix k mono xs hN hm hsin hx
  have hlen : (lefts xs).length = n + 1 := by rw [hc]; simp
  have hz : ∀ t, 0 < t → Within 0 0 ((lefts xs).getD t (.fin 0)) := by
    intro t ht
    rw [hc, List.getD_eq_getElem?_getD]
    obtain ⟨t, rfl⟩ : ∃ u, t = u + 1 := ⟨t - 1, by omega⟩
    rw [List.getElem?_cons_succ, List.getElem?_replicate]
    split <;> exact zero_fin
  have h0 : Within 1 1 ((lefts xs).getD 0 (.fin 0)) := by
    rw [hc]
    exact ⟨rfl, le_refl _, le_refl _⟩
  have hq : Quiet 0 (lefts xs) := fun t ht => absurd ht (by omega)
  obtain ⟨wl, wr⟩ := net_wet hnet hsin hexp hmix.1 hq
  obtain ⟨el, er⟩ := net_echo hnet hsin hexp hmix h0 (by omega)
  have hmix' : (.fin 1 -. mix).isFinite = true := by
    refine (within_sub (lo := 0) (hi := 1) (x := .fin 1) rfl hmix.1 rep0 rep1 (by norm_num) (by norm_num) ?_ ?_).1 <;>
      rw [Fl.val_fin] <;> linarith [hmix.2.1, hmix.2.2]
  have r9 : f32.Rep (675 / 4096) := ⟨675, -12, by decide, by decide, by rw [pow2_eq]; norm_num⟩
  have r11 : f32.Rep (2475 / 524288) := ⟨2475, -19, by decide, by decide, by rw [pow2_eq]; norm_num⟩
  refine ⟨outs, l, r, h1, h2, h3, fun t t0 ht => ?_, ?_, fun t t0 ht => ?_, ?_⟩
  · exact (net_heard hnet rep0 rep0 (by norm_num) (by norm_num) (by omega) (hz t t0) hmix').1 (wl t (by omega))
  · exact (net_heard hnet (Fmt.rep_neg r9) (Fmt.rep_neg r11) (by norm_num) (by norm_num) (by omega) (hz _ (by omega)) hmix').1 el
  · exact (net_heard hnet rep0 rep0 (by norm_num) (by norm_num) (by omega) (hz t t0) hmix').2 (wr t (by omega))
  · exact (net_heard hnet r11 r9 (by norm_num) (by norm_num) (by omega) (hz _ (by omega)) hmix').2 er

/-- **C68, negation**: the reverb sounds different in blocks of different sizes; so it does in two engines that play the same
program, or in one engine on two machines. -/
theorem c68_block_counterexample (P : Plat) (N M : Nat) (env : Env) (mix : Fl) (k : Nat) (mono : Bool)
    (xs ys : List (List (Fl × Fl))) (n : Nat) (hN : 1 ≤ N) (hM : N < M) (hm : ∀ a b, Within (-1) 1 (P.libm.noise a b))
    (hsin : SinBounded P.libm) (hexp : ExpFalls P.libm) (hx : Sized N xs) (hy : Sized M ys) (hmix : Within (1 / 16) 1 mix)
    (hc : Click n (lefts xs)) (hc' : Click n (lefts ys)) (hn : 5399 + M ≤ n) :
    ∃ outs outs', play P N env (.plate mix) [.index k] (oneFrom k mono xs) = .ok outs ∧
      play P M env (.plate mix) [.index k] (oneFrom k mono ys) = .ok outs' ∧ channel 1 outs ≠ channel 1 outs' := by
  obtain ⟨o, l, r, a1, -, a3, -, -, -, v, a4, a5⟩ :=
    c68_click_partial P N env mix k mono xs n hN hm hsin hexp hx hmix hc (by omega)
  obtain ⟨o', l', r', b1, -, b3, -, -, b4, -⟩ :=
    c68_click_partial P M env mix k mono ys n (by omega) hm hsin hexp hy hmix hc' hn
  refine ⟨o, o', a1, b1, fun e => ?_⟩
  rw [a3, b3, Option.some.injEq] at e
  subst e
  obtain ⟨w, c1, c2⟩ := b4 (5399 + N) (by omega) (by omega)
  rw [a4] at c1
  cases c1
  have := a5.2.1
  have := c2.2.2
  norm_num at *
  linarith

/-- **C68** (no effect). With a mix of 0 every sample of the left channel of the input is heard on both sides as it is, unless
the reflections have become infinite or NaN: then NaN is heard. -/
theorem c68_mix_zero (P : Plat) (N : Nat) (env : Env) (k : Nat) (mono : Bool) (xs : List (List (Fl × Fl)))
    (hN : 1 ≤ N) (hm : ∀ a b, Within (-1) 1 (P.libm.noise a b)) (hsin : SinBounded P.libm) (hx : Sized N xs) :
    ∃ outs l r, play P N env (.plate (.fin 0)) [.index k] (oneFrom k mono xs) = .ok outs ∧
      channel 0 outs = some l ∧ channel 1 outs = some r ∧ l.length = (lefts xs).length ∧ r.length = (lefts xs).length ∧
      ∀ (t : Nat) v, (lefts xs)[t]? = some v → (l[t]? = some (.fin 0 +. v) ∨ l[t]? = some .nan) ∧
        (r[t]? = some (.fin 0 +. v) ∨ r[t]? = some .nan) := by
  obtain ⟨outs, L, l, r, h1, h2, h3, hnet⟩ := c68_network_partial P N env (.fin 0) k mono xs hN hm hsin hx
  obtain ⟨s1, s2⟩ := net_size hnet
  obtain ⟨-, -, e3, e4, -, -, -⟩ := net_lengths hnet
  refine ⟨outs, l, r, h1, h2, h3, s1, s2, fun t v hv => ?_⟩
  have ht : t < (lefts xs).length := (List.getElem?_eq_some_iff.mp hv).1
  have hd := net_dry hnet hv
  rw [dry_all] at hd
  have hw : ∀ (ws wt : List Fl), Scaled (.fin 0) ws wt → Within 0 0 (wt.getD t (.fin 0)) ∨ wt.getD t (.fin 0) = .nan := by
    intro ws wt h
    rw [List.getD_eq_getElem?_getD, h, List.getElem?_map]
    cases ws[t]? with
    | none => exact Or.inl zero_fin
    | some w =>
      cases hf : w.isFinite with
      | true => exact Or.inl (mul_zero' zero_fin hf)
      | false =>
        refine Or.inr ?_
        cases w with
        | nan => rfl
        | inf s => rfl
        | nz => cases hf
        | fin q => cases hf
  constructor
  · rcases hw _ _ (scaled_const hnet.leftwet) with h | h
    · exact Or.inl (hd.1 h)
    · obtain ⟨vs, p, e⟩ := hnet.leftmix.2 t (by omega)
      refine Or.inr ?_
      rw [hnet.l, List.getElem?_map, e, Option.map_some]
      simp only [List.map_cons, List.map_nil] at p
      rw [before_zero (xs := L.leftwet), h] at p
      rw [sum_nan p]
  · rcases hw _ _ (scaled_const hnet.rightwet) with h | h
    · exact Or.inl (hd.2 h)
    · obtain ⟨vs, p, e⟩ := hnet.rightmix.2 t (by omega)
      refine Or.inr ?_
      rw [hnet.r, List.getElem?_map, e, Option.map_some]
      simp only [List.map_cons, List.map_nil] at p
      rw [before_zero (xs := L.rightwet), h] at p
      rw [sum_nan p]

/-! ### The hypotheses can be met -/

theorem demo_exp : ExpFalls Demo.plat.libm :=
  ⟨fun _ _ _ => ⟨rfl, le_refl _, by norm_num [Demo.plat, Demo.libm, Fl.val]⟩,
    fun _ _ _ => ⟨rfl, le_refl _, by norm_num [Demo.plat, Demo.libm, Fl.val]⟩⟩

/-- A platform and an input as the theorems want them. -/
example : (∀ a b, Within (-1) 1 (Demo.plat.libm.noise a b)) ∧ SinBounded Demo.plat.libm ∧ ExpFalls Demo.plat.libm ∧
    Sized 2 [[(Fl.fin 0, Fl.fin 1), (Fl.fin 0, Fl.fin 1)], [(.fin (1 / 2), .fin 0), (.fin (-1), .fin 0)]] ∧
    (∀ t v, t < 2 → (lefts [[(Fl.fin 0, Fl.fin 1), (Fl.fin 0, Fl.fin 1)], [(.fin (1 / 2), .fin 0), (.fin (-1), .fin 0)]])[t]? = some v →
      Within 0 0 v) ∧
    (∀ v ∈ lefts [[(Fl.fin 0, Fl.fin 1), (Fl.nz, Fl.fin 1)]], Within 0 0 v) ∧ (Fl.fin 1 -. .fin (1 / 2)).isFinite = true := by
  refine ⟨fun _ _ => ⟨rfl, by norm_num [Demo.plat, Demo.libm, Fl.val], by norm_num [Demo.plat, Demo.libm, Fl.val]⟩, demo_sin,
    demo_exp, ?_, ?_, ?_, by decide +kernel⟩
  · intro x hx
    rcases List.mem_cons.mp hx with rfl | hx
    · rfl
    · rw [List.mem_singleton.mp hx]; rfl
  · intro t v ht hv
    match t, ht with
    | 0, _ => cases hv; exact zero_fin
    | 1, _ => cases hv; exact zero_fin
  · intro v hv
    rcases List.mem_cons.mp hv with rfl | hv
    · exact zero_fin
    · rw [List.mem_singleton.mp hv]; exact ⟨rfl, le_refl _, le_refl _⟩

/-- A mix that is changed before the second block. -/
example : Sized 2 ([([], [(Fl.fin 0, Fl.fin 1), (Fl.fin 0, Fl.fin 1)]), ([(0, Fl.fin 1), (1, Fl.fin 7)], [(.fin (1 / 2), .fin 0), (.fin (-1), .fin 0)])].map
      (Prod.snd : Changes × List (Fl × Fl) → _)) ∧
    setting 0 (.fin (1 / 2)) [[], [(0, Fl.fin 1), (1, Fl.fin 7)]] (1 / 2) = .fin (1 / 2) ∧
    setting 0 (.fin (1 / 2)) [[], [(0, Fl.fin 1), (1, Fl.fin 7)]] (2 / 2) = .fin 1 := by
  refine ⟨?_, rfl, rfl⟩
  intro x hx
  rcases List.mem_cons.mp hx with rfl | hx
  · rfl
  · rw [List.mem_singleton.mp hx]; rfl

/-- A click in blocks of one sample and of two samples. -/
example : ∃ xs ys : List (List (Fl × Fl)), Sized 1 xs ∧ Sized 2 ys ∧ Click 5401 (lefts xs) ∧ Click 5401 (lefts ys) ∧
    5399 + 2 ≤ 5401 ∧ Within (1 / 16) 1 (Fl.fin (1 / 2)) := by
  refine ⟨[(.fin 1, .fin 0)] :: List.replicate 5401 [(.fin 0, .fin 0)],
    [(.fin 1, .fin 0), (.fin 0, .fin 0)] :: List.replicate 2700 [(.fin 0, .fin 0), (.fin 0, .fin 0)], ?_, ?_, ?_, ?_, by decide,
    rfl, by norm_num [Fl.val], by norm_num [Fl.val]⟩
  · intro x hx
    rcases List.mem_cons.mp hx with rfl | hx
    · rfl
    · rw [List.eq_of_mem_replicate hx]; rfl
  · intro x hx
    rcases List.mem_cons.mp hx with rfl | hx
    · rfl
    · rw [List.eq_of_mem_replicate hx]; rfl
  · show _ = _
    rw [lefts, List.flatten_cons, show [(Fl.fin 0, Fl.fin 0)] = List.replicate 1 (Fl.fin 0, Fl.fin 0) from rfl,
      List.flatten_replicate_replicate, List.map_append, List.map_replicate]
    rfl
  · show _ = _
    rw [lefts, List.flatten_cons, show [(Fl.fin 0, Fl.fin 0), (.fin 0, .fin 0)] = List.replicate 2 (Fl.fin 0, Fl.fin 0) from rfl,
      List.flatten_replicate_replicate, List.map_append, List.map_replicate]
    rfl

end Verif.Props
