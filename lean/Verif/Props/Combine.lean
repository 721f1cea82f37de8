import Verif.Spec.Combine
import Verif.Props.Effect
import Verif.Props.Noise

/-!
# Signals combined

C90: what `mul ~m` and `add ~m` combine is what the two sides play on their own.
-/

namespace Verif.Props
open Verif.Spec Verif.Parse Verif.Double Verif.Part

variable {P : Plat} {N : Nat}

namespace Combine

section
variable {parse parse' : Name → Except Panic (Option (Ast Comp))} {e0 e1 : Engine (glicol P N parse)} {f0 f1 : Engine (glicol P N parse')}
  {A B : Ast Comp} {b : Bool} {exts : List (List Buf)} {start start' : Place → List Buf} {sig sig' : Place → List (List Buf)}

/-- Two programs of which the places `S` of the first are also places of the second, with the same components and the same sources, play
the same signals there. -/
theorem sub_same {T : P.ext.State → Prop} (hx : ExtShape P N T) (hxf : ExtFirst P) (hm : Libm32 P.libm) (hN : 0 < N)
    (hwB : ProgWf B) (hinB : ['~', 'i', 'n', 'p', 'u', 't'] ∉ B.map Prod.fst)
    (h : Sounds e0 e1 A b exts start sig) (h' : Sounds f0 f1 B b exts start' sig') (hne : exts ≠ [])
    (hset : (⟨f0.samples, f0.sr, f0.bpm, f0.seed⟩ : Env) = ⟨e0.samples, e0.sr, e0.bpm, e0.seed⟩)
    (hsg : ∀ e, e ∈ A → ∀ c, c ∈ e.2 → c.Sg) (ha : AllNew e0 A) (ha' : AllNew f0 B) (hfree : FreeOf ByRole A b)
    (hext : Leads Comp.refs A b (.at ['~', 'i', 'n', 'p', 'u', 't'] 0) .dest →
      ∀ x, x ∈ exts → 2 ≤ x.length ∧ ∀ b, b ∈ x.take 2 → ∀ v, v ∈ b → v.Ok f32)
    {S : Place → Prop} (hS : ∀ p, S p → p ≠ .dest ∧ Leads Comp.refs A b p .dest ∧ Leads Comp.refs B b p .dest)
    (hback : ∀ q p, S p → Flow Comp.refs A b q p → S q)
    (hflow : ∀ p, S p → ∀ q, Flow Comp.refs B b q p ↔ Flow Comp.refs A b q p)
    (hcomp : ∀ j cs i d, S (.at j i) → (j, cs) ∈ A → cs[i]? = some d → ∃ cs', (j, cs') ∈ B ∧ cs'[i]? = some d)
    (hch : ∀ j cs i d r n, S (.at j i) → (j, cs) ∈ A → cs[i]? = some d → r ∈ d.refs → '.' ∉ r → Chain A b r n → Chain B b r n) :
    ∀ p, S p → SameSig (sig p) (sig' p) := by
  have sg := places_single hxf hm h hne hsg ha hfree hext
  have hup : ∀ p q, Leads Comp.refs A b p q → S q → S p := by
    intro p q hl hq
    induction hl with
    | refl => exact hq
    | step hf _ ih => exact hback _ _ (ih hq) hf
  have hdown : ∀ p q, Leads Comp.refs B b p q → S q → Leads Comp.refs A b p q := by
    intro p q hl hq
    induction hl with
    | refl => exact .refl _
    | step hf _ ih => exact .step ((hflow _ (hup _ _ (ih hq) hq) _).mp hf) (ih hq)
  obtain ⟨rank, hrank⟩ := rank_exists hfree.forward
  have key : ∀ (n : Nat) q, rank q < n → S q → SameSig (sig q) (sig' q) := by
    intro n
    induction n with
    | zero => intro q h; omega
    | succ n ih =>
      intro q hn hq
      obtain ⟨hd, hlead, hlead'⟩ := hS q hq
      obtain ⟨p, hf, -⟩ := Parted.lead_on hlead hd
      obtain ⟨j, i, m, rfl, hc, hi⟩ := source_at hf
      cases hc with
      | @prog _ cs hk =>
        have hci := List.getElem?_eq_getElem hi
        have hmem : cs[i] ∈ cs := List.getElem_mem hi
        obtain ⟨cs', hk', hci'⟩ := hcomp _ _ _ _ hq hk hci
        obtain ⟨old, o1, o2⟩ := ha j cs hk
        obtain ⟨old', o1', o2'⟩ := ha' j cs' hk'
        refine component_part hx hxf hN hwB hinB h h' hne hset (φ := id) (ψ := id) hk hci hlead hk' hci' hlead' o1 (o2 _ hmem) o1'
          (o2' _ (List.mem_of_getElem? hci')) (hfree.parts j cs i _ hk hci hlead) (hfree.refs j cs _ hk hmem)
          (fun q hq => hfree.forward q _ hq hlead)
          ?_ (fun q' => ⟨fun h => ⟨q', (hflow _ hq _).mp h, rfl⟩, fun ⟨q, h, e⟩ => (hflow _ hq _).mpr (e ▸ h)⟩) (fun _ _ _ _ h => h) ?_
          ?_ (fun q h => .step ((hflow _ hq _).mpr h) hlead') (fun q h => sg q _ h hlead) (.inl fun _ _ => rfl) ?_
        · intro q hf hl
          have hf := (hflow _ hq _).mp hf
          exact hfree.forward q _ hf hlead (hdown _ _ hl (hback _ _ hq hf))
        · cases i with
          | zero => exact .inl ⟨rfl, rfl⟩
          | succ i => exact .inr ⟨i, i, rfl, rfl, rfl⟩
        · intro hni r hr n hc
          exact ⟨n, hch _ _ _ _ _ _ hq hk hci hr (hfree.refs j cs _ hk hmem hni _ hr) hc, rfl⟩
        · intro q hf
          have := hrank q _ hf hlead
          exact ih q (by omega) (hback _ _ hq hf)
      | input hb =>
        have : i = 0 := by omega
        subst this
        have hi2 := hext hlead
        rw [input_signal h hlead (fun x hx => (hi2 x hx).1), input_signal h' hlead' (fun x hx => (hi2 x hx).1)]
        refine ⟨rfl, 2, .inr rfl, ?_⟩
        intro o ho
        obtain ⟨x, hx, rfl⟩ := List.mem_map.mp ho
        have := (hi2 x hx).1
        simp; omega
  intro p hp
  exact key (rank p + 1) p (Nat.lt_succ_self _) hp

/-! ### The chain heard as it is -/

variable {g r : Name} {n : Nat}

theorem heard_ne (h : HeardAs A B g r) (hr : '.' ∉ r) : r ≠ g := by
  rintro rfl
  exact h.own _ _ (.get r) r h.now (by simp) (by simp [Comp.refs]) (.named hr)

theorem heard_out (h : HeardAs A B g r) (hw : ProgWf A) (hin : ['~', 'i', 'n', 'p', 'u', 't'] ∉ A.map Prod.fst) {q : Place} :
    Flow Comp.refs A b q .dest ↔ q = .at g 0 := by
  constructor
  · intro hf
    generalize hl : Place.dest = d at hf
    cases hf with
    | next _ _ => cases hl
    | @out j n hc ht =>
      have hj : j = g := by
        generalize n + 1 = m at hc
        cases hc with
        | prog hk => exact h.only _ _ hk ht
        | input _ => exact absurd (by simp) ht
      subst hj
      have := chain_unique hw hin hc (.prog h.now)
      simp only [List.length_singleton] at this
      rw [show n = 0 by omega]
    | ref _ _ _ _ _ => cases hl
  · rintro rfl
    exact .out (.prog h.now) h.track

theorem heard_into (h : HeardAs A B g r) (hr : '.' ∉ r) (hw : ProgWf A) (hin : ['~', 'i', 'n', 'p', 'u', 't'] ∉ A.map Prod.fst)
    (hch : Chain A b r (n + 1)) {q : Place} : Flow Comp.refs A b q (.at g 0) ↔ q = .at r n := by
  rw [flow_into hw h.now rfl]
  constructor
  · rintro (⟨j, hj, _⟩ | ⟨r', k', n', g1, g2, g3, rfl⟩)
    · cases hj
    · have : r' = r := by simpa [Comp.refs] using g1
      subst this
      have := Parted.means_plain g2 hr
      subst this
      have := chain_unique hw hin g3 hch
      rw [show n' = n by omega]
  · rintro rfl
    exact .inr ⟨r, r, n, by simp [Comp.refs], .named hr, hch, rfl⟩

/-- The places of the program other than the track. -/
def Below (A : Ast Comp) (b : Bool) (g : Name) (p : Place) : Prop :=
  ∃ j i, p = .at j i ∧ j ≠ g ∧ Leads Comp.refs A b p .dest

theorem heard_chain (h : HeardAs A B g r) {j : Name} {m : Nat} (hj : j ≠ g) (hc : Chain A b j m) : Chain B b j m := by
  cases hc with
  | prog hk => exact .prog (h.kept _ _ hk hj)
  | input hb => exact .input hb

theorem heard_flow (h : HeardAs A B g r) (hwB : ProgWf B) (hinB : ['~', 'i', 'n', 'p', 'u', 't'] ∉ B.map Prod.fst) {p : Place}
    (hp : Below A b g p) (q : Place) : Flow Comp.refs B b q p ↔ Flow Comp.refs A b q p := by
  obtain ⟨j, i, rfl, hj, hl⟩ := hp
  obtain ⟨p', hf', -⟩ := Parted.lead_on hl (by simp)
  obtain ⟨j', i', m, he, hcA, hm⟩ := source_at hf'
  cases he
  constructor
  · intro hf
    cases hf with
    | next _ _ => exact .next hcA hm
    | @ref _ k' r' cs d _ n hk hi hr hmn hc =>
      have hk' : (j, cs) ∈ A := by
        cases hcA with
        | prog hk2 => rwa [Effect.same_comps hwB hk (h.kept _ _ hk2 hj)]
        | input _ => exact absurd (List.mem_map.mpr ⟨_, hk, rfl⟩) hinB
      refine .ref hk' hi hr hmn ?_
      generalize n + 1 = l at hc
      cases hc with
      | @prog _ cs' hk2 =>
        by_cases hin : (k', cs') ∈ A
        · exact .prog hin
        · exact absurd hmn (h.unused _ _ hk2 hin _ _ _ _ hk' (List.mem_of_getElem? hi) hr)
      | input hb => exact .input hb
  · intro hf
    cases hf with
    | next hc hi => exact .next (heard_chain h hj hc) hi
    | @ref _ k' r' cs d _ n hk hi hr hmn hc =>
      refine .ref (h.kept _ _ hk hj) hi hr hmn (heard_chain h ?_ hc)
      rintro rfl
      exact h.own _ _ _ _ hk (List.mem_of_getElem? hi) hr hmn

theorem heard_back (h : HeardAs A B g r) {q p : Place} (hp : Below A b g p) (hf : Flow Comp.refs A b q p) : Below A b g q := by
  obtain ⟨j, i, rfl, hj, hl⟩ := hp
  have hlq : Leads Comp.refs A b q .dest := .step hf hl
  cases hf with
  | next hc hi => exact ⟨_, _, rfl, hj, hlq⟩
  | @ref _ k' r' cs d _ n hk hi hr hmn hc =>
    refine ⟨_, _, rfl, ?_, hlq⟩
    rintro rfl
    exact h.own _ _ _ _ hk (List.mem_of_getElem? hi) hr hmn

/-- What leads to the output of the program leads to it in the whole one if the chain does. -/
theorem heard_leads (h : HeardAs A B g r) (hr : '.' ∉ r) (hw : ProgWf A) (hin : ['~', 'i', 'n', 'p', 'u', 't'] ∉ A.map Prod.fst)
    (hwB : ProgWf B) (hinB : ['~', 'i', 'n', 'p', 'u', 't'] ∉ B.map Prod.fst) (hch : Chain A b r (n + 1))
    (hlr : Leads Comp.refs B b (.at r n) .dest) {p : Place} (hp : Leads Comp.refs A b p .dest) :
    p = .dest ∨ p = .at g 0 ∨ Leads Comp.refs B b p .dest := by
  generalize hl : Place.dest = d at hp
  induction hp with
  | refl => exact .inl rfl
  | @step p q d' hf hq ih =>
    subst hl
    rcases ih rfl with rfl | rfl | hB
    · exact .inr (.inl ((heard_out h hw hin).mp hf))
    · obtain rfl := (heard_into h hr hw hin hch).mp hf
      exact .inr (.inr hlr)
    · by_cases hb : Below A b g q
      · exact .inr (.inr (.step ((heard_flow h hwB hinB hb p).mpr hf) hB))
      · cases q with
        | dest => exact .inr (.inl ((heard_out h hw hin).mp hf))
        | input => cases hf
        | «at» j i =>
          by_cases hj : j = g
          · subst hj
            obtain ⟨p', hf', -⟩ := Parted.lead_on hq (by simp)
            obtain ⟨j', i', m, he, hcA, hm⟩ := source_at hf'
            cases he
            have := chain_unique hw hin hcA (.prog h.now)
            simp only [List.length_singleton] at this
            have h0 : i = 0 := by omega
            subst h0
            obtain rfl := (heard_into h hr hw hin hch).mp hf
            exact .inr (.inr hlr)
          · exact absurd ⟨j, i, rfl, hj, hq⟩ hb

/-- The chain plays in the whole program what is heard of it. -/
theorem heard_same {T : P.ext.State → Prop} (hx : ExtShape P N T) (hxf : ExtFirst P) (hm : Libm32 P.libm) (hN : 0 < N)
    (ht : HeardAs A B g r) (hr : '.' ∉ r) (hw : ProgWf A) (hin : ['~', 'i', 'n', 'p', 'u', 't'] ∉ A.map Prod.fst)
    (hwB : ProgWf B) (hinB : ['~', 'i', 'n', 'p', 'u', 't'] ∉ B.map Prod.fst) (hch : Chain A b r (n + 1))
    (hlr : Leads Comp.refs B b (.at r n) .dest)
    (h : Sounds e0 e1 A b exts start sig) (h' : Sounds f0 f1 B b exts start' sig') (hne : exts ≠ [])
    (hset : (⟨f0.samples, f0.sr, f0.bpm, f0.seed⟩ : Env) = ⟨e0.samples, e0.sr, e0.bpm, e0.seed⟩)
    (hsg : ∀ e, e ∈ A → ∀ c, c ∈ e.2 → c.Sg) (ha : AllNew e0 A) (ha' : AllNew f0 B) (hfree : FreeOf ByRole A b)
    (hext : Leads Comp.refs A b (.at ['~', 'i', 'n', 'p', 'u', 't'] 0) .dest →
      ∀ x, x ∈ exts → 2 ≤ x.length ∧ ∀ b, b ∈ x.take 2 → ∀ v, v ∈ b → v.Ok f32) :
    List.Forall₂ Dup (sig' (.at r n)) (sig (.at g 0)) ∧
      (∀ o, o ∈ sig' (.at r n) → ∀ b, b ∈ o → b.length = N ∧ ∀ x, x ∈ b → x.Ok f32) := by
  have hg : Leads Comp.refs A b (.at g 0) .dest := .step ((heard_out ht hw hin).mpr rfl) (.refl _)
  have hfr : Flow Comp.refs A b (.at r n) (.at g 0) := (heard_into ht hr hw hin hch).mpr rfl
  have hlA : Leads Comp.refs A b (.at r n) .dest := .step hfr hg
  have hS : Below A b g (.at r n) := ⟨r, n, rfl, heard_ne ht hr, hlA⟩
  have same := sub_same hx hxf hm hN hwB hinB h h' hne hset hsg ha ha' hfree hext (S := Below A b g)
    (by
      rintro p ⟨j, i, rfl, hj, hl⟩
      refine ⟨by simp, hl, ?_⟩
      rcases heard_leads ht hr hw hin hwB hinB hch hlr hl with h1 | h1 | h1
      · cases h1
      · injection h1 with h1 _; exact absurd h1 hj
      · exact h1)
    (fun q p hp hf => heard_back ht hp hf) (fun p hp q => heard_flow ht hwB hinB hp q)
    (by
      rintro j cs i d ⟨j', i', he, hj, -⟩ hk hi
      cases he
      exact ⟨cs, ht.kept _ _ hk hj, hi⟩)
    (by
      rintro j cs i d s m ⟨j', i', he, hj, -⟩ hk hi hs hdot hc
      cases he
      refine heard_chain ht ?_ hc
      rintro rfl
      exact ht.own _ _ _ _ hk (List.mem_of_getElem? hi) hs (.named hdot))
    _ hS
  have hsingle := places_single hxf hm h hne hsg ha hfree hext _ _ hfr hg
  rw [← same.1]
  refine ⟨?_, fun o ho b hb => ⟨(h.shape _ hlA o ho).2 b hb, hsingle o ho b hb⟩⟩
  obtain ⟨old, o1, o2⟩ := ha _ _ ht.now
  obtain ⟨refs, qs, srcs, left, inputs, _, _, _, _, _, r6, r7, r8, _⟩ := h.component _ _ 0 _ old ht.now rfl hg o1
    (o2 _ List.mem_cons_self)
  obtain ⟨Q, q1, q2, num, _, q4⟩ := run_inputs h r6 hne (fun q hq => hfree.forward q _ hq hg) r7
  have hperm : [Place.at r n].Perm Q := (List.perm_ext_iff_of_nodup (List.nodup_singleton _) q1).mpr (fun q => by
    rw [q2, heard_into ht hr hw hin hch]; exact List.mem_singleton)
  obtain ⟨_, hfed⟩ := q4 _ hperm
  refine Parted.get_dup (n := num (.at r n)) ?_ r8
  refine forall₂_of_get (by rw [r6, h.length _ hlA]) ?_
  intro t inp o ht ho
  obtain ⟨bufs, b1, b2⟩ := hfed t inp ht
  simp only [List.map_cons, List.map_nil] at b1 b2
  cases b1 with
  | cons b1 b3 =>
    cases b3
    rw [ho] at b1
    cases b1
    exact ⟨List.perm_singleton.mp b2, (h.shape _ hlA o (List.mem_of_getElem? ho)).1⟩

end

/-! ### The track with a reference at its end -/

section
variable {A B : Ast Comp} {k r : Name} {comps : List Comp} {c : Comp} {b : Bool}

theorem wet_leads (h : AtTheEnd A B k comps c) (hw : ProgWf A) (hwB : ProgWf B) (hin : ['~', 'i', 'n', 'p', 'u', 't'] ∉ A.map Prod.fst)
    (hinB : ['~', 'i', 'n', 'p', 'u', 't'] ∉ B.map Prod.fst) {p : Place} (hp : Leads Comp.refs A b p .dest) :
    Leads Comp.refs B b p .dest := by
  have hpos : 0 < comps.length := List.length_pos_iff.mpr (hw.2 _ _ h.was)
  generalize hl : Place.dest = d at hp
  induction hp with
  | refl => exact .refl _
  | @step p q r hf hq ih =>
    subst hl
    by_cases hd : q = .dest
    · subst hd
      obtain rfl := (Effect.out_dry h hw hin).mp hf
      have : Flow Comp.refs B b (.at k (comps.length - 1)) (.at k (comps.length - 1 + 1)) := .next (.prog h.now) (by simp; omega)
      rw [Nat.sub_add_cancel hpos] at this
      exact .step this (.step ((Effect.out_wet h hwB hinB).mpr rfl) (.refl _))
    · exact .step ((Effect.end_flow h hw hwB hin hinB hd hq p).mpr hf) (ih rfl)

/-- The component at the end leads only to the output. -/
theorem end_leads_out (h : AtTheEnd A B k comps c) (hwB : ProgWf B) (hinB : ['~', 'i', 'n', 'p', 'u', 't'] ∉ B.map Prod.fst)
    (hc : ∀ s, s ∈ c.refs → ¬ Means s k) {q : Place} (hl : Leads Comp.refs B b (.at k comps.length) q) :
    q = .at k comps.length ∨ q = .dest := by
  cases hl with
  | refl => exact .inl rfl
  | step hf hl =>
    generalize hp : Place.at k comps.length = p at hf
    cases hf with
    | @next j n i hch hi =>
      injection hp with h1 h2
      subst h1 h2
      have := chain_unique hwB hinB hch (.prog h.now)
      rw [List.length_append, List.length_singleton] at this
      omega
    | out _ _ => exact .inr (dest_ends hl)
    | @ref j k' r cs d i n hk hi hr hmn hch =>
      injection hp with h1 h2
      subst h1
      by_cases hj : j = k
      · subst hj
        obtain rfl := Effect.same_comps hwB hk h.now
        rcases List.mem_append.mp (List.mem_of_getElem? hi) with hd | hd
        · exact absurd hmn (h.unused _ _ _ _ h.was hd hr)
        · rw [List.mem_singleton.mp hd] at hr
          exact absurd hmn (hc _ hr)
      · exact absurd hmn (h.unused _ _ _ _ ((h.others _ _ hj).mp hk) (List.mem_of_getElem? hi) hr)

end

theorem arithOp_comm (isMul : Bool) (x y : Fl) : arithOp isMul x y = arithOp isMul y x := by
  cases isMul
  · cases x <;> cases y <;> simp only [arithOp, Fl.add, add_comm]
    split <;> simp_all [eq_comm]
  · cases x <;> cases y <;> simp [arithOp, Fl.mul, Fl.isZero, Fl.sign, mul_comm, Bool.xor_comm]

/-- Zeros before two samples are not heard in their product or sum. -/
theorem both_again {isMul : Bool} {x y : Fl} (hx : x.Ok f32) (hy : y.Ok f32) :
    Fl.fin 0 +. arithOp isMul (.fin 0 +. x) (.fin 0 +. y) = .fin 0 +. arithOp isMul x y := by
  rw [Effect.gain_again hx, arithOp_comm, Effect.gain_again hy, arithOp_comm]

theorem sideAt_of {o : List Buf} {ch s : Nat} {z : Buf} (hl : o.length = 1 ∨ o.length = 2) (h : o[ch]? = some z) :
    sideAt ch s o = z[s]? := by
  rcases hl with hl | hl
  · obtain ⟨x, rfl⟩ := List.length_eq_one_iff.mp hl
    match ch, h with
    | 0, h => cases h; rfl
  · obtain ⟨x, y, rfl⟩ := List.length_eq_two.mp hl
    match ch, h with
    | 0, h => cases h; rfl
    | 1, h => cases h; rfl

section
variable {all : Ast Comp} {k : Name} {c : Comp} {b : Bool}

theorem one_out (h : OneTrack all k c) (hw : ProgWf all) (hin : ['~', 'i', 'n', 'p', 'u', 't'] ∉ all.map Prod.fst) {q : Place} :
    Flow Comp.refs all b q .dest ↔ q = .at k 0 := by
  constructor
  · intro hf
    generalize hl : Place.dest = d at hf
    cases hf with
    | next _ _ => cases hl
    | @out j n hc ht =>
      have hj : j = k := by
        generalize n + 1 = m at hc
        cases hc with
        | prog hk => exact h.only _ _ hk ht
        | input _ => exact absurd (by simp) ht
      subst hj
      have := chain_unique hw hin hc (.prog h.now)
      simp only [List.length_singleton] at this
      rw [show n = 0 by omega]
    | ref _ _ _ _ _ => cases hl
  · rintro rfl
    exact .out (.prog h.now) h.track

/-- The track leads only to the output. -/
theorem one_leads (h : OneTrack all k c) (hw : ProgWf all) (hin : ['~', 'i', 'n', 'p', 'u', 't'] ∉ all.map Prod.fst) {q : Place}
    (hl : Leads Comp.refs all b (.at k 0) q) : q = .at k 0 ∨ q = .dest := by
  cases hl with
  | refl => exact .inl rfl
  | step hf hl =>
    generalize hp : Place.at k 0 = p at hf
    cases hf with
    | @next j n i hch hi =>
      injection hp with h1 h2
      subst h1 h2
      have := chain_unique hw hin hch (.prog h.now)
      rw [List.length_singleton] at this
      omega
    | out _ _ => exact .inr (dest_ends hl)
    | @ref j k' r cs d i n hk hi hr hmn hch =>
      injection hp with h1 h2
      subst h1
      exact absurd hmn (h.unused _ _ _ _ hk (List.mem_of_getElem? hi) hr)

/-- A reference by name to a chain that is heard by itself does not mean the track. -/
theorem one_ne {solo : Ast Comp} {g r : Name} (h : OneTrack all k c) (ht : HeardAs solo all g r) (hr : '.' ∉ r) : r ≠ k := by
  rintro rfl
  obtain ⟨⟨r', rs⟩, h1, h2⟩ := List.mem_map.mp ht.there
  have h2 : r' = r := h2
  subst h2
  exact heard_ne ht hr (ht.only _ _ h1 h.track)

theorem heard_end {solo : Ast Comp} {g r : Name} (ht : HeardAs solo all g r) (hw : ProgWf solo) : ∃ n, Chain solo b r (n + 1) := by
  obtain ⟨⟨r', rs⟩, h1, rfl⟩ := List.mem_map.mp ht.there
  have : 0 < rs.length := List.length_pos_iff.mpr (hw.2 _ _ h1)
  exact ⟨rs.length - 1, by rw [Nat.sub_add_cancel this]; exact .prog h1⟩

end

section
variable {parse : Name → Except Panic (Option (Ast Comp))} {e0 e1 : Engine (glicol P N parse)}
  {all : Ast Comp} {b : Bool} {exts : List (List Buf)} {start : Place → List Buf} {sig : Place → List (List Buf)}

theorem inputAt_pair {m j : Nat} {x y : List Buf} {inp : Ins} (hmj : m ≠ j) (h : inp.Perm [(m, x), (j, y)]) :
    inp.length = 2 ∧ inputAt inp [m, j] 0 = .ok x ∧ inputAt inp [m, j] 1 = .ok y := by
  rcases perm_pair h with rfl | rfl
  · simp [inputAt, hmj]
  · simp [inputAt, hmj.symm]

/-- `balance` plays the first channels of the two chains. -/
theorem balance_sounds (h : Sounds e0 e1 all b exts start sig) (hw : ProgWf all)
    (hin : ['~', 'i', 'n', 'p', 'u', 't'] ∉ all.map Prod.fst) (hne : exts ≠ []) {k r r' : Name} {n n' : Nat}
    (ho : OneTrack all k (.balance r r')) (ha : AllNew e0 all) (hr : '.' ∉ r) (hr' : '.' ∉ r') (hrr : r ≠ r')
    (hch : Chain all b r (n + 1)) (hch' : Chain all b r' (n' + 1)) :
    ∀ t, t < exts.length → ∃ l x r0 y, (sig (.at k 0))[t]? = some [l, r0] ∧ (sig (.at r n))[t]? = some (l :: x) ∧
      (sig (.at r' n'))[t]? = some (r0 :: y) := by
  have hlead : Leads Comp.refs all b (.at k 0) .dest := .step ((one_out ho hw hin).mpr rfl) (.refl _)
  obtain ⟨old, o1, o2⟩ := ha k _ ho.now
  obtain ⟨refs, qs, srcs, left, inputs, _, h2, h3, h4, h5, h6, h7, _, h8⟩ :=
    h.component k _ 0 _ old ho.now rfl hlead o1 (o2 _ (by simp))
  have hrefs : refs = [r, r'] := h2
  subst hrefs
  have hleft : left = none := by
    cases left with
    | none => rfl
    | some m =>
      obtain ⟨j, hj, _⟩ := (h5 m).mp rfl
      cases hj
  subst hleft
  have h8 := h8 trivial
  have hq : qs = [.at r n, .at r' n'] := by
    generalize hl : [r, r'] = l at h3
    cases h3 with
    | nil => cases hl
    | named _ hc hrest =>
      injection hl with e1 e2
      subst e1
      cases chain_unique hw hin hc hch
      cases hrest with
      | nil => cases e2
      | named _ hc' hrest' =>
        injection e2 with e1 e3
        subst e1
        cases chain_unique hw hin hc' hch'
        subst e3
        cases hrest'
        rfl
      | pattern _ _ _ _ =>
        injection e2 with e1 e3
        exact absurd (by rw [e1]; simp) hr'
    | pattern _ _ _ _ =>
      injection hl with e1 e2
      exact absurd (by rw [e1]; simp) hr
  subst hq
  obtain ⟨m, j, hm, hj, rfl⟩ : ∃ m j, Sits e1 (.at r n) m ∧ Sits e1 (.at r' n') j ∧ srcs = [m, j] := by
    cases h4 with
    | cons h1 h2 =>
      cases h2 with
      | cons h2 h3 => cases h3; exact ⟨_, _, h1, h2, rfl⟩
  have hmj : m ≠ j := fun he => by
    have := (h.numbers _ _ _ _ hm hj).mpr he
    injection this with h1 _
    exact hrr h1
  have hloop : ∀ q, Flow Comp.refs all b q (.at k 0) → ¬ Leads Comp.refs all b (.at k 0) q := by
    intro q hf hl
    rcases one_leads ho hw hin hl with rfl | rfl
    · rw [flow_into hw ho.now rfl] at hf
      rcases hf with ⟨j, hj, _⟩ | ⟨s, k', l, g1, g2, _, g4⟩
      · cases hj
      · injection g4 with g4 _
        subst g4
        exact ho.unused _ _ _ _ ho.now (List.mem_singleton.mpr rfl) g1 g2
    · obtain ⟨_, _, _, h, _⟩ := source_at hf
      cases h
  obtain ⟨Q, q1, q2, num, q3, q4⟩ := run_inputs h h6 hne hloop h7
  have hperm : [Place.at r n, .at r' n'].Perm Q := by
    refine (List.perm_ext_iff_of_nodup (by simp [hrr]) q1).mpr ?_
    intro q
    rw [q2, flow_into hw ho.now rfl]
    simp only [List.mem_cons, List.not_mem_nil, or_false]
    constructor
    · rintro (rfl | rfl)
      · exact .inr ⟨r, r, n, by simp [Comp.refs], .named hr, hch, rfl⟩
      · exact .inr ⟨r', r', n', by simp [Comp.refs], .named hr', hch', rfl⟩
    · rintro (⟨j, hj, _⟩ | ⟨s, k', l, g1, g2, g3, rfl⟩)
      · cases hj
      · simp only [Comp.refs, List.mem_cons, List.not_mem_nil, or_false] at g1
        rcases g1 with rfl | rfl
        · obtain rfl := Parted.means_plain g2 hr
          cases chain_unique hw hin g3 hch
          exact .inl rfl
        · obtain rfl := Parted.means_plain g2 hr'
          cases chain_unique hw hin g3 hch'
          exact .inr rfl
  obtain ⟨-, hfed⟩ := q4 _ hperm
  have n1 : num (.at r n) = m := (h.numbers _ _ _ _ (q3 _ (hperm.mem_iff.mp (by simp))) hm).mp rfl
  have n2 : num (.at r' n') = j := (h.numbers _ _ _ _ (q3 _ (hperm.mem_iff.mp (by simp))) hj).mp rfl
  simp only [List.map_cons, List.map_nil, n1, n2] at hfed
  have hlr : Leads Comp.refs all b (.at r n) .dest := .step ((q2 _).mp (hperm.mem_iff.mp (by simp))) hlead
  have hlr' : Leads Comp.refs all b (.at r' n') .dest := .step ((q2 _).mp (hperm.mem_iff.mp (by simp))) hlead
  -- what comes in
  have hinp : ∀ (t : Nat) inp, inputs[t]? = some inp → ∃ l x r0 y, (sig (.at r n))[t]? = some (l :: x) ∧ (sig (.at r' n'))[t]? = some (r0 :: y) ∧
      inp.length = 2 ∧ inputAt inp [m, j] 0 = .ok (l :: x) ∧ inputAt inp [m, j] 1 = .ok (r0 :: y) := by
    intro t inp ht
    obtain ⟨bufs, b1, b2⟩ := hfed t inp ht
    cases b1 with
    | @cons _ x _ _ hx b1 =>
      cases b1 with
      | @cons _ y _ _ hy b1 =>
        cases b1
        obtain ⟨i1, i2, i3⟩ := inputAt_pair hmj b2
        have sx := (h.shape _ hlr x (List.mem_of_getElem? hx)).1
        have sy := (h.shape _ hlr' y (List.mem_of_getElem? hy)).1
        match x, y, sx, sy with
        | l :: x, r0 :: y, _, _ => exact ⟨l, x, r0, y, hx, hy, i1, i2, i3⟩
        | [], _, sx, _ => simp at sx
        | _ :: _, [], _, sy => simp at sy
  have hall : ∀ i, i ∈ inputs → i.length = 2 ∧ ∃ l l0 r r0, inputAt i [m, j] 0 = .ok l ∧ chan l 0 = .ok l0 ∧ inputAt i [m, j] 1 = .ok r ∧ chan r 0 = .ok r0 := by
    intro i hi
    obtain ⟨t, ht⟩ := List.mem_iff_getElem?.mp hi
    obtain ⟨l, x, r0, y, _, _, i1, i2, i3⟩ := hinp t i ht
    exact ⟨i1, _, l, _, r0, i2, rfl, i3, rfl⟩
  obtain ⟨outs, b1, b2⟩ := balance_blocks P N m j inputs (fun i hi => (hall i hi).1) (fun i hi => (hall i hi).2)
    (List.replicate N (.fin 0)) (List.replicate N (.fin 0))
  have hplay := play_ok (P := P) (N := N) (env := ⟨e0.samples, e0.sr, e0.bpm, e0.seed⟩) (c := .balance r r') (msgs := [.index m, .index j])
    (d := fresh N 2 (.prim (.balance []))) (refs := [r, r']) (n := .prim (.balance [m, j])) rfl rfl b1
  have houts : sig (.at k 0) = outs := Except.ok.inj (Eq.trans (Eq.symm h8) hplay)
  intro t ht
  have hti : inputs[t]? = some inputs[t] := List.getElem?_eq_getElem (by omega)
  obtain ⟨l, x, r0, y, x1, y1, -, i2, i3⟩ := hinp t _ hti
  have hl := b2.length_eq
  obtain ⟨l', r1, l0', r0', c1, c2, c3, c4, c5⟩ := (List.forall₂_iff_get.mp b2).2 t (by omega) (by omega)
  simp only [List.get_eq_getElem] at c1 c3 c5
  rw [i2] at c1
  rw [i3] at c3
  cases c1
  cases c3
  cases c2
  cases c4
  refine ⟨l, x, r0, y, ?_, x1, y1⟩
  rw [houts, ← c5]
  exact List.getElem?_eq_getElem _

end

/-- What is heard of a chain in a program of its own. -/
theorem heard_sample {sigr sigg outs : List (List Buf)} (hd : List.Forall₂ Dup sigr sigg) (ho : OutputOf N sigg outs) {t ch s : Nat}
    (ht : t < outs.length) (hch : ch < 2) (hs : s < N) :
    ∃ o w, sigr[t]? = some o ∧ sideAt ch s o = some w ∧ sampleAt outs t ch s = some (.fin 0 +. w) := by
  obtain ⟨w, w1, w2⟩ := ho.2 t ch s ht hch hs
  obtain ⟨oy, hoy, hwy⟩ := Option.bind_eq_some_iff.mp w1
  have hl2 := hd.length_eq
  have ht2 : t < sigr.length := by rw [hl2]; exact (List.getElem?_eq_some_iff.mp hoy).1
  have h3 := (List.forall₂_iff_get.mp hd).2 t ht2 (by omega)
  rw [List.get_eq_getElem, List.get_eq_getElem] at h3
  refine ⟨_, w, List.getElem?_eq_getElem ht2, ?_, w2⟩
  rw [← sideAt_dup h3, (List.getElem?_eq_some_iff.mp hoy).2]
  exact hwy

end Combine

section
variable {fe : Name → Option Fl} {T : P.ext.State → Prop} {e0 e1 e2 f0 f1 f2 g0 g1 g2 : Engine (glicol P N (Parse.parse fe))}

/-- **C90** (partial). Three texts, sent to three engines with the same settings, for which the components are new: a text with one track
(`left`); the text with `mul ~r` or `add ~r` at the end of this track (`both`); and a text whose only track is `~r`, with the same chains
(`right`). Then every sample of both sides that `both` plays is the f32 product or sum of the samples which `left` and `right` play
at the same time (then 0 is added, so that -0 is heard as 0). Missing: feedback, references to several chains at once (as `~a..`),
components kept from an earlier text. -/
theorem c90_combine_partial (hx : ExtShape P N T) (hxf : ExtFirst P) (hm : Libm32 P.libm) (hN : 0 < N)
    (hr0 : CleanReach _ e0) (hr1 : CleanReach _ f0) (hr2 : CleanReach _ g0) (heN : e0.N = N) (hfN : f0.N = N) (hgN : g0.N = N)
    (hset : (⟨f0.samples, f0.sr, f0.bpm, f0.seed⟩ : Env) = ⟨e0.samples, e0.sr, e0.bpm, e0.seed⟩)
    (hset' : (⟨g0.samples, g0.sr, g0.bpm, g0.seed⟩ : Env) = ⟨e0.samples, e0.sr, e0.bpm, e0.seed⟩) (τ σ ρ : TableOrder) (codeL codeR code : Name)
    (left right both : Ast Comp) (hpL : Parse.parse fe codeL = .ok (some left)) (hpR : Parse.parse fe codeR = .ok (some right))
    (hp : Parse.parse fe code = .ok (some both))
    {k g r : Name} {comps : List Comp} {isMul : Bool} (he : AtTheEnd left both k comps (if isMul then .mul (.ref r) else .add (.ref r)))
    (ht : HeardAs right both g r) (hr : '.' ∉ r)
    (hcL : CleanProg (glicol P N (Parse.parse fe)) left) (hcR : CleanProg (glicol P N (Parse.parse fe)) right)
    (hc : CleanProg (glicol P N (Parse.parse fe)) both)
    (haL : AllNew e0 left) (haR : AllNew f0 right) (ha : AllNew g0 both) (huL : e0.updateWithCode τ codeL = .ok (e1, none))
    (huR : f0.updateWithCode σ codeR = .ok (f1, none)) (hu : g0.updateWithCode ρ code = .ok (g1, none)) (b : Bool)
    (hbL : b = true ↔ ['~', 'i', 'n', 'p', 'u', 't'] ∈ e1.index.map Prod.fst)
    (hbR : b = true ↔ ['~', 'i', 'n', 'p', 'u', 't'] ∈ f1.index.map Prod.fst)
    (hb : b = true ↔ ['~', 'i', 'n', 'p', 'u', 't'] ∈ g1.index.map Prod.fst)
    (hfL : FreeOf ByRole left b) (hfR : FreeOf ByRole right b)
    (stepsL stepsR steps : List (HashOrder × List Buf)) (outsL outsR outs : List (List Buf))
    (hinL : stepsL.map Prod.snd = steps.map Prod.snd) (hinR : stepsR.map Prod.snd = steps.map Prod.snd)
    (hext : Leads Comp.refs left b (.at ['~', 'i', 'n', 'p', 'u', 't'] 0) .dest ∨
        Leads Comp.refs right b (.at ['~', 'i', 'n', 'p', 'u', 't'] 0) .dest →
      ∀ x, x ∈ steps.map Prod.snd → 2 ≤ x.length ∧ ∀ b, b ∈ x.take 2 → ∀ v, v ∈ b → v.Ok f32)
    (hL : Plays e1 stepsL e2 outsL) (hR : Plays f1 stepsR f2 outsR) (h : Plays g1 steps g2 outs) :
    outsL.length = outs.length ∧ outsR.length = outs.length ∧ ∀ t ch s, t < outs.length → ch < 2 → s < N →
      ∃ x y, sampleAt outsL t ch s = some x ∧ sampleAt outsR t ch s = some y ∧
        sampleAt outs t ch s = some (.fin 0 +. (if isMul then x *. y else x +. y)) := by
  by_cases hne : steps = []
  · subst hne
    have e1 : stepsL = [] := by simpa using hinL
    have e2 : stepsR = [] := by simpa using hinR
    subst e1 e2
    cases h
    cases hL
    cases hR
    exact ⟨rfl, rfl, fun t _ _ ht => absurd ht (Nat.not_lt_zero _)⟩
  have hcomp : (if isMul then Comp.mul (.ref r) else .add (.ref r)) = arithComp isMul (.ref r) := by cases isMul <;> rfl
  have hop : ∀ x y : Fl, (if isMul then x *. y else x +. y) = arithOp isMul x y := by intro x y; cases isMul <;> rfl
  rw [hcomp] at he
  have hcr : (arithComp isMul (.ref r)).refs = [r] := by cases isMul <;> rfl
  obtain ⟨startL, sigL, rfl, hsL⟩ := c49_texts_sound_as_written_partial hx hr0 heN τ codeL left hpL hcL huL stepsL outsL hL b hbL
  obtain ⟨startR, sigR, rfl, hsR⟩ := c49_texts_sound_as_written_partial hx hr1 hfN σ codeR right hpR hcR huR stepsR outsR hR b hbR
  obtain ⟨start, sig, rfl, hs⟩ := c49_texts_sound_as_written_partial hx hr2 hgN ρ code both hp hc hu steps outs h b hb
  rw [hinL] at hsL
  rw [hinR] at hsR
  have hne' : steps.map Prod.snd ≠ [] := by simpa using hne
  have hwL := glicol_parserWf P N fe codeL left hpL
  have hwR := glicol_parserWf P N fe codeR right hpR
  have hw := glicol_parserWf P N fe code both hp
  have hpos : 0 < comps.length := List.length_pos_iff.mpr (hwL.2 _ _ he.was)
  -- the places
  obtain ⟨n, hchR⟩ : ∃ n, Chain right b r (n + 1) := by
    obtain ⟨⟨r', rs⟩, h1, rfl⟩ := List.mem_map.mp ht.there
    have : 0 < rs.length := List.length_pos_iff.mpr (hwR.2 _ _ h1)
    exact ⟨rs.length - 1, by rw [Nat.sub_add_cancel this]; exact .prog h1⟩
  have hrg := Combine.heard_ne ht hr
  have hch : Chain both b r (n + 1) := Combine.heard_chain ht hrg hchR
  have hrk : r ≠ k := by
    rintro rfl
    obtain ⟨⟨r', rs⟩, h1, h2⟩ := List.mem_map.mp ht.there
    have h2 : r' = r := h2
    subst h2
    exact hrg (ht.only _ _ h1 he.track)
  have hmk : ∀ s, s ∈ (arithComp isMul (.ref r)).refs → ¬ Means s k := by
    intro s hs hmn
    rw [hcr, List.mem_singleton] at hs
    subst hs
    exact hrk (Parted.means_plain hmn hr).symm
  have hi : (comps ++ [arithComp isMul (.ref r)])[comps.length - 1 + 1]? = some (arithComp isMul (.ref r)) := by
    rw [Nat.sub_add_cancel hpos]; simp
  have hlead : Leads Comp.refs both b (.at k comps.length) .dest := .step ((Effect.out_wet he hw hc.noInput).mpr rfl) (.refl _)
  have hlr : Leads Comp.refs both b (.at r n) .dest := by
    refine .step (.ref he.now (i := comps.length) (c := arithComp isMul (.ref r)) (r := r) (by simp) (by rw [hcr]; simp) (.named hr) hch) hlead
  have hfk : Flow Comp.refs left b (.at k (comps.length - 1)) .dest := (Effect.out_dry he hwL hcL.noInput).mpr rfl
  have hlk := Combine.wet_leads he hwL hw hcL.noInput hc.noInput (.step hfk (.refl _))
  -- the signals
  have sameL := Combine.sub_same hx hxf hm hN hw hc.noInput hsL hs hne' hset' (Parse.sg_parse hpL) haL ha hfL (fun h => hext (.inl h))
    (S := fun p => p ≠ .dest ∧ Leads Comp.refs left b p .dest)
    (fun p hp => ⟨hp.1, hp.2, Combine.wet_leads he hwL hw hcL.noInput hc.noInput hp.2⟩)
    (fun q p hp hf => ⟨by (rintro rfl; obtain ⟨_, _, _, h, _⟩ := source_at hf; cases h), .step hf hp.2⟩)
    (fun p hp q => Effect.end_flow he hwL hw hcL.noInput hc.noInput hp.1 hp.2 q)
    (fun j cs i d _ hk hi => by
      obtain ⟨cs', h1, h2, -, -⟩ := Effect.comp_up he hwL hk hi
      exact ⟨cs', h1, h2⟩)
    (fun j cs i d s m _ hk hi hsr hdot hcc => Effect.chain_up he (by
      rintro rfl
      exact he.unused _ _ _ _ hk (List.mem_of_getElem? hi) hsr (.named hdot)) hcc)
    (.at k (comps.length - 1)) ⟨by simp, .step hfk (.refl _)⟩
  have okL := places_single hxf hm hsL hne' (Parse.sg_parse hpL) haL hfL (fun h => hext (.inl h)) _ _ hfk (.refl _)
  obtain ⟨dupR, okR⟩ := Combine.heard_same hx hxf hm hN ht hr hwR hcR.noInput hw hc.noInput hchR hlr hsR hs hne' (hset'.trans hset.symm)
    (Parse.sg_parse hpR) haR ha hfR (fun h => hext (.inr h))
  have outL := Effect.output_one hsL (fun q => Effect.out_dry he hwL hcL.noInput)
  have outR := Effect.output_one hsR (fun q => Combine.heard_out ht hwR hcR.noInput)
  have out := Effect.output_one hs (fun q => Effect.out_wet he hw hc.noInput)
  obtain ⟨old, o1, o2⟩ := ha k _ he.now
  have key := c50_arithmetic_partial (isMul := isMul) (r := r) (n := n) (i := comps.length - 1) hs hw he.now hi
    (by rw [Nat.sub_add_cancel hpos]; exact hlead) o1 (o2 _ (by simp)) hr hch hc.noInput
    (by intro h; injection h with h1 _; exact hrk h1)
    (by
      rw [Nat.sub_add_cancel hpos]
      intro hl
      rcases Combine.end_leads_out he hw hc.noInput hmk hl with h | h
      · injection h with _ h2; omega
      · cases h)
    (by
      rw [Nat.sub_add_cancel hpos]
      intro hl
      rcases Combine.end_leads_out he hw hc.noInput hmk hl with h | h
      · injection h with h1 _; exact hrk h1
      · cases h)
  rw [Nat.sub_add_cancel hpos] at key
  have hlen := hs.length .dest (.refl _)
  have hlenL := hsL.length .dest (.refl _)
  have hlenR := hsR.length .dest (.refl _)
  refine ⟨by rw [hlenL, hlen], by rw [hlenR, hlen], ?_⟩
  intro t ch s htl hch2 hsN
  obtain ⟨v, v1, v2⟩ := outL.2 t ch s (by omega) hch2 hsN
  obtain ⟨oy', w, hoy', hwy', w2⟩ := Combine.heard_sample dupR outR (t := t) (ch := ch) (s := s) (by omega) hch2 hsN
  obtain ⟨z, z1, z2⟩ := out.2 t ch s htl hch2 hsN
  refine ⟨_, _, v2, w2, ?_⟩
  obtain ⟨ox, hox, hvx⟩ := Option.bind_eq_some_iff.mp v1
  obtain ⟨oz, hoz, hzz⟩ := Option.bind_eq_some_iff.mp z1
  rw [sameL.1] at hox
  obtain ⟨zb, q1, q2⟩ := key t oz ox oy' hoz hox hoy' ch s v w hch2 hvx hwy'
  rw [Combine.sideAt_of (hs.shape _ hlead oz (List.mem_of_getElem? hoz)).1 q1, q2] at hzz
  cases hzz
  obtain ⟨bx, x1, x2⟩ := sideAt_mem hvx
  obtain ⟨by', y1, y2⟩ := sideAt_mem hwy'
  rw [z2, hop, Combine.both_again (okL ox (sameL.1 ▸ List.mem_of_getElem? hox) bx x1 v x2)
    ((okR oy' (List.mem_of_getElem? hoy') by' y1).2 w y2)]

/-- **C90** for `balance` (partial). Three texts, sent to three engines with the same settings, for which the components are new: a text
whose only track is `balance ~r ~r'` (`both`), and two texts whose only tracks are `~r` and `~r'`, with the same chains (`left`, `right`). Then
the left side of what `both` plays is the left side of what `left` plays, and its right side is the *left* side of what `right`
plays. Missing as in `c90_combine_partial`. -/
theorem c90_balance_partial (hx : ExtShape P N T) (hxf : ExtFirst P) (hm : Libm32 P.libm) (hN : 0 < N)
    (hr0 : CleanReach _ e0) (hr1 : CleanReach _ f0) (hr2 : CleanReach _ g0) (heN : e0.N = N) (hfN : f0.N = N) (hgN : g0.N = N)
    (hset : (⟨f0.samples, f0.sr, f0.bpm, f0.seed⟩ : Env) = ⟨e0.samples, e0.sr, e0.bpm, e0.seed⟩)
    (hset' : (⟨g0.samples, g0.sr, g0.bpm, g0.seed⟩ : Env) = ⟨e0.samples, e0.sr, e0.bpm, e0.seed⟩) (τ σ ρ : TableOrder) (codeL codeR code : Name)
    (left right both : Ast Comp) (hpL : Parse.parse fe codeL = .ok (some left)) (hpR : Parse.parse fe codeR = .ok (some right))
    (hp : Parse.parse fe code = .ok (some both))
    {k g g' r r' : Name} (ho : OneTrack both k (.balance r r'))
    (htL : HeardAs left both g r) (htR : HeardAs right both g' r') (hr : '.' ∉ r) (hr' : '.' ∉ r') (hrr : r ≠ r')
    (hcL : CleanProg (glicol P N (Parse.parse fe)) left) (hcR : CleanProg (glicol P N (Parse.parse fe)) right)
    (hc : CleanProg (glicol P N (Parse.parse fe)) both)
    (haL : AllNew e0 left) (haR : AllNew f0 right) (ha : AllNew g0 both) (huL : e0.updateWithCode τ codeL = .ok (e1, none))
    (huR : f0.updateWithCode σ codeR = .ok (f1, none)) (hu : g0.updateWithCode ρ code = .ok (g1, none)) (b : Bool)
    (hbL : b = true ↔ ['~', 'i', 'n', 'p', 'u', 't'] ∈ e1.index.map Prod.fst)
    (hbR : b = true ↔ ['~', 'i', 'n', 'p', 'u', 't'] ∈ f1.index.map Prod.fst)
    (hb : b = true ↔ ['~', 'i', 'n', 'p', 'u', 't'] ∈ g1.index.map Prod.fst)
    (hfL : FreeOf ByRole left b) (hfR : FreeOf ByRole right b)
    (stepsL stepsR steps : List (HashOrder × List Buf)) (outsL outsR outs : List (List Buf))
    (hinL : stepsL.map Prod.snd = steps.map Prod.snd) (hinR : stepsR.map Prod.snd = steps.map Prod.snd)
    (hext : Leads Comp.refs left b (.at ['~', 'i', 'n', 'p', 'u', 't'] 0) .dest ∨
        Leads Comp.refs right b (.at ['~', 'i', 'n', 'p', 'u', 't'] 0) .dest →
      ∀ x, x ∈ steps.map Prod.snd → 2 ≤ x.length ∧ ∀ b, b ∈ x.take 2 → ∀ v, v ∈ b → v.Ok f32)
    (hL : Plays e1 stepsL e2 outsL) (hR : Plays f1 stepsR f2 outsR) (h : Plays g1 steps g2 outs) :
    outsL.length = outs.length ∧ outsR.length = outs.length ∧ ∀ t s, t < outs.length → s < N →
      ∃ x y, sampleAt outs t 0 s = some x ∧ sampleAt outs t 1 s = some y ∧
        sampleAt outsL t 0 s = some x ∧ sampleAt outsR t 0 s = some y := by
  by_cases hne : steps = []
  · subst hne
    have e1 : stepsL = [] := by simpa using hinL
    have e2 : stepsR = [] := by simpa using hinR
    subst e1 e2
    cases h
    cases hL
    cases hR
    exact ⟨rfl, rfl, fun t _ ht => absurd ht (Nat.not_lt_zero _)⟩
  obtain ⟨startL, sigL, rfl, hsL⟩ := c49_texts_sound_as_written_partial hx hr0 heN τ codeL left hpL hcL huL stepsL outsL hL b hbL
  obtain ⟨startR, sigR, rfl, hsR⟩ := c49_texts_sound_as_written_partial hx hr1 hfN σ codeR right hpR hcR huR stepsR outsR hR b hbR
  obtain ⟨start, sig, rfl, hs⟩ := c49_texts_sound_as_written_partial hx hr2 hgN ρ code both hp hc hu steps outs h b hb
  rw [hinL] at hsL
  rw [hinR] at hsR
  have hne' : steps.map Prod.snd ≠ [] := by simpa using hne
  have hwL := glicol_parserWf P N fe codeL left hpL
  have hwR := glicol_parserWf P N fe codeR right hpR
  have hw := glicol_parserWf P N fe code both hp
  obtain ⟨n, hchL⟩ := Combine.heard_end (b := b) htL hwL
  obtain ⟨n', hchR⟩ := Combine.heard_end (b := b) htR hwR
  have hch : Chain both b r (n + 1) := Combine.heard_chain htL (Combine.heard_ne htL hr) hchL
  have hch' : Chain both b r' (n' + 1) := Combine.heard_chain htR (Combine.heard_ne htR hr') hchR
  have hlead : Leads Comp.refs both b (.at k 0) .dest := .step ((Combine.one_out ho hw hc.noInput).mpr rfl) (.refl _)
  have hlr : Leads Comp.refs both b (.at r n) .dest :=
    .step ((flow_into hw ho.now rfl).mpr (.inr ⟨r, r, n, by simp [Comp.refs], .named hr, hch, rfl⟩)) hlead
  have hlr' : Leads Comp.refs both b (.at r' n') .dest :=
    .step ((flow_into hw ho.now rfl).mpr (.inr ⟨r', r', n', by simp [Comp.refs], .named hr', hch', rfl⟩)) hlead
  obtain ⟨dupL, -⟩ := Combine.heard_same hx hxf hm hN htL hr hwL hcL.noInput hw hc.noInput hchL hlr hsL hs hne' hset'
    (Parse.sg_parse hpL) haL ha hfL (fun h => hext (.inl h))
  obtain ⟨dupR, -⟩ := Combine.heard_same hx hxf hm hN htR hr' hwR hcR.noInput hw hc.noInput hchR hlr' hsR hs hne' (hset'.trans hset.symm)
    (Parse.sg_parse hpR) haR ha hfR (fun h => hext (.inr h))
  have outL := Effect.output_one hsL (fun q => Combine.heard_out htL hwL hcL.noInput)
  have outR := Effect.output_one hsR (fun q => Combine.heard_out htR hwR hcR.noInput)
  have out := Effect.output_one hs (fun q => Combine.one_out ho hw hc.noInput)
  have key := Combine.balance_sounds hs hw hc.noInput hne' ho ha hr hr' hrr hch hch'
  have hlen := hs.length .dest (.refl _)
  have hlenL := hsL.length .dest (.refl _)
  have hlenR := hsR.length .dest (.refl _)
  refine ⟨by rw [hlenL, hlen], by rw [hlenR, hlen], ?_⟩
  intro t s htl hsN
  obtain ⟨l, x, r0, y, k1, k2, k3⟩ := key t (by omega)
  obtain ⟨ol, v, l1, l2, l3⟩ := Combine.heard_sample dupL outL (t := t) (ch := 0) (s := s) (by omega) (by omega) hsN
  obtain ⟨or, w, r1, r2, r3⟩ := Combine.heard_sample dupR outR (t := t) (ch := 0) (s := s) (by omega) (by omega) hsN
  rw [k2] at l1
  rw [k3] at r1
  cases l1
  cases r1
  rw [Combine.sideAt_of (hs.shape _ hlr _ (List.mem_of_getElem? k2)).1 (z := l) rfl] at l2
  rw [Combine.sideAt_of (hs.shape _ hlr' _ (List.mem_of_getElem? k3)).1 (z := r0) rfl] at r2
  obtain ⟨v', v1, v2⟩ := out.2 t 0 s htl (by omega) hsN
  obtain ⟨w', w1, w2⟩ := out.2 t 1 s htl (by omega) hsN
  rw [k1, Option.bind_some] at v1 w1
  have v1 : l[s]? = some v' := v1
  have w1 : r0[s]? = some w' := w1
  rw [l2] at v1
  rw [r2] at w1
  cases v1
  cases w1
  exact ⟨_, _, v2, w2, l3, r3⟩

end

/-! ### Examples -/

def leftText : Name := c!"~a: imp 22050 >> mul 3\n~m: ~a >> add 2\no: ~a >> add 1"

def rightText : Name := c!"~a: imp 22050 >> mul 3\n~m: ~a >> add 2\ng: ~m"

def bothText : Name := c!"~a: imp 22050 >> mul 3\n~m: ~a >> add 2\no: ~a >> add 1 >> mul ~m"

def leftProg : Ast Comp :=
  [(c!"~a", [.imp (.num (.fin 22050)), .mul (.num (.fin 3))]), (c!"~m", [.get c!"~a", .add (.num (.fin 2))]),
   (c!"o", [.get c!"~a", .add (.num (.fin 1))])]

def rightProg : Ast Comp :=
  [(c!"~a", [.imp (.num (.fin 22050)), .mul (.num (.fin 3))]), (c!"~m", [.get c!"~a", .add (.num (.fin 2))]), (c!"g", [.get c!"~m"])]

def bothProg : Ast Comp :=
  [(c!"~a", [.imp (.num (.fin 22050)), .mul (.num (.fin 3))]), (c!"~m", [.get c!"~a", .add (.num (.fin 2))]),
   (c!"o", [.get c!"~a", .add (.num (.fin 1)), .mul (.ref c!"~m")])]

theorem both_end : AtTheEnd leftProg bothProg c!"o" [.get c!"~a", .add (.num (.fin 1))] (.mul (.ref c!"~m")) := by
  refine ⟨by simp [leftProg], by simp [bothProg], ?_, by decide, ?_, ?_⟩
  · intro j cs hj
    simp [leftProg, bothProg, hj]
  · exact fun j cs h => (by decide : ∀ e ∈ leftProg, '~' ∉ e.1 → e.1 = c!"o") (j, cs) h
  · intro j cs d r h1 h2 h3 hm
    have := (by decide : ∀ e ∈ leftProg, ∀ c ∈ e.2, ∀ r ∈ c.refs, r = c!"~a") (j, cs) h1 d h2 r h3
    subst this
    exact absurd (Parted.means_plain hm (by decide)) (by decide)

theorem both_heard : HeardAs rightProg bothProg c!"g" c!"~m" := by
  have hrefs : ∀ j cs c s, (j, cs) ∈ rightProg → c ∈ cs → s ∈ c.refs → ∀ k, Means s k → k = c!"~a" ∨ k = c!"~m" := by
    intro j cs c s h1 h2 h3 k hm
    have := (by decide : ∀ e ∈ rightProg, ∀ c ∈ e.2, ∀ r ∈ c.refs, '.' ∉ r ∧ (r = c!"~a" ∨ r = c!"~m")) (j, cs) h1 c h2 s h3
    rw [Parted.means_plain hm this.1]
    exact this.2
  refine ⟨by simp [rightProg], by decide, by decide, ?_, ?_, ?_, ?_⟩
  · exact fun j cs h => (by decide : ∀ e ∈ rightProg, '~' ∉ e.1 → e.1 = c!"g") (j, cs) h
  · intro j cs h hj
    simp only [rightProg, bothProg, List.mem_cons, Prod.mk.injEq, List.not_mem_nil, or_false] at h ⊢
    tauto
  · intro j cs c s h1 h2 h3 hm
    exact absurd (hrefs j cs c s h1 h2 h3 _ hm) (by decide)
  · intro k comps hk hn j cs c s h1 h2 h3 hm
    rcases hrefs j cs c s h1 h2 h3 _ hm with rfl | rfl
    all_goals
      simp [rightProg, bothProg] at hk hn
      exact hn hk

theorem side_wise {prog : Ast Comp} (h : ∀ e, e ∈ prog → e ∈ leftProg ∨ e ∈ rightProg) (ha : c!"~a" ∈ prog.map Prod.fst)
    (hm : c!"~m" ∈ prog.map Prod.fst) (hl : (prog.filter (fun e => !decide ('~' ∈ e.1))).length ≤ 2) : Wise ByRole prog true := by
  have h : ∀ e, e ∈ prog → e ∈ leftProg ++ rightProg := fun e he => List.mem_append.mpr (h e he)
  refine ⟨⟨fun k => if k = c!"~a" then 0 else if k = c!"~m" then 1 else 2, ?_⟩, ?_, hl⟩
  · intro k comps c r h1 h2 h3
    have := (by decide : ∀ e ∈ leftProg ++ rightProg, ∀ c ∈ e.2, ∀ r ∈ c.refs, '.' ∉ r ∧ (r = c!"~a" ∨ r = c!"~m") ∧
      (if r = c!"~a" then 0 else if r = c!"~m" then 1 else 2) < (if e.1 = c!"~a" then 0 else if e.1 = c!"~m" then 1 else 2))
      (k, comps) (h _ h1) c h2 r h3
    obtain ⟨a1, a2, a3⟩ := this
    refine ⟨a1, .inl ?_, a3⟩
    rcases a2 with rfl | rfl
    · exact ha
    · exact hm
  · intro k comps i c h1 h2
    have h1 := h _ h1
    simp only [leftProg, rightProg, List.mem_cons, List.cons_append, List.nil_append, Prod.mk.injEq, List.not_mem_nil, or_false] at h1
    rcases h1 with ⟨rfl, rfl⟩ | ⟨rfl, rfl⟩ | ⟨rfl, rfl⟩ | ⟨rfl, rfl⟩ | ⟨rfl, rfl⟩ | ⟨rfl, rfl⟩ <;>
      rcases i with _ | _ | i <;> simp at h2 <;> subst h2 <;> first | trivial | (show _ ≤ 1; decide)

/-- A track multiplied by a chain: the hypotheses of `c90_combine_partial` are met. -/
example (fe : Name → Option Fl) :
    ExtShape notePlat 2 (fun _ => True) ∧ ExtFirst notePlat ∧ Libm32 notePlat.libm ∧ CleanReach _ (Engine.new (glicol notePlat 2 (parse fe)) 2) ∧
    parse fe leftText = .ok (some leftProg) ∧ parse fe rightText = .ok (some rightProg) ∧ parse fe bothText = .ok (some bothProg) ∧
    AtTheEnd leftProg bothProg c!"o" [.get c!"~a", .add (.num (.fin 1))] (if true then .mul (.ref c!"~m") else .add (.ref c!"~m")) ∧
    HeardAs rightProg bothProg c!"g" c!"~m" ∧ '.' ∉ c!"~m" ∧
    (∀ prog, prog = leftProg ∨ prog = rightProg ∨ prog = bothProg → CleanProg (glicol notePlat 2 (parse fe)) prog ∧
      AllNew (Engine.new (glicol notePlat 2 (parse fe)) 2) prog) ∧
    (∀ prog, prog = leftProg ∨ prog = rightProg → FreeOf ByRole prog true ∧
      ¬ Leads Comp.refs prog true (.at ['~', 'i', 'n', 'p', 'u', 't'] 0) .dest) ∧
    (∃ e1 e2, (Engine.new (glicol notePlat 2 (parse fe)) 2).updateWithCode .ident leftText = .ok (e1, none) ∧
      Plays e1 (List.replicate 2 (.rev, [])) e2 (List.replicate 2 [[.fin 4, .fin 1], [.fin 4, .fin 1]]) ∧
      ['~', 'i', 'n', 'p', 'u', 't'] ∈ e1.index.map Prod.fst) ∧
    (∃ e1 e2, (Engine.new (glicol notePlat 2 (parse fe)) 2).updateWithCode .ident rightText = .ok (e1, none) ∧
      Plays e1 (List.replicate 2 (.ident, [])) e2 (List.replicate 2 [[.fin 5, .fin 2], [.fin 5, .fin 2]]) ∧
      ['~', 'i', 'n', 'p', 'u', 't'] ∈ e1.index.map Prod.fst) ∧
    ∃ e1 e2, (Engine.new (glicol notePlat 2 (parse fe)) 2).updateWithCode .ident bothText = .ok (e1, none) ∧
      Plays e1 (List.replicate 2 (.ident, [])) e2 (List.replicate 2 [[.fin 20, .fin 2], [.fin 20, .fin 2]]) ∧
      ['~', 'i', 'n', 'p', 'u', 't'] ∈ e1.index.map Prod.fst := by
  have p1 : parse fe leftText = .ok (some leftProg) := by kernel_rfl
  have p2 : parse fe rightText = .ok (some rightProg) := by kernel_rfl
  have hwise : ∀ prog, prog = leftProg ∨ prog = rightProg → Wise ByRole prog true := by
    rintro prog (rfl | rfl)
    · exact side_wise (fun e he => .inl he) (by decide) (by decide) (by decide)
    · exact side_wise (fun e he => .inr he) (by decide) (by decide) (by decide)
  refine ⟨notePlat_meets.1, notePlat_first, notePlat_meets.2, .new 2, p1, p2, by kernel_rfl, both_end, both_heard, by decide, ?_, ?_,
    Demo.playsText_spec (by kernel_rfl), Demo.playsText_spec (by kernel_rfl), Demo.playsText_spec (by kernel_rfl)⟩
  · intro prog hp
    refine ⟨⟨?_, ?_⟩, fun k comps _ => ⟨[], .inr ⟨rfl, fun a ha => by cases ha⟩, fun _ _ _ ho => by cases ho⟩⟩
    · have hall : ∀ e ∈ leftProg ++ rightProg ++ bothProg, Distinct Comp.eq e.2 := by unfold Distinct; decide
      intro k c hm
      refine hall (k, c) ?_
      rcases hp with rfl | rfl | rfl
      · exact List.mem_append_left _ (List.mem_append_left _ hm)
      · exact List.mem_append_left _ (List.mem_append_right _ hm)
      · exact List.mem_append_right _ hm
    · rcases hp with rfl | rfl | rfl
      · exact show _ ∉ leftProg.map Prod.fst by decide
      · exact show _ ∉ rightProg.map Prod.fst by decide
      · exact show _ ∉ bothProg.map Prod.fst by decide
  · intro prog hp
    have hw := hwise prog hp
    constructor
    · rcases hp with rfl | rfl
      · exact wise_free (glicol_parserWf notePlat 2 fe leftText _ p1) (by decide) hw
      · exact wise_free (glicol_parserWf notePlat 2 fe rightText _ p2) (by decide) hw
    · have hin : ['~', 'i', 'n', 'p', 'u', 't'] ∉ prog.map Prod.fst := by rcases hp with rfl | rfl <;> decide
      intro hl
      obtain ⟨j, comps, c, h1, h2, h3⟩ := Parted.leads_input hin (Parted.plain_of hw) hl
      have : (j, comps) ∈ leftProg ++ rightProg := by
        rcases hp with rfl | rfl
        · exact List.mem_append_left _ h1
        · exact List.mem_append_right _ h1
      exact (by decide : ∀ e ∈ leftProg ++ rightProg, ∀ c ∈ e.2, ['~', 'i', 'n', 'p', 'u', 't'] ∉ c.refs) (j, comps) this c h2 h3

def aloneText : Name := c!"~a: imp 22050 >> mul 3\ng: ~a"

def balanceText : Name := c!"~a: imp 22050 >> mul 3\n~m: ~a >> add 2\no: balance ~a ~m"

def aloneProg : Ast Comp := [(c!"~a", [.imp (.num (.fin 22050)), .mul (.num (.fin 3))]), (c!"g", [.get c!"~a"])]

def balanceProg : Ast Comp :=
  [(c!"~a", [.imp (.num (.fin 22050)), .mul (.num (.fin 3))]), (c!"~m", [.get c!"~a", .add (.num (.fin 2))]),
   (c!"o", [.balance c!"~a" c!"~m"])]

theorem balance_one : OneTrack balanceProg c!"o" (.balance c!"~a" c!"~m") := by
  refine ⟨by simp [balanceProg], by decide, ?_, ?_⟩
  · exact fun j cs h => (by decide : ∀ e ∈ balanceProg, '~' ∉ e.1 → e.1 = c!"o") (j, cs) h
  · intro j cs d s h1 h2 h3 hm
    have := (by decide : ∀ e ∈ balanceProg, ∀ c ∈ e.2, ∀ r ∈ c.refs, '.' ∉ r ∧ r ≠ c!"o") (j, cs) h1 d h2 s h3
    exact this.2 (Parted.means_plain hm this.1).symm

theorem balance_right : HeardAs rightProg balanceProg c!"g" c!"~m" := by
  obtain ⟨h1, h2, h3, h4, _, h6, _⟩ := both_heard
  refine ⟨h1, h2, h3, h4, ?_, h6, ?_⟩
  · intro j cs h hj
    simp only [rightProg, balanceProg, List.mem_cons, Prod.mk.injEq, List.not_mem_nil, or_false] at h ⊢
    tauto
  · intro k comps hk hn j cs c s h1 h2 h3 hm
    have := (by decide : ∀ e ∈ rightProg, ∀ c ∈ e.2, ∀ r ∈ c.refs, '.' ∉ r ∧ (r = c!"~a" ∨ r = c!"~m")) (j, cs) h1 c h2 s h3
    obtain rfl := Parted.means_plain hm this.1
    rcases this.2 with rfl | rfl
    all_goals
      simp [rightProg, balanceProg] at hk hn
      exact hn hk

theorem balance_left : HeardAs aloneProg balanceProg c!"g" c!"~a" := by
  have hrefs : ∀ j cs c s, (j, cs) ∈ aloneProg → c ∈ cs → s ∈ c.refs → ∀ k, Means s k → k = c!"~a" := by
    intro j cs c s h1 h2 h3 k hm
    have := (by decide : ∀ e ∈ aloneProg, ∀ c ∈ e.2, ∀ r ∈ c.refs, '.' ∉ r ∧ r = c!"~a") (j, cs) h1 c h2 s h3
    rw [Parted.means_plain hm this.1]
    exact this.2
  refine ⟨by simp [aloneProg], by decide, by decide, ?_, ?_, ?_, ?_⟩
  · exact fun j cs h => (by decide : ∀ e ∈ aloneProg, '~' ∉ e.1 → e.1 = c!"g") (j, cs) h
  · intro j cs h hj
    simp only [aloneProg, balanceProg, List.mem_cons, Prod.mk.injEq, List.not_mem_nil, or_false] at h ⊢
    tauto
  · intro j cs c s h1 h2 h3 hm
    exact absurd (hrefs j cs c s h1 h2 h3 _ hm) (by decide)
  · intro k comps hk hn j cs c s h1 h2 h3 hm
    obtain rfl := hrefs j cs c s h1 h2 h3 _ hm
    simp [aloneProg, balanceProg] at hk hn
    exact hn hk

theorem alone_wise : Wise ByRole aloneProg true := by
  refine ⟨⟨fun k => if k = c!"~a" then 0 else 1, ?_⟩, ?_, by decide⟩
  · intro k comps c r h1 h2 h3
    exact (by decide : ∀ e ∈ aloneProg, ∀ c ∈ e.2, ∀ r ∈ c.refs, '.' ∉ r ∧
      (r ∈ aloneProg.map Prod.fst ∨ (true = true ∧ r = ['~', 'i', 'n', 'p', 'u', 't'])) ∧
      (if r = c!"~a" then 0 else 1) < (if e.1 = c!"~a" then 0 else 1)) (k, comps) h1 c h2 r h3
  · intro k comps i c h1 h2
    simp only [aloneProg, List.mem_cons, Prod.mk.injEq, List.not_mem_nil, or_false] at h1
    rcases h1 with ⟨rfl, rfl⟩ | ⟨rfl, rfl⟩ <;>
      rcases i with _ | _ | i <;> simp at h2 <;> subst h2 <;> first | trivial | (show _ ≤ 1; decide)

/-- Two chains on the two sides: the hypotheses of `c90_balance_partial` are met. -/
example (fe : Name → Option Fl) :
    ExtShape notePlat 2 (fun _ => True) ∧ ExtFirst notePlat ∧ Libm32 notePlat.libm ∧ CleanReach _ (Engine.new (glicol notePlat 2 (parse fe)) 2) ∧
    parse fe aloneText = .ok (some aloneProg) ∧ parse fe rightText = .ok (some rightProg) ∧ parse fe balanceText = .ok (some balanceProg) ∧
    OneTrack balanceProg c!"o" (.balance c!"~a" c!"~m") ∧ HeardAs aloneProg balanceProg c!"g" c!"~a" ∧
    HeardAs rightProg balanceProg c!"g" c!"~m" ∧ '.' ∉ c!"~a" ∧ '.' ∉ c!"~m" ∧ c!"~a" ≠ c!"~m" ∧
    (∀ prog, prog = aloneProg ∨ prog = rightProg ∨ prog = balanceProg → CleanProg (glicol notePlat 2 (parse fe)) prog ∧
      AllNew (Engine.new (glicol notePlat 2 (parse fe)) 2) prog) ∧
    (∀ prog, prog = aloneProg ∨ prog = rightProg → FreeOf ByRole prog true ∧
      ¬ Leads Comp.refs prog true (.at ['~', 'i', 'n', 'p', 'u', 't'] 0) .dest) ∧
    (∃ e1 e2, (Engine.new (glicol notePlat 2 (parse fe)) 2).updateWithCode .ident aloneText = .ok (e1, none) ∧
      Plays e1 (List.replicate 2 (.rev, [])) e2 (List.replicate 2 [[.fin 3, .fin 0], [.fin 3, .fin 0]]) ∧
      ['~', 'i', 'n', 'p', 'u', 't'] ∈ e1.index.map Prod.fst) ∧
    (∃ e1 e2, (Engine.new (glicol notePlat 2 (parse fe)) 2).updateWithCode .ident rightText = .ok (e1, none) ∧
      Plays e1 (List.replicate 2 (.ident, [])) e2 (List.replicate 2 [[.fin 5, .fin 2], [.fin 5, .fin 2]]) ∧
      ['~', 'i', 'n', 'p', 'u', 't'] ∈ e1.index.map Prod.fst) ∧
    ∃ e1 e2, (Engine.new (glicol notePlat 2 (parse fe)) 2).updateWithCode .ident balanceText = .ok (e1, none) ∧
      Plays e1 (List.replicate 2 (.ident, [])) e2 (List.replicate 2 [[.fin 3, .fin 0], [.fin 5, .fin 2]]) ∧
      ['~', 'i', 'n', 'p', 'u', 't'] ∈ e1.index.map Prod.fst := by
  have p1 : parse fe aloneText = .ok (some aloneProg) := by kernel_rfl
  have p2 : parse fe rightText = .ok (some rightProg) := by kernel_rfl
  have hwise : ∀ prog, prog = aloneProg ∨ prog = rightProg → Wise ByRole prog true := by
    rintro prog (rfl | rfl)
    · exact alone_wise
    · exact side_wise (fun e he => .inr he) (by decide) (by decide) (by decide)
  refine ⟨notePlat_meets.1, notePlat_first, notePlat_meets.2, .new 2, p1, p2, by kernel_rfl, balance_one, balance_left, balance_right,
    by decide, by decide, by decide, ?_, ?_,
    Demo.playsText_spec (by kernel_rfl), Demo.playsText_spec (by kernel_rfl), Demo.playsText_spec (by kernel_rfl)⟩
  · intro prog hp
    refine ⟨⟨?_, ?_⟩, fun k comps _ => ⟨[], .inr ⟨rfl, fun a ha => by cases ha⟩, fun _ _ _ ho => by cases ho⟩⟩
    · have hall : ∀ e ∈ aloneProg ++ rightProg ++ balanceProg, Distinct Comp.eq e.2 := by unfold Distinct; decide
      intro k c hm
      refine hall (k, c) ?_
      rcases hp with rfl | rfl | rfl
      · exact List.mem_append_left _ (List.mem_append_left _ hm)
      · exact List.mem_append_left _ (List.mem_append_right _ hm)
      · exact List.mem_append_right _ hm
    · rcases hp with rfl | rfl | rfl
      · exact show _ ∉ aloneProg.map Prod.fst by decide
      · exact show _ ∉ rightProg.map Prod.fst by decide
      · exact show _ ∉ balanceProg.map Prod.fst by decide
  · intro prog hp
    have hw := hwise prog hp
    constructor
    · rcases hp with rfl | rfl
      · exact wise_free (glicol_parserWf notePlat 2 fe aloneText _ p1) (by decide) hw
      · exact wise_free (glicol_parserWf notePlat 2 fe rightText _ p2) (by decide) hw
    · have hin : ['~', 'i', 'n', 'p', 'u', 't'] ∉ prog.map Prod.fst := by rcases hp with rfl | rfl <;> decide
      intro hl
      obtain ⟨j, comps, c, h1, h2, h3⟩ := Parted.leads_input hin (Parted.plain_of hw) hl
      have : (j, comps) ∈ aloneProg ++ rightProg := by
        rcases hp with rfl | rfl
        · exact List.mem_append_left _ h1
        · exact List.mem_append_right _ h1
      exact (by decide : ∀ e ∈ aloneProg ++ rightProg, ∀ c ∈ e.2, ['~', 'i', 'n', 'p', 'u', 't'] ∉ c.refs) (j, comps) this c h2 h3

end Verif.Props
