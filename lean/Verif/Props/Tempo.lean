import Verif.Lemmas.Tempo
import Verif.Lemmas.KernelRfl
import Verif.Spec.Demo

/-!
# Changes of tempo (C15)
-/

namespace Verif.Spec

/-- After `set_bpm(b)` a node that was built from `c` earlier sounds like one that was built at tempo `b`
from the start and went through the same blocks and messages. -/
def KeepsUp (P : Plat) (N : Nat) (c : Comp) : Prop :=
  ∀ (env : Env) (b : Fl) (past fut : List Ev) (n n' : GNode P) (o o' : List Buf),
    Becomes P N env c past n o →
    Becomes P N (env.atTempo b) c (past.filter (fun e => !e.isTempo)) n' o' →
    sound n o (.msg (.setBPM b) :: fut) = sound n' o' fut

/-- The components that C15 is not claimed for: breakpoints, `arrange`, sample patterns and filter patterns
(which do not keep up with the tempo, see below), and the scripted nodes (not modelled). -/
def Timed (c : Comp) : Bool :=
  match c with
  | .points .. | .arrange _ | .psampler .. | .lpf (.pattern ..) _ | .metaScript _ | .eval _ => true
  | _ => false

end Verif.Spec

namespace Verif.Props
open Spec

/-- Apart from `seq` and `constsig` nothing in the fresh node depends on the tempo. -/
theorem makePrim_tempo {m : Libm} {samples : List (Name × Sample)} {sr seed : Nat} {a : Fl} {c : Comp}
    (hc : Timed c = false) {q : Nat × Prim} (h : makePrim m samples sr a seed c = some (.ok q)) :
    (q.2.tempo = false ∧ ∀ b, makePrim m samples sr b seed c = some (.ok q)) ∨
    (∃ ev, c = .seq ev) ∨ ∃ v, c = .constsig v := by
  have lift : ∀ {α : Type} {f : α → Nat × Prim} {x : Except Stop α},
      some (do let y ← x; Except.ok (f y)) = some (.ok q) → (∀ y, (f y).2.tempo = false) → q.2.tempo = false := by
    intro α f x h hf
    cases x with
    | error e => cases h
    | ok y => cases h; exact hf y
  cases c
  case seq ev => exact .inr (.inl ⟨ev, rfl⟩)
  case constsig v => exact .inr (.inr ⟨v, rfl⟩)
  all_goals refine .inl ?_
  case sp s =>
    refine ⟨?_, fun b => h⟩
    simp only [makePrim] at h
    cases k : lookup samples s with
    | none => rw [k] at h; cases h
    | some x => rw [k] at h; exact lift h (fun _ => rfl)
  case delayn p => cases p <;> (cases h; exact ⟨rfl, fun _ => rfl⟩)
  case lpf s q =>
    cases s with
    | pattern _ _ => cases hc
    | event _ => cases h
    | num v => cases h; exact ⟨rfl, fun _ => rfl⟩
    | ref v => cases h; exact ⟨rfl, fun _ => rfl⟩
  case patternSynth s _ => exact ⟨lift h (fun _ => rfl), fun b => h⟩
  case apfmsgain d g => exact ⟨lift h (fun _ => rfl), fun b => h⟩
  all_goals first
    | (cases hc; done)
    | (cases h; done)
    | (cases h; exact ⟨rfl, fun _ => rfl⟩)

/-- The two nodes fresh from the factory differ in the tempo alone. -/
theorem make_atTempo {P : Plat} {N : Nat} {samples : List (Name × Sample)} {sr seed : Nat} {a b : Fl} {c : Comp}
    (hc : Timed c = false) {d d' : NodeData (GNode P) Buf} {r r' : List Name}
    (h1 : makeNode P N samples sr a seed c = .ok (d, r)) (h2 : makeNode P N samples sr b seed c = .ok (d', r')) :
    AtTempo b d.node d.buffers d'.node d'.buffers := by
  cases k : makePrim P.libm samples sr a seed c with
  | some x =>
    cases x with
    | error e => simp only [makeNode, k] at h1; cases h1
    | ok q =>
      rcases makePrim_tempo hc k with ⟨hq, hk⟩ | ⟨ev, rfl⟩ | ⟨v, rfl⟩
      · simp only [makeNode, k] at h1
        simp only [makeNode, hk b] at h2
        cases h1; cases h2
        exact .steady _ _ hq
      · cases h1; cases h2; exact .seq _ _ _ (.inl rfl)
      · cases h1; cases h2; exact .const _ _ _
  | none =>
    have k' : makePrim P.libm samples sr b seed c = none := by
      cases c <;> first
        | rfl
        | (cases k; done)
        | skip
      case delayn p => cases p <;> cases k
      case lpf s q => cases s <;> cases k
      case psampler e s => cases s <;> cases k
    have steady : d.node.steady ∧ d' = d := by
      unfold makeNode at h1 h2
      rw [k] at h1
      rw [k'] at h2
      dsimp only at h1 h2
      cases l : makeCompound P.libm N c with
      | some x =>
        rw [l] at h1 h2
        dsimp only at h1 h2
        cases x with
        | error e => cases h1
        | ok y => cases h1; cases h2; exact ⟨trivial, rfl⟩
      | none =>
        rw [l] at h1
        cases c <;> first
          | (cases hc; done)
          | (cases h1; done)
    rw [steady.2]
    exact .steady _ _ steady.1

/-- C15 for one node. -/
theorem keepsUp {P : Plat} {N : Nat} {c : Comp} (hc : Timed c = false) : KeepsUp P N c := by
  rintro env b past fut n n' o o' ⟨d, r, outs, h1, h2⟩ ⟨d', r', outs', h1', h2'⟩
  obtain ⟨n1, hm, ha⟩ := ((make_atTempo hc h1 h1').live h2 h2').change
  replace hm : msgG P n (.setBPM b) = .ok n1 := hm
  rw [← alike_sound ha fut]
  simp only [sound, live]
  rw [hm]

/-- C15 (partial: not for breakpoints, `arrange`, sample patterns, filter patterns and scripted nodes, see
the counterexamples). `set_bpm(b)` is accepted whenever no node refuses the message; then nodes built later
get tempo `b`, and every node that was built from `c`, whatever has happened to it since, sounds from now on
as if it had been built at tempo `b`. -/
theorem c15_tempo_partial {P : Plat} {N : Nat} {parse : Name → Except Panic (Option (Ast Comp))}
    {e e' : Engine (glicol P N parse)} {b : Fl} (h : e.setBpm b = .ok e') :
    e'.bpm = b ∧
    ∀ (i : Nat) (n : GNode P) (o : List Buf), e.graph.node? i = some ⟨n, o⟩ →
      ∃ n1, e'.graph.node? i = some ⟨n1, o⟩ ∧
        ∀ (c : Comp) (env : Env) (past fut : List Ev) (n' : GNode P) (o' : List Buf), Timed c = false →
          Becomes P N env c past n o →
          Becomes P N (env.atTempo b) c (past.filter (fun e => !e.isTempo)) n' o' →
          sound n1 o fut = sound n' o' fut := by
  obtain ⟨hb, _, hn⟩ := setBpm_nodes h
  refine ⟨by rw [hb], fun i n o hi => ?_⟩
  have := hn i
  rw [hi] at this
  obtain ⟨n1, hm, h1⟩ := this
  refine ⟨n1, h1, fun c env past fut n' o' hc hp hp' => ?_⟩
  rw [← keepsUp hc env b past fut n n' o o' hp hp']
  have hm' : msgG P n (.setBPM b) = .ok n1 := hm
  simp only [sound, live, hm']

/-- A sequencer in an engine whose tempo changes after a block. -/
def tempoNode (P : Plat) : GNode P := .prim (.seq ⟨[(.fin 0, .nat 60), (.fin (1 / 2), .nat 72)], [], .fin 1, .fin 120, 8, 4, []⟩)

example (P : Plat) : Becomes P 4 ⟨[], 8, .fin 120, 0⟩ (.seq [(.fin 0, .nat 60), (.fin (1 / 2), .nat 72)])
    [.block []] (tempoNode P) [[P.libm.powf (.fin 2) (.fin 0), .fin 0, .fin 0, .fin 0], [.fin 0, .fin 0, .fin 0, .fin 0]] :=
  by
  refine ⟨_, _, [[[P.libm.powf (.fin 2) (.fin 0), .fin 0, .fin 0, .fin 0], [.fin 0, .fin 0, .fin 0, .fin 0]]], rfl, ?_⟩
  kernel_rfl

example (P : Plat) : Becomes P 4 ⟨[], 8, .fin 240, 0⟩ (.seq [(.fin 0, .nat 60), (.fin (1 / 2), .nat 72)])
    [.block []] (.prim (.seq ⟨[(.fin 0, .nat 60), (.fin (1 / 2), .nat 72)], [], .fin 1, .fin 240, 8, 4, []⟩))
    [[P.libm.powf (.fin 2) (.fin 0), .fin 0, .fin 0, .fin 0], [.fin 0, .fin 0, .fin 0, .fin 0]] :=
  by
  refine ⟨_, _, [[[P.libm.powf (.fin 2) (.fin 0), .fin 0, .fin 0, .fin 0], [.fin 0, .fin 0, .fin 0, .fin 0]]], rfl, ?_⟩
  kernel_rfl

/-! ### What does not keep up -/

/-- The two sounds differ. -/
theorem not_keepsUp {P : Plat} {N : Nat} {c : Comp} (env : Env) (b : Fl) (past fut : List Ev) {n n' : GNode P}
    {o o' : List Buf} {x y : Except Panic (List (List Buf))} (h1 : Becomes P N env c past n o)
    (h2 : Becomes P N (env.atTempo b) c (past.filter (fun e => !e.isTempo)) n' o')
    (h3 : sound n o (.msg (.setBPM b) :: fut) = x) (h4 : sound n' o' fut = y) (h5 : x ≠ y) : ¬ KeepsUp P N c := by
  intro h
  exact h5 (h3.symm.trans ((h env b past fut n n' o o' h1 h2).trans h4))

/-- C15 fails for `arrange`: at 8 samples a second and 240 beats a minute a bar has 8 samples; after
`set_bpm(480)` the second part must begin at sample 4 but begins at sample 8. -/
theorem c15_arrange_counterexample (P : Plat) :
    ¬ KeepsUp P 8 (.arrange [.ref "~a".toList, .num (.fin 1), .ref "~b".toList, .num (.fin 1)]) := by
  refine not_keepsUp ⟨[], 8, .fin 240, 0⟩ (.fin 480) [.msg (.index 1), .msg (.index 2)]
    [.block [(1, [List.replicate 8 (.fin 1)]), (2, [List.replicate 8 (.fin 2)])]]
    ⟨_, _, _, rfl, rfl⟩ ⟨_, _, _, rfl, rfl⟩
    (x := .ok [[List.replicate 8 (.fin 1), List.replicate 8 (.fin 0)]])
    (y := .ok [[List.replicate 4 (.fin 1) ++ List.replicate 4 (.fin 2), List.replicate 8 (.fin 0)]])
    (by kernel_rfl) (by kernel_rfl) (by decide)

/-- C15 fails for sample patterns: the sample (one frame) that is due in the middle of the bar is played at sample 4
instead of sample 2. -/
theorem c15_psampler_counterexample (P : Plat) :
    ¬ KeepsUp P 8 (.psampler [(.sym "x".toList, .fin (1 / 2))] (some (.fin 1))) := by
  refine not_keepsUp ⟨[("x".toList, ⟨[.fin 1, .fin 1], 1, 8⟩)], 8, .fin 240, 0⟩ (.fin 480) []
    [.block []]
    ⟨_, _, _, rfl, rfl⟩ ⟨_, _, _, rfl, rfl⟩
    (x := .ok [[[.fin 0, .fin 0, .fin 0, .fin 0, .fin 1, .fin 1, .fin 1, .fin 0],
      [.fin 0, .fin 0, .fin 0, .fin 0, .fin 1, .fin 1, .fin 1, .fin 0]]])
    (y := .ok [[[.fin 0, .fin 0, .fin 1, .fin 1, .fin 1, .fin 0, .fin 1, .fin 1],
      [.fin 0, .fin 0, .fin 1, .fin 1, .fin 1, .fin 0, .fin 1, .fin 1]]])
    (by kernel_rfl) (by kernel_rfl) (by decide)

/-- C15 fails for breakpoints: the places of the points stay those of the old tempo. -/
theorem c15_points_counterexample (P : Plat) :
    ¬ KeepsUp P 8 (.points [(⟨.fin 0, none⟩, .fin 0), (⟨.fin (1 / 2), none⟩, .fin 8)] (.fin 1) true) := by
  refine not_keepsUp ⟨[], 8, .fin 240, 0⟩ (.fin 480) []
    [.block []]
    ⟨_, _, _, rfl, rfl⟩ ⟨_, _, _, rfl, rfl⟩
    (x := .ok [[[.fin 0, .fin 2, .fin 4, .fin 6, .fin 0, .fin 2, .fin 4, .fin 6]]])
    (y := .ok [[[.fin 0, .fin 4, .fin 8, .fin 4, .fin 0, .fin 4, .fin 8, .fin 4]]])
    (by kernel_rfl) (by kernel_rfl) (by decide)

/-- C15 fails for a filter pattern: at a tempo at which the bar has no sample every block panics; the
panic remains after `set_bpm(120)`, at which a new node plays. -/
theorem c15_lpf_counterexample (P : Plat) :
    ¬ KeepsUp P 1 (.lpf (.pattern [(.num (.fin 500), .fin 0)] (.fin 1)) (.fin 1)) := by
  refine not_keepsUp ⟨[], 8, .fin 2400, 0⟩ (.fin 120) []
    [.block [(0, [[.fin 1]])]]
    ⟨_, _, _, rfl, rfl⟩ ⟨_, _, _, rfl, rfl⟩
    (x := .error .divByZero)
    (y := .ok [[[(biquadStep (rlpfCoef P.libm (.fin 500) (.fin 1) 8) Biquad.zero (.fin 1)).2]]])
    (by kernel_rfl) (by kernel_rfl) (by intro h; cases h)

end Verif.Props
