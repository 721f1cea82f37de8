import Verif.Spec.Demo
import Verif.Lemmas.KernelRfl
import Verif.Props.Api

/-! # Where updating the program goes wrong

C02, C05, C06, C13 and C16 are false in general.  Each theorem names a history of real programs after
which the property fails, whatever the library functions, scripts and hash orders of the platform `P`. -/

namespace Verif.Props
open Verif Spec

private def n (s : String) : Name := s.toList
private def i (q : ℚ) : NumRef := .num (.fin q)
private def c (q : ℚ) : Comp := .constsig (.fin q)
private def mono (x : Fl) : List Buf := [[x, x], [x, x]]

/-- `o: constsig 3 >> mul 2 >> add 1`, then `o: constsig 3 >> add 1 >> mul 2`. -/
def reorderProgs : List (Name × Ast Comp) :=
  [(n "1", [(n "o", [c 3, .mul (i 2), .add (i 1)])]),
   (n "2", [(n "o", [c 3, .add (i 1), .mul (i 2)])])]

/-- C02 fails when components change places: `o: constsig 3 >> add 1 >> mul 2` plays 8, but sent
after `o: constsig 3 >> mul 2 >> add 1` it plays 7 like the program before: the nodes stay in the
old order. -/
theorem c02_reorder_counterexample (P : Plat) :
    Demo.Plays P 2 (Demo.table reorderProgs) [n "2"] [] (mono (.fin 8)) ∧
    Demo.Plays P 2 (Demo.table reorderProgs) [n "1", n "2"] [] (mono (.fin 7)) :=
  ⟨Demo.heard_spec (by kernel_rfl), Demo.heard_spec (by kernel_rfl)⟩

/-- `o: constsig 3 >> mul 2`, then `o: constsig 3 >> mul 2 >> mul 2`. -/
def repeatProgs : List (Name × Ast Comp) :=
  [(n "1", [(n "o", [c 3, .mul (i 2)])]), (n "2", [(n "o", [c 3, .mul (i 2), .mul (i 2)])])]

/-- C02 fails for repeated components: `o: constsig 3 >> mul 2 >> mul 2` plays 12 and
`o: constsig 3 >> mul 2` plays 6, but sent after the other each of them keeps the sound of the
other: the repetition is neither added nor removed. -/
theorem c02_repeated_component_counterexample (P : Plat) :
    Demo.Plays P 2 (Demo.table repeatProgs) [n "1"] [] (mono (.fin 6)) ∧
    Demo.Plays P 2 (Demo.table repeatProgs) [n "1", n "2"] [] (mono (.fin 6)) ∧
    Demo.Plays P 2 (Demo.table repeatProgs) [n "2"] [] (mono (.fin 12)) ∧
    Demo.Plays P 2 (Demo.table repeatProgs) [n "2", n "1"] [] (mono (.fin 12)) :=
  ⟨Demo.heard_spec (by kernel_rfl), Demo.heard_spec (by kernel_rfl), Demo.heard_spec (by kernel_rfl),
    Demo.heard_spec (by kernel_rfl)⟩

/-- `o: constsig 3 >> mul 2`, then `o: constsig 3 >> mul 2 >> mul 2 >> add 1`. -/
def repeatPanicProgs : List (Name × Ast Comp) :=
  [(n "1", [(n "o", [c 3, .mul (i 2)])]),
   (n "2", [(n "o", [c 3, .mul (i 2), .mul (i 2), .add (i 1)])])]

/-- C05 fails for repeated components: with `o: constsig 3 >> mul 2` playing, sending
`o: constsig 3 >> mul 2 >> mul 2 >> add 1` panics (`Vec::insert` beyond the end of the chain). -/
theorem c05_repeated_component_panics (P : Plat) :
    Demo.UpdatePanics P 2 (Demo.table repeatPanicProgs) (Engine.new _ 2) [n "1", n "2"] :=
  Demo.updatePanics_spec (by kernel_rfl)

/-- `~a: constsig 3` and `o: constsig 1 >> mul ~a >> mul ~a`. -/
def resendProgs : List (Name × Ast Comp) :=
  [(n "1", [(n "~a", [c 3]), (n "o", [c 1, .mul (.ref (n "~a")), .mul (.ref (n "~a"))])])]

/-- C06 and C16 fail for repeated components: `~a: constsig 3` with
`o: constsig 1 >> mul ~a >> mul ~a` plays 9; sent a second time unchanged it is silent. -/
theorem c06_repeated_component_counterexample (P : Plat) :
    Demo.Plays P 2 (Demo.table resendProgs) [n "1"] [] (mono (.fin 9)) ∧
    Demo.Plays P 2 (Demo.table resendProgs) [n "1", n "1"] [] (mono (.fin 0)) :=
  ⟨Demo.heard_spec (by kernel_rfl), Demo.heard_spec (by kernel_rfl)⟩

/-- The connections behind the silence: after the second time the last `mul` (node 6) has no
connection from `~a` (node 3), the first one (node 5) has two. -/
theorem c06_repeated_component_edges (P : Plat) :
    ∃ e, Demo.Accepts P 2 (Demo.table resendProgs) (Engine.new _ 2) [n "1", n "1"] e ∧
      (n "~a", [3]) ∈ e.index ∧ (n "o", [4, 5, 6]) ∈ e.index ∧ (3, 6) ∉ e.graph.edges ∧
      e.graph.edges.count (3, 5) = 2 := by
  have h : ((Demo.sent P 2 resendProgs [n "1", n "1"] (Engine.new _ 2)).map
      (fun e => (e.index, e.graph.edges))) =
      some ([(n "~input", [2]), (n "~a", [3]), (n "o", [4, 5, 6])],
        [(6, 0), (5, 6), (4, 5), (3, 5), (3, 5)]) := by kernel_rfl
  obtain ⟨e, he, hf⟩ := Option.map_eq_some_iff.mp h
  obtain ⟨h1, h2⟩ := Prod.mk.inj hf
  refine ⟨e, Demo.sent_accepts he, ?_⟩
  rw [h1, h2]
  decide

/-- `~a: constsig 72`, `~b: constsig 84` and `o: speed 22050 >> seq ~a ~a ~b _`. -/
def seqProgs : List (Name × Ast Comp) :=
  [(n "1", [(n "~a", [c 72]), (n "~b", [c 84]),
    (n "o", [.speed (.fin 22050), .seq [(.fin 0, .ref (n "~a")), (.fin (1 / 4), .ref (n "~a")),
      (.fin (2 / 4), .ref (n "~b"))]])])]

/-- C16 fails for sequences that mention a chain twice: `o: speed 22050 >> seq ~a ~a ~b _` plays the
pitches of `~a`, `~a`, `~b`; sent a second time unchanged it plays `~a`, `~a`, `~a`. (`up 1` and
`up 2` are the pitches of 72 and 84, one and two octaves above 60.) -/
theorem c16_seq_sources_counterexample (P : Plat) :
    let up (k : Nat) : Fl := .fin 0 +. P.libm.powf (.fin 2) (.fin k)
    Demo.Plays P 4 (Demo.table seqProgs) [n "1"] []
      [[up 1, up 1, up 2, .fin 0], [.fin 0, .fin 0, .fin 0, .fin 0]] ∧
    Demo.Plays P 4 (Demo.table seqProgs) [n "1", n "1"] []
      [[up 1, up 1, up 1, .fin 0], [.fin 0, .fin 0, .fin 0, .fin 0]] :=
  ⟨Demo.heard_spec (by kernel_rfl), Demo.heard_spec (by kernel_rfl)⟩

/-- `~input: constsig 3` and `o: ~input`. -/
def redefineProgs : List (Name × Ast Comp) :=
  [(n "1", [(n "~input", [c 3]), (n "o", [.get (n "~input")])])]

theorem mono_input_panics {L : Lang} {e : Engine L} {i : Nat} {rest : List Nat} {d : L.Data}
    (h1 : lookup e.index inputName = some (i :: rest)) (h2 : e.graph.node? i = some d)
    (h3 : d.buffers.length = 1) (ho : HashOrder) (b0 b1 : List L.Num) :
    ∃ p, e.nextBlock ho [b0, b1] = .error p := by
  have hi : i < e.graph.slots.length := slot_lt h2
  suffices h : ∃ p, e.copyInputs [b0, b1] = .error p by
    obtain ⟨p, hp⟩ := h
    exact ⟨p, by unfold Engine.nextBlock; rw [hp]; rfl⟩
  obtain ⟨x, hx⟩ : ∃ x, d.buffers = [x] := by
    match hb : d.buffers, h3 with
    | [x], _ => exact ⟨x, rfl⟩
  show ∃ p, (e.copyInput 0 b0 >>= fun e1 => e1.copyInput 1 b1) = .error p
  by_cases hb : x.length = b0.length
  · have hc : e.copyInput 0 b0 = .ok { e with graph := { e.graph with
        slots := e.graph.slots.set i (some ⟨d.node, [b0]⟩) } } := by
      unfold Engine.copyInput
      simp only [h1, List.getElem?_cons_zero, Graph.modify, h2, hx, hb, if_true, bind, Except.bind,
        List.set_cons_zero]
    have hn : ({ e.graph with slots := e.graph.slots.set i (some ⟨d.node, [b0]⟩) } :
        Graph L.Data).node? i = some ⟨d.node, [b0]⟩ := by
      unfold Graph.node?
      simp [hi]
    refine ⟨.indexOutOfBounds, ?_⟩
    rw [hc]
    show Engine.copyInput _ 1 b1 = _
    unfold Engine.copyInput
    simp only [h1, List.getElem?_cons_zero, Graph.modify, hn, bind, Except.bind]
    rfl
  · refine ⟨.lengthMismatch, ?_⟩
    have hc : e.copyInput 0 b0 = .error .lengthMismatch := by
      unfold Engine.copyInput
      simp only [h1, List.getElem?_cons_zero, Graph.modify, h2, hx, hb, if_false, bind, Except.bind]
    rw [hc]
    rfl

/-- C13 fails when a program defines `~input` itself: the next block with external input panics. -/
theorem c13_redefined_input_panics (P : Plat) :
    Demo.InputPanics P 2 (Demo.table redefineProgs) [n "1"] := by
  have h : ((Demo.sent P 2 redefineProgs [n "1"] (Engine.new _ 2)).map
      (fun e => (lookup e.index inputName, (e.graph.node? 3).map (fun d => d.buffers.length)))) =
      some (some [3, 2], some 1) := by kernel_rfl
  obtain ⟨e, he, hf⟩ := Option.map_eq_some_iff.mp h
  obtain ⟨h1, h2⟩ := Prod.mk.inj hf
  obtain ⟨d, hd, hl⟩ := Option.map_eq_some_iff.mp h2
  refine ⟨e, Demo.sent_accepts he, ?_⟩
  intro ho b0 b1
  exact mono_input_panics h1 hd hl ho b0 b1

end Verif.Props
