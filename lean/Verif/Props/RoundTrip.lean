import Verif.Lemmas.Written
import Verif.Lemmas.Print
import Verif.Lemmas.KernelRfl
import Verif.Spec.Demo

/-!
# Writing a program and reading it back

`fe` stands for the library `fasteval` that computes the factor after a list of points; it is arbitrary.
-/

namespace Verif.Props
open Parse Spec

/-- C32, partial: every text that writes a program with distinct names parses to exactly this program. Missing:
`eval`, for which it fails (`c32_eval_counterexample`), and what `Spec.Writes` does not cover: a list of points without
blanks between the points, and blanks, line ends and comments in places where the relation has none. -/
theorem c32_written_programs_parse_partial (fe : Name → Option Fl) {p : List (Name × List Comp)} {t : Name} (h : WProg fe p t)
    (hd : (p.map Prod.fst).Nodup) : parse fe t = .ok (some p) := by
  have := Read.getAst_written h
  rw [putAll_distinct (by simpa using hd)] at this
  simp only [parse, this, List.nil_append]

/-- C32 with repeated names: the text is accepted, and every name has its last definition. -/
theorem c32_written_definitions_last_wins_partial (fe : Name → Option Fl) {p : List (Name × List Comp)} {t : Name}
    (h : WProg fe p t) : ∃ q, parse fe t = .ok (some q) ∧ ∀ k cs, (k, cs) ∈ q ↔ LastOf p k cs := by
  refine ⟨putAll p [], ?_, fun k cs => mem_table⟩
  simp only [parse, Read.getAst_written h]

/-- C32, the other half: every printable program has a text that writes it, and that text parses to it. -/
theorem c32_printable_programs_have_a_text_partial (fe : Name → Option Fl) {p : List (Name × List Comp)}
    (h : PrintableProg p) : ∃ t, WProg fe p t ∧ parse fe t = .ok (some p) := by
  obtain ⟨t, ht⟩ := prog_exists fe h.2
  exact ⟨t, ht, c32_written_programs_parse_partial fe ht h.1⟩

/-- The hypotheses: a program with a number, a reference, a pattern, a list of points and a reference without a sign. -/
example : PrintableProg [(c!"~a", [.sin (.num (.fin 440)), .mul (.ref c!"~b")]),
    (c!"o", [.seq (seqEvents [[.note 60, .rest], [.note 7]]), .choose [.fin 3, .nz]]),
    (c!"p", [.points [(⟨.fin 3, some (.ms (.fin 3))⟩, .fin 440)] (.fin 1) true, .get c!"foo"])] := by
  have s440 : Single (.fin 440) := ⟨rfl, false, 440, by decide +kernel⟩
  have s3 : SingleInt (.fin 3) := ⟨⟨rfl, false, 3, by decide +kernel⟩, 3, rfl⟩
  have sz : SingleInt .nz := ⟨⟨rfl, true, 0, by decide +kernel⟩, 0, rfl⟩
  have hb : WRef c!"~b" := .mk (Or.inl rfl) (.mk (t := []) (d := []) (by decide) (by decide) (by simp) (Or.inl rfl))
  have ha : WRef c!"~a" := .mk (Or.inl rfl) (.mk (t := []) (d := []) (by decide) (by decide) (by simp) (Or.inl rfl))
  have ho : WName c!"o" := .bare (.mk (t := []) (d := []) (by decide) (by decide) (by simp) (Or.inl rfl))
  have hp : WName c!"p" := .bare (.mk (t := []) (d := []) (by decide) (by decide) (by simp) (Or.inl rfl))
  have hf : WVar c!"foo" :=
    .bare (.mk (t := c!"oo") (d := []) (by decide) (by decide) (by simp [TailChar]) (Or.inl rfl)) (by decide)
  refine ⟨by decide, ?_⟩
  intro l hl
  simp only [List.mem_cons, List.not_mem_nil, or_false] at hl
  rcases hl with rfl | rfl | rfl
  · refine ⟨.ref ha, by simp, ?_⟩
    intro c hc
    simp only [List.mem_cons, List.not_mem_nil, or_false] at hc
    rcases hc with rfl | rfl
    · exact s440
    · exact .ref hb
  · refine ⟨ho, by simp, ?_⟩
    intro c hc
    simp only [List.mem_cons, List.not_mem_nil, or_false] at hc
    rcases hc with rfl | rfl
    · refine ⟨_, by simp, ?_, rfl⟩
      intro g hg
      simp only [List.mem_cons, List.not_mem_nil, or_false] at hg
      rcases hg with rfl | rfl <;> simp [Elem]
    · refine ⟨by simp, ?_⟩
      intro v hv
      simp only [List.mem_cons, List.not_mem_nil, or_false] at hv
      rcases hv with rfl | rfl
      · exact s3
      · exact sz
  · refine ⟨hp, by simp, ?_⟩
    intro c hc
    simp only [List.mem_cons, List.not_mem_nil, or_false] at hc
    rcases hc with rfl | rfl
    · refine ⟨?_, Or.inr ⟨rfl, rfl⟩⟩
      intro p hp
      simp only [List.mem_cons, List.not_mem_nil, or_false] at hp
      rw [hp]
      exact ⟨s3.1, s3.1, s440⟩
    · exact hf

/-- C32 fails for `eval`: its code loses the first and the last character, so that what is written is not what is read. -/
theorem c32_eval_counterexample : ∀ fe,
    parse fe c!"o: eval `x+y`" = .ok (some [(c!"o", [.eval c!"+"])]) := fun fe => by kernel_rfl

instance : DecidablePred Digit := fun c => inferInstanceAs (Decidable ('0' ≤ c ∧ c ≤ '9'))

/-- A program of two lines. -/
example (fe : Name → Option Fl) : WProg fe [(c!"~a", [.sin (.num (.fin 440)), .mul (.ref c!"~b")]), (c!"o", [.seq (seqEvents [[.note 60, .rest], [.note 7]])])]
    c!"\n~a: sin 440\n  >> mul ~b;\no: seq 60_ 7" := by
  have d440 : Fl.fin 440 = Fl.round f32 false (signed false (decimal c!"440")) := by decide +kernel
  have ha : WRef c!"~a" := .mk (Or.inl rfl) (.mk (t := []) (d := []) (by decide) (by decide) (by simp) (Or.inl rfl))
  have hb : WRef c!"~b" := .mk (Or.inl rfl) (.mk (t := []) (d := []) (by decide) (by decide) (by simp) (Or.inl rfl))
  have ho : WName c!"o" := .bare (.mk (t := []) (d := []) (by decide) (by decide) (by simp) (Or.inl rfl))
  have g : Gap [' '] := ⟨by simp, by simp [Blanks, Blank]⟩
  have bl : Blanks [' '] := by simp [Blanks, Blank]
  have bn : Blanks [] := by simp [Blanks]
  have hsin : Writes fe (.sin (.num (.fin 440))) c!"sin 440" :=
    .arg (kw := c!"sin") (g := [' ']) (t := c!"440") (f := .sin) (by simp [argKinds]) g
      (.num (.int (by
        rw [d440]
        exact .mk (s := []) .none ⟨by decide, by decide⟩)))
  have hmul : Writes fe (.mul (.ref c!"~b")) c!"mul ~b" :=
    .arg (kw := c!"mul") (g := [' ']) (f := .mul) (by simp [argKinds]) g (.ref (.ref hb))
  have h60 : WNat 60 c!"60" := .plain (t := c!"60") ⟨by decide, by decide⟩
  have h7 : WNat 7 ['7'] := .plain (t := ['7']) ⟨by decide, by decide⟩
  have hseq : Writes fe (.seq (seqEvents [[.note 60, .rest], [.note 7]])) c!"seq 60_ 7" :=
    .seq (g := [' ']) (t := c!"60_ 7") g (.cons (t := c!"60_") (g := [' ']) (u := c!"7")
      (.note (t := c!"60") (u := ['_']) h60 (by decide) .lastRest (by decide)) g
      (.one (.last h7 (by decide))))
  exact .body (w := ['\n']) (s := []) (t := c!"~a: sin 440\n  >> mul ~b;\no: seq 60_ 7") (by simp [Spaces]) .nil
    (.cons (t := c!"~a: sin 440\n  >> mul ~b") (s := c!";\n") (u := c!"o: seq 60_ 7")
      (.mk (k := c!"~a") (a := []) (b := [' ']) (t := c!"sin 440\n  >> mul ~b") (.ref ha) bn bl
        (.cons (t := c!"sin 440") (j := c!"\n  ") (d := [' ']) (u := c!"mul ~b") hsin
          (.blank (a := []) (n := ['\n']) (b := c!"  ") bn (Or.inr rfl) (by simp [Blanks, Blank])) bl (.one hmul)))
      (.semi (a := []) (b := []) (t := ['\n']) bn bn (.cons (a := []) bn .nil))
      (.last (t := c!"o: seq 60_ 7") (b := [])
        (.mk (k := c!"o") (a := []) (b := [' ']) (t := c!"seq 60_ 7") ho bn bl (.one hseq)) bn))

/-- A comment, and a loop of points with a fraction of a bar, an offset to the left and a comment before `>>`. -/
example (fe : Name → Option Fl) : WProg fe
    [(c!"o", [.points [(⟨.fin (1 / 2), some (.ms (.fin (-3)))⟩, .fin (-2))] (.fin 1) true, .mul (.ref c!"amp")])]
    c!"// fade\no: [1/2 - 3_ms => -2.]! // loud\n>> mul amp" := by
  have i1 : WInt (.fin 1) ['1'] := by
    have := WInt.mk (s := []) (t := ['1']) .none ⟨by decide, by decide⟩
    rwa [show Fl.round f32 false (signed false (decimal ['1'])) = .fin 1 by decide +kernel] at this
  have i2 : WInt (.fin 2) ['2'] := by
    have := WInt.mk (s := []) (t := ['2']) .none ⟨by decide, by decide⟩
    rwa [show Fl.round f32 false (signed false (decimal ['2'])) = .fin 2 by decide +kernel] at this
  have i3 : WInt (.fin 3) ['3'] := by
    have := WInt.mk (s := []) (t := ['3']) .none ⟨by decide, by decide⟩
    rwa [show Fl.round f32 false (signed false (decimal ['3'])) = .fin 3 by decide +kernel] at this
  have nm : WNum (.fin (-2)) c!"-2." := by
    have := WNum.dec (s := ['-']) (i := ['2']) (f := []) .minus ⟨by decide, by decide⟩ (by simp)
    rwa [show Fl.round f32 true (signed true ((decimal (['2'] ++ []) : ℚ) / 10 ^ ([] : Name).length)) = .fin (-2) by
      decide +kernel] at this
  have hb : WBar (.fin (1 / 2)) c!"1/2" := by
    have := WBar.frac (WFrac.mk (w := []) (w' := []) i1 spaces_none spaces_none i2)
    rwa [show Fl.fin 1 /. Fl.fin 2 = .fin (1 / 2) by decide +kernel] at this
  have ho : WOffset (.ms (.fin (-3))) c!"- 3_ms" := by
    have := WOffset.earlierMs (w := [' ']) spaces_one (.int i3)
    rwa [show (Fl.fin 3).neg = .fin (-3) by decide +kernel] at this
  have hp : WPoint (⟨.fin (1 / 2), some (.ms (.fin (-3)))⟩, .fin (-2)) c!"1/2 - 3_ms => -2." :=
    .mk (w := [' ']) (w' := [' ']) (.offset (w := [' ']) hb spaces_one ho) spaces_one spaces_one nm
  have hl : Writes fe (.points [(⟨.fin (1 / 2), some (.ms (.fin (-3)))⟩, .fin (-2))] (.fin 1) true)
      c!"[1/2 - 3_ms => -2.]!" :=
    .pointsLoop (w := []) (.mk (w := []) (t := c!"1/2 - 3_ms => -2.") spaces_none (.last (w := []) hp spaces_none)) spaces_none
  have hv : WVar c!"amp" :=
    .bare (.mk (t := c!"mp") (d := []) (by decide) (by decide) (by simp [TailChar]) (Or.inl rfl)) (by decide)
  have hmul : Writes fe (.mul (.ref c!"amp")) c!"mul amp" :=
    .arg (kw := c!"mul") (g := [' ']) (f := .mul) (by simp [argKinds]) gap (.ref hv)
  have hn : WName c!"o" := .bare (.mk (t := []) (d := []) (by decide) (by decide) (by simp) (Or.inl rfl))
  have bn : Blanks [] := by simp [Blanks]
  exact .body (w := []) (s := c!"// fade\n") (t := c!"o: [1/2 - 3_ms => -2.]! // loud\n>> mul amp") spaces_none
    (.remark (m := c!" fade") (a := []) (t := []) (by simp [Remark]) bn .nil)
    (.last (b := []) (.mk (k := c!"o") (a := []) (b := [' ']) (t := c!"[1/2 - 3_ms => -2.]! // loud\n>> mul amp") hn bn gap.2
      (.cons (t := c!"[1/2 - 3_ms => -2.]!") (j := c!" // loud\n") (d := [' ']) (u := c!"mul amp") hl
        (.remark (a := [' ']) (n := []) (b := []) (m := c!" loud") (u := []) gap.2 (Or.inl rfl) bn (by simp [Remark])
          (.blank (a := []) (n := []) (b := []) bn (Or.inl rfl) bn)) gap.2 (.one hmul))) bn)

end Verif.Props
