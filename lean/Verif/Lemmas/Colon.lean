import Verif.Lemmas.Tokens
import Verif.Spec.Parser

/-!
# Colons

Apart from code and comments, only a line contains a colon.
-/

namespace Verif.Grammar
open Peg

/-- What the expression consumes is plain. -/
class Cl (p : Peg) : Prop where
  plain : ∀ {s c : Name} {ps r}, p s = some (c, ps, r) → Plain c

theorem plain_nil : Plain [] := by intro h; cases h

theorem plain_append {a b : Name} (ha : Plain a) (hb : Plain b) : Plain (a ++ b) := by
  have key : ∀ {x : Name}, x <:+: a ++ b → ':' ∈ x → Plain x → '`' ∈ a ++ b ∨ ['/', '/'] <:+: a ++ b := by
    intro x hx hc hp
    rcases hp hc with h | h
    · exact Or.inl (hx.subset h)
    · exact Or.inr (h.trans hx)
  intro h
  rcases List.mem_append.mp h with h | h
  · exact key (List.prefix_append a b).isInfix h ha
  · exact key (List.suffix_append a b).isInfix h hb

theorem plain_of_mem {t : Name} (h : '`' ∈ t) : Plain t := fun _ => Or.inl h

theorem cl_lit {w : Name} (h : ':' ∉ w) : Cl (lit w) := ⟨fun e => by rw [(lit_some e).1]; exact fun h' => absurd h' h⟩

theorem cl_chr {f : Char → Bool} (h : f ':' = false) : Cl (chr f) := ⟨fun e => by
  obtain ⟨d, hd, rfl, _, _⟩ := chr_some e
  intro h'
  rw [List.mem_singleton.mp h', hd] at h
  cases h⟩

theorem cl_not {p : Peg} : Cl (Peg.not p) := ⟨fun e => by
  unfold Peg.not at e
  split at e
  · cases e
  · cases e; exact plain_nil⟩

theorem cl_seq {p q : Peg} (hp : Cl p) (hq : Cl q) : Cl (seq p q) := ⟨fun e => by
  obtain ⟨c1, ps1, r1, c2, ps2, h1, h2, rfl, rfl⟩ := seq_some e
  exact plain_append (hp.plain h1) (hq.plain h2)⟩

theorem cl_nil : Cl (seqs []) := ⟨fun e => by cases e; exact plain_nil⟩

theorem cl_cons {p : Peg} {l : List Peg} (hp : Cl p) (hq : Cl (seqs l)) : Cl (seqs (p :: l)) := cl_seq hp hq

theorem cl_alt {p q : Peg} (hp : Cl p) (hq : Cl q) : Cl (alt p q) := ⟨fun e => by
  rcases alt_some e with h | ⟨_, h⟩
  · exact hp.plain h
  · exact hq.plain h⟩

theorem cl_alts_nil : Cl (alts []) := ⟨fun e => by cases e⟩

theorem cl_alts {p : Peg} {l : List Peg} (hp : Cl p) (hq : Cl (alts l)) : Cl (alts (p :: l)) := cl_alt hp hq

theorem cl_starN {p : Peg} (hp : Cl p) (n : Nat) (s : Name) : Plain (starN p n s).1 := by
  induction n generalizing s with
  | zero => exact plain_nil
  | succ n ih =>
    simp only [starN]
    cases hs : p s with
    | none => exact plain_nil
    | some x => exact plain_append (hp.plain hs) (ih _)

theorem cl_star {p : Peg} (hp : Cl p) : Cl (star p) := ⟨fun {s c ps r} e => by
  have := cl_starN hp s.length s
  simp only [star, Option.some.injEq] at e
  rwa [e] at this⟩

theorem cl_plus {p : Peg} (hp : Cl p) : Cl (plus p) := cl_seq hp (cl_star hp)

theorem cl_opt {p : Peg} (hp : Cl p) : Cl (opt p) := ⟨fun e => by
  unfold opt at e
  split at e
  · rename_i hx
    cases e
    exact hp.plain hx
  · cases e; exact plain_nil⟩

theorem cl_quiet {p : Peg} (hp : Cl p) : Cl (quiet p) := ⟨fun {s c ps r} e => by
  unfold quiet at e
  cases h : p s with
  | none => rw [h] at e; cases e
  | some x => rw [h] at e; cases e; exact hp.plain h⟩

theorem cl_tok {r : Rule} {p : Peg} (hp : Cl p) : Cl (tok r p) := ⟨fun e => by
  obtain ⟨l, h, _⟩ := tok_some e
  exact hp.plain h⟩

theorem cl_lits {l : List Name} (h : ∀ w ∈ l, ':' ∉ w) : Cl (alts (l.map lit)) := by
  induction l with
  | nil => exact cl_alts_nil
  | cons w l ih => exact cl_alts (cl_lit (h w (by simp))) (ih (fun v hv => h v (by simp [hv])))

/-- Anything between backticks. -/
theorem cl_ticks {l : List Peg} (h : lit ['`'] ∈ l) : Cl (seqs l) := by
  constructor
  induction l with
  | nil => cases h
  | cons p l ih =>
    intro s c ps r e
    obtain ⟨c1, ps1, r1, c2, ps2, h1, h2, rfl, rfl⟩ := seq_some e
    rcases List.mem_cons.mp h with rfl | h
    · rw [(lit_some h1).1]
      exact plain_of_mem (by simp)
    · have : ∀ {l : List Peg} {s c : Name} {ps r}, lit ['`'] ∈ l → seqs l s = some (c, ps, r) → '`' ∈ c := by
        intro l
        induction l with
        | nil => intro _ _ _ _ h; cases h
        | cons p l ih =>
          intro s c ps r h e
          obtain ⟨c1, ps1, r1, c2, ps2, h1, h2, rfl, rfl⟩ := seq_some e
          rcases List.mem_cons.mp h with rfl | h
          · rw [(lit_some h1).1]
            simp
          · exact List.mem_append_right _ (ih h h2)
      exact plain_of_mem (List.mem_append_right _ (this h h2))

macro "colon" : tactic => `(tactic| repeat' first
  | infer_instance
  | exact cl_lits (by decide)
  | exact cl_lit (by decide)
  | exact cl_chr (by decide)
  | exact cl_not
  | exact cl_nil
  | exact cl_alts_nil
  | apply cl_cons
  | apply cl_alts
  | apply cl_seq
  | apply cl_alt
  | apply cl_plus
  | apply cl_star
  | apply cl_opt
  | apply cl_quiet
  | apply cl_tok)

instance : Cl blank := by unfold blank; colon
instance : Cl ws := by unfold ws; colon
instance : Cl digit := by unfold digit; colon
instance : Cl lower := by unfold lower; colon
instance : Cl newline := by unfold newline; colon
instance : Cl plusMinus := by unfold plusMinus; colon
instance : Cl integer := by unfold integer; colon
instance : Cl float := by unfold float; colon
instance : Cl number := by unfold number; colon
instance : Cl symChar := by unfold symChar; colon
instance : Cl symbol := by unfold symbol; colon
instance : Cl nameTail := by unfold nameTail; colon
instance : Cl reference := by unfold reference; colon
instance : Cl noteRef := by unfold noteRef; colon
instance : Cl rest := by unfold rest; colon
instance : Cl note := by unfold note; colon
instance : Cl compound := by unfold compound; colon
instance : Cl compoundNotes := by unfold compoundNotes; colon
instance : Cl nodeName := by unfold nodeName; colon
instance : Cl numArg := by unfold numArg; colon
instance : Cl numberOrRef := by unfold numberOrRef; colon
instance : Cl bar := by unfold bar; colon
instance : Cl mathExpression := by unfold mathExpression; colon
instance : Cl isLooping := by unfold isLooping; colon
instance : Cl sign := by unfold sign; colon
instance : Cl ms := by unfold ms; colon
instance : Cl second := by unfold second; colon
instance : Cl time := by unfold time; colon
instance : Cl point := by unfold point; colon
instance : Cl pointsInner := by unfold pointsInner; colon
instance : Cl points := by unfold points; colon
instance : Cl valueTime := by unfold valueTime; colon
instance : Cl patternEventBody := by unfold patternEventBody; colon
instance : Cl event := by unfold event; colon
instance : Cl pattern := by unfold pattern; colon
instance : Cl code := by unfold code; exact cl_tok (cl_ticks (by simp))
instance {p : Peg} [Cl p] : Cl (arg p) := by unfold arg; colon
instance : Cl mul := by unfold mul unary; colon
instance : Cl add := by unfold add unary; colon
instance : Cl sin := by unfold sin unary; colon
instance : Cl saw := by unfold saw unary; colon
instance : Cl squ := by unfold squ unary; colon
instance : Cl tri := by unfold tri unary; colon
instance : Cl pan := by unfold pan unary; colon
instance : Cl onepole := by unfold onepole unary; colon
instance : Cl delayn := by unfold delayn unary; colon
instance : Cl delayms := by unfold delayms unary; colon
instance : Cl imp := by unfold imp unary; colon
instance : Cl bd := by unfold bd unary; colon
instance : Cl sn := by unfold sn unary; colon
instance : Cl hh := by unfold hh unary; colon
instance : Cl constsig := by unfold constsig unary; colon
instance : Cl adc := by unfold adc unary; colon
instance : Cl speed := by unfold speed; colon
instance : Cl noise := by unfold noise; colon
instance : Cl sp := by unfold sp; colon
instance : Cl plate := by unfold plate; colon
instance : Cl envperc := by unfold envperc; colon
instance : Cl sawsynth := by unfold sawsynth; colon
instance : Cl squsynth := by unfold squsynth; colon
instance : Cl trisynth := by unfold trisynth; colon
instance : Cl adsr := by unfold adsr; colon
instance : Cl reverb := by unfold reverb; colon
instance : Cl apfmsgain := by unfold apfmsgain; colon
instance : Cl lpf := by unfold lpf; colon
instance : Cl rhpf := by unfold rhpf; colon
instance : Cl seqNode := by unfold seqNode; colon
instance : Cl choose := by unfold choose; colon
instance : Cl mix := by unfold mix; colon
instance : Cl sendpass := by unfold sendpass; colon
instance : Cl arrange := by unfold arrange; colon
instance : Cl balance := by unfold balance; colon
instance : Cl get := by unfold get; colon
instance : Cl psampler := by unfold psampler; colon
instance : Cl msgsynth := by unfold msgsynth; colon
instance : Cl patternSynth := by unfold patternSynth; colon
instance : Cl expr := by unfold expr; colon
instance : Cl eval := by unfold eval; exact cl_tok (cl_ticks (by simp))
instance : Cl metaNode := by unfold metaNode; colon
instance : Cl node := by unfold node nodeAlts; colon

instance : Cl comment := ⟨fun e => by
  obtain ⟨c1, ps1, r1, c2, ps2, h1, h2, rfl, rfl⟩ := seq_some e
  rw [(lit_some h1).1]
  exact fun _ => Or.inr (List.prefix_append _ _).isInfix⟩

instance : Cl chain := by unfold chain; colon

end Verif.Grammar
