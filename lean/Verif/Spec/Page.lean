import Verif.Page
import Verif.Spec.Engine
import Verif.Spec.Write

/-! # What the user of the page may expect of samples -/

namespace Verif.Spec
open Verif Page

/-- A decoded file as a sample of the engine. -/
inductive Decodes : AudioBuffer → Sample → Prop where
  | mono {l : List Fl} {sr : Nat} : Decodes ⟨[l], sr⟩ ⟨l, 1, sr⟩
  | stereo {l r : List Fl} {sr : Nat} : Decodes ⟨[l, r], sr⟩ ⟨l ++ r, 2, sr⟩

/-- A file that has something in it. -/
def Filled (b : AudioBuffer) : Prop := ∀ c ∈ b.channels, c ≠ []

variable {P : Plat} {N : Nat} {parse : Name → Except Panic (Option (Ast Comp))}

/-- The page after steps allowed by `A`. -/
inductive PageReach (low : Char → Name) (A : State P N parse → Step → Prop) : State P N parse → Prop where
  | init (sr seed : Nat) : PageReach low A (State.init P N parse sr seed)
  | step {p p' : State P N parse} (s : Step) : PageReach low A p → A p s → p.step low s = .ok p' → PageReach low A p'

/-- Steps without surprises: built-in samples have no dash in their names, and the page is stopped only when no listed
sample has a dash in its name or more than two channels. -/
def Orderly (p : State P N parse) : Step → Prop
  | .builtin name _ => '-' ∉ name
  | .stop _ _ order => order.Perm p.buffers ∧ ∀ k b, (k, b) ∈ p.buffers → '-' ∉ k ∧ ∃ s, Decodes b s
  | _ => True

/-- Steps without surprises, with files that are not empty and programs that repeat no component. -/
def Tidy (p : State P N parse) (s : Step) : Prop :=
  Orderly p s ∧
    match s with
    | .file _ b | .folder _ _ b | .url _ b | .builtin _ b => Filled b
    | .run _ code => ∀ prog, parse code = .ok (some prog) → CleanProg (glicol P N parse) prog
    | _ => True

/-- What may stand before the ending of a file name. -/
def FileChar (c : Char) : Prop :=
  c = '_' ∨ c = '-' ∨ c = ' ' ∨ c = '#' ∨ ('a' ≤ c ∧ c ≤ 'z') ∨ ('A' ≤ c ∧ c ≤ 'Z') ∨ Digit c

/-- The same with small letters for capitals and underscores for the rest: what the user types for such a file. -/
def typed (c : Char) : Name :=
  if c = '-' ∨ c = ' ' then ['_'] else if c = '#' then c!"_sharp_" else [c.toLower]

/-- The same with capitals left as they are. -/
def spelled (c : Char) : Name :=
  if c = '-' ∨ c = ' ' then ['_'] else if c = '#' then c!"_sharp_" else [c]

/-- The steps one after the other. -/
inductive PageRun (low : Char → Name) : State P N parse → List Step → State P N parse → Prop where
  | nil (p : State P N parse) : PageRun low p [] p
  | cons {p p₁ p' : State P N parse} {s : Step} {l : List Step} :
    p.step low s = .ok p₁ → PageRun low p₁ l p' → PageRun low p (s :: l) p'

/-- The name of the file at place `i` of those of one call of `addSampleFolder()`, in the order in which they are
decoded: its folder and the number of files of that folder before it. -/
def numbered (files : List (Name × AudioBuffer)) (i : Nat) (folder : Name) : Name :=
  folder.flatMap typed ++ '_' ::
    (toString ((files.take i).countP fun g => g.1.flatMap typed = folder.flatMap typed)).toList

end Verif.Spec
