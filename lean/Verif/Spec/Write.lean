import Verif.Ast
import Verif.ParseSeq
import Verif.Parser.Chars

/-!
# Specification: how programs are written

A relation between components and the texts that write them, read off the documentation of the language rather
than the grammar. Numbers are decimal numerals; the value of a numeral is its exact decimal value, rounded once
to `f32`.
-/

namespace Verif.Spec

/-- Blanks within a line. -/
def Blank (c : Char) : Prop := c = ' ' ∨ c = ',' ∨ c = '|' ∨ c = '\t'

/-- Possibly no blanks. -/
def Blanks (t : Name) : Prop := ∀ c ∈ t, Blank c

/-- At least one blank. -/
def Gap (t : Name) : Prop := t ≠ [] ∧ Blanks t

/-- A decimal digit. -/
def Digit (c : Char) : Prop := '0' ≤ c ∧ c ≤ '9'

/-- At least one digit. -/
def Digits (t : Name) : Prop := t ≠ [] ∧ ∀ c ∈ t, Digit c

/-- The number written by digits. -/
def decimal (t : Name) : Nat := t.foldl (fun n c => 10 * n + (c.toNat - 48)) 0

/-- An optional sign; `true` for minus. -/
inductive WSign : Bool → Name → Prop where
  | none : WSign false []
  | plus : WSign false ['+']
  | minus : WSign true ['-']

/-- The value with its sign. -/
def signed (neg : Bool) (x : ℚ) : ℚ := if neg then -x else x

/-- Whole numbers where a natural number is meant. -/
inductive WNat : Nat → Name → Prop where
  | plain {t : Name} : Digits t → WNat (decimal t) t
  | plus {t : Name} : Digits t → WNat (decimal t) ('+' :: t)

/-- Numerals without a point. -/
inductive WInt : Fl → Name → Prop where
  | mk {n : Bool} {s t : Name} : WSign n s → Digits t → WInt (Fl.round f32 n (signed n (decimal t))) (s ++ t)

/-- Multiplied by a power of ten, or divided by it. -/
def scaled (neg : Bool) (n : Nat) (x : ℚ) : ℚ := if neg then x / 10 ^ n else x * 10 ^ n

/-- Numerals. With an exponent they need the point. -/
inductive WNum : Fl → Name → Prop where
  | int {v : Fl} {t : Name} : WInt v t → WNum v t
  | dec {n : Bool} {s i f : Name} : WSign n s → Digits i → (∀ c ∈ f, Digit c) →
      WNum (Fl.round f32 n (signed n ((decimal (i ++ f) : ℚ) / 10 ^ f.length))) (s ++ (i ++ '.' :: f))
  | exp {n m : Bool} {s i f s' x : Name} {e : Char} : WSign n s → Digits i → (∀ c ∈ f, Digit c) → e = 'e' ∨ e = 'E' →
      WSign m s' → Digits x →
      WNum (Fl.round f32 n (signed n (scaled m (decimal x) ((decimal (i ++ f) : ℚ) / 10 ^ f.length))))
        (s ++ (i ++ '.' :: (f ++ e :: (s' ++ x))))

/-- Characters of a name after the first. -/
def TailChar (c : Char) : Prop := c = '_' ∨ ('a' ≤ c ∧ c ≤ 'z') ∨ Digit c

/-- Names without a leading `~` or `_`, perhaps with `..` for a loose match. -/
inductive WBare : Name → Prop where
  | mk {c : Char} {t d : Name} : 'a' ≤ c → c ≤ 'z' → (∀ x ∈ t, TailChar x) → (d = [] ∨ d = ['.', '.']) →
      WBare (c :: (t ++ d))

/-- Names with a leading `~` or `_`. -/
inductive WRef : Name → Prop where
  | mk {s : Char} {t : Name} : s = '~' ∨ s = '_' → WBare t → WRef (s :: t)

/-- All names. -/
inductive WName : Name → Prop where
  | bare {t : Name} : WBare t → WName t
  | ref {t : Name} : WRef t → WName t

/-- Words that are taken: a name without a sign must not begin with one of them where it stands for a parameter or a
component. -/
def taken : List Name :=
  [c!"reverb", c!"arrange", c!"adsr", c!"sig", c!"psampler", c!"synth", c!"msgsynth", c!"psynth", c!"p_synth",
    c!"pattern_synth", c!"bd", c!"sn", c!"hh", c!"squsynth", c!"trisynth", c!"seq", c!"speed", c!"choose", c!"mul",
    c!"add", c!"linrange", c!"apfdecay", c!"delayn", c!"delaymod", c!"expr", c!"eval", c!"sin", c!"squ", c!"imp",
    c!"envperc", c!"sampler", c!"noiz", c!"lpf", c!"plate", c!"onepole", c!"hpf", c!"pha", c!"buf", c!"state",
    c!"freeverb", c!"pan", c!"delay", c!"apfgain", c!"comb", c!"mix", c!"monosum", c!"const_sig", c!"constsig",
    c!"sp", c!"spd", c!"tri", c!"noise", c!"amplfo", c!"balance", c!"rlpf", c!"rhpf", c!"kick", c!"ks",
    c!"shape", c!"sawsynth", c!"saw", c!"script", c!"closure", c!"r", c!"apfmsgain", c!"sendpass", c!"sum",
    c!"meta", c!"adc"]

/-- A name that stands for a parameter or a component. -/
inductive WVar : Name → Prop where
  | ref {t : Name} : WRef t → WVar t
  | bare {t : Name} : WBare t → (∀ w ∈ taken, ¬ w <+: t) → WVar t

/-- A number or a reference. -/
inductive WArg : NumRef → Name → Prop where
  | num {v : Fl} {t : Name} : WNum v t → WArg (.num v) t
  | ref {r : Name} : WVar r → WArg (.ref r) r

/-- Characters of a symbol. -/
def SymChar (c : Char) : Prop :=
  c = '_' ∨ c = '-' ∨ ('a' ≤ c ∧ c ≤ 'z') ∨ ('A' ≤ c ∧ c ≤ 'Z') ∨ Digit c

/-- A symbol such as `\bd` or `'bd'`. -/
inductive WSym : Name → Prop where
  | slash {t : Name} : t ≠ [] → (∀ c ∈ t, SymChar c) → WSym ('\\' :: t)
  | quote {t : Name} : t ≠ [] → (∀ c ∈ t, SymChar c) → WSym ('\'' :: (t ++ ['\'']))

/-- The elements of a group of a `seq` pattern, written without blanks between them. A number is not followed
directly by a digit of the next one. -/
inductive WGroup : List SeqElem → Name → Prop where
  | last {n : Nat} {t : Name} : WNat n t → n < 2 ^ 64 → WGroup [.note n] t
  | lastRest : WGroup [.rest] ['_']
  | lastRef {c : Char} : 'a' ≤ c → c ≤ 'z' → WGroup [.ref ['~', c]] ['~', c]
  | note {n : Nat} {t u : Name} {g : List SeqElem} : WNat n t → n < 2 ^ 64 → WGroup g u →
      (∀ c ∈ u.head?, ¬ Digit c) → WGroup (.note n :: g) (t ++ u)
  | rest {u : Name} {g : List SeqElem} : WGroup g u → WGroup (.rest :: g) ('_' :: u)
  | ref {c : Char} {u : Name} {g : List SeqElem} : 'a' ≤ c → c ≤ 'z' → WGroup g u →
      WGroup (.ref ['~', c] :: g) ('~' :: c :: u)

/-- Items separated by blanks. -/
inductive WList {α : Type} (W : α → Name → Prop) : List α → Name → Prop where
  | one {a : α} {t : Name} : W a t → WList W [a] t
  | cons {a : α} {l : List α} {t g u : Name} : W a t → Gap g → WList W l u → WList W (a :: l) (t ++ (g ++ u))

/-- Section names of `arrange` with their lengths. -/
inductive WSection : NumRef × NumRef → Name → Prop where
  | mk {r t g : Name} {v : Fl} : WName r → Gap g → WNum v t → WSection (.ref r, .num v) (r ++ (g ++ t))

/-- A value and its time within the bar. -/
inductive WEvent : EventValue × Fl → Name → Prop where
  | num {v w : Fl} {t u : Name} : WNum v t → WNum w u → WEvent (.num v, w) (t ++ '@' :: u)
  | sym {w : Fl} {s u : Name} : WSym s → WNum w u → WEvent (.sym s, w) (s ++ '@' :: u)

/-- A pattern with its span, `1` when left out. -/
inductive WPattern : Events → Fl → Name → Prop where
  | plain {e : Events} {b t : Name} : Blanks b → WList WEvent e t → WPattern e (.fin 1) ('"' :: (b ++ (t ++ c!"\"()")))
  | span {e : Events} {v : Fl} {b t u : Name} : Blanks b → WList WEvent e t → WNum v u →
      WPattern e v ('"' :: (b ++ (t ++ (c!"\"(" ++ (u ++ [')'])))))

/-- A pattern without parentheses. -/
inductive WEvents : Events → Name → Prop where
  | mk {e : Events} {b t : Name} : Blanks b → WList WEvent e t → WEvents e ('"' :: (b ++ (t ++ ['"'])))

/-- A hexadecimal digit. -/
def Hex (c : Char) : Prop := Digit c ∨ ('a' ≤ c ∧ c ≤ 'f') ∨ ('A' ≤ c ∧ c ≤ 'F')

/-- Code between backticks. A backslash comes with the character it escapes; nothing is replaced. -/
inductive WCode : Name → Prop where
  | nil : WCode []
  | char {c : Char} {t : Name} : c ≠ '`' → c ≠ '\\' → WCode t → WCode (c :: t)
  | esc {c : Char} {t : Name} : c ∈ ['"', '\\', '/', 'b', 'f', 'n', 'r', 't'] → WCode t → WCode ('\\' :: c :: t)
  | hex {a b c d : Char} {t : Name} : Hex a → Hex b → Hex c → Hex d → WCode t →
      WCode ('\\' :: 'u' :: a :: b :: c :: d :: t)

/-- Blanks and line ends. -/
def Spaces (t : Name) : Prop := ∀ c ∈ t, Blank c ∨ c = '\n'

/-- A fraction of whole numbers. -/
inductive WFrac : Fl → Name → Prop where
  | mk {a b : Fl} {s w w' t : Name} : WInt a s → Spaces w → Spaces w' → WInt b t →
      WFrac (a /. b) (s ++ (w ++ '/' :: (w' ++ t)))

/-- The position of a point in bars. -/
inductive WBar : Fl → Name → Prop where
  | num {v : Fl} {t : Name} : WNum v t → WBar v t
  | frac {v : Fl} {t : Name} : WFrac v t → WBar v t

/-- An offset with its sign and unit. -/
inductive WOffset : Dur → Name → Prop where
  | laterMs {v : Fl} {w t : Name} : Spaces w → WNum v t → WOffset (.ms v) ('+' :: (w ++ (t ++ c!"_ms")))
  | earlierMs {v : Fl} {w t : Name} : Spaces w → WNum v t → WOffset (.ms v.neg) ('-' :: (w ++ (t ++ c!"_ms")))
  | later {v : Fl} {w t : Name} : Spaces w → WNum v t → WOffset (.sec v) ('+' :: (w ++ (t ++ c!"_s")))
  | earlier {v : Fl} {w t : Name} : Spaces w → WNum v t → WOffset (.sec v.neg) ('-' :: (w ++ (t ++ c!"_s")))

/-- The time of a point. -/
inductive WTime : TimeList → Name → Prop where
  | bar {v : Fl} {t : Name} : WBar v t → WTime ⟨v, none⟩ t
  | offset {v : Fl} {d : Dur} {t w u : Name} : WBar v t → Spaces w → WOffset d u → WTime ⟨v, some d⟩ (t ++ (w ++ u))

/-- A point: its time and its value. -/
inductive WPoint : TimeList × Fl → Name → Prop where
  | mk {x : TimeList} {v : Fl} {t w w' u : Name} : WTime x t → Spaces w → Spaces w' → WNum v u →
      WPoint (x, v) (t ++ (w ++ (c!"=>" ++ (w' ++ u))))

/-- Points with at least a blank or a line end between them. -/
inductive WPoints : List (TimeList × Fl) → Name → Prop where
  | nil : WPoints [] []
  | last {p : TimeList × Fl} {t w : Name} : WPoint p t → Spaces w → WPoints [p] (t ++ w)
  | cons {p : TimeList × Fl} {l : List (TimeList × Fl)} {t w u : Name} : WPoint p t → w ≠ [] → Spaces w →
      WPoints l u → WPoints (p :: l) (t ++ (w ++ u))

/-- A list of points in brackets. -/
inductive WPointList : List (TimeList × Fl) → Name → Prop where
  | mk {l : List (TimeList × Fl)} {w t : Name} : Spaces w → WPoints l t → WPointList l ('[' :: (w ++ (t ++ [']'])))

/-- A factor after a list of points; its value is what `fe`, the library that evaluates expressions, makes of it. -/
inductive WFactor (fe : Name → Option Fl) : Fl → Name → Prop where
  | num {o : Char} {w t : Name} {v y : Fl} : o = '*' ∨ o = '/' → Spaces w → WNum v t →
      fe ('1' :: o :: (w ++ t)) = some y → WFactor fe (Fl.conv f32 y) (o :: (w ++ t))
  | frac {o : Char} {w t : Name} {v y : Fl} : o = '*' ∨ o = '/' → Spaces w → WFrac v t →
      fe ('1' :: o :: (w ++ '(' :: (t ++ [')']))) = some y → WFactor fe (Fl.conv f32 y) (o :: (w ++ '(' :: (t ++ [')'])))

/-- Components with one argument that is a number or a reference. -/
def argKinds : List (Name × (NumRef → Comp)) :=
  [(c!"mul", .mul), (c!"add", .add), (c!"sin", .sin), (c!"saw", .saw), (c!"squ", .squ), (c!"tri", .tri),
    (c!"pan", .pan), (c!"onepole", .onepole), (c!"delayms", .delayms)]

/-- Components with one number. -/
def numKinds : List (Name × (Fl → Comp)) :=
  [(c!"imp", fun v => .imp (.num v)), (c!"bd", fun v => .bd (.num v)), (c!"sn", fun v => .sn (.num v)),
    (c!"hh", fun v => .hh (.num v)), (c!"sig", .constsig), (c!"constsig", .constsig), (c!"speed", .speed),
    (c!"plate", .plate)]

/-- Components with two numbers. -/
def twoKinds : List (Name × (Fl → Fl → Comp)) :=
  [(c!"envperc", .envperc), (c!"sawsynth", .sawsynth), (c!"squsynth", .squsynth), (c!"trisynth", .trisynth)]

/-- Components with a number or reference and a number. -/
def argNumKinds : List (Name × (NumRef → Fl → Comp)) :=
  [(c!"apfgain", .apfmsgain), (c!"apfmsgain", .apfmsgain), (c!"rhpf", .rhpf), (c!"hpf", .rhpf),
    (c!"lpf", fun v q => match v with | .num x => .lpf (.num x) q | .ref r => .lpf (.ref r) q)]

/-- Components with code and nothing else. -/
def codeKinds : List (Name × (Name → Comp)) :=
  [(c!"expr", .expr), (c!"meta", .metaScript), (c!"script", .metaScript)]

/-- How a component is written. Without a factor and without `!` the span of a list of points is left open, which is
recorded as `-1`. -/
inductive Writes (fe : Name → Option Fl) : Comp → Name → Prop where
  | arg {kw g t : Name} {f : NumRef → Comp} {v : NumRef} : (kw, f) ∈ argKinds → Gap g → WArg v t →
      Writes fe (f v) (kw ++ (g ++ t))
  | num {kw g t : Name} {f : Fl → Comp} {v : Fl} : (kw, f) ∈ numKinds → Gap g → WNum v t →
      Writes fe (f v) (kw ++ (g ++ t))
  | two {kw g t g' t' : Name} {f : Fl → Fl → Comp} {v v' : Fl} : (kw, f) ∈ twoKinds → Gap g → WNum v t →
      Gap g' → WNum v' t' → Writes fe (f v v') (kw ++ (g ++ (t ++ (g' ++ t'))))
  | argNum {kw g t g' t' : Name} {f : NumRef → Fl → Comp} {v : NumRef} {v' : Fl} : (kw, f) ∈ argNumKinds →
      Gap g → WArg v t → Gap g' → WNum v' t' → Writes fe (f v v') (kw ++ (g ++ (t ++ (g' ++ t'))))
  | adsr {g₁ t₁ g₂ t₂ g₃ t₃ g₄ t₄ : Name} {a b c d : Fl} : Gap g₁ → WNum a t₁ → Gap g₂ → WNum b t₂ → Gap g₃ →
      WNum c t₃ → Gap g₄ → WNum d t₄ →
      Writes fe (.adsr a b c d) (c!"adsr" ++ (g₁ ++ (t₁ ++ (g₂ ++ (t₂ ++ (g₃ ++ (t₃ ++ (g₄ ++ t₄))))))))
  | reverb {g₁ t₁ g₂ t₂ g₃ t₃ g₄ t₄ g₅ t₅ : Name} {a b c d e : Fl} : Gap g₁ → WNum a t₁ → Gap g₂ → WNum b t₂ →
      Gap g₃ → WNum c t₃ → Gap g₄ → WNum d t₄ → Gap g₅ → WNum e t₅ →
      Writes fe (.reverb a b c d e)
        (c!"reverb" ++ (g₁ ++ (t₁ ++ (g₂ ++ (t₂ ++ (g₃ ++ (t₃ ++ (g₄ ++ (t₄ ++ (g₅ ++ t₅))))))))))
  | delayn {g t : Name} {n : Nat} : Gap g → WNat n t → n < 2 ^ 64 → Writes fe (.delayn (.nat n)) (c!"delayn" ++ (g ++ t))
  | delaynRef {g r : Name} : Gap g → WVar r → Writes fe (.delayn (.ref r)) (c!"delayn" ++ (g ++ r))
  | noise {kw g t : Name} {n : Nat} : kw ∈ [c!"noiz", c!"noise"] → Gap g → WNat n t → n < 2 ^ 64 →
      Writes fe (.noise n) (kw ++ (g ++ t))
  | adc {g t : Name} {n : Nat} : Gap g → WNat n t → n < 2 ^ 32 → Writes fe (.adc n) (c!"adc" ++ (g ++ t))
  | sp {kw g s : Name} : kw ∈ [c!"sp", c!"sampler"] → Gap g → WSym s → Writes fe (.sp s) (kw ++ (g ++ s))
  | seq {g t : Name} {gs : List (List SeqElem)} : Gap g → WList WGroup gs t →
      Writes fe (.seq (seqEvents gs)) (c!"seq" ++ (g ++ t))
  | choose {g t : Name} {vs : List Fl} : Gap g → WList WInt vs t → Writes fe (.choose vs) (c!"choose" ++ (g ++ t))
  | mix {g t : Name} {rs : List Name} : Gap g → WList (fun r t => t = r ∧ WName r) rs t →
      Writes fe (.mix rs) (c!"mix" ++ (g ++ t))
  | arrange {g t : Name} {l : List (NumRef × NumRef)} : Gap g → WList WSection l t →
      Writes fe (.arrange (l.flatMap (fun x => [x.1, x.2]))) (c!"arrange" ++ (g ++ t))
  | balance {g r g' r' : Name} : Gap g → WName r → Gap g' → WName r' →
      Writes fe (.balance r r') (c!"balance" ++ (g ++ (r ++ (g' ++ r'))))
  | get {r : Name} : WVar r → r ≠ c!"get" → Writes fe (.get r) r
  | getWord {g r : Name} : Gap g → WVar r → Writes fe (.get r) (c!"get" ++ (g ++ r))
  | psampler {g t : Name} {e : Events} {v : Fl} : Gap g → WPattern e v t →
      Writes fe (.psampler e (some v)) (c!"psampler" ++ (g ++ t))
  | lpfPattern {g t g' t' : Name} {e : Events} {v q : Fl} : Gap g → WPattern e v t → Gap g' → WNum q t' →
      Writes fe (.lpf (.pattern e v) q) (c!"lpf" ++ (g ++ (t ++ (g' ++ t'))))
  | psamplerEvents {g t : Name} {e : Events} : Gap g → WEvents e t →
      Writes fe (.psampler e none) (c!"psampler" ++ (g ++ t))
  | lpfEvents {g t g' t' : Name} {e : Events} {q : Fl} : Gap g → WEvents e t → Gap g' → WNum q t' →
      Writes fe (.lpf (.event e) q) (c!"lpf" ++ (g ++ (t ++ (g' ++ t'))))
  | points {l : List (TimeList × Fl)} {t : Name} : WPointList l t → Writes fe (.points l (.fin (-1)) false) t
  | pointsLoop {l : List (TimeList × Fl)} {t w : Name} : WPointList l t → Spaces w →
      Writes fe (.points l (.fin 1) true) (t ++ (w ++ ['!']))
  | pointsFactor {l : List (TimeList × Fl)} {t w f : Name} {v : Fl} : WPointList l t → Spaces w → WFactor fe v f →
      Writes fe (.points l v false) (t ++ (w ++ f))
  | pointsFactorLoop {l : List (TimeList × Fl)} {t w f w' : Name} {v : Fl} : WPointList l t → Spaces w →
      WFactor fe v f → Spaces w' → Writes fe (.points l v true) (t ++ (w ++ (f ++ (w' ++ ['!']))))
  | msgsynth {g s g₁ t₁ g₂ t₂ : Name} {a d : Fl} : Gap g → WSym s → Gap g₁ → WNum a t₁ → Gap g₂ → WNum d t₂ →
      Writes fe (.msgsynth s a d) (c!"msgsynth" ++ (g ++ (s ++ (g₁ ++ (t₁ ++ (g₂ ++ t₂))))))
  | psynth {kw g t g' t' : Name} {v : Fl} : kw ∈ [c!"psynth", c!"p_synth", c!"pattern_synth"] → Gap g → WCode t →
      Gap g' → WNum v t' →
      Writes fe (.patternSynth ('`' :: (t ++ ['`'])) v) (kw ++ (g ++ ('`' :: (t ++ '`' :: (g' ++ t')))))
  | code {kw g t : Name} {f : Name → Comp} : (kw, f) ∈ codeKinds → Gap g → WCode t →
      Writes fe (f t) (kw ++ (g ++ ('`' :: (t ++ ['`']))))

/-- What a comment says: anything up to the end of the line. -/
def Remark (t : Name) : Prop := ∀ c ∈ t, c ≠ '\n' ∧ c ≠ '\r'

/-- What may stand between a component and the `>>` after it: blanks, perhaps a line end, and comments. -/
inductive WJoin : Name → Prop where
  | blank {a n b : Name} : Blanks a → (n = [] ∨ n = ['\n']) → Blanks b → WJoin (a ++ (n ++ b))
  | remark {a n b m u : Name} : Blanks a → (n = [] ∨ n = ['\n']) → Blanks b → Remark m → WJoin u →
      WJoin (a ++ (n ++ (b ++ (c!"//" ++ (m ++ '\n' :: u)))))

/-- Components joined by `>>`, perhaps on the next line. -/
inductive WChain (fe : Name → Option Fl) : List Comp → Name → Prop where
  | one {c : Comp} {t : Name} : Writes fe c t → WChain fe [c] t
  | cons {c : Comp} {cs : List Comp} {t j d u : Name} : Writes fe c t → WJoin j → Blanks d → WChain fe cs u →
      WChain fe (c :: cs) (t ++ (j ++ (c!">>" ++ (d ++ u))))

/-- A name, a colon and a chain. -/
inductive WLine (fe : Name → Option Fl) : Name × List Comp → Name → Prop where
  | mk {k a b t : Name} {cs : List Comp} : WName k → Blanks a → Blanks b → WChain fe cs t →
      WLine fe (k, cs) (k ++ (a ++ (':' :: (b ++ t))))

/-- Line ends and comments, with blanks. -/
inductive WLines : Name → Prop where
  | nil : WLines []
  | cons {a t : Name} : Blanks a → WLines t → WLines ('\n' :: (a ++ t))
  | remark {m a t : Name} : Remark m → Blanks a → WLines t → WLines (c!"//" ++ (m ++ '\n' :: (a ++ t)))

/-- What separates two lines: a semicolon, a line end, or a comment, and any more of the last two. -/
inductive WSep : Name → Prop where
  | semi {a b t : Name} : Blanks a → Blanks b → WLines t → WSep (a ++ (';' :: (b ++ t)))
  | lines {a t : Name} : Blanks a → t ≠ [] → WLines t → WSep (a ++ t)

/-- Lines, one after the other. After the last one nothing need follow. -/
inductive WBody (fe : Name → Option Fl) : List (Name × List Comp) → Name → Prop where
  | last {l : Name × List Comp} {t b : Name} : WLine fe l t → Blanks b → WBody fe [l] (t ++ b)
  | lastSep {l : Name × List Comp} {t s : Name} : WLine fe l t → WSep s → WBody fe [l] (t ++ s)
  | lastRemark {l : Name × List Comp} {t s m : Name} : WLine fe l t → (Blanks s ∨ WSep s) → Remark m →
      WBody fe [l] (t ++ (s ++ (c!"//" ++ m)))
  | cons {l : Name × List Comp} {ls : List (Name × List Comp)} {t s u : Name} : WLine fe l t → WSep s → WBody fe ls u →
      WBody fe (l :: ls) (t ++ (s ++ u))

/-- A program text: blank lines and comments, then lines. -/
inductive WProg (fe : Name → Option Fl) : List (Name × List Comp) → Name → Prop where
  | empty {w s : Name} : Spaces w → WLines s → WProg fe [] (w ++ s)
  | emptyRemark {w s m : Name} : Spaces w → WLines s → Remark m → WProg fe [] (w ++ (s ++ (c!"//" ++ m)))
  | body {w s t : Name} {ls : List (Name × List Comp)} : Spaces w → WLines s → WBody fe ls t →
      WProg fe ls (w ++ (s ++ t))

end Verif.Spec
