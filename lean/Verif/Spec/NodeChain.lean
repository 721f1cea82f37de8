import Verif.NodeChain
import Verif.Spec.Write

/-! # Specification: what calls of the chain builder mean (C61) -/

namespace Verif.Spec.Builder
open Verif NodeChain

/-- JavaScript writes a number of moderate size as decimal digits, perhaps with a sign and a point; its value in the
engine is the decimal value rounded to `f32`. (Numbers from `10^21` and below `10^-6` come with an exponent.) -/
inductive JsNum : Fl → Val → Prop where
  | int {n : Bool} {s t : Name} : s = (if n then ['-'] else []) → Digits t →
      JsNum (Fl.round f32 n (signed n (decimal t))) (.num (s ++ t))
  | dec {n : Bool} {s i f : Name} : s = (if n then ['-'] else []) → Digits i → Digits f →
      JsNum (Fl.round f32 n (signed n ((decimal (i ++ f) : ℚ) / 10 ^ f.length))) (.num (s ++ (i ++ '.' :: f)))

/-- A name with the sign `~`, as a string. -/
inductive JsRef : Name → Val → Prop where
  | mk {t : Name} : WBare t → JsRef ('~' :: t) (.str ('~' :: t))

/-- A number or a reference. -/
inductive JsArg : NumRef → Val → Prop where
  | num {x : Fl} {v : Val} : JsNum x v → JsArg (.num x) v
  | ref {r : Name} {v : Val} : JsRef r v → JsArg (.ref r) v

/-- A number that is not negative, and its whole part. -/
inductive JsWhole : Nat → Val → Prop where
  | int {t : Name} : Digits t → JsWhole (decimal t) (.num t)
  | dec {i f : Name} : Digits i → Digits f → JsWhole (decimal i) (.num (i ++ '.' :: f))

/-- The component a chain starts with. -/
inductive Starts : Comp → Head → Prop where
  | sin {x : NumRef} {v : Val} : JsArg x v → Starts (.sin x) (.sin v)
  | saw {x : NumRef} {v : Val} : JsArg x v → Starts (.saw x) (.saw v)
  | tri {x : NumRef} {v : Val} : JsArg x v → Starts (.tri x) (.tri v)
  | squ {x : NumRef} {v : Val} : JsArg x v → Starts (.squ x) (.squ v)
  | imp {x : Fl} {v : Val} : JsNum x v → Starts (.imp (.num x)) (.imp v)
  | noise {t : Name} : Digits t → decimal t < 2 ^ 64 → Starts (.noise (decimal t)) (.noise (.num t))
  | speed {x : Fl} {v : Val} : JsNum x v → Starts (.speed x) (.speed v)
  | seq {gs : List (List SeqElem)} {t : Name} : WList WGroup gs t → Starts (.seq (seqEvents gs)) (.seq (.str t))
  | psampler {e : Events} {x : Fl} {t : Name} : WPattern e x t → Starts (.psampler e (some x)) (.psampler (.str t))
  | sig {x : Fl} {v : Val} : JsNum x v → Starts (.constsig x) (.sig v)
  | mix {rs : List Name} {t : Name} : WList (fun r t => t = r ∧ WName r) rs t → Starts (.mix rs) (.mix (.str t))
  | psynth {t : Name} {x : Fl} {v : Val} : WCode t → JsNum x v →
      Starts (.patternSynth ('`' :: (t ++ ['`'])) x) (.psynth (.str t) v)

/-- The component a call adds. -/
inductive Adds : Comp → Call → Prop where
  | mul {x : NumRef} {v : Val} : JsArg x v → Adds (.mul x) (.mul v)
  | add {x : NumRef} {v : Val} : JsArg x v → Adds (.add x) (.add v)
  | delayms {x : NumRef} {v : Val} : JsArg x v → Adds (.delayms x) (.delayms v)
  | delayn {n : Nat} {v : Val} : JsWhole n v → n < 2 ^ 64 → Adds (.delayn (.nat n)) (.delayn v)
  | lpfNum {x q : Fl} {v w : Val} : JsNum x v → JsNum q w → Adds (.lpf (.num x) q) (.lpf v w)
  | lpfRef {r : Name} {q : Fl} {v w : Val} : JsRef r v → JsNum q w → Adds (.lpf (.ref r) q) (.lpf v w)
  | hpf {x : NumRef} {q : Fl} {v w : Val} : JsArg x v → JsNum q w → Adds (.rhpf x q) (.hpf v w)
  | plate {x : Fl} {v : Val} : JsNum x v → Adds (.plate x) (.plate v)
  | bd {x : Fl} {v : Val} : JsNum x v → Adds (.bd (.num x)) (.bd v)
  | sn {x : Fl} {v : Val} : JsNum x v → Adds (.sn (.num x)) (.sn v)
  | hh {x : Fl} {v : Val} : JsNum x v → Adds (.hh (.num x)) (.hh v)
  | sawsynth {x y : Fl} {v w : Val} : JsNum x v → JsNum y w → Adds (.sawsynth x y) (.sawsynth v w)
  | squsynth {x y : Fl} {v w : Val} : JsNum x v → JsNum y w → Adds (.squsynth x y) (.squsynth v w)
  | trisynth {x y : Fl} {v w : Val} : JsNum x v → JsNum y w → Adds (.trisynth x y) (.trisynth v w)
  | seq {gs : List (List SeqElem)} {t : Name} : WList WGroup gs t → Adds (.seq (seqEvents gs)) (.seq (.str t))
  | adsr {x y z u : Fl} {a d s r : Val} : JsNum x a → JsNum y d → JsNum z s → JsNum u r →
      Adds (.adsr x y z u) (.adsr a d s r)
  | sp {t : Name} : t ≠ [] → (∀ c ∈ t, SymChar c) → Adds (.sp ('\\' :: t)) (.sp (.str t))
  | envperc {x y : Fl} {v w : Val} : JsNum x v → JsNum y w → Adds (.envperc x y) (.envperc v w)

/-- The program meant by an object of chains. -/
inductive Meant : List (Name × List Comp) → List (Name × Head × List Call) → Prop where
  | nil : Meant [] []
  | cons {k : Name} {c : Comp} {cs : List Comp} {h : Head} {l : List Call} {p : List (Name × List Comp)}
      {obj : List (Name × Head × List Call)} : WName k → Starts c h → List.Forall₂ Adds cs l → Meant p obj →
      Meant ((k, c :: cs) :: p) ((k, h, l) :: obj)

/-- Only functions that write what they mean: all but `psynth`. -/
def NoPsynth (obj : List (Name × Head × List Call)) : Prop := ∀ x ∈ obj, ∀ s v, x.2.1 ≠ .psynth s v

end Verif.Spec.Builder
