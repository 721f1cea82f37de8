import Verif.Ast
import Verif.Parser.Chars
import Verif.Worklet

/-! # The chain builder of the JavaScript package (js/npm/nodechain.js) -/

namespace Verif.NodeChain
open Verif

/-- A JavaScript value handed to the builder: a number, given by the text that `${x}` makes of it, or a string.
Simplification: there are no other kinds of values; an array is the string that `${x}` makes of it. -/
inductive Val where
  | num (t : Name)
  | str (t : Name)

/-- `${x}`. -/
def Val.text : Val → Name
  | .num t => t
  | .str t => t

/-- `!isNaN(x)`. Which strings JavaScript converts to a number is left to the function `numeric`. -/
def notNaN (numeric : Name → Bool) : Val → Bool
  | .num t => t ≠ c!"NaN"
  | .str t => numeric t

/-- `isRef` (js/npm/nodechain.js:1). -/
def isRef (v : Val) : Bool := v.text.contains '~'

/-- The digits at the start of a text. -/
def leadingDigits : Name → Name
  | c :: t => if '0' ≤ c ∧ c ≤ '9' then c :: leadingDigits t else []
  | [] => []

/-- Digits without zeros in front. -/
def dropZeros : Name → Name
  | '0' :: c :: t => dropZeros (c :: t)
  | t => t

/-- `${parseInt(x)}` (js/npm/nodechain.js:105). Simplification: no blanks in front, no hexadecimal numbers. -/
def parseInt (t : Name) : Name :=
  match t with
  | '-' :: t =>
    if leadingDigits t = [] then c!"NaN"
    else if dropZeros (leadingDigits t) = ['0'] then ['0'] else '-' :: dropZeros (leadingDigits t)
  | '+' :: t => if leadingDigits t = [] then c!"NaN" else dropZeros (leadingDigits t)
  | t => if leadingDigits t = [] then c!"NaN" else dropZeros (leadingDigits t)

/-- The functions that start a chain (js/npm/nodechain.js:3-72). -/
inductive Head where
  | sin (freq : Val)
  | saw (freq : Val)
  | tri (freq : Val)
  | squ (freq : Val)
  | imp (freq : Val)
  | noise (seed : Val)
  | speed (val : Val)
  | seq (str : Val)
  | psynth (str span : Val)
  | psampler (str : Val)
  | sig (param : Val)
  | mix (str : Val)

/-- The methods that add to a chain (js/npm/nodechain.js:74-201). -/
inductive Call where
  | mul (val : Val)
  | add (val : Val)
  | delayms (val : Val)
  | delayn (val : Val)
  | lpf (cutoff qvalue : Val)
  | hpf (cutoff qvalue : Val)
  | plate (val : Val)
  | bd (val : Val)
  | sn (val : Val)
  | hh (val : Val)
  | sawsynth (att dec : Val)
  | squsynth (att dec : Val)
  | trisynth (att dec : Val)
  | seq (str : Val)
  | adsr (a d s r : Val)
  | sp (sampleName : Val)
  | envperc (attack decay : Val)

variable (numeric : Name → Bool)

/-- A word and a value. -/
def word1 (kw : Name) (v : Val) : Name := kw ++ ' ' :: v.text

/-- A word and two values. -/
def word2 (kw : Name) (v w : Val) : Name := kw ++ ' ' :: (v.text ++ ' ' :: w.text)

/-- The text at the start of a chain (js/npm/nodechain.js:3-72); `none` where nothing is returned, so that a call
on the result throws. -/
def start : Head → Option Name
  | .sin v => if notNaN numeric v || isRef v then some (word1 c!"sin" v) else none
  | .saw v => if notNaN numeric v || isRef v then some (word1 c!"saw" v) else none
  | .tri v => if notNaN numeric v || isRef v then some (word1 c!"tri" v) else none
  | .squ v => if notNaN numeric v || isRef v then some (word1 c!"squ" v) else none
  | .imp v => if notNaN numeric v then some (word1 c!"imp" v) else none
  | .noise v => if notNaN numeric v then some (word1 c!"noise" v) else none
  | .speed v => if notNaN numeric v then some (word1 c!"speed" v) else none
  | .seq v => some (word1 c!"seq" v)
  | .psynth s v => if notNaN numeric v then some (c!"p_synth `" ++ (s.text ++ ' ' :: v.text)) else none
  | .psampler v => some (word1 c!"psampler" v)
  | .sig v => some (word1 c!"constsig" v)
  | .mix v => some (word1 c!"mix" v)

/-- What a call adds to the text (js/npm/nodechain.js:83-199); nothing if an argument is refused. -/
def added : Call → Name
  | .mul v => if notNaN numeric v || isRef v then c!" >> " ++ word1 c!"mul" v else []
  | .add v => if notNaN numeric v || isRef v then c!" >> " ++ word1 c!"add" v else []
  | .delayms v => if notNaN numeric v || isRef v then c!" >> " ++ word1 c!"delayms" v else []
  | .delayn v => if notNaN numeric v then c!" >> " ++ (c!"delayn" ++ ' ' :: parseInt v.text) else []
  | .lpf v w => c!" >> " ++ word2 c!"lpf" v w
  | .hpf v w => if (notNaN numeric v || isRef v) && notNaN numeric w then c!" >> " ++ word2 c!"hpf" v w else []
  | .plate v => if notNaN numeric v then c!" >> " ++ word1 c!"plate" v else []
  | .bd v => if notNaN numeric v then c!" >> " ++ word1 c!"bd" v else []
  | .sn v => if notNaN numeric v then c!" >> " ++ word1 c!"sn" v else []
  | .hh v => if notNaN numeric v then c!" >> " ++ word1 c!"hh" v else []
  | .sawsynth v w => if notNaN numeric v && notNaN numeric w then c!" >> " ++ word2 c!"sawsynth" v w else []
  | .squsynth v w => if notNaN numeric v && notNaN numeric w then c!" >> " ++ word2 c!"squsynth" v w else []
  | .trisynth v w => if notNaN numeric v && notNaN numeric w then c!" >> " ++ word2 c!"trisynth" v w else []
  | .seq v => c!" >> " ++ word1 c!"seq" v
  | .adsr a d s r => c!" >> " ++ (c!"adsr" ++ ' ' :: (a.text ++ ' ' :: (d.text ++ ' ' :: (s.text ++ ' ' :: r.text))))
  | .sp v => c!" >> sp \\" ++ v.text
  | .envperc v w => c!" >> " ++ word2 c!"envperc" v w

/-- The text of a chain after calls, `chain.code` (js/npm/nodechain.js:74-82). -/
def code (h : Head) (calls : List Call) : Option Name :=
  (start numeric h).map (fun t => t ++ calls.flatMap (added numeric))

/-- What `play(obj)` sends (js/npm/index.js:215-224), the keys and chains of `obj` in the order of `for … in`;
`none` if a chain is missing, where `obj[key].code` throws. -/
def play : List (Name × Head × List Call) → Option Name
  | [] => some []
  | (key, h, calls) :: rest => do
    let t ← code numeric h calls
    let u ← play rest
    some (key ++ (c!": " ++ (t ++ (c!";\n\n" ++ u))))

end Verif.NodeChain
