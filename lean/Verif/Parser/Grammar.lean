import Verif.Parser.Peg

/-!
# The grammar

Transcription of rs/parser/src/glicol.pest, rule by rule.
-/

namespace Verif.Grammar
open Peg

/-- `WHITESPACE` (glicol.pest:109). -/
def blank : Peg := chr (fun c => c == ' ' || c == ',' || c == '|' || c == '\t')

/-- `ws` (glicol.pest:110). -/
def ws : Peg := chr (fun c => c == ' ' || c == ',' || c == '|' || c == '\t' || c == '\n')

/-- `ASCII_DIGIT`. -/
def isDigit (c : Char) : Bool := decide ('0' ≤ c ∧ c ≤ '9')
/-- `ASCII_ALPHA_LOWER`. -/
def isLower (c : Char) : Bool := decide ('a' ≤ c ∧ c ≤ 'z')
/-- `ASCII_ALPHANUMERIC`. -/
def isAlnum (c : Char) : Bool := isDigit c || isLower c || decide ('A' ≤ c ∧ c ≤ 'Z')
/-- `ASCII_HEX_DIGIT`. -/
def isHex (c : Char) : Bool := isDigit c || decide ('a' ≤ c ∧ c ≤ 'f') || decide ('A' ≤ c ∧ c ≤ 'F')

/-- `ASCII_DIGIT`. -/
def digit : Peg := chr isDigit
/-- `ASCII_ALPHA_LOWER`. -/
def lower : Peg := chr isLower
/-- `ANY`. -/
def any : Peg := chr (fun _ => true)
/-- `NEWLINE`: `"\n" | "\r\n" | "\r"`. -/
def newline : Peg := alts [lit ['\n'], lit ['\r', '\n'], lit ['\r']]

/-- `("+" | "-")?`. -/
def plusMinus : Peg := opt (chr (fun c => c == '+' || c == '-'))

/-- `integer` (glicol.pest:108). -/
def integer : Peg := tok .integer (seqs [plusMinus, plus digit, not (lit ['.'])])

/-- `float` (glicol.pest:98). -/
def float : Peg :=
  tok .float (seqs [seq plusMinus (plus digit), lit ['.'], star digit,
    opt (seq (chr (fun c => c == 'e' || c == 'E')) integer)])

/-- `number` (glicol.pest:97). -/
def number : Peg := tok .number (alt float integer)

/-- Part of `symbol` (glicol.pest:99). -/
def symChar : Peg := chr (fun c => isAlnum c || c == '_' || c == '-')

/-- `symbol` (glicol.pest:99). -/
def symbol : Peg :=
  tok .symbol (alt (seqs [lit ['\''], plus symChar, lit ['\'']]) (seq (lit ['\\']) (plus symChar)))

/-- `("_" | ASCII_ALPHA_LOWER | ASCII_DIGIT)*` (glicol.pest:105). -/
def nameTail : Peg := star (chr (fun c => c == '_' || isLower c || isDigit c))

/-- `reference` with `loose_match` (glicol.pest:105-106). -/
def reference : Peg :=
  tok .reference (seqs [opt (chr (fun c => c == '~' || c == '_')), plus lower, nameTail,
    opt (tok .looseMatch (lit ['.', '.']))])

/-- `note_ref` (glicol.pest:104). -/
def noteRef : Peg := tok .noteRef (seq (lit ['~']) lower)

/-- `rest` (glicol.pest:107). -/
def rest : Peg := tok .rest (lit ['_'])

/-- `note` (glicol.pest:103). -/
def note : Peg := tok .note (alts [integer, rest, noteRef])

/-- `compound` (glicol.pest:102). -/
def compound : Peg := tok .compound (plus note)

/-- `compound_notes` (glicol.pest:101); atomic, but the rules inside are compound-atomic and leave their
tokens. -/
def compoundNotes : Peg := tok .compoundNotes (seq compound (star (seq (plus blank) compound)))

/-- `node_name` (glicol.pest:112-118), only used in lookaheads. -/
def nodeName : Peg := alts (List.map lit [
  c!"reverb", c!"arrange", c!"adsr", c!"sig", c!"psampler", c!"synth", c!"msgsynth", c!"psynth", c!"p_synth",
  c!"pattern_synth", c!"bd", c!"sn", c!"hh", c!"squsynth", c!"trisynth", c!"seq", c!"speed", c!"choose", c!"mul",
  c!"add", c!"linrange", c!"apfdecay", c!"delayn", c!"delaymod", c!"expr", c!"eval", c!"sin", c!"squ", c!"imp",
  c!"envperc", c!"sampler", c!"noiz", c!"lpf", c!"plate", c!"onepole", c!"hpf", c!"pha", c!"buf", c!"state",
  c!"freeverb", c!"pan", c!"delay", c!"apfgain", c!"comb", c!"mix", c!"monosum", c!"const_sig", c!"constsig", c!"*",
  c!"sp", c!"spd", c!"tri", c!"noise", c!"amplfo", c!"balance", c!"rlpf", c!"rhpf", c!"kick", c!"ks", c!"pha",
  c!"shape", c!"sawsynth", c!"saw", c!"script", c!"closure", c!"r", c!"apfmsgain", c!"sendpass", c!"mix", c!"sum",
  c!"meta", c!"adc"])

/-- `WHITESPACE+ ~ !node_name ~ p`. -/
def arg (p : Peg) : Peg := seqs [plus blank, not nodeName, p]

/-- `WHITESPACE+ ~ !(node_name | reference) ~ number`. -/
def numArg : Peg := seqs [plus blank, not (alt nodeName reference), number]

/-- `(number | reference)`. -/
def numberOrRef : Peg := alt number reference

/-- `bar` (glicol.pest:20). -/
def bar : Peg := tok .bar (seqs [integer, star ws, lit ['/'], star ws, integer])

/-- `math_expression` (glicol.pest:12). -/
def mathExpression : Peg :=
  tok .mathExpression (seqs [chr (fun c => c == '/' || c == '*'), star ws,
    alt number (seqs [lit ['('], bar, lit [')']])])

/-- `is_looping` (glicol.pest:13). -/
def isLooping : Peg := tok .isLooping (lit ['!'])

/-- `sign` (glicol.pest:21). -/
def sign : Peg := tok .sign (chr (fun c => c == '+' || c == '-'))

/-- `ms` (glicol.pest:22). -/
def ms : Peg := tok .ms (seqs [number, lit ['_'], lit ['m', 's']])

/-- `second` (glicol.pest:23). -/
def second : Peg := tok .second (seqs [number, lit ['_'], lit ['s']])

/-- `time` (glicol.pest:16-18). -/
def time : Peg :=
  tok .time (seq (alt bar number) (opt (seqs [star ws, sign, star ws, alt ms second])))

/-- `point` (glicol.pest:15). -/
def point : Peg := tok .point (seqs [time, star ws, lit ['=', '>'], star ws, number, star ws])

/-- `points_inner` (glicol.pest:11). -/
def pointsInner : Peg := tok .pointsInner (seqs [lit ['['], star ws, star point, star ws, lit [']']])

/-- `points` (glicol.pest:10). -/
def points : Peg :=
  tok .points (seqs [pointsInner, star ws, opt mathExpression, star ws, opt isLooping])

/-- `value_time` (glicol.pest:95). -/
def valueTime : Peg := tok .valueTime (seqs [alt number symbol, lit ['@'], number])

/-- `pattern_event_body` (glicol.pest:94). -/
def patternEventBody : Peg :=
  tok .patternEventBody (seqs [star blank, valueTime, star (seq (plus blank) valueTime)])

/-- `event` (glicol.pest:92). -/
def event : Peg := tok .event (seqs [lit ['"'], patternEventBody, lit ['"']])

/-- `pattern` (glicol.pest:93). -/
def pattern : Peg :=
  tok .pattern (seqs [lit ['"'], patternEventBody, lit ['"'], lit ['('], opt number, lit [')']])

/-- `char` (glicol.pest:47-51), inside the atomic `inner`. -/
def codeChar : Peg := quiet (alts [
  seq (not (alt (lit ['`']) (lit ['\\']))) any,
  seq (lit ['\\']) (chr (fun c => c == '"' || c == '\\' || c == '/' || c == 'b' || c == 'f' || c == 'n' ||
    c == 'r' || c == 't')),
  seq (lit ['\\']) (seqs [lit ['u'], chr isHex, chr isHex, chr isHex, chr isHex])])

/-- `code` and `inner` (glicol.pest:45-46). -/
def code : Peg := tok .code (seqs [lit ['`'], tok .inner (star codeChar), lit ['`']])

/-- `var` (glicol.pest:42). -/
def var : Peg := seq (plus lower) nameTail

/-- `valid_token` (glicol.pest:41). -/
def validToken : Peg := alts [var, lit [' '], lit ['\n'], lit ['%'], lit ['+'], lit ['-'], lit ['*'], lit ['/'],
  lit ['^'], lit ['('], lit [')'], lit ['['], lit [']'], lit ['>', '='], lit ['<', '='], lit ['=', '='],
  lit ['!', '='], lit ['>'], lit ['<'], lit c!"true", lit c!"false", lit ['&'], lit ['.'], digit]

/-- `value_char` (glicol.pest:40), inside atomic rules. -/
def valueChar : Peg := quiet (seq (not (alt (lit [';']) (lit ['`']))) validToken)

/-- `eval_sentence`, `assign_to`, `assign_value` (glicol.pest:37-39). -/
def evalSentence : Peg :=
  tok .evalSentence (seqs [tok .assignTo var, star ws, lit [':', '='], star ws,
    tok .assignValue (star valueChar), star ws, lit [';']])

/-- `eval_content` and `return` (glicol.pest:33-36). -/
def evalContent : Peg :=
  tok .evalContent (seq (star (seqs [star ws, evalSentence, star ws])) (tok .ret (star valueChar)))

/-- A node with one argument that is a number or a reference, e.g. `mul` (glicol.pest:69). -/
def unary (r : Rule) (names : List Name) (p : Peg) : Peg := tok r (seq (alts (names.map lit)) (arg p))

/-- `mul` (glicol.pest:69). -/
def mul : Peg := unary .mul [c!"mul"] numberOrRef
/-- `add` (glicol.pest:77). -/
def add : Peg := unary .add [c!"add"] numberOrRef
/-- `sin` (glicol.pest:78). -/
def sin : Peg := unary .sin [c!"sin"] numberOrRef
/-- `saw` (glicol.pest:79). -/
def saw : Peg := unary .saw [c!"saw"] numberOrRef
/-- `squ` (glicol.pest:80). -/
def squ : Peg := unary .squ [c!"squ"] numberOrRef
/-- `tri` (glicol.pest:81). -/
def tri : Peg := unary .tri [c!"tri"] numberOrRef
/-- `pan` (glicol.pest:82). -/
def pan : Peg := unary .pan [c!"pan"] numberOrRef
/-- `onepole` (glicol.pest:84). -/
def onepole : Peg := unary .onepole [c!"onepole"] numberOrRef
/-- `delayn` (glicol.pest:60). -/
def delayn : Peg := unary .delayn [c!"delayn"] numberOrRef
/-- `delayms` (glicol.pest:61). -/
def delayms : Peg := unary .delayms [c!"delayms"] numberOrRef
/-- `imp` (glicol.pest:70). -/
def imp : Peg := unary .imp [c!"imp"] number
/-- `bd` (glicol.pest:71). -/
def bd : Peg := unary .bd [c!"bd"] number
/-- `sn` (glicol.pest:72). -/
def sn : Peg := unary .sn [c!"sn"] number
/-- `hh` (glicol.pest:73). -/
def hh : Peg := unary .hh [c!"hh"] number
/-- `constsig` (glicol.pest:83). -/
def constsig : Peg := unary .constsig [c!"sig", c!"constsig"] number
/-- `adc` (glicol.pest:28). -/
def adc : Peg := unary .adc [c!"adc"] number

/-- `speed` (glicol.pest:87). -/
def speed : Peg := tok .speed (seqs [lit c!"speed", plus blank, number])
/-- `noise` (glicol.pest:88). -/
def noise : Peg := tok .noise (seqs [alts [lit c!"noiz", lit c!"noise"], plus blank, number])
/-- `sp` (glicol.pest:89). -/
def sp : Peg :=
  tok .sp (seqs [alts [lit c!"sp", lit c!"sampler"], plus blank, not (alts [nodeName, reference, number]), symbol])
/-- `plate` (glicol.pest:58). -/
def plate : Peg := tok .plate (seq (lit c!"plate") numArg)
/-- `envperc` (glicol.pest:59). -/
def envperc : Peg := tok .envperc (seqs [lit c!"envperc", numArg, numArg])
/-- `sawsynth` (glicol.pest:74). -/
def sawsynth : Peg := tok .sawsynth (seqs [lit c!"sawsynth", numArg, numArg])
/-- `squsynth` (glicol.pest:75). -/
def squsynth : Peg := tok .squsynth (seqs [lit c!"squsynth", numArg, numArg])
/-- `trisynth` (glicol.pest:76). -/
def trisynth : Peg := tok .trisynth (seqs [lit c!"trisynth", numArg, numArg])
/-- `adsr` (glicol.pest:63). -/
def adsr : Peg := tok .adsr (seqs [lit c!"adsr", arg number, arg number, arg number, arg number])
/-- `reverb` (glicol.pest:54). -/
def reverb : Peg := tok .reverb (seqs [lit c!"reverb", numArg, numArg, numArg, numArg, numArg])
/-- `apfmsgain` (glicol.pest:66). -/
def apfmsgain : Peg :=
  tok .apfmsgain (seqs [alts [lit c!"apfgain", lit c!"apfmsgain"], arg numberOrRef, numArg])
/-- `lpf` (glicol.pest:67). -/
def lpf : Peg := tok .lpf (seqs [lit c!"lpf", arg (alts [number, reference, pattern, event]), numArg])
/-- `rhpf` (glicol.pest:68). -/
def rhpf : Peg := tok .rhpf (seqs [alts [lit c!"rhpf", lit c!"hpf"], arg numberOrRef, numArg])
/-- `seq` (glicol.pest:62). -/
def seqNode : Peg := tok .seq (seqs [lit c!"seq", plus blank, compoundNotes])
/-- `choose` (glicol.pest:64). -/
def choose : Peg :=
  tok .choose (seqs [lit c!"choose", plus blank, integer, star (seq (plus blank) integer)])
/-- `mix` (glicol.pest:65). -/
def mix : Peg := tok .mix (seqs [lit c!"mix", plus blank, reference, star (seq (plus blank) reference)])
/-- `sendpass` (glicol.pest:57). -/
def sendpass : Peg :=
  tok .sendpass (seqs [lit c!"sendpass", plus blank, reference, star (seq (plus blank) reference)])
/-- `arrange` (glicol.pest:52). -/
def arrange : Peg :=
  tok .arrange (seqs [lit c!"arrange", plus blank, reference, plus blank, number,
    star (seqs [plus blank, reference, plus blank, number])])
/-- `balance` (glicol.pest:55). -/
def balance : Peg := tok .balance (seqs [lit c!"balance", plus blank, reference, plus blank, reference])
/-- `get` (glicol.pest:56). -/
def get : Peg := tok .get (seqs [opt (seq (lit c!"get") (plus blank)), not nodeName, reference])
/-- `psampler` (glicol.pest:25). -/
def psampler : Peg := tok .psampler (seqs [lit c!"psampler", plus blank, alt pattern event])
/-- `msgsynth` (glicol.pest:26). -/
def msgsynth : Peg :=
  tok .msgsynth (seqs [alts [lit c!"msgsynth", lit c!"msg_synth"], arg symbol, arg number, arg number])
/-- `pattern_synth` (glicol.pest:27). -/
def patternSynth : Peg :=
  tok .patternSynth (seqs [alts [lit c!"psynth", lit c!"p_synth", lit c!"pattern_synth"], plus blank, code,
    opt (arg number)])
/-- `expr` (glicol.pest:30). -/
def expr : Peg := tok .expr (seqs [lit c!"expr", plus ws, code])
/-- `eval` (glicol.pest:32). -/
def eval : Peg := tok .eval (seqs [lit c!"eval", plus ws, lit ['`'], evalContent, lit ['`']])
/-- `meta` (glicol.pest:44). -/
def metaNode : Peg := tok .meta (seqs [alts [lit c!"meta", lit c!"script"], plus blank, code])

/-- The alternatives of `node` (glicol.pest:6-8), in this order. -/
def nodeAlts : List Peg := [reverb, arrange, psampler, mix, seqNode, choose, mul, add, sin, saw, squ, tri, pan,
  speed, noise, onepole, sp, constsig, lpf, rhpf, onepole, imp, delayn, delayms, envperc, apfmsgain, plate, sendpass,
  get, bd, sn, hh, expr, eval, points, metaNode, sawsynth, squsynth, trisynth, balance, adc, patternSynth, msgsynth,
  adsr]

/-- `node` (glicol.pest:6-8). -/
def node : Peg := tok .node (alts nodeAlts)

/-- `comment` (glicol.pest:2). -/
def comment : Peg :=
  seqs [lit ['/', '/'], star (seq (not newline) any), star newline, not newline]

/-- `chain` (glicol.pest:4). -/
def chain : Peg :=
  tok .chain (seq node (star (seqs [star blank, opt (lit ['\n']), star blank,
    alt (seqs [lit ['>', '>'], star blank, node]) comment])))

/-- `line` (glicol.pest:3). -/
def line : Peg := tok .line (seqs [reference, star blank, lit [':'], star blank, chain])

/-- One turn of the loop of `block` (glicol.pest:1). -/
def item : Peg :=
  seqs [alt line comment, star blank, opt (lit [';']), star blank, star (seq (lit ['\n']) (star blank))]

/-- `block` (glicol.pest:1). -/
def block : Peg :=
  tok .block (seqs [star (alt (lit ['\n']) blank), star item, eoi])

end Verif.Grammar
