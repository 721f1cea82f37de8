import Verif.Parser.Grammar
import Verif.Make
import Verif.ParseNum
import Verif.ParseSeq

/-!
# From tokens to the syntax tree

Models rs/parser/src/nodes.rs, rs/parser/src/util.rs and `get_ast` of rs/parser/src/lib.rs. Errors carry no
position or expected rules.
-/

namespace Verif.Parse

/-- `Err(Box<Error<Rule>>)` or a panic. -/
inductive Fault where
  | err
  | panic (p : Panic)
  deriving Repr, DecidableEq

/-- The result of reading part of the tokens. -/
abbrev Res (α : Type) := Except Fault α

/-- A value that must be there. -/
def need {α : Type} : Option α → Res α
  | some a => .ok a
  | none => .error .err

/-- `Pairs::next` with `ok_or_else` (e.g. rs/parser/src/nodes.rs:413-415). -/
def next : List Pair → Res (Pair × List Pair)
  | [] => .error .err
  | p :: ps => .ok (p, ps)

/-- `try_to_parse::<f32>` (rs/parser/src/util.rs:55-62). -/
def f32Of (p : Pair) : Res Fl := need (parseF32 p.text)

/-- `try_to_parse::<usize>` (rs/parser/src/util.rs:55-62). -/
def usizeOf (p : Pair) : Res Nat := need (parseUInt (2 ^ 64 - 1) p.text)

/-- `next_parsed::<f32>` (rs/parser/src/util.rs:72-79). -/
def nextF32 (ps : List Pair) : Res (Fl × List Pair) := do
  let (p, ps) ← next ps
  let v ← f32Of p
  .ok (v, ps)

/-- `NumberOrRef::parse` (rs/parser/src/nodes.rs:320-329). -/
def numRef (p : Pair) : Res NumRef :=
  match p.rule with
  | .number => (f32Of p).map NumRef.num
  | .reference => .ok (.ref p.text)
  | _ => .error .err

/-- `NumberOrRef::parse_from_iter` (rs/parser/src/nodes.rs:331-342). -/
def nextNumRef (ps : List Pair) : Res (NumRef × List Pair) := do
  let (p, ps) ← next ps
  let v ← numRef p
  .ok (v, ps)

/-- `UsizeOrRef::parse_from_iter` (rs/parser/src/nodes.rs:449-466). -/
def natRef (ps : List Pair) : Res NatRef := do
  let (p, _) ← next ps
  match p.rule with
  | .number => (usizeOf p).map NatRef.nat
  | .reference => .ok (.ref p.text)
  | _ => .error .err

/-- `collect::<Result<Vec<_>, _>>`. -/
def collect {α β : Type} (f : α → Res β) : List α → Res (List β)
  | [] => .ok []
  | a :: l => do
    let b ← f a
    let bs ← collect f l
    .ok (b :: bs)

/-- The time of a point: its position in bars (rs/parser/src/nodes.rs:246-264). -/
def barOf (p : Pair) : Res Fl :=
  match p.rule with
  | .number => f32Of p
  | .bar => do
    let (top, ps) ← nextF32 p.inner
    let (bottom, _) ← nextF32 ps
    .ok (top /. bottom)
  | _ => .error .err

/-- The offset of a point (rs/parser/src/nodes.rs:266-298); the argument is the tokens after the position. -/
def offsetOf : List Pair → Res (Option Dur)
  | [] => .ok none
  | sgn :: ps => do
    let f : Fl := if sgn.text = ['-'] then .fin (-1) else .fin 1
    let (s, _) ← next ps
    match s.rule with
    | .second => do
      let (v, _) ← nextF32 s.inner
      .ok (some (.sec (f *. v)))
    | .ms => do
      let (v, _) ← nextF32 s.inner
      .ok (some (.ms (f *. v)))
    | _ => .error .err

/-- One point (rs/parser/src/nodes.rs:233-304). -/
def pointOf (p : Pair) : Res (TimeList × Fl) := do
  let (t, ps) ← next p.inner
  let (b, ts) ← next t.inner
  let bar ← barOf b
  let time ← offsetOf ts
  let (v, _) ← nextF32 ps
  .ok (⟨bar, time⟩, v)

/-- `Points::parse_from_iter` (rs/parser/src/nodes.rs:204-313). `fe` is `fasteval::ez_eval` on the text of the
factor, `none` for its errors, on which the code panics (`unwrap`, :221). -/
def pointsOf (fe : Name → Option Fl) (ps : List Pair) : Res Comp := do
  let (inner, ps) ← next ps
  let (span, looping) ← (match ps with
    | [] => .ok (.fin (-1), false)
    | p :: ps =>
      match p.rule with
      | .mathExpression =>
        match fe ('1' :: p.text) with
        | none => .error (.panic .missing)
        | some v => .ok (Fl.conv f32 v, !ps.isEmpty)
      | .isLooping => .ok (.fin 1, true)
      | _ => .error .err : Res (Fl × Bool))
  let pts ← collect pointOf inner.inner
  .ok (.points pts span looping)

/-- An element of a group (rs/parser/src/nodes.rs:529-551). -/
def seqElem (p : Pair) : Res SeqElem := do
  let (e, _) ← next p.inner
  match e.rule with
  | .integer => (usizeOf e).map SeqElem.note
  | .rest => .ok .rest
  | .noteRef => .ok (.ref e.text)
  | _ => .error .err

/-- `Seq::parse_from_iter` (rs/parser/src/nodes.rs:506-561). -/
def seqOf (ps : List Pair) : Res Comp := do
  let (paras, _) ← next ps
  let groups ← collect (fun g => collect seqElem g.inner) paras.inner
  .ok (.seq (seqEvents groups))

/-- One event (rs/parser/src/nodes.rs:662-682). -/
def eventOf (p : Pair) : Res (EventValue × Fl) := do
  let (v, ps) ← next p.inner
  let value ← (match v.rule with
    | .number => (f32Of v).map EventValue.num
    | .symbol => .ok (.sym v.text)
    | _ => .error .err : Res EventValue)
  let (t, _) ← nextF32 ps
  .ok (value, t)

/-- `EventInner::parse_from_iter` (rs/parser/src/nodes.rs:651-685). -/
def eventsOf (ps : List Pair) : Res (Events × List Pair) := do
  let (body, ps) ← next ps
  let evs ← collect eventOf body.inner
  .ok (evs, ps)

/-- `Pattern::parse_from_iter` (rs/parser/src/nodes.rs:695-704). -/
def patternOf (ps : List Pair) : Res (Events × Fl) := do
  let (evs, ps) ← eventsOf ps
  match ps with
  | [] => .ok (evs, .fin 1)
  | p :: _ => do
    let v ← f32Of p
    .ok (evs, v)

/-- `Signal::parse_from_iter` (rs/parser/src/nodes.rs:731-760). -/
def signalOf (ps : List Pair) : Res (Signal × List Pair) := do
  let (p, ps) ← next ps
  match p.rule with
  | .number => do
    let v ← f32Of p
    .ok (.num v, ps)
  | .reference => .ok (.ref p.text, ps)
  | .event => do
    let (evs, _) ← eventsOf p.inner
    .ok (.event evs, ps)
  | .pattern => do
    let (evs, v) ← patternOf p.inner
    .ok (.pattern evs v, ps)
  | _ => .error .err

/-- `PSampler::parse_from_iter` (rs/parser/src/nodes.rs:899-917). -/
def psamplerOf (ps : List Pair) : Res Comp := do
  let (p, _) ← next ps
  match p.rule with
  | .event => do
    let (evs, _) ← eventsOf p.inner
    .ok (.psampler evs none)
  | .pattern => do
    let (evs, v) ← patternOf p.inner
    .ok (.psampler evs (some v))
  | _ => .error .err

/-- `CodeBlock::parse_from_iter` (rs/parser/src/nodes.rs:1106-1119): `&s[1..s.len() - 1]`. The texts begin and
end with one-byte characters (those of `code` with `` ` ``, those of `eval_content` have no others), so bytes
and characters agree. -/
def codeOf (ps : List Pair) : Res Name := do
  let (p, _) ← next ps
  match p.text with
  | [] => .error (.panic .underflow)
  | [_] => .error (.panic .badSlice)
  | _ :: cs => .ok cs.dropLast

/-- Two numbers (rs/parser/src/nodes.rs:762-767, and 984-1030 with `N = 2`). -/
def two (f : Fl → Fl → Comp) (ps : List Pair) : Res Comp := do
  let (a, ps) ← nextF32 ps
  let (b, _) ← nextF32 ps
  .ok (f a b)

/-- One number or reference (rs/parser/src/nodes.rs:344-388). -/
def one (f : NumRef → Comp) (ps : List Pair) : Res Comp := do
  let (p, _) ← nextNumRef ps
  .ok (f p)

/-- One number (`Speed`, `Plate`, `ConstSig`: rs/parser/src/nodes.rs:395-400, 491-496, 713-718). -/
def oneNum (f : Fl → Comp) (ps : List Pair) : Res Comp := do
  let (v, _) ← nextF32 ps
  .ok (f v)

/-- The component of a node token (rs/parser/src/lib.rs:51-94); `ps` is what is inside. -/
def compOf (fe : Name → Option Fl) (r : Rule) (ps : List Pair) : Res Comp :=
  match r with
  | .points => pointsOf fe ps
  | .delayn => (natRef ps).map Comp.delayn
  | .delayms => one .delayms ps
  | .imp => one .imp ps
  | .tri => one .tri ps
  | .squ => one .squ ps
  | .saw => one .saw ps
  | .onepole => one .onepole ps
  | .sin => one .sin ps
  | .mul => one .mul ps
  | .add => one .add ps
  | .pan => one .pan ps
  | .seq => seqOf ps
  -- rs/parser/src/nodes.rs:571-581
  | .choose => (collect f32Of ps).map Comp.choose
  -- rs/parser/src/nodes.rs:608-616
  | .mix => .ok (.mix (ps.map Pair.text))
  -- rs/parser/src/nodes.rs:625-636
  | .sp => (next ps).map (fun x => .sp x.1.text)
  | .speed => oneNum .speed ps
  | .constsig => oneNum .constsig ps
  -- rs/parser/src/nodes.rs:476-481
  | .adc => do
    let (p, _) ← next ps
    let v ← need (parseUInt (2 ^ 32 - 1) p.text)
    .ok (.adc v)
  | .bd => one .bd ps
  | .sn => one .sn ps
  | .hh => one .hh ps
  | .sawsynth => two .sawsynth ps
  | .squsynth => two .squsynth ps
  | .trisynth => two .trisynth ps
  -- rs/parser/src/nodes.rs:878-888
  | .lpf => do
    let (s, ps) ← signalOf ps
    let (q, _) ← nextF32 ps
    .ok (.lpf s q)
  | .psampler => psamplerOf ps
  -- rs/parser/src/nodes.rs:927-943
  | .balance => do
    let (a, ps) ← next ps
    let (b, _) ← next ps
    .ok (.balance a.text b.text)
  -- rs/parser/src/nodes.rs:954-962
  | .rhpf => do
    let (c, ps) ← nextNumRef ps
    let (q, _) ← nextF32 ps
    .ok (.rhpf c q)
  -- rs/parser/src/nodes.rs:973-981
  | .apfmsgain => do
    let (c, ps) ← nextNumRef ps
    let (q, _) ← nextF32 ps
    .ok (.apfmsgain c q)
  -- rs/parser/src/nodes.rs:1043-1055
  | .reverb => do
    let (a, ps) ← nextF32 ps
    let (b, ps) ← nextF32 ps
    let (c, ps) ← nextF32 ps
    let (d, ps) ← nextF32 ps
    let (e, _) ← nextF32 ps
    .ok (.reverb a b c d e)
  | .envperc => two .envperc ps
  -- rs/parser/src/nodes.rs:1085-1096
  | .adsr => do
    let (a, ps) ← nextF32 ps
    let (b, ps) ← nextF32 ps
    let (c, ps) ← nextF32 ps
    let (d, _) ← nextF32 ps
    .ok (.adsr a b c d)
  | .plate => oneNum .plate ps
  -- rs/parser/src/nodes.rs:410-420
  | .get => (next ps).map (fun x => .get x.1.text)
  -- rs/parser/src/nodes.rs:430-435
  | .noise => do
    let (p, _) ← next ps
    let v ← usizeOf p
    .ok (.noise v)
  | .meta => (codeOf ps).map Comp.metaScript
  | .expr => (codeOf ps).map Comp.expr
  | .eval => (codeOf ps).map Comp.eval
  -- rs/parser/src/nodes.rs:590-598
  | .arrange => (collect numRef ps).map Comp.arrange
  -- rs/parser/src/nodes.rs:826-844
  | .msgsynth => do
    let (s, ps) ← next ps
    let (a, ps) ← nextF32 ps
    let (b, _) ← nextF32 ps
    .ok (.msgsynth s.text a b)
  -- rs/parser/src/nodes.rs:855-867
  | .patternSynth => do
    let (s, ps) ← next ps
    let (v, _) ← nextF32 ps
    .ok (.patternSynth s.text v)
  | _ => .error .err

/-- The component of a `node` token (rs/parser/src/lib.rs:45-97). -/
def nodeOf (fe : Name → Option Fl) (p : Pair) : Res Comp := do
  let (n, _) ← next p.inner
  compOf fe n.rule n.inner

/-- One line (rs/parser/src/lib.rs:29-104). -/
def lineOf (fe : Name → Option Fl) (p : Pair) : Res (Name × List Comp) := do
  let (r, ps) ← next p.inner
  if r.rule = .reference then do
    let (c, _) ← next ps
    if c.rule = .chain then do
      let comps ← collect (nodeOf fe) c.inner
      .ok (r.text, comps)
    else .error .err
  else .error .err

/-- `HashMap::insert`: replaces the value of an existing key. -/
def put (k : Name) (v : List Comp) : Ast Comp → Ast Comp
  | [] => [(k, v)]
  | (k', v') :: t => if k' = k then (k, v) :: t else (k', v') :: put k v t

/-- `collect::<HashMap<_, _>>` (rs/parser/src/lib.rs:105), in some order of the map. -/
def putAll : List (Name × List Comp) → Ast Comp → Ast Comp
  | [], t => t
  | (k, v) :: l, t => putAll l (put k v t)

/-- `get_ast` (rs/parser/src/lib.rs:16-109). -/
def getAst (fe : Name → Option Fl) (code : Name) : Res (Ast Comp) := do
  match Grammar.block code with
  | none => .error .err
  | some (_, b :: _, _) => do
    let lines ← collect (lineOf fe) (b.inner.filter (fun p => decide (p.rule = .line)))
    .ok (putAll lines [])
  | some (_, [], _) => .error .err

/-- The parser as the engine uses it (rs/main/src/lib.rs:180-183): `ok none` for an error. -/
def parse (fe : Name → Option Fl) (code : Name) : Except Panic (Option (Ast Comp)) :=
  match getAst fe code with
  | .ok a => .ok (some a)
  | .error .err => .ok none
  | .error (.panic p) => .error p

end Verif.Parse
