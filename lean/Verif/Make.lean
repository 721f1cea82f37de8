import Verif.Nodes.Compound

/-!
# Building nodes

`makenode` (rs/main/src/util.rs:35-449) and the language the engine of `Verif/Engine.lean` runs.
-/

namespace Verif

/-- The scripted nodes `eval` and `meta` (rs/synth/src/node/dynamic), whose behaviour comes from the
crates `fasteval` and `rhai`: an arbitrary node, except for its list of inputs, which is the same in both (`GNode.script`).
`new` gets the code and the sample rate; the first argument tells `meta` (true) from `eval`. `proc` gets the list of inputs;
`set` is the reaction to `Message::SetToSymbol`. `Verif/Script.lean` fills this in. -/
structure Ext where
  State : Type
  new : Bool → Name → Nat → Except Panic State
  proc : State → List Nat → Ins → List Buf → Except Panic (State × List Buf)
  set : State → Nat → Name → Except Panic State

/-- What the engine runs on: the functions of the standard library, the iteration order of the maps
inside compound nodes, and the scripted nodes. -/
structure Plat where
  libm : Libm
  ho : HashOrder
  ext : Ext

/-- A node of the engine's graph. `order` is the field `input_order` of `Eval` and `Meta`
(rs/synth/src/node/dynamic/eval.rs:19, meta.rs:12). -/
inductive GNode (P : Plat) where
  | prim (n : Prim)
  | compound (c : Compound)
  | script (order : List Nat) (s : P.ext.State)

/-- `Node::process`. -/
def procG (P : Plat) : ProcFn (GNode P) Buf := fun n ins out =>
  match n with
  | .prim n => reState .prim (procPrim P.libm n ins out)
  | .compound c => reState .compound (procCompound P.libm P.ho c ins out)
  | .script o s => reState (.script o) (P.ext.proc s o ins out)

/-- `Node::send_msg`; for scripted nodes rs/synth/src/node/dynamic/eval.rs:118-138 and meta.rs:128-142. -/
def msgG (P : Plat) (n : GNode P) (g : Msg Fl) : Except Panic (GNode P) :=
  match n with
  | .prim n => .prim <$> msgPrim P.libm n g
  | .compound c => .compound <$> c.msg P.libm g
  | .script o s =>
    match g with
    | .setToSymbol p t => .script o <$> P.ext.set s p t
    | g => do
      let o ← orderMsg true o g
      .ok (.script o s)

/-- A panic while building a node. -/
def liftP {α : Type} : Except Panic α → Except Stop α
  | .ok a => .ok a
  | .error p => .error (.panic p)

/-- The number of a parameter, or the default that stands in for a reference. -/
def NumRef.value (d : Fl) : NumRef → Fl
  | .num v => v
  | .ref _ => d

/-- The events of `psampler` with their samples (rs/main/src/util.rs:51-68): a number stands for the
empty name. -/
def selectSamples (samples : List (Name × Sample)) : Events → Except Stop (List (Sample × Fl))
  | [] => .ok []
  | (v, t) :: es =>
    let name := match v with
      | .num _ => []
      | .sym s => s
    match lookup samples name with
    | none => .error (.err (.nonExistSample name))
    | some s => do
      let r ← selectSamples samples es
      .ok ((s, t) :: r)

/-- `ResonantLowPassFilter::new()` with the given settings (rs/main/src/util.rs:152-190,
rs/synth/src/node/filter/rlpf.rs:27-78). -/
def Rlpf.new (cutoff q : Fl) (pattern : List (Fl × Fl)) (span bpm : Fl) (sr : Nat) : Rlpf :=
  ⟨pattern, span, bpm, sr, cutoff, q, Biquad.zero, 0, []⟩

/-- The numbers of a pattern; a symbol counts as 100 (rs/main/src/util.rs:172-180). -/
def patternNums (e : Events) : List (Fl × Fl) :=
  e.map (fun p => match p.1 with
    | .num v => (v, p.2)
    | .sym _ => (.fin 100, p.2))

/-- The node and its number of channels, for the components that build a primitive node
(rs/main/src/util.rs:42-412). `none`: not a primitive node. -/
def makePrim (m : Libm) (samples : List (Name × Sample)) (sr : Nat) (bpm : Fl) (seed : Nat) (c : Comp) :
    Option (Except Stop (Nat × Prim)) :=
  match c with
  | .psampler _ none => some (.error (.panic .unsupported))
  | .psampler e (some span) => some (do
      let l ← selectSamples samples e
      .ok (2, .psampler (PSampler.new l span sr bpm)))
  | .points ps span l => some (do
      let p ← liftP (Points.new ps span l bpm sr)
      .ok (1, .points p))
  | .msgsynth _ a d => some (.ok (1, .msgSynth (MsgSynth.new a d sr)))
  | .patternSynth s _ => some (do
      let p ← liftP (PatternSynth.new s sr)
      .ok (1, .patSynth p))
  | .sp sym => some (
      match lookup samples sym with
      | none => .error (.err (.nonExistSample sym))
      | some s => do
        let p ← liftP (Sampler.new s sr)
        .ok (2, .sampler p))
  | .lpf (.num v) q => some (.ok (1, .rlpf (Rlpf.new v q [] (.fin 1) (.fin 120) sr)))
  | .lpf (.ref _) q => some (.ok (1, .rlpf (Rlpf.new (.fin 20) q [] (.fin 1) (.fin 120) sr)))
  | .lpf (.pattern e span) q =>
    some (.ok (1, .rlpf (Rlpf.new (.fin 20) q (patternNums e) span bpm sr)))
  | .lpf (.event _) _ => some (.error (.panic .unsupported))
  | .balance _ _ => some (.ok (2, .balance []))
  | .rhpf c q => some (.ok (1, .rhpf (Rhpf.new (c.value (.fin 100)) q)))
  | .apfmsgain d g => some (do
      let f ← liftP (Apf.new sr (d.value (.fin 0)) g)
      .ok (2, .apf f))
  | .envperc a d => some (.ok (2, .envperc (EnvPerc.new a d sr)))
  | .adsr a d s r => some (.ok (2, .adsr (Adsr.new a d s r sr)))
  | .tri p => some (.ok (1, .osc .tri (Osc.new (p.value (.fin 0)) sr)))
  | .squ p => some (.ok (1, .osc .squ (Osc.new (p.value (.fin 0)) sr)))
  | .saw p => some (.ok (1, .osc .saw (Osc.new (p.value (.fin 0)) sr)))
  | .sin p => some (.ok (1, .sin (Osc.new (p.value (.fin 0)) sr)))
  | .imp p => some (.ok (1, .imp (Impulse.new sr (p.value (.fin 0)))))
  | .mul p => some (.ok (2, .mul (arith (p.value (.fin 0)))))
  | .pan p => some (.ok (2, .pan (arith (p.value (.fin 0)))))
  | .delayn (.nat n) => some (.ok (2, .delayn (DelayN.new n)))
  | .delayn (.ref _) => some (.ok (2, .delayn (DelayN.new 0)))
  | .delayms p => some (.ok (2, .delayms (DelayMs.new sr (p.value (.fin 2000)) 2)))
  | .noise s => some (.ok (1, .noise ⟨s, 0, []⟩))
  | .speed v => some (.ok (1, .speed (arith v)))
  | .onepole p => some (.ok (1, .onepole (OnePole.new m (p.value (.fin 0)))))
  | .add p => some (.ok (2, .add (arith (p.value (.fin 0)))))
  | .constsig v => some (.ok (1, .constSig (ConstSig.new v sr)))
  | .get _ => some (.ok (2, .pass))
  | .seq e => some (.ok (2, .seq (Sequencer.new e sr bpm)))
  | .choose l => some (.ok (2, .choose (Choose.new l seed)))
  | .mix _ => some (.ok (2, .sum2))
  | .arrange e => some (.ok (2, .arrange (Arrange.new e sr bpm)))
  | .adc _ => some (.error (.panic .unsupported))
  | .reverb .. => some (.error (.panic .unsupported))
  | .expr _ => some (.error (.panic .unsupported))
  | .bd _ | .hh _ | .sn _ | .sawsynth _ _ | .squsynth _ _ | .trisynth _ _ | .plate _ | .eval _
  | .metaScript _ => none

/-- The components that build a compound node (rs/main/src/util.rs:318,374-386). -/
def makeCompound (m : Libm) (N : Nat) (c : Comp) : Option (Except Panic Compound) :=
  match c with
  | .bd p => some (newBd m N (p.value (.fin 0)))
  | .hh p => some (newHh m N (p.value (.fin 0)))
  | .sn p => some (newSn m N (p.value (.fin 0)))
  | .sawsynth a d => some (newSynth m N .saw a d)
  | .squsynth a d => some (newSynth m N .squ a d)
  | .trisynth a d => some (newSynth m N .tri a d)
  | .plate mix => some (newPlate m N mix)
  | _ => none

/-- The reference list `makenode` returns: like `all_references`, but `seq` names each reference once
(rs/main/src/util.rs:361-370). -/
def makeRefs (c : Comp) : List Name :=
  match c with
  | .seq e => seqRefs e
  | c => c.refs

/-- `makenode` (rs/main/src/util.rs:35-426), features `use-samples` and `use-meta` on, `bela` off (an
`adc` panics). -/
def makeNode (P : Plat) (N : Nat) (samples : List (Name × Sample)) (sr : Nat) (bpm : Fl) (seed : Nat)
    (c : Comp) : Except Stop (NodeData (GNode P) Buf × List Name) :=
  match makePrim P.libm samples sr bpm seed c with
  | some r => do
    let (ch, n) ← r
    .ok (fresh N ch (.prim n), makeRefs c)
  | none =>
    match makeCompound P.libm N c with
    | some r => do
      let k ← liftP r
      .ok (fresh N 2 (.compound k), makeRefs c)
    | none =>
      match c with
      | .metaScript code => do
        let s ← liftP (P.ext.new true code sr)
        .ok (fresh N 1 (.script [] s), [])
      | .eval code => do
        let s ← liftP (P.ext.new false code sr)
        .ok (fresh N 1 (.script [] s), [])
      | _ => .error (.panic .unsupported)

/-- The language of the engine on platform `P` with block length `N` and the given parser. -/
def glicol (P : Plat) (N : Nat) (parse : Name → Except Panic (Option (Ast Comp))) : Lang where
  Num := Fl
  Comp := Comp
  Node := GNode P
  Smp := Sample
  zero := .fin 0
  one := .fin 1
  bpm120 := .fin 120
  parseNum := parseF32
  compEq := Comp.eq
  refs := Comp.refs
  make := makeNode P N
  msg := msgG P
  proc := procG P
  sum2 := .prim .sum2
  pass := .prim .pass
  parse := parse

end Verif
