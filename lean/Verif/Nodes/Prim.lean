import Verif.Nodes.Basic
import Verif.Nodes.Delay
import Verif.Nodes.Osc
import Verif.Nodes.Envelope
import Verif.Nodes.Filter
import Verif.Nodes.Seq
import Verif.Nodes.Sampler
import Verif.Nodes.Synth

/-! # All primitive nodes -/

namespace Verif

/-- The nodes that are not built from other nodes. -/
inductive Prim where
  | pass
  | sum
  | sum2
  | mul (a : Arith)
  | add (a : Arith)
  | constSig (c : ConstSig)
  | imp (i : Impulse)
  | noise (n : Noise)
  | speed (a : Arith)
  | pan (a : Arith)
  | balance (order : List Nat)
  | delayn (d : DelayN)
  | delayms (d : DelayMs)
  | osc (w : Wave) (o : Osc)
  | sin (o : Osc)
  | envperc (e : EnvPerc)
  | adsr (e : Adsr)
  | onepole (f : OnePole)
  | rhpf (f : Rhpf)
  | rlpf (f : Rlpf)
  | apf (f : Apf)
  | seq (s : Sequencer)
  | arrange (a : Arrange)
  | choose (c : Choose)
  | points (p : Points)
  | sampler (s : Sampler)
  | psampler (p : PSampler)
  | msgSynth (s : MsgSynth)
  | patSynth (s : PatternSynth)
  deriving Repr, DecidableEq

/-- The state part mapped by a constructor. -/
def reState {σ ν : Type} (f : σ → ν) (r : Except Panic (σ × List Buf)) :
    Except Panic (ν × List Buf) :=
  match r with
  | .error e => .error e
  | .ok (s, b) => .ok (f s, b)

/-- The buffers paired with an unchanged node. -/
def sameNode {ν : Type} (n : ν) (r : Except Panic (List Buf)) : Except Panic (ν × List Buf) :=
  match r with
  | .error e => .error e
  | .ok b => .ok (n, b)

/-- `Node::process` of the primitive nodes (rs/synth/src/node). -/
def procPrim (m : Libm) : ProcFn Prim Buf := fun n ins out =>
  match n with
  | .pass => .ok (.pass, procPass ins out)
  | .sum => .ok (.sum, procSum ins out)
  | .sum2 => sameNode .sum2 (procSum2 ins out)
  | .mul a => sameNode (.mul a) (procMul a ins out)
  | .add a => sameNode (.add a) (procAdd a ins out)
  | .constSig c => reState .constSig (procConstSig c out)
  | .imp i => reState .imp (procImp i out)
  | .noise s => .ok (.noise (procNoise m s out).1, (procNoise m s out).2)
  | .speed a => sameNode (.speed a) (procSpeed a out)
  | .pan a => sameNode (.pan a) (procPan m a ins out)
  | .balance o => sameNode (.balance o) (procBalance o ins out)
  | .delayn d => reState .delayn (procDelayN d ins out)
  | .delayms d => reState .delayms (procDelayMs d ins out)
  | .osc w o => reState (.osc w) (procOsc w o ins out)
  | .sin o => reState .sin (procSin m o ins out)
  | .envperc e => reState .envperc (procEnvPerc e ins out)
  | .adsr e => reState .adsr (procAdsr e ins out)
  | .onepole f => reState .onepole (procOnePole m f ins out)
  | .rhpf f => reState .rhpf (procRhpf m f ins out)
  | .rlpf f => reState .rlpf (procRlpf m f ins out)
  | .apf f => reState .apf (procApf f ins out)
  | .seq s => reState .seq (procSeq m s ins out)
  | .arrange a => reState .arrange (procArrange a ins out)
  | .choose c => reState .choose (procChoose m c out)
  | .points p => reState .points (procPoints m p out)
  | .sampler s => reState .sampler (procSampler s ins out)
  | .psampler p => reState .psampler (procPSampler p out)
  | .msgSynth s => reState .msgSynth (procMsgSynth m s out)
  | .patSynth s => reState .patSynth (procPatSynth m s ins out)

/-- `Node::send_msg` of the primitive nodes (rs/synth/src/node). -/
def msgPrim (m : Libm) (n : Prim) (g : Msg Fl) : Except Panic Prim :=
  match n with
  | .pass => .ok .pass
  | .sum => .ok .sum
  | .sum2 => .ok .sum2
  | .mul a => .mul <$> a.msg g
  | .add a => .add <$> a.msg g
  | .constSig c => .constSig <$> c.msg g
  | .imp i => .imp <$> i.msg g
  | .noise s => .noise <$> s.msg g
  | .speed a => .speed <$> a.msg g
  | .pan a => .pan <$> panMsg a g
  | .balance o => .balance <$> orderMsg true o g
  | .delayn d => .delayn <$> d.msg g
  | .delayms d => .delayms <$> d.msg g
  | .osc w o => .osc w <$> o.msg g
  | .sin o => .sin <$> o.msg g
  | .envperc e => .envperc <$> e.msg g
  | .adsr e => .adsr <$> e.msg g
  | .onepole f => .onepole <$> f.msg m g
  | .rhpf f => .rhpf <$> f.msg g
  | .rlpf f => .rlpf <$> f.msg g
  | .apf f => .apf <$> f.msg g
  | .seq s => .seq <$> s.msg g
  | .arrange a => .arrange <$> a.msg g
  | .choose c => .choose <$> c.msg g
  | .points p => .points <$> p.msg g
  | .sampler s => .sampler <$> s.msg g
  | .psampler p => .psampler <$> p.msg g
  | .msgSynth s => .msgSynth <$> s.msg g
  | .patSynth s => .patSynth <$> s.msg g

end Verif
