import Verif.Nodes.Prim

/-!
# Nodes built from other nodes

`bd`, `hh`, `sn`, `sawsynth`, `squsynth`, `trisynth` (rs/synth/src/node/compound) and `plate`
(rs/synth/src/node/effect/plate.rs) contain an `AudioContext` of their own. Its sample rate and the
ones of the nodes inside are always the default 44100.
-/

namespace Verif

/-- The graph of an `AudioContext` of primitive nodes. -/
abbrev Patch := Graph (NodeData Prim Buf)

/-- One of the structures of rs/synth/src/node/compound (`drum`: bd.rs, hh.rs, sn.rs; `synth`:
sawsynth.rs, squsynth.rs, trisynth.rs) or `Plate` (rs/synth/src/node/effect/plate.rs:13-17). -/
inductive Kind where
  | drum
  | synth
  | plate
  deriving Repr, DecidableEq

/-- The fields `context`, `input`, `input_order` of those structures; `tags` are the tagged nodes:
the envelope, or mix1, mix2, mixdiff1, mixdiff2. -/
structure Compound where
  kind : Kind
  graph : Patch
  dest : Nat
  input : Nat
  tags : List Nat
  order : List Nat
  deriving Repr

/-! ### Building (rs/synth/src/context.rs) -/

/-- `NodeData::multi_chan_node(chans, node)` (rs/synth/src/graph.rs:101-103). -/
def fresh {ν : Type} (N chans : Nat) (n : ν) : NodeData ν Buf :=
  ⟨n, List.replicate chans (List.replicate N (.fin 0))⟩

/-- `AudioContext::new` with two channels (rs/synth/src/context.rs:103-122): destination 0, input 1. -/
def Patch.new (N : Nat) : Patch :=
  ((Graph.empty.addNode (fresh N 2 .sum2)).1.addNode (fresh N 2 .pass)).1

/-- `add_mono_node` (rs/synth/src/context.rs:150-158). -/
def Patch.mono (N : Nat) (g : Patch) (n : Prim) : Patch × Nat := g.addNode (fresh N 1 n)

/-- `add_stereo_node` (rs/synth/src/context.rs:160-168). -/
def Patch.stereo (N : Nat) (g : Patch) (n : Prim) : Patch × Nat := g.addNode (fresh N 2 n)

/-- `send_msg` to one node (rs/synth/src/context.rs:253-255). -/
def Patch.send (m : Libm) (g : Patch) (i : Nat) (msg : Msg Fl) : Except Panic Patch :=
  g.modify i (fun d => do
    let n ← msgPrim m d.node msg
    .ok { d with node := n })

/-- `connect` (rs/synth/src/context.rs:180-184). -/
def Patch.connect (m : Libm) (g : Patch) (a b : Nat) : Except Panic Patch := do
  let g ← g.addEdge a b
  Patch.send m g b (.index a)

/-- `chain` (rs/synth/src/context.rs:194-205). -/
def Patch.chain (m : Libm) (g : Patch) : List Nat → Except Panic Patch
  | a :: b :: rest => do
    let g ← Patch.connect m g a b
    Patch.chain m g (b :: rest)
  | _ => .ok g

/-- Several chains in order. -/
def Patch.chains (m : Libm) (g : Patch) : List (List Nat) → Except Panic Patch
  | [] => .ok g
  | c :: cs => do
    let g ← Patch.chain m g c
    Patch.chains m g cs

/-- Adds nodes with their numbers of channels; they get the numbers 2, 3, … . -/
def Patch.nodes (N : Nat) (g : Patch) (l : List (Nat × Prim)) : Patch :=
  l.foldl (fun g c => (g.addNode (fresh N c.1 c.2)).1) g

/-- `Mul::new(v)`, `Add::new(v)` (rs/synth/src/node/operator). -/
def arith (v : Fl) : Arith := ⟨v, []⟩

/-- A decimal literal. -/
def dec (q : ℚ) : Fl := Fl.lit f32 q

/-- rs/synth/src/node/compound/bd.rs:34-55. -/
def newBd (m : Libm) (N : Nat) (decay : Fl) : Except Panic Compound := do
  let g := Patch.nodes N (Patch.new N)
    [(1, .pass), (1, .envperc (EnvPerc.new (dec (3 / 1000)) decay 44100)),
     (1, .envperc (EnvPerc.new (dec (1 / 100)) (dec (1 / 10)) 44100)),
     (2, .mul (arith (.fin 50))), (2, .add (arith (.fin 60))), (1, .sin (Osc.new (.fin 1) 44100)),
     (1, .mul (arith (.fin 0)))]
  let g ← Patch.chains m g [[7, 8, 0], [2, 3, 8], [2, 4, 5, 6, 7]]
  .ok ⟨.drum, g, 0, 2, [3], []⟩

/-- rs/synth/src/node/compound/hh.rs:27-48. -/
def newHh (m : Libm) (N : Nat) (decay : Fl) : Except Panic Compound := do
  let g := Patch.nodes N (Patch.new N)
    [(1, .pass), (1, .noise ⟨42, 0, []⟩), (1, .rhpf (Rhpf.new (.fin 15000) (.fin 1))),
     (2, .mul (arith (.fin 0)))]
  let g ← Patch.chain m g [3, 4, 5, 0]
  let g := (Patch.mono N g (.envperc (EnvPerc.new (dec (3 / 1000)) decay 44100))).1
  let g ← Patch.chain m g [2, 6, 5]
  .ok ⟨.drum, g, 0, 2, [6], []⟩

/-- rs/synth/src/node/compound/sn.rs:35-64. -/
def newSn (m : Libm) (N : Nat) (decay : Fl) : Except Panic Compound := do
  let g := Patch.nodes N (Patch.new N)
    [(1, .pass), (1, .envperc (EnvPerc.new (dec (1 / 1000)) decay 44100)),
     (1, .envperc (EnvPerc.new (dec (1 / 1000)) (dec (1 / 10)) 44100)),
     (2, .mul (arith (.fin 55))), (2, .add (arith (.fin 60))), (1, .sin (Osc.new (.fin 1) 44100)),
     (2, .add (arith (.fin 0))), (2, .add (arith (.fin 0))), (2, .mul (arith (.fin 0))),
     (1, .noise ⟨42, 0, []⟩), (2, .mul (arith (dec (3 / 10))))]
  let g ← Patch.chains m g [[7, 8, 9, 10, 0], [11, 12, 8], [2, 3, 10], [2, 4, 5, 6, 7]]
  .ok ⟨.drum, g, 0, 2, [3], []⟩

/-- rs/synth/src/node/compound/sawsynth.rs:26-49, squsynth.rs:19-42, trisynth.rs:19-42. -/
def newSynth (m : Libm) (N : Nat) (w : Wave) (attack decay : Fl) : Except Panic Compound := do
  let g := Patch.nodes N (Patch.new N)
    [(1, .pass), (1, .osc w (Osc.new (.fin 1) 44100)), (2, .mul (arith (.fin 0)))]
  let g ← Patch.chain m g [3, 4, 0]
  let g := (Patch.mono N g (.envperc (EnvPerc.new attack decay 44100))).1
  let g ← Patch.chain m g [2, 5, 4]
  let g := (Patch.stereo N g (.mul (arith (dec (26163 / 100))))).1
  let g ← Patch.chain m g [2, 6, 3]
  .ok ⟨.synth, g, 0, 2, [5], []⟩

/-- The nodes of the reverb in the order in which they are added, from number 2 on
(rs/synth/src/node/effect/plate.rs:23-147). -/
def plateNodes (m : Libm) (mix : Fl) : Except Panic (List (Nat × Prim)) := do
  let apf (ms g : ℚ) : Except Panic (Nat × Prim) := do
    let f ← Apf.new 44100 (dec ms) (dec g)
    .ok (1, .apf f)
  let dn (n : Nat) : Nat × Prim := (1, .delayn (DelayN.new n))
  let mul (v : Fl) : Nat × Prim := (1, .mul (arith v))
  let a4 ← apf (4771 / 1000) (3 / 4)
  let a5 ← apf (3595 / 1000) (3 / 4)
  let a6 ← apf (1272 / 100) (5 / 8)
  let a7 ← apf (9307 / 1000) (5 / 8)
  let a9 ← apf 100 (7 / 10)
  let a18 ← apf (7596 / 1000) (1 / 2)
  let a19 ← apf (3578 / 100) (1 / 2)
  let a20 ← apf 100 (1 / 2)
  let a25 ← apf 30 (7 / 10)
  let a30 ← apf (62 / 10) (7 / 10)
  let a31 ← apf (3492 / 100) (7 / 10)
  let a32 ← apf (204 / 10) (7 / 10)
  .ok [(1, .pass), (1, .onepole (OnePole.new m (dec (7 / 10)))),              -- 2 input, 3 wet1
    (1, .delayms (DelayMs.new 44100 (.fin 50) 2)), a4, a5, a6, a7,            -- 4 wet2, 5..8 wet3..6
    (1, .add (arith (.fin 0))), a9,                                           -- 9 wet7, 10 wet8
    (1, .sin (Osc.new (dec (1 / 10)) 44100)), mul (.fin (11 / 2)),            -- 11 mod1, 12 mod2
    (1, .add (arith (.fin (59 / 2)))),                                        -- 13 mod3
    dn 394, dn 2800, dn 1204,                                                 -- 14 aa, 15 ab, 16 ac
    dn 2000, (1, .onepole (OnePole.new m (dec (1 / 10)))), a18,               -- 17..19 ba
    a19, a20,                                                                 -- 20 bb, 21 bc
    dn 179, dn 2679, dn 3500, mul (dec (3 / 10)),                             -- 22 ca, 23 cb, 24 cc1, 25 cc2
    a25, dn 522, dn 2400, dn 2400,                                            -- 26 da1, 27 da2, 28 db, 29 dc
    (1, .onepole (OnePole.new m (dec (1 / 10)))), a30, a31,                   -- 30 ea1, 31 ea2, 32 eb
    a32, dn 1578, dn 2378, dn 2500, mul (dec (3 / 10)),                       -- 33 fa1, 34 fa2, 35 fb, 36 fb1, 37 fb2
    (1, .sum), mul (.fin (-1)), (1, .sum), mul mix, (1, .sum),                -- 38 lsub, 39 lsub2, 40 left, 41 leftwet, 42 leftmix
    mul (.fin 1 -. mix),                                                      -- 43 leftdrymix
    (1, .sum), mul (.fin (-1)), (1, .sum), mul mix, (1, .sum),                -- 44 rsub, 45 rsub2, 46 right, 47 rightwet, 48 rightmix
    mul (.fin 1 -. mix), (2, .balance [])]                                    -- 49 rightdry, 50 balance

/-- The connections of the reverb in order (rs/synth/src/node/effect/plate.rs:33-150). -/
def plateChains : List (List Nat) :=
  [[2, 3, 4, 5, 6, 7, 8, 9, 10], [11, 12, 13, 10], [10, 14], [14, 15], [15, 16], [17, 18, 19], [16, 17],
   [19, 20], [20, 21], [11, 12, 13, 21], [21, 22], [22, 23], [23, 24, 25], [25, 26, 27], [27, 28],
   [28, 29], [29, 30, 31], [31, 32], [32, 33, 34], [34, 35], [35, 36, 37, 9],
   [20, 38], [28, 38], [31, 38], [34, 38], [38, 39], [14, 40], [15, 40], [23, 40], [39, 40],
   [2, 43, 42], [40, 41, 42],
   [32, 44], [15, 44], [19, 44], [22, 44], [44, 45], [27, 46], [28, 46], [35, 46], [45, 46],
   [2, 49, 48], [46, 47, 48], [42, 50], [48, 50], [50, 0]]

/-- rs/synth/src/node/effect/plate.rs:20-156. Simplification: all nodes are added before all
connections; the connections are made in the order of the source. -/
def newPlate (m : Libm) (N : Nat) (mix : Fl) : Except Panic Compound := do
  let l ← plateNodes m mix
  let g ← Patch.chains m (Patch.nodes N (Patch.new N) l) plateChains
  .ok ⟨.plate, g, 0, 2, [41, 47, 43, 49], []⟩

/-! ### Processing -/

/-- `context.graph[input].buffers[0] = b`. -/
def Patch.feed (g : Patch) (i : Nat) (b : Buf) : Except Panic Patch :=
  g.modify i (fun d =>
    match d.buffers with
    | [] => .error .indexOutOfBounds
    | _ :: rest => .ok { d with buffers := b :: rest })

/-- `AudioContext::next_block` (rs/synth/src/context.rs:248-251). -/
def Patch.nextBlock (m : Libm) (ho : HashOrder) (g : Patch) (dest : Nat) :
    Except Panic (Patch × List Buf) := do
  let g ← process (procPrim m) ho g dest
  match g.node? dest with
  | none => .error .noSuchNode
  | some d => .ok (g, d.buffers)

/-- The common part of rs/synth/src/node/compound/mod.rs:26-32 and
rs/synth/src/node/effect/plate.rs:161-167. -/
def Compound.feed (m : Libm) (ho : HashOrder) (c : Compound) (ins : Ins) (out : List Buf) :
    Except Panic (Compound × List Buf) := do
  let main ← inputAt ins c.order 0
  let x ← chan main 0
  let g ← Patch.feed c.graph c.input x
  let (g, y) ← Patch.nextBlock m ho g c.dest
  let l ← chan y 0
  let r ← chan y 1
  let o ← setStereo out l r
  .ok ({ c with graph := g }, o)

/-- `process_compound` (rs/synth/src/node/compound/mod.rs:18-34), `Plate::process`
(rs/synth/src/node/effect/plate.rs:160-168). -/
def procCompound (m : Libm) (ho : HashOrder) (c : Compound) (ins : Ins) (out : List Buf) :
    Except Panic (Compound × List Buf) :=
  match c.kind, ins with
  | .plate, _ => c.feed m ho ins out
  | _, [_] => c.feed m ho ins out
  | _, _ => .ok (c, out)

/-- A message to the tagged node number `k`. -/
def Compound.sendTag (m : Libm) (c : Compound) (k : Nat) (g : Msg Fl) : Except Panic Compound :=
  match c.tags[k]? with
  | none => .error .missing
  | some i => do
    let p ← Patch.send m c.graph i g
    .ok { c with graph := p }

/-- `send_msg` (rs/synth/src/node/compound/bd.rs:68-77, hh.rs:61-70, sn.rs:77-86, sawsynth.rs:62-77,
squsynth.rs:55-66, trisynth.rs:55-66, rs/synth/src/node/effect/plate.rs:170-194). Only the reverb obeys
`ResetOrder`. -/
def Compound.msg (m : Libm) (c : Compound) (g : Msg Fl) : Except Panic Compound :=
  match c.kind, g with
  | .drum, .setToNumber 0 v => c.sendTag m 0 (.setToNumber 1 v)
  | .synth, .setToNumber 0 v => c.sendTag m 0 (.setToNumber 0 v)
  | .synth, .setToNumber 1 v => c.sendTag m 0 (.setToNumber 1 v)
  | .plate, .setToNumber 0 v => do
    let c ← c.sendTag m 0 (.setToNumber 0 v)
    let c ← c.sendTag m 1 (.setToNumber 0 v)
    let c ← c.sendTag m 2 (.setToNumber 0 (.fin 1 -. v))
    c.sendTag m 3 (.setToNumber 0 (.fin 1 -. v))
  | k, g => do
    let o ← orderMsg (k == .plate) c.order g
    .ok { c with order := o }

end Verif
