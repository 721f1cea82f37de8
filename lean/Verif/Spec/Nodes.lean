import Verif.Make

/-!
# Vocabulary for statements about single nodes

A component of a program is turned into a node, wired, and fed block by block, as the engine does it.
-/

namespace Verif.Spec

/-- What a node is built from besides its component. -/
structure Env where
  samples : List (Name × Sample)
  sr : Nat
  bpm : Fl
  seed : Nat

/-- The node processes one block after the other; its output buffers persist between blocks. The
result is the contents of the output buffers after each block. -/
def runBlocks {ν β : Type} (proc : ProcFn ν β) : ν → List β → List (List (Nat × List β)) →
    Except Panic (List (List β))
  | _, _, [] => .ok []
  | n, out, i :: is =>
    match proc n i out with
    | .error e => .error e
    | .ok (n', out') =>
      match runBlocks proc n' out' is with
      | .error e => .error e
      | .ok r => .ok (out' :: r)

/-- The node receives one message after the other. -/
def sendMsgs {P : Plat} (n : GNode P) : List (Msg Fl) → Except Panic (GNode P)
  | [] => .ok n
  | m :: ms =>
    match msgG P n m with
    | .error e => .error e
    | .ok n' => sendMsgs n' ms

/-- Component `c` is built for block length `N`, receives the messages `msgs` (among them the numbers
of its sources, in order), and processes the given input blocks. -/
def play (P : Plat) (N : Nat) (env : Env) (c : Comp) (msgs : List (Msg Fl)) (ins : List Ins) :
    Except Stop (List (List Buf)) :=
  match makeNode P N env.samples env.sr env.bpm env.seed c with
  | .error e => .error e
  | .ok (d, _) =>
    match sendMsgs d.node msgs with
    | .error e => .error (.panic e)
    | .ok n =>
      match runBlocks (procG P) n d.buffers ins with
      | .error e => .error (.panic e)
      | .ok r => .ok r

/-- The stream on channel `c` of a sequence of blocks, if all of them have that channel. -/
def channel (c : Nat) : List (List Buf) → Option (List Fl)
  | [] => some []
  | o :: os =>
    match o[c]?, channel c os with
    | some b, some s => some (b ++ s)
    | _, _ => none

/-- The blocks `xs` as the only input, mono, from node `k`. -/
def monoFrom (k : Nat) (xs : List Buf) : List Ins := xs.map (fun x => [(k, [x])])

/-- The blocks `xs` of pairs of samples as the only input, stereo, from node `k`. -/
def stereoFrom (k : Nat) (xs : List (List (Fl × Fl))) : List Ins :=
  xs.map (fun x => [(k, [x.map Prod.fst, x.map Prod.snd])])

/-- `n` blocks without any input. -/
def noInput (n : Nat) : List Ins := List.replicate n []

/-- All blocks have `N` samples. -/
def Sized {ι : Type} (N : Nat) (xs : List (List ι)) : Prop := ∀ x, x ∈ xs → x.length = N

/-- The stream `ys` is the stream `xs` delayed by `n` samples. -/
def Delayed (n : Nat) (xs ys : List Fl) : Prop :=
  ys.length = xs.length ∧
  ∀ t, t < xs.length → ys[t]? = if t < n then some (.fin 0) else xs[t - n]?

/-- A value between the numbers `a` and `b` (neither NaN nor infinite). -/
def Within (a b : ℚ) (x : Fl) : Prop := x.isFinite = true ∧ a ≤ x.val ∧ x.val ≤ b

/-- The stream `ys` is 1 at the multiples of `p` and 0 elsewhere. -/
def PulseTrain (p : Nat) (ys : List Fl) : Prop :=
  ∀ t, t < ys.length → ys[t]? = some (.fin (if p ∣ t then 1 else 0))

end Verif.Spec

namespace Verif.Spec

/-- The buffers of a signal given as pairs of samples: both channels, or only the left one. -/
def bufsOf (mono : Bool) (x : List (Fl × Fl)) : List Buf :=
  if mono then [x.map Prod.fst] else [x.map Prod.fst, x.map Prod.snd]

/-- What the right side hears of a signal: a mono signal is heard on both sides. -/
def rightVal (mono : Bool) (p : Fl × Fl) : Fl := if mono then p.1 else p.2

/-- The blocks `xs` as the only input, from node `k`. -/
def oneFrom (k : Nat) (mono : Bool) (xs : List (List (Fl × Fl))) : List Ins :=
  xs.map (fun x => [(k, bufsOf mono x)])

/-- Two inputs, from the nodes `k` and `j`; `swap` tells in which order the map of the inputs is
iterated. -/
def twoFrom (swap : Bool) (k j : Nat) (mk mj : Bool) (xs : List (List ((Fl × Fl) × (Fl × Fl)))) :
    List Ins :=
  xs.map (fun x =>
    if swap then [(j, bufsOf mj (x.map Prod.snd)), (k, bufsOf mk (x.map Prod.fst))]
    else [(k, bufsOf mk (x.map Prod.fst)), (j, bufsOf mj (x.map Prod.snd))])

/-- Sample `t` of what side `c` (0 left, 1 right) hears of a signal. -/
def sideAt (c t : Nat) (bufs : List Buf) : Option Fl :=
  match bufs with
  | [l] => l[t]?
  | [l, r] => if c = 0 then l[t]? else r[t]?
  | _ => none

/-- The f32 sum of a list, from left to right. -/
def flSum : List Fl → Fl := List.foldl (· +. ·) (.fin 0)

/-- The component with its `i`-th written parameter replaced by the number `v`; `none` if there is no such
parameter or it is not a number. -/
def withParam (c : Comp) (i : Nat) (v : Fl) : Option Comp :=
  match c, i with
  | .delayn (.nat _), 0 => some (.delayn (.nat v.toUsize))
  | .delayms (.num _), 0 => some (.delayms (.num v))
  | .imp (.num _), 0 => some (.imp (.num v))
  | .tri (.num _), 0 => some (.tri (.num v))
  | .squ (.num _), 0 => some (.squ (.num v))
  | .saw (.num _), 0 => some (.saw (.num v))
  | .sin (.num _), 0 => some (.sin (.num v))
  | .onepole (.num _), 0 => some (.onepole (.num v))
  | .mul (.num _), 0 => some (.mul (.num v))
  | .add (.num _), 0 => some (.add (.num v))
  | .pan (.num _), 0 => some (.pan (.num v))
  | .speed _, 0 => some (.speed v)
  | .constsig _, 0 => some (.constsig v)
  | .bd (.num _), 0 => some (.bd (.num v))
  | .sn (.num _), 0 => some (.sn (.num v))
  | .hh (.num _), 0 => some (.hh (.num v))
  | .sawsynth _ d, 0 => some (.sawsynth v d)
  | .sawsynth a _, 1 => some (.sawsynth a v)
  | .squsynth _ d, 0 => some (.squsynth v d)
  | .squsynth a _, 1 => some (.squsynth a v)
  | .trisynth _ d, 0 => some (.trisynth v d)
  | .trisynth a _, 1 => some (.trisynth a v)
  | .msgsynth s _ d, 1 => some (.msgsynth s v d)
  | .msgsynth s a _, 2 => some (.msgsynth s a v)
  | .lpf (.num _) q, 0 => some (.lpf (.num v) q)
  | .lpf c _, 1 => some (.lpf c v)
  | .rhpf (.num _) q, 0 => some (.rhpf (.num v) q)
  | .rhpf c _, 1 => some (.rhpf c v)
  | .apfmsgain (.num _) g, 0 => some (.apfmsgain (.num v) g)
  | .apfmsgain d _, 1 => some (.apfmsgain d v)
  | .plate _, 0 => some (.plate v)
  | .envperc _ d, 0 => some (.envperc v d)
  | .envperc a _, 1 => some (.envperc a v)
  | .adsr _ d s r, 0 => some (.adsr v d s r)
  | .adsr a _ s r, 1 => some (.adsr a v s r)
  | .adsr a d _ r, 2 => some (.adsr a d v r)
  | .adsr a d s _, 3 => some (.adsr a d s v)
  | .noise _, 0 => some (.noise v.toUsize)
  | .patternSynth s _, 1 => some (.patternSynth s v)
  | _, _ => none

end Verif.Spec
