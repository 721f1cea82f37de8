import Verif.Spec.Sound
import Verif.Spec.Safe
import Mathlib.Data.List.Dedup

/-! # Streams of samples, without blocks -/

namespace Verif.Spec

/-- Sample `t` of each channel of a block. -/
def frame (o : List Buf) (t : Nat) : List Fl := o.map (fun b => b.getD t (.fin 0))

/-- The samples of a list of blocks of `N` samples, one after the other, all channels of a sample together. -/
def stream (N : Nat) (outs : List (List Buf)) : List (List Fl) :=
  outs.flatMap (fun o => (List.range N).map (frame o))

/-- Two streams are equal as far as both go. -/
def Agree {α : Type} (a b : List α) : Prop := ∀ (t : Nat) x y, a[t]? = some x → b[t]? = some y → x = y

/-- The components that treat their inputs sample by sample, so that it cannot be heard where a block ends, when they
have `inputs` inputs and the engine has the given samples:

* not `choose`, which draws one number per block, nor `speed`, nor `seq` with inputs, which look at the first two samples
  of a block, nor the filters with a reference, which take their cutoff from the first sample of a block;
* not `plate`, whose nodes feed back one block later, nor `meta`, whose script sees whole blocks (for `eval` see `StreamFree`);
* the times of drums and synths are numbers, of which the node does not count the samples beyond all bounds (`TimeOk`);
* `get` with one source and `mix` with up to two (of more the order matters, see C42);
* an arrangement has numbers for durations (otherwise it stops in the middle of a block);
* the samples have one or two channels (otherwise `psampler` stops in the middle of a block). -/
def BlockFree (samples : List (Name × Sample)) (c : Comp) (inputs : Nat) : Prop :=
  match c with
  | .points .. | .delayn _ | .delayms _ | .imp _ | .tri _ | .squ _ | .saw _ | .onepole _ | .sin _ | .mul _ | .add _ | .pan _
  | .sp _ | .constsig _ | .msgsynth .. | .patternSynth .. | .balance .. | .apfmsgain .. | .envperc .. | .adsr .. | .noise _ => True
  | .lpf .. | .rhpf .. => inputs ≠ 2
  | .get _ => inputs ≤ 1
  | .mix _ => inputs ≤ 2
  | .seq _ => inputs = 0
  | .arrange e => 2 ≤ e.length ∧ ∀ j r, e[j * 2 + 1]? ≠ some (.ref r)
  | .bd (.num d) | .sn (.num d) | .hh (.num d) => TimeOk d
  | .sawsynth a d | .squsynth a d | .trisynth a d => TimeOk a ∧ TimeOk d
  | .psampler .. => ∀ s, s ∈ samples → s.2.channels = 1 ∨ s.2.channels = 2
  | _ => False

/-- The components that treat their inputs sample by sample, with the formulas (`eval`), of which this must be known (`ExtStream`). -/
def StreamFree (samples : List (Name × Sample)) (c : Comp) (inputs : Nat) : Prop :=
  (∃ code, c = .eval code) ∨ BlockFree samples c inputs

/-- The inputs of a node, one list per block, come from the nodes `nums`, which produce the signals `sigs`, in any order. -/
def FedBy (nums : List Nat) (sigs : List (List (List Buf))) (inputs : List Ins) : Prop :=
  ∀ (t : Nat) (inp : Ins), inputs[t]? = some inp →
    ∃ bufs, List.Forall₂ (fun s b => s[t]? = some b) sigs bufs ∧ inp.Perm (nums.zip bufs)

/-- A signal in blocks of `N` samples with `c` channels; the samples are f32 numbers. -/
def Signal32 (N c : Nat) (s : List (List Buf)) : Prop :=
  ∀ o, o ∈ s → o.length = c ∧ ∀ b, b ∈ o → b.length = N ∧ ∀ x, x ∈ b → x.Ok f32

/-- The functions of the standard library whose results nodes hand on return f32 numbers. -/
structure Libm32 (m : Libm) : Prop where
  sin : ∀ x, (m.sin x).Ok f32
  powf : ∀ x y, (m.powf x y).Ok f32

/-- The components that do with their inputs what the program text says, when they have `inputs` inputs: what they play depends on what
arrives at which parameter, but not on the numbers of the nodes, nor on the order in which the inputs are handed to them. Not so:
`get` with several sources, of which it takes the one handed to it first, and `mix` with more than two (C42). -/
def ByRole (c : Comp) (inputs : Nat) : Prop :=
  match c with
  | .get _ => inputs ≤ 1
  | .mix _ => inputs ≤ 2
  | _ => True

/-- What a scripted node hears: nothing if it has no inputs, else the first channel of the input that it was told about first. -/
def firstHeard (order : List Nat) (ins : Ins) : Except Panic (Option Buf) :=
  if ins.isEmpty then .ok none
  else
    match inputAt ins order 0 with
    | .error e => .error e
    | .ok o =>
      match chan o 0 with
      | .error e => .error e
      | .ok x => .ok (some x)

/-- What is assumed of the scripted nodes in comparisons of programs: they make no other use of their inputs than to hear the first one
they were told about, and of f32 numbers they make f32 numbers (`T` says of their states what this needs). Proved
for the nodes of rs/synth/src/node/dynamic/eval.rs and meta.rs
in `scripts_first`. -/
structure ExtFirst (P : Plat) : Prop where
  first : ∀ s o o' ins ins' out, firstHeard o ins = firstHeard o' ins' → P.ext.proc s o' ins' out = P.ext.proc s o ins out
  single : ∃ T : P.ext.State → Prop, (∀ b code sr s, P.ext.new b code sr = .ok s → T s) ∧
    (∀ s p t s', T s → P.ext.set s p t = .ok s' → T s') ∧
    ∀ s o ins out s' out', T s → (∀ e, e ∈ ins → ∀ b, b ∈ e.2 → ∀ x, x ∈ b → x.Ok f32) → (∀ b, b ∈ out → ∀ x, x ∈ b → x.Ok f32) →
      P.ext.proc s o ins out = .ok (s', out') → T s' ∧ ∀ b, b ∈ out' → ∀ x, x ∈ b → x.Ok f32

/-- The step `f` made for each item of a list, with a state. -/
inductive Steps {σ ι ο : Type} (f : σ → ι → Except Panic (σ × ο)) : σ → List ι → σ → List ο → Prop
  | nil (s) : Steps f s [] s []
  | cons {s x s' y xs s'' ys} : f s x = .ok (s', y) → Steps f s' xs s'' ys → Steps f s (x :: xs) s'' (y :: ys)

/-- What a node hears in each of `n` samples: nothing, or a sample of what it hears. -/
def heardEach (n : Nat) : Option Buf → List (Option Fl)
  | none => List.replicate n none
  | some b => b.map some

/-- What is assumed of the nodes of `eval` where programs with formulas are rendered in different blocks: they make a step per sample, with
the sample of the first input they were told about if they have inputs, and play the f32 number it gives (`T` says of their states what
this needs). Proved for the node of rs/synth/src/node/dynamic/eval.rs in `scripts_stream`. -/
def ExtStream (P : Plat) : Prop :=
  ∃ (T : P.ext.State → Prop) (f : P.ext.State → Option Fl → Except Panic (P.ext.State × Fl)),
    (∀ code sr s, P.ext.new false code sr = .ok s → T s) ∧
    ∀ s o ins out s' out', T s → P.ext.proc s o ins [out] = .ok (s', out') → T s' ∧
      ∃ x ys, firstHeard o ins = .ok x ∧ out' = [ys] ∧ (∀ y, y ∈ ys → y.Ok f32) ∧
        ((∀ b, x = some b → b.length = out.length) →
          Steps f s (heardEach out.length x) s' ys)

/-- The program `prog` contains a formula. -/
def HasFormula (prog : Ast Comp) : Prop := ∃ k comps code, (k, comps) ∈ prog ∧ Comp.eval code ∈ comps

/-- The program `prog`, as far as it reaches the output, is simple:

* nothing feeds back (feedback arrives one block later);
* all components satisfy `R` with the number of inputs they have;
* components that note which of their inputs is which refer to single chains, not to patterns like `~a..`;
* at most two chains without `~` reach the output (of more the order of the sum matters, see C42). -/
structure FreeOf (R : Comp → Nat → Prop) (prog : Ast Comp) (withInput : Bool) : Prop where
  forward : ∀ q p, Flow Comp.refs prog withInput q p → Leads Comp.refs prog withInput p .dest →
    ¬ Leads Comp.refs prog withInput p q
  parts : ∀ k comps i c, (k, comps) ∈ prog → comps[i]? = some c → Leads Comp.refs prog withInput (.at k i) .dest →
    ∀ Q : List Place, Q.Nodup → (∀ q, q ∈ Q ↔ Flow Comp.refs prog withInput q (.at k i)) → R c Q.length
  refs : ∀ k comps c, (k, comps) ∈ prog → c ∈ comps → NotesInputs c → ∀ r, r ∈ c.refs → '.' ∉ r
  output : ∀ Q : List Place, Q.Nodup → (∀ q, q ∈ Q → Flow Comp.refs prog withInput q .dest) → Q.length ≤ 2

/-- The program `prog` cannot be heard to be rendered in blocks. -/
abbrev FreeOfBlocks (samples : List (Name × Sample)) (prog : Ast Comp) (withInput : Bool) : Prop :=
  FreeOf (StreamFree samples) prog withInput

/-- A sufficient condition on the text for `FreeOf R`: the chains can be ordered so that each refers only to earlier
ones by name, the components satisfy `R`, and at most two chains have no `~`. -/
structure Wise (R : Comp → Nat → Prop) (prog : Ast Comp) (withInput : Bool) : Prop where
  order : ∃ rank : Name → Nat, ∀ k comps c r, (k, comps) ∈ prog → c ∈ comps → r ∈ c.refs →
    '.' ∉ r ∧ (r ∈ prog.map Prod.fst ∨ (withInput = true ∧ r = ['~', 'i', 'n', 'p', 'u', 't'])) ∧ rank r < rank k
  parts : ∀ k comps i c, (k, comps) ∈ prog → comps[i]? = some c →
    R c ((if i = 0 then 0 else 1) + c.refs.dedup.length)
  output : (prog.filter (fun e => !decide ('~' ∈ e.1))).length ≤ 2

/-- A sufficient condition on the text for `FreeOfBlocks`: the components treat their inputs sample by sample. -/
abbrev SampleWise (samples : List (Name × Sample)) (prog : Ast Comp) (withInput : Bool) : Prop :=
  Wise (StreamFree samples) prog withInput

/-- The same external input in blocks of `N` and of `M` samples, in stereo, f32 numbers. -/
structure SameInput (N M : Nat) (exts exts' : List (List Buf)) : Prop where
  left : ∀ x, x ∈ exts → 2 ≤ x.length ∧ ∀ b, b ∈ x.take 2 → ∀ v, v ∈ b → v.Ok f32
  right : ∀ x, x ∈ exts' → 2 ≤ x.length ∧ ∀ b, b ∈ x.take 2 → ∀ v, v ∈ b → v.Ok f32
  same : Agree (stream N (exts.map (List.take 2))) (stream M (exts'.map (List.take 2)))

/-- No component of `prog` was in the program before. -/
def AllNew {P : Plat} {N : Nat} {parse : Name → Except Panic (Option (Ast Comp))} (e : Engine (glicol P N parse))
    (prog : Ast Comp) : Prop :=
  ∀ k comps, (k, comps) ∈ prog → ∃ old, IsOld e k old ∧ ∀ c, c ∈ comps → ∀ o, o ∈ old → Comp.eq o c = false

end Verif.Spec
