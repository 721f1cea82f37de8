import Verif.Make
import Verif.Spec.Engine
import Verif.Spec.Signal
import Verif.Spec.Message

/-!
# Programs that can be played (specification of C37)

Written without reference to the node models: it speaks about the text of a program (its components
and their places), the settings of the engine and the registered samples.
-/

namespace Verif.Spec

/-- A tempo above 0 and up to 960 beats per minute. -/
def TempoOk (v : Fl) : Prop := ∃ q : ℚ, v = .fin q ∧ 0 < q ∧ q ≤ 960

/-- A pattern length of at least a 1024th of a bar. -/
def SpanOk (v : Fl) : Prop := ∃ q : ℚ, v = .fin q ∧ 1 / 1024 ≤ q

/-- A time that is not above 2^20 seconds (12 days). -/
def TimeOk (v : Fl) : Prop := Fl.lt (.fin (2 ^ 20)) v = false

/-- A rate of impulses that is usual at every usual sample rate. -/
def ImpRate (v : Fl) : Prop := ∃ q : ℚ, v = .fin q ∧ 0 ≤ q ∧ q ≤ 4096

/-- A usual sample rate. -/
def RateOk (sr : Nat) : Prop := 4096 ≤ sr ∧ sr ≤ 2 ^ 24

/-- A sample that can be played; its data are f32 values. -/
def SampleOk (s : Sample) : Prop := Playable s ∧ ∀ x, x ∈ s.data → x.Ok f32

/-- A parameter that is a number satisfying `ok`. -/
def NumIs (ok : Fl → Prop) : NumRef → Prop
  | .num v => ok v
  | .ref _ => False

/-- Settings with which the node of a component cannot fail. `checked` tells whether integer overflow
is checked, `sr` is the sample rate. Missing: `reverb`, `expr` and `adc` (which panic when they are
built), and drums whose decay is a reference. For scripts see `SafeInputs`. -/
def SafeSettings (checked : Bool) (sr : Nat) : Comp → Prop
  | .imp (.num v) => ∃ q : ℚ, v = .fin q ∧ 0 ≤ q ∧ q ≤ sr
  | .seq events => ∀ e, e ∈ events → ∃ n, e.2 = .nat n
  | .bd p | .sn p | .hh p => NumIs TimeOk p
  | .envperc a d | .adsr a d _ _ | .sawsynth a d | .squsynth a d | .trisynth a d => TimeOk a ∧ TimeOk d
  | .lpf (.pattern _ span) _ => SpanOk span
  | .lpf (.event _) _ => False
  | .psampler _ span => ∃ v, span = some v ∧ SpanOk v
  | .points _ span looping => if looping then SpanOk span else checked = false
  | .choose l => l ≠ [] ∧ l.length ≤ 2 ^ 53
  | .reverb .. | .expr _ | .adc _ => False
  | _ => True

/-- The numbers of inputs with which the node of a component cannot fail. A second input modulates a
delay line, which may read outside of it; the first input of `seq` may set the speed; `plate` needs
something to work on. `script` tells which codes behave without (`false`) and with (`true`) inputs; its
first argument tells `meta` from `eval`. -/
def SafeInputs (script : Bool → Name → Bool → Prop) : Comp → Nat → Prop
  | .pan _, n => 1 ≤ n
  | .plate _, n => 1 ≤ n
  | .delayms _, n => n = 1
  | .apfmsgain _ _, n => n ≤ 1
  | .seq _, n => n = 0
  | .arrange events, n => events.length / 2 ≤ n
  | .eval code, n => script false code (decide (n ≠ 0))
  | .metaScript code, n => script true code (decide (n ≠ 0))
  | _, _ => True

/-- The numbers to which the node of a component may be set while it plays; the second argument is the
position of the setting. -/
def SafeNumber : Comp → Nat → Fl → Prop
  | .imp _ => fun p v => p = 0 → ImpRate v
  | .bd _ | .sn _ | .hh _ => fun p v => p = 0 → TimeOk v
  | .envperc .. | .adsr .. | .sawsynth .. | .squsynth .. | .trisynth .. => fun p v => p ≤ 1 → TimeOk v
  | .points .. => fun p v => p = 1 → SpanOk v
  | .arrange _ => fun _ _ => False
  | _ => fun _ _ => True

/-- The texts to which the node of a component may be set while it plays. -/
def SafeText (script : Bool → Name → Bool → Prop) : Comp → Nat → Name → Prop
  | .eval _ => fun p t => p = 0 → ∀ w, script false t w
  | .metaScript _ => fun p t => p = 0 → ∀ w, script true t w
  | _ => fun _ _ => True

/-- The messages that the node of a component can take while it plays. -/
def SafeSet (script : Bool → Name → Bool → Prop) (c : Comp) : Msg Fl → Prop
  | .setToNumber p v => SafeNumber c p v
  | .setToSymbol p t => SafeText script c p t
  | _ => True

/-- The components that mix whatever arrives. -/
def MixesAll : Comp → Prop
  | .mix _ | .get _ | .imp _ => True
  | _ => False

/-- The component `c` may stand at position `i` of the chain `k` with `n` components. Its inputs are
the component to the left and one for each plain reference; a pattern `base..` may stand for any
number of inputs. The last component of a chain must not refer to its own chain. -/
structure SafePlace (script : Bool → Name → Bool → Prop) (k : Name) (n i : Nat) (c : Comp) : Prop where
  inputs : ∀ m, ((∀ r, r ∈ c.refs → '.' ∉ r) → m = c.refs.length) →
    SafeInputs script c ((if i = 0 then 0 else 1) + m)
  noSelf : MixesAll c ∨ (i + 1 = n → ∀ r, r ∈ c.refs →
    r ≠ k ∧ ∀ base, r = base ++ ['.', '.'] → ¬ base <+: k)

/-- The program `p` may be sent to the engine `e`. -/
structure SafeProg {P : Plat} {N : Nat} {parse : Name → Except Panic (Option (Ast Comp))}
    (script : Bool → Name → Bool → Prop) (e : Engine (glicol P N parse)) (p : Ast Comp) : Prop where
  clean : CleanProg (glicol P N parse) p
  refs : ∀ k comps c, (k, comps) ∈ p → c ∈ comps → ∀ r, r ∈ c.refs → RefWf r
  kept : ∀ k old comps, IsOld e k old → (k, comps) ∈ p → OrderKept Comp.eq old comps
  rate : RateOk e.sr
  tempo : TempoOk e.bpm
  samples : ∀ n s, (n, s) ∈ e.samples → SampleOk s
  settings : ∀ k comps c, (k, comps) ∈ p → c ∈ comps → SafeSettings P.libm.checked e.sr c
  places : ∀ k comps (i : Nat) c, (k, comps) ∈ p → comps[i]? = some c → SafePlace script k comps.length i c

/-- The message `s` may be sent to the engine `e`: whatever its commands set is safe for the component
in the place that they name. -/
def SafeMsg {P : Plat} {N : Nat} {parse : Name → Except Panic (Option (Ast Comp))}
    (script : Bool → Name → Bool → Prop) (e : Engine (glicol P N parse)) (s : Name) : Prop :=
  ∀ cmds, Splits s cmds → ∀ chain p q v rest, (chain :: p :: q :: v :: rest) ∈ cmds →
    ∀ pos par m, Position (2 ^ 64 - 1) p pos → Position 255 q par → ValueMsg (glicol P N parse) par v m →
    ∀ a comps c, e.ast = some a → (chain, comps) ∈ a → comps[pos]? = some c → SafeSet script c m

/-- The calls covered: every program sent must satisfy `SafeProg`, every tempo must be usual, every
message to single nodes must satisfy `SafeMsg`; everything else is free. -/
def SafeCall {P : Plat} {N : Nat} {parse : Name → Except Panic (Option (Ast Comp))}
    (script : Bool → Name → Bool → Prop) (e : Engine (glicol P N parse)) : Op (glicol P N parse) → Prop
  | .update _ code => ∀ p, parse code = .ok (some p) → SafeProg script e p
  | .setBpm v => TempoOk v
  | .sendMsg s => SafeMsg script e s
  | _ => True

/-- The scripted nodes whose code satisfies `script` do not panic and keep the shape of their output.
`isMeta` tells `meta` from `eval`; `T` is what holds of a scripted node that behaves without (`false`)
or with (`true`) inputs. -/
structure ScriptsBehave (P : Plat) (N : Nat) (script : Bool → Name → Bool → Prop)
    (isMeta : P.ext.State → Bool) (T : Bool → P.ext.State → Prop) : Prop where
  new : ∀ b code sr s, P.ext.new b code sr = .ok s → isMeta s = b ∧ ∀ w, script b code w → T w s
  set : ∀ s p t s', P.ext.set s p t = .ok s' → isMeta s' = isMeta s ∧
    ((p = 0 → ∀ w, script (isMeta s) t w) → ∀ w, T w s → T w s')
  keep : ∀ s o ins out s' out', P.ext.proc s o ins out = .ok (s', out') → isMeta s' = isMeta s ∧
    ∀ w, T w s → T w s'
  proc : ∀ s (o : List Nat) (ins : Ins) (out : List Buf), T (decide (ins ≠ [])) s →
    (∀ e, e ∈ ins → ∀ b, b ∈ e.2 → b.length = N) → (∀ b, b ∈ out → b.length = N) → out ≠ [] →
    (∀ e, e ∈ ins → e.2 ≠ []) → (ins.map Prod.fst).Nodup →
    (ins ≠ [] → ∃ k l, o = k :: l ∧ k ∈ ins.map Prod.fst) →
    ∃ s' out', P.ext.proc s o ins out = .ok (s', out') ∧
      out'.length = out.length ∧ ∀ b, b ∈ out' → b.length = N

end Verif.Spec
