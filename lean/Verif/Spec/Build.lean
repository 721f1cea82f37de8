import Verif.Make
import Verif.Spec.PatText

/-!
# Components whose node can be built (specification of C05 for the real language)

Written without reference to the constructors of the nodes: it speaks about the text of a component, the sample
rate and the registered samples.
-/

namespace Verif.Spec

/-- The node of a component can be built. `script` tells which scripts `eval` and `meta` accept, `sr` is the sample
rate. The pattern of `psynth` is a list of events between commas. `adc`, `reverb` and `expr` panic, as do `psampler` and
`lpf` with the name of an event and `apfmsgain` with a delay below one sample. -/
def Buildable (script : Bool → Name → Prop) (sr : Nat) : Comp → Prop
  | .psampler _ none | .lpf (.event _) _ | .adc _ | .reverb .. | .expr _ => False
  | .patternSynth text _ => ∃ es, PatternText text es
  | .points ps _ _ => ps ≠ []
  | .apfmsgain (.num v) _ => 4096 ≤ sr ∧ ∃ q : ℚ, v = .fin q ∧ 1 ≤ q
  | .apfmsgain (.ref _) _ => 4096 ≤ sr
  | .eval code => script false code
  | .metaScript code => script true code
  | _ => True

/-- A registered sample has a channel and data. -/
def SampleFilled (s : Sample) : Prop := s.channels ≠ 0 ∧ s.data ≠ []

end Verif.Spec
