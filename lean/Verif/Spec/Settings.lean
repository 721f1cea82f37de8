import Verif.Make
import Verif.Spec.TrackAmp

/-! # What the settings of the engine are for (C80) -/

namespace Verif.Spec.Settings
open Verif Spec

/-- A setting of the engine: the seed, the sample rate, the sample of this name. -/
inductive Setting where
  | seed
  | rate
  | sample (n : Name)
  deriving DecidableEq

/-- The component looks at the setting: `choose` at the seed, `sp` and `psampler` at the samples they name (a number in a pattern stands
for the sample without a name). The components listed last work without the sample rate. -/
def Uses : Comp → Setting → Prop
  | .choose _, .seed => True
  | .sp s, .sample n => n = s
  | .psampler es _, .sample n => ∃ t, (EventValue.sym n, t) ∈ es ∨ ∃ v, (EventValue.num v, t) ∈ es ∧ n = []
  | _, .seed => False
  | _, .sample _ => False
  | .mul _, .rate | .add _, .rate | .pan _, .rate | .noise _, .rate | .speed _, .rate | .get _, .rate | .choose _, .rate
  | .mix _, .rate | .balance .., .rate | .rhpf .., .rate | .onepole _, .rate | .delayn _, .rate | .bd _, .rate | .hh _, .rate
  | .sn _, .rate | .sawsynth .., .rate | .squsynth .., .rate | .trisynth .., .rate | .plate _, .rate => False
  | _, .rate => True

/-- The setting a call is about. -/
def about {L : Lang} : Op L → Option Setting
  | .setSeed _ => some .seed
  | .setSr _ => some .rate
  | .addSample n _ => some (.sample n)
  | _ => none

/-- The calls without those about the settings in `S`. -/
def without {L : Lang} (S : Setting → Bool) (ops : List (Op L)) : List (Op L) :=
  ops.filter (fun op => match about op with | some s => !S s | none => true)

/-- No program among the calls has a component that looks at a setting in `S`. -/
def Unused {P : Plat} {N : Nat} {parse : Name → Except Panic (Option (Ast Comp))} (S : Setting → Bool)
    (ops : List (Op (glicol P N parse))) : Prop :=
  ∀ τ code p, Op.update τ code ∈ ops → parse code = .ok (some p) → ∀ k comps, (k, comps) ∈ p → ∀ c ∈ comps,
    ∀ s, S s = true → ¬ Uses c s

end Verif.Spec.Settings
