import Mathlib.MeasureTheory.Integral.IntervalIntegral.FundThmCalculus
import Mathlib.MeasureTheory.Integral.Pi

/-!
# What a probability density, its distribution function and a sampler are

Nothing here depends on the model.
-/

namespace Verif.Spec

open MeasureTheory

/-- A probability density on the line. -/
def IsDensity (f : ℝ → ℝ) : Prop := (∀ x, 0 ≤ f x) ∧ Integrable f ∧ ∫ x, f x = 1

/-- The distribution function of a density. -/
noncomputable def cdf (f : ℝ → ℝ) (x : ℝ) : ℝ := ∫ t in Set.Iic x, f t

/-- `s` turns one uniform draw of [0,1) into a draw with density `f`: the draws with `s u ≤ x` have the
measure that the distribution function says. -/
def Samples (s : ℝ → ℝ) (f : ℝ → ℝ) : Prop :=
  ∀ x, volume {u | u ∈ Set.Ico (0 : ℝ) 1 ∧ s u ≤ x} = ENNReal.ofReal (cdf f x)

/-- `s` turns a random outcome with law `μ` into a draw with density `f`. -/
def DrawsFrom {Ω X : Type} [MeasurableSpace Ω] [MeasureSpace X] (μ : Measure Ω) (s : Ω → X) (f : X → ℝ) : Prop :=
  AEMeasurable s μ ∧ μ.map s = volume.withDensity fun x => ENNReal.ofReal (f x)

end Verif.Spec
