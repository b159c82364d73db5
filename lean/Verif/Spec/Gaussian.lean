import Mathlib.Analysis.SpecialFunctions.Trigonometric.Basic
import Mathlib.LinearAlgebra.Matrix.NonsingularInverse

/-!
# The density of a multivariate Gaussian

Nothing here depends on the model.
-/

namespace Verif.Spec

open Matrix

/-- The density at `x` of a Gaussian vector of mean zero and covariance `C`. -/
noncomputable def mvn {n : ℕ} (C : Matrix (Fin n) (Fin n) ℝ) (x : Fin n → ℝ) : ℝ :=
  Real.exp (-(1 / 2) * (x ⬝ᵥ (C⁻¹ *ᵥ x))) / Real.sqrt ((2 * Real.pi) • C).det

end Verif.Spec
