import Verif.Model.Spectra
import Verif.Model.Priors

/-!
# The parameters of a t-process

`InvGamma` (enterprise/signals/gp_priors.py 80-95), the class of the parameter `alphas` of `t_process`, and the spectrum with them.
-/

namespace Verif.TProcess

open Verif Verif.Spectra

/-- The prior of `InvGamma(alpha, gamma)` (gp_priors.py 85): `InvGammaPrior` with these arguments, for each entry of an array. -/
noncomputable def invGamma (alpha gamma : ℝ) : Priors.Density :=
  .prior fun value => .ok (value.map fun x => invGammaPrior x alpha gamma)

/-- `InvGamma(alpha, gamma, size=n).get_pdf(value)` (gp_priors.py 80-95 with parameter.py 76-89). -/
noncomputable def alphasPdf (alpha gamma : ℝ) (n : Nat) (value : List ℝ) : ℝ :=
  match Priors.getPdf (some n) (invGamma alpha gamma) (.vec value) with
  | .ok (.num x) => x
  | _ => 0

/-- `t_process` of frequencies with two columns each (gp_priors.py 41-48), as the variance of column `j`; zero where it raises. -/
noncomputable def variance (f : List ℝ) (log10A gamma : ℝ) (alphas : List ℝ) (j : Nat) : ℝ :=
  match tProcess f log10A gamma (some alphas) with
  | .ok phi => phi.getD j 0
  | .error _ => 0

end Verif.TProcess
