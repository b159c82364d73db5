import Verif.Model.Priors
import Verif.Model.Partition

/-!
# The sampler of Normal parameters

`NormalSampler` of enterprise/signals/parameter.py, for given draws of the standard generator.
-/

namespace Verif.Priors

open Verif Matrix

/-- `np.random.multivariate_normal(mean, cov)` for the draws `z` of the standard normal generator (library semantics, legacy
generator): `z @ (np.sqrt(s)[:, None] * v) + mean` for the singular value decomposition of `cov`.  Simplification: the warning for a
covariance that is not positive semidefinite is left out. -/
noncomputable def rngMultivariate (svd : ∀ {n : Nat} (M : Matrix (Fin n) (Fin n) ℝ), Partition.Svd M) {n : Nat} (z mean : Fin n → ℝ)
    (cov : Matrix (Fin n) (Fin n) ℝ) : Fin n → ℝ :=
  let c := svd cov
  fun j => (∑ i, z i * (Real.sqrt (c.s i) * c.v i j)) + mean j

/-- `NormalSampler` (parameter.py 254-262) with a covariance matrix: `size` is not used. -/
noncomputable def normalSamplerMat (svd : ∀ {n : Nat} (M : Matrix (Fin n) (Fin n) ℝ), Partition.Svd M) {n : Nat} (z mu : Fin n → ℝ)
    (sigma : Matrix (Fin n) (Fin n) ℝ) (_size : Option Nat) : Fin n → ℝ := rngMultivariate svd z mu sigma

/-- `NormalSampler` (parameter.py 254-262) with a `sigma` that is not a matrix, for the stream `z` of standard normals. -/
def normalSampler {K : Type} [Field K] [LinearOrder K] (z : Nat → K) (mu sigma : Arr K) (size : Option Nat) : Except PyErr (Arr K) :=
  match size, drawLen mu sigma with
  | none, none =>
    match mu, sigma with
    | .num m, .num s => do
      let x ← drawOne z 0 m s
      .ok (.num x)
    | _, _ => .error .other
  | none, some n => do
    let xs ← drawVec z 0 mu sigma n
    .ok (.vec xs)
  | some n, _ => do
    let xs ← drawVec z 0 mu sigma n
    .ok (.vec xs)

end Verif.Priors
