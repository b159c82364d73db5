import Verif.Model.PtaPhi
import Mathlib.Data.Matrix.Block
import Mathlib.LinearAlgebra.Matrix.NonsingularInverse
import Mathlib.Analysis.SpecialFunctions.Log.Basic

/-!
# Inverting the prior covariance of an array by cliques

`enterprise/signals/signal_base.py` 417-426 (`get_phiinv`), 518-556 (`get_phiinv_byfreq_cliques`).
Numbers are real.
-/

namespace Verif.PhiInv

open Verif Verif.Kernel Matrix

variable {n : Nat}

/-- A square array as a matrix. -/
def toMatrix (n : Nat) (M : Nat → Nat → ℝ) : Matrix (Fin n) (Fin n) ℝ := Matrix.of fun i j => M i j

open Classical in
/-- `phi[idx2] = np.linalg.inv(phi[idx2])` with `idx2 = np.ix_(idx, idx)`, `idx = (cliques == k)`
(signal_base.py 525-544, the branch without `cholesky`). -/
noncomputable def invBlock (lab : Fin n → Int) (k : Int) (M : Matrix (Fin n) (Fin n) ℝ) : Matrix (Fin n) (Fin n) ℝ :=
  Matrix.of fun i j => if h : lab i = k ∧ lab j = k then (M.toSquareBlock lab k)⁻¹ ⟨i, h.1⟩ ⟨j, h.2⟩ else M i j

open Classical in
/-- The loop over the cliques (signal_base.py 524-544); a singular block raises `LinAlgError`. -/
noncomputable def cliqueLoop (lab : Fin n → Int) : List Nat → Matrix (Fin n) (Fin n) ℝ → ℝ →
    Except PyErr (Matrix (Fin n) (Fin n) ℝ × ℝ)
  | [], M, ld => .ok (M, ld)
  | k :: t, M, ld =>
    if ∃ i, lab i = k then
      if (M.toSquareBlock lab k).det = 0 then .error .linAlgError
      else cliqueLoop lab t (invBlock lab k M) (ld + Real.log |(M.toSquareBlock lab k).det|)
    else cliqueLoop lab t M ld

open Classical in
/-- `get_phiinv_byfreq_cliques` on the matrix branch (signal_base.py 521-556) with `logdet=True`.  The
logarithm of a non-positive diagonal entry, not-a-number in NumPy, is here the logarithm of its absolute
value. -/
noncomputable def cliqueInv (lab : Fin n → Int) (count : Nat) (M : Matrix (Fin n) (Fin n) ℝ) :
    Except PyErr (Matrix (Fin n) (Fin n) ℝ × ℝ) :=
  match cliqueLoop lab (List.range count) M 0 with
  | .error e => .error e
  | .ok (R, ld) =>
    .ok (Matrix.of fun i j => if i = j ∧ lab i = -1 then 1 / R i j else R i j,
      ld + ∑ i, if lab i = -1 then Real.log (R i i) else 0)

/-- `PTA.get_phiinv(params, logdet=True)` with common signals (signal_base.py 417-419, 518-556). -/
noncomputable def getPhiinv (phis : List (Option (Kern ℝ))) (classes : List (PtaPhi.Klass ℝ)) :
    Except PyErr (Matrix (Fin (PtaPhi.total phis)) (Fin (PtaPhi.total phis)) ℝ × ℝ) :=
  match PtaPhi.getPhi phis classes, PtaPhi.ptaCliques phis classes with
  | .ok (.big _ M), .ok c => cliqueInv (fun i => c.label i) c.count (toMatrix (PtaPhi.total phis) M)
  | .error e, _ => .error e
  | _, .error e => .error e
  | .ok (.list _), _ => .error .other

end Verif.PhiInv
