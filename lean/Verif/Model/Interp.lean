import Mathlib.Algebra.Order.Archimedean.Real.Basic
import Mathlib.LinearAlgebra.Matrix.NonsingularInverse
import Mathlib.Analysis.SpecialFunctions.Pow.Real
import Verif.Model.Basic

/-!
# Linear interpolation and timing-model bases

`enterprise/signals/utils.py` 312-334, 817-839, 892-927 and `gp_signals.py` 219-230.  Numbers are exact reals.
-/

namespace Verif.Interp

open Verif

/-! ## `linear_interp_basis` -/

/-- `np.arange(a, b, step)` for a positive step. -/
noncomputable def arange (a b step : ℝ) : List ℝ :=
  (List.range ⌈(b - a) / step⌉.toNat).map fun i : Nat => a + i * step

/-- One pass of the loop for the TOA `t`, utils.py 831-834: with `x[ii] <= t <= x[ii + 1]` the entries `ii` and
`ii + 1` of its row are set. -/
noncomputable def pass (x : List ℝ) (t : ℝ) (r : List ℝ) (ii : Nat) : List ℝ :=
  let a := x.getD ii 0
  let b := x.getD (ii + 1) 0
  if a ≤ t ∧ t ≤ b then (r.set ii ((t - b) / (a - b))).set (ii + 1) ((t - a) / (b - a)) else r

/-- The row of `M` for the TOA `t` after the loop (utils.py 828, 831-834). -/
noncomputable def interpRow (x : List ℝ) (t : ℝ) : List ℝ :=
  (List.range (x.length - 1)).foldl (pass x t) (List.replicate x.length 0)

/-- `np.flatnonzero(M.sum(axis=0) != 0)` for the rows of a matrix with `n` columns (utils.py 837). -/
noncomputable def usedCols (rows : List (List ℝ)) (n : Nat) : List Nat :=
  (List.range n).filter fun j => (rows.map fun r => r.getD j 0).sum ≠ 0

/-- `linear_interp_basis` (utils.py 817-839): rows and nodes.  `min` of an empty array raises.
Simplification: `dt` is positive. -/
noncomputable def linearInterp (toas : List ℝ) (dt : ℝ) : Except PyErr (List (List ℝ) × List ℝ) :=
  match toas with
  | [] => .error .valueError
  | t :: ts =>
    let x := arange (ts.foldl min t) (ts.foldl max t + dt) dt
    let M := toas.map (interpRow x)
    let idx := usedCols M x.length
    .ok (M.map fun r => idx.map fun j => r.getD j 0, idx.map fun j => x.getD j 0)

/-! ## Timing-model bases -/

open Matrix

variable {n m : Nat}

/-- `[i for i in range(Mmat.shape[1]) if i not in idx_exclude]` (utils.py 895, 903, 918). -/
def keptCols (m : Nat) (excl : List Nat) : List (Fin m) := (List.finRange m).filter fun i => i.val ∉ excl

/-- `Mmat[:, idxs]` if `idx_exclude` is not empty (utils.py 894-896, 902-904, 917-919).  If nothing is left
`np.array([])` is an array of floats, and indexing with it raises.  Simplification: the indices to exclude are a
list of numbers that are not negative. -/
def excludeCols (M : Matrix (Fin n) (Fin m) ℝ) (excl : List Nat) :
    Except PyErr (Σ k : Nat, Matrix (Fin n) (Fin k) ℝ) :=
  if excl = [] then .ok ⟨m, M⟩
  else if keptCols m excl = [] then .error .indexError
  else .ok ⟨(keptCols m excl).length, of fun i j => M i (keptCols m excl)[j]⟩

/-- The weights returned with a basis: `np.ones_like` of a number is a number, of an array an array. -/
inductive Weights
  | num
  | vec (k : Nat)

/-- `unnormed_tm_basis` (utils.py 892-897). -/
def unnormed (M : Matrix (Fin n) (Fin m) ℝ) (excl : List Nat) :
    Except PyErr ((Σ k : Nat, Matrix (Fin n) (Fin k) ℝ) × Weights) := do
  let B ← excludeCols M excl
  .ok (B, .num)

/-- `np.sqrt(np.sum(Mmat**2, axis=0))` (utils.py 907). -/
noncomputable def colNorm (M : Matrix (Fin n) (Fin m) ℝ) (j : Fin m) : ℝ := Real.sqrt (∑ i, M i j ^ 2)

/-- The division by the norms and the columns of norm zero set to zero (utils.py 909-910). -/
noncomputable def divNorm (M : Matrix (Fin n) (Fin m) ℝ) (norm : Fin m → ℝ) : Matrix (Fin n) (Fin m) ℝ :=
  of fun i j => if norm j = 0 then 0 else M i j / norm j

/-- `normed_tm_basis` (utils.py 900-912): `norm` is `None` or an array, which does not broadcast against the columns
unless it has one number per column.  Simplification: an array of one number, which broadcasts, is not treated. -/
noncomputable def normed (M : Matrix (Fin n) (Fin m) ℝ) (norm : Option (List ℝ)) (excl : List Nat) :
    Except PyErr ((Σ k : Nat, Matrix (Fin n) (Fin k) ℝ) × Weights) := do
  let B ← excludeCols M excl
  match norm with
  | none => .ok (⟨B.1, divNorm B.2 (colNorm B.2)⟩, .num)
  | some l => if l.length = B.1 then .ok (⟨B.1, divNorm B.2 fun j => l.getD j 0⟩, .num) else .error .valueError

/-- What `np.linalg.svd(M, full_matrices=False)` returns (library semantics). -/
structure ThinSvd (M : Matrix (Fin n) (Fin m) ℝ) where
  u : Matrix (Fin n) (Fin (min n m)) ℝ
  s : Fin (min n m) → ℝ
  v : Matrix (Fin (min n m)) (Fin m) ℝ
  hu : uᵀ * u = 1
  hv : v * vᵀ = 1
  hs : ∀ i, 0 ≤ s i
  prod : M = u * diagonal s * v

/-- `svd_tm_basis` (utils.py 915-922). -/
def svdBasis (svd : ∀ {n m : Nat} (M : Matrix (Fin n) (Fin m) ℝ), ThinSvd M) (M : Matrix (Fin n) (Fin m) ℝ)
    (excl : List Nat) : Except PyErr ((Σ k : Nat, Matrix (Fin n) (Fin k) ℝ) × Weights) := do
  let B ← excludeCols M excl
  .ok (⟨min n B.1, (svd B.2).u⟩, .vec (min n B.1))

/-- The argument `normed` of the timing models: `True`, `False` or an array of norms. -/
inductive NormArg
  | yes
  | no
  | given (l : List ℝ)

/-- `get_timing_model_basis` (gp_signals.py 219-230), followed by the call of the basis function it chooses for the
pulsar's design matrix. -/
noncomputable def tmBasis (svd : ∀ {n m : Nat} (M : Matrix (Fin n) (Fin m) ℝ), ThinSvd M) (useSvd : Bool) (nrm : NormArg)
    (excl : List Nat) (M : Matrix (Fin n) (Fin m) ℝ) :
    Except PyErr ((Σ k : Nat, Matrix (Fin n) (Fin k) ℝ) × Weights) :=
  match useSvd, nrm with
  | true, .yes => svdBasis svd M excl
  | true, .no => .error .valueError
  | true, .given _ => .error .valueError
  | false, .yes => normed M none excl
  | false, .given l => normed M (some l) excl
  | false, .no => unnormed M excl

/-- `create_stabletimingdesignmatrix` with `fastDesign=True` (utils.py 321-326): a column of zeros would be divided by
zero; here it is an error (numpy warns and returns `nan`). -/
noncomputable def stableFast (M : Matrix (Fin n) (Fin m) ℝ) : Except PyErr (Matrix (Fin n) (Fin m) ℝ) :=
  if ∀ j, colNorm M j ≠ 0 then .ok (of fun i j => M i j / colNorm M j) else .error .zeroDivisionError

/-- `tm_prior` (utils.py 925-927): the prior variances for `k` columns; a number is repeated when the prior is
built. -/
def tmPrior (k : Nat) : Weights → Except PyErr (Fin k → ℝ)
  | .num => .ok fun _ => 1e40
  | .vec k' => if k' = k then .ok fun _ => 1e40 else .error .valueError

end Verif.Interp
