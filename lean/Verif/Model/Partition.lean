import Verif.Model.PhiInv
import Mathlib.LinearAlgebra.Matrix.PosDef

/-!
# Inverting one kernel, and inverting the prior covariance of an array by partition

`enterprise/signals/utils.py` 287-309 (`KernelMatrix.inv`); `enterprise/signals/signal_base.py` 442-513
(`get_phiinv_byfreq_partition`).  Numbers are real.
-/

namespace Verif.Partition

open Verif Verif.Kernel Verif.PtaPhi Verif.PhiInv

/-! ## One kernel -/

/-- A singular value decomposition `M = u diag(s) v` as `np.linalg.svd` returns it: which one it returns is
left open. -/
structure Svd {n : Nat} (M : Matrix (Fin n) (Fin n) ℝ) where
  u : Matrix (Fin n) (Fin n) ℝ
  s : Fin n → ℝ
  v : Matrix (Fin n) (Fin n) ℝ
  hu : u.transpose * u = 1
  hv : v * v.transpose = 1
  hs : ∀ i, 0 ≤ s i
  prod : M = u * Matrix.diagonal s * v

open Classical in
/-- `KernelMatrix.inv(logdet=True)` (utils.py 287-309).  The Cholesky factorisation succeeds exactly for
positive definite matrices; twice the sum of the logarithms of the diagonal of the factor is then the logarithm
of the determinant (simplified: the factor itself is not modelled).  Otherwise `u / s @ u.T` of the singular
value decomposition.  Division by zero and logarithms of non-positive numbers, infinite or not-a-number in NumPy,
take Lean's values. -/
noncomputable def kernInv (svd : ∀ {n : Nat} (M : Matrix (Fin n) (Fin n) ℝ), Svd M) : Kern ℝ → Kern ℝ × ℝ
  | .one n v => (.one n fun i => 1 / v i, ∑ i ∈ Finset.range n, Real.log (v i))
  | .two n M c =>
    if (toMatrix n M).PosDef then
      (.two n (fun i j => if h : i < n ∧ j < n then (toMatrix n M)⁻¹ ⟨i, h.1⟩ ⟨j, h.2⟩ else 0) c, Real.log (toMatrix n M).det)
    else
      let d := svd (toMatrix n M)
      (.two n (fun i j => if h : i < n ∧ j < n then
          (Matrix.of (fun a b => d.u a b / d.s b) * d.u.transpose) ⟨i, h.1⟩ ⟨j, h.2⟩ else 0) c,
        ∑ i, Real.log (d.s i))

/-! ## The starting point of the partition method -/

/-- A kernel is stored as a matrix. -/
def dense : Kern ℝ → Bool
  | .one _ _ => false
  | .two _ _ _ => true

/-- `np.diag(phi[0]) if phi[0].ndim == 1 else phi[0]` for an entry of `phiinvs` (signal_base.py 453-454).  With
`logdet` the entry is a pair and `phi[0]` the inverse.  Without it the entry is the inverse itself, so `phi[0]`
is its first row, or for a vector its first number, which `sl.block_diag` takes as a block of size one. -/
noncomputable def firstOf (logdet : Bool) (k : Kern ℝ) : Kern ℝ :=
  match logdet, k with
  | true, k => k
  | false, .one _ v => .two 1 (fun _ _ => v 0) Cliques.none
  | false, .two n M _ => .one n fun i => M 0 i

/-- `phiinv` before the common signals are treated, and `ld` (signal_base.py 451-464). -/
noncomputable def base (svd : ∀ {n : Nat} (M : Matrix (Fin n) (Fin n) ℝ), Svd M) (logdet : Bool)
    (phis : List (Option (Kern ℝ))) : Nat × (Nat → Nat → ℝ) × ℝ :=
  let ks := phis.reduceOption
  if ks.any dense then
    let fs := ks.map fun k => some (firstOf logdet (kernInv svd k).1)
    (total fs, blockDiag fs, (ks.map fun k => (kernInv svd k).2).sum)
  else
    (total phis, fun i j => if i = j ∧ i < total phis then 1 / blockDiag phis i i else 0,
      ∑ i ∈ Finset.range (total phis), Real.log (blockDiag phis i i))

/-! ## The stack of small matrices -/

/-- Position `k` of an item in the big matrix. -/
def gpos (sl : List (Nat × Nat)) (it : Item) (k : Nat) : Nat := (sl.getD it.psr (0, 0)).1 + it.idx.getD k 0

/-- `invert[:, i, j] += crossdiag` and `invert[:, j, i] += crossdiag` for the given `j` (signal_base.py 472-491).
Simplified: a cross term of length one is rejected instead of broadcast. -/
def crossRow (cross : Nat → Nat → Arr ℝ) (m i : Nat) : List Nat → (Nat → Nat → Nat → ℝ) → Except PyErr (Nat → Nat → Nat → ℝ)
  | [], A => .ok A
  | j :: t, A =>
    match cross i j with
    | .two _ _ _ => .error .notImplementedError
    | .one m' w =>
      if m' ≠ m then .error .valueError
      else crossRow cross m i t fun k a b => if (a = i ∧ b = j) ∨ (a = j ∧ b = i) then A k a b + w k else A k a b

/-- The loop over the signals of a class (signal_base.py 471-496); `P` is their number and `d` the diagonal of
the priors. -/
noncomputable def itemLoop (sl : List (Nat × Nat)) (d : Nat → ℝ) (cross : Nat → Nat → Arr ℝ) (m P : Nat) :
    List (Item × Nat) → (Nat → Nat → Nat → ℝ) → ℝ → Except PyErr ((Nat → Nat → Nat → ℝ) × ℝ)
  | [], A, ld => .ok (A, ld)
  | (it, i) :: t, A, ld =>
    match crossRow cross m i ((List.range P).filter fun j => i < j) A with
    | .error e => .error e
    | .ok A1 =>
      if ∃ p ∈ it.idx, (sl.getD it.psr (0, 0)).2 ≤ p then .error .indexError
      else if it.idx.length ≠ m then .error .valueError
      else itemLoop sl d cross m P t
        (fun k a b => if a = i ∧ b = i then A1 k a b + d (gpos sl it k) else A1 k a b)
        (ld - ∑ k ∈ Finset.range m, Real.log (d (gpos sl it k)))

/-- The loop over the classes (signal_base.py 470-496): one stack of the size of the first class serves all. -/
noncomputable def stackLoop (sl : List (Nat × Nat)) (d : Nat → ℝ) (m P : Nat) :
    List (Klass ℝ) → (Nat → Nat → Nat → ℝ) → ℝ → Except PyErr ((Nat → Nat → Nat → ℝ) × ℝ)
  | [], A, ld => .ok (A, ld)
  | c :: t, A, ld =>
    if P < c.items.length then .error .indexError
    else match itemLoop sl d c.cross m c.items.length c.items.zipIdx A ld with
      | .error e => .error e
      | .ok (A', ld') => stackLoop sl d m P t A' ld'

open Classical in
/-- The inversion of the small matrices (signal_base.py 498-502); a matrix that is not positive definite raises
`LinAlgError`. -/
noncomputable def cholLoop (P : Nat) : List Nat → (Nat → Nat → Nat → ℝ) → ℝ → Except PyErr ((Nat → Nat → Nat → ℝ) × ℝ)
  | [], A, ld => .ok (A, ld)
  | k :: t, A, ld =>
    if (toMatrix P (A k)).PosDef then
      cholLoop P t
        (fun k' a b => if k' = k then (if h : a < P ∧ b < P then (toMatrix P (A k))⁻¹ ⟨a, h.1⟩ ⟨b, h.2⟩ else 0) else A k' a b)
        (ld + Real.log (toMatrix P (A k)).det)
    else .error .linAlgError

/-- The assignments of the last loop for two signals (signal_base.py 504-513). -/
def writePair (sl : List (Nat × Nat)) (m : Nat) (B : Nat → Nat → Nat → ℝ) (x y : Item × Nat) : List (Nat × Nat × ℝ) :=
  if y.2 < x.2 then []
  else (List.range m).map (fun k => (gpos sl x.1 k, gpos sl y.1 k, B k x.2 y.2)) ++
    (List.range m).map fun k => (gpos sl y.1 k, gpos sl x.1 k, B k x.2 y.2)

/-- All the assignments of the last loop (signal_base.py 503-513). -/
def writes (sl : List (Nat × Nat)) (m : Nat) (B : Nat → Nat → Nat → ℝ) (items : List Item) : List (Nat × Nat × ℝ) :=
  items.zipIdx.flatMap fun x => items.zipIdx.flatMap fun y => writePair sl m B x y

/-- `PTA.get_phiinv(params, logdet, method="partition")` with common signals (signal_base.py 442-513): the size of
the result, its entries, and the logarithm of the determinant.  A class has at least two signals
(`_commonsignals`). -/
noncomputable def getPhiinv (svd : ∀ {n : Nat} (M : Matrix (Fin n) (Fin n) ℝ), Svd M) (logdet : Bool)
    (phis : List (Option (Kern ℝ))) (classes : List (Klass ℝ)) : Except PyErr (Nat × (Nat → Nat → ℝ) × ℝ) :=
  match classes with
  | [] => .error .other
  | c0 :: _ =>
    let sl := slices phis 0
    let b := base svd logdet phis
    match c0.cross 0 1 with
    | .two _ _ _ => .error .notImplementedError
    | .one m _ =>
      match stackLoop sl (fun i => blockDiag phis i i) m c0.items.length classes (fun _ _ _ => 0) b.2.2 with
      | .error e => .error e
      | .ok (A, ld) =>
        match cholLoop c0.items.length (List.range m) A ld with
        | .error e => .error e
        | .ok (B, ld') =>
          let ws := writes sl m B c0.items
          if ∃ w ∈ ws, b.1 ≤ w.1 ∨ b.1 ≤ w.2.1 then .error .indexError
          else .ok (b.1, put2 b.2.1 ws, ld')

end Verif.Partition
