import Verif.Model.IeeePhi
import Verif.Model.IeeeWhite

/-!
# The columns of the timing model in floating-point arithmetic

`enterprise/signals/utils.py` 900-912, operation by operation in binary64, column by column; and the matrix `Sigma` of the likelihood,
`enterprise/signals/utils.py` 925-927, `enterprise/signals/signal_base.py` 246-262, 989-994, 1123-1133.
-/

namespace Verif.Ieee

open Verif

/-- `norm == 0` (utils.py 910) for one number. -/
noncomputable def isZero : Fl → Bool
  | .fin x => decide (x = 0)
  | _ => false

/-- `v` is a value of `np.sqrt(np.sum(Mmat**2, axis=0))` (utils.py 907) for one column.  numpy computes `x**2` as `x * x`. -/
def IsColNorm (A : Arith) (col : List Fl) (v : Fl) : Prop := ∃ s, IsSum A (col.map fun x => mul A x x) s ∧ v = npSqrt A s

/-- `Mmat / norm`, then `nmat[:, norm == 0] = 0` (utils.py 909-910), for one column. -/
noncomputable def scaleCol (A : Arith) (norm : Fl) (col : List Fl) : List Fl :=
  if isZero norm then col.map fun _ => .fin 0 else col.map fun x => div A x norm

/-- `out` is a column of the first value of `normed_tm_basis(Mmat, norm)` (utils.py 900-912), where `norm` is `None` or the number of the user for this
column.  Simplification: which columns are left out (902-904), and norms in wrong number, are in `Interp.normed`. -/
def IsNormedCol (A : Arith) (norm : Option Fl) (col out : List Fl) : Prop :=
  match norm with
  | none => ∃ v, IsColNorm A col v ∧ out = scaleCol A v col
  | some v => out = scaleCol A v col

/-- `tm_prior` (utils.py 925-927) for a weight of 1, as all three bases give it (utils.py 890, 897, 912).  The number in the source is read as the rounded value of `10^40`. -/
noncomputable def tmPriorF (A : Arith) : Fl := mul A (.fin 1) (A.round (10 ^ 40))

/-- `tnt` is a value of `get_TNT` (signal_base.py 989-994 with `ndarray_alt.solve`, 1123-1133) for columns of the basis and variances. -/
def IsTNT (A : Arith) (cols : Nat → List Fl) (ndiag : List Fl) (tnt : Nat → Nat → Fl) : Prop :=
  ∀ i j, IsDot A ((cols i).zip (List.zipWith (div A) (cols j) ndiag)) (tnt i j)

/-- `Sigma = TNT + np.diag(phiinv)` (signal_base.py 251). -/
noncomputable def sigmaF (A : Arith) (tnt : Nat → Nat → Fl) (phiinv : Nat → Fl) (i j : Nat) : Fl :=
  add A (tnt i j) (if i = j then phiinv i else .fin 0)

/-- `v` is a value of `a - x₁ y₁ - ... - x_k y_k` in a triangular factorization or solution (LAPACK under scipy, for signal_base.py 254-255): the products are taken off in any
order and bracketing, fused with a subtraction or not, as blocked, recursive and plain versions do.  Simplification: the sign is that of the first factor. -/
def IsMinus (A : Arith) (a : Fl) (l : List (Fl × Fl)) (v : Fl) : Prop := IsDot A ((a, .fin 1) :: l.map fun p => (neg p.1, p.2)) v

/-- `v` is a value of `a / d` there: a division, or a multiplication with the reciprocal. -/
def IsQuot (A : Arith) (a d v : Fl) : Prop := v = div A a d ∨ v = mul A a (div A (.fin 1) d)

/-- Row `i` of the triangular factor `F`, left of the diagonal, in `sl.cho_factor(Sigma)` (signal_base.py 254).  Simplification: the factor is written as lower
triangle, scipy gives its transpose. -/
def IsRow (A : Arith) (S F : Nat → Nat → Fl) (i : Nat) : Prop :=
  ∀ j < i, ∃ v, IsMinus A (S i j) ((List.range j).map fun k => (F i k, F j k)) v ∧ IsQuot A v (F j j) (F i j)

/-- `v` is the number whose root is on the diagonal there. -/
def IsPivot (A : Arith) (S F : Nat → Nat → Fl) (i : Nat) (v : Fl) : Prop := IsMinus A (S i i) ((List.range i).map fun k => (F i k, F i k)) v

/-- `F` is the factor of the first `n` rows and columns. -/
def IsFactor (A : Arith) (n : Nat) (S F : Nat → Nat → Fl) : Prop :=
  ∀ i < n, IsRow A S F i ∧ ∃ v, IsPivot A S F i v ∧ lt (.fin 0) v = true ∧ F i i = npSqrt A v

/-- The outcome of `sl.cho_factor(Sigma)` (signal_base.py 254) for finite numbers: the factor, or `none` for `LinAlgError`, when a number under a root is not
positive. -/
def IsChol (A : Arith) (n : Nat) (S : Nat → Nat → Fl) : Option (Nat → Nat → Fl) → Prop
  | some F => IsFactor A n S F
  | none => ∃ i < n, ∃ F, IsFactor A i S F ∧ IsRow A S F i ∧ ∃ v, IsPivot A S F i v ∧ lt (.fin 0) v = false

/-- `z` is the value of `sl.cho_solve(cf, TNr)` (signal_base.py 255): two triangular systems. -/
def IsCholSolve (A : Arith) (n : Nat) (F : Nat → Nat → Fl) (b z : Nat → Fl) : Prop :=
  ∃ y : Nat → Fl, (∀ i < n, ∃ v, IsMinus A (b i) ((List.range i).map fun k => (F i k, y k)) v ∧ IsQuot A v (F i i) (y i)) ∧
    ∀ i < n, ∃ v, IsMinus A (y i) ((List.range (n - 1 - i)).map fun k => (F (i + 1 + k) i, z (i + 1 + k))) v ∧ IsQuot A v (F i i) (z i)

/-- `v` is a value of `np.sum(2 * np.log(np.diag(cf[0])))` (signal_base.py 260). -/
def IsLogdet (A : Arith) (L : Lib) (n : Nat) (F : Nat → Nat → Fl) (v : Fl) : Prop :=
  IsSum A ((List.range n).map fun i => mul A (.fin 2) (npLog L (F i i))) v

/-- The numbers of one pulsar in the loop of the likelihood (signal_base.py 247-251): `TNr`, `Sigma` and `logdet_phi`. -/
structure Gp where
  n : Nat
  tnr : Nat → Fl
  sigma : Nat → Nat → Fl
  ldphi : Fl

/-- scipy refuses arrays with `inf` or `nan` (`check_finite`). -/
def Fl.Finite : Fl → Prop
  | .fin _ => True
  | _ => False

/-- The loop of the likelihood over the pulsars (signal_base.py 247-264) without common signals: the value of `loglike` before, the numbers of the pulsars, and the
outcome.  `-inf` is returned when a factorization fails (256-257); numbers that are not finite raise `ValueError`.  Simplification: pulsars without processes (248-249) are left out. -/
def IsGpLoop (A : Arith) (L : Lib) : Fl → List Gp → Except PyErr Fl → Prop
  | ll, [], r => r = .ok ll
  | ll, p :: ps, r =>
    (¬ (∀ i < p.n, ∀ j < p.n, (p.sigma i j).Finite) ∧ r = .error .valueError) ∨
    ((∀ i < p.n, ∀ j < p.n, (p.sigma i j).Finite) ∧ ((IsChol A p.n p.sigma none ∧ r = .ok .ninf) ∨
      ∃ F, IsChol A p.n p.sigma (some F) ∧
        ((¬ (∀ i < p.n, (p.tnr i).Finite ∧ ∀ j ≤ i, (F i j).Finite) ∧ r = .error .valueError) ∨
        ((∀ i < p.n, (p.tnr i).Finite ∧ ∀ j ≤ i, (F i j).Finite) ∧
          ∃ z q ld, IsCholSolve A p.n F p.tnr z ∧ IsLogdet A L p.n F ld ∧ IsDot A ((List.range p.n).map fun i => (p.tnr i, z i)) q ∧
            IsGpLoop A L (add A ll (mul A (.fin (1 / 2)) (add A (add A q (neg ld)) (neg p.ldphi)))) ps r))))

/-- `tnr` is a value of `get_TNr` (signal_base.py 979-986 with `ndarray_alt.solve`, 1123-1133) for columns of the basis, variances and residuals. -/
def IsTNr (A : Arith) (cols : Nat → List Fl) (ndiag res : List Fl) (tnr : Nat → Fl) : Prop :=
  ∀ i, IsDot A ((cols i).zip (List.zipWith (div A) res ndiag)) (tnr i)

/-- `p` holds the numbers of a pulsar with `n` coefficients in the loop of the likelihood (signal_base.py 191-251), for columns of the basis, variances, residuals and the value of
`get_phiinv`, a vector, with its log-determinant. -/
def IsGp (A : Arith) (n : Nat) (cols : Nat → List Fl) (ndiag res : List Fl) (phiinv : Nat → Fl) (ldphi : Fl) (p : Gp) : Prop :=
  p.n = n ∧ IsTNr A cols ndiag res p.tnr ∧ (∃ tnt, IsTNT A cols ndiag tnt ∧ p.sigma = sigmaF A tnt phiinv) ∧ p.ldphi = ldphi

/-- `inv` and `ld` are values of `KernelMatrix.inv` with `logdet=True` for a vector of variances (utils.py 286-294), as the likelihood has them from `PTA.get_phiinv` without common signals
(signal_base.py 430-431, 521-522). -/
def IsPhiInv (A : Arith) (L : Lib) (n : Nat) (phi inv : Nat → Fl) (ld : Fl) : Prop :=
  (∀ i, inv i = div A (.fin 1) (phi i)) ∧ IsSum A ((List.range n).map fun i => npLog L (phi i)) ld

/-- The numbers of one pulsar in the likelihood (signal_base.py 204-210): the number of coefficients (zero without processes), the columns of the basis, the variances of the TOAs, the residuals
and the variances of the coefficients. -/
structure PsrF where
  n : Nat
  cols : Nat → List Fl
  ndiag : List Fl
  res : List Fl
  phi : Nat → Fl

/-- `r` is an outcome of `LogLikelihood.__call__` without common signals (signal_base.py 196-213, 246-264), for white noise without blocks.  Pulsars without processes are passed over in
the loop (248-249).  Simplification: the variances of the coefficients of a pulsar are a vector. -/
def IsLikelihood (A : Arith) (L : Lib) (ps : List PsrF) (r : Except PyErr Fl) : Prop :=
  ∃ ll, IsLnlike A L (ps.map fun p => p.res.zip p.ndiag) ll ∧
    ∃ gs, List.Forall₂ (fun p g => ∃ inv ld, IsPhiInv A L p.n p.phi inv ld ∧ IsGp A p.n p.cols p.ndiag p.res inv ld g) (ps.filter fun p => p.n ≠ 0) gs ∧ IsGpLoop A L ll gs r

end Verif.Ieee
