import Verif.Model.Combine
import Verif.Model.Kernel
import Verif.Model.Quantize

/-!
# Gaussian processes with a selection: `BasisGP`

`enterprise/signals/gp_signals.py` 46-62, 97-120, 169-183 and 256-282 (`EcorrBasisModel`).  A matrix is the list of its columns.
Numbers are elements of a field.  The caches are the subject of C30 and C31.
-/

namespace Verif.BasisGP

open Verif Verif.Kernel

variable {K : Type} [Field K] {L : Type}

/-- What the basis function of a key returns for the TOAs of its mask: columns and labels (gp_signals.py 99-100). -/
structure KeyBasis (K L : Type) where
  key : String
  mask : Mask
  cols : List (List K)
  labels : L

/-- `A[mask, off:off+len(F)] = F` (gp_signals.py 113). -/
def assignBlock (A : List (List K)) (off : Nat) (mask : Mask) (F : List (List K)) : List (List K) :=
  F.zipIdx.foldl (fun A cj => A.modify (off + cj.2) fun old => maskScatter old mask cj.1) A

/-- `self._basis`, `self._labels`, `self._slices` and `self._phi` after `_construct_basis`. -/
structure Built (K L : Type) where
  basis : List (List K)
  labels : Dict String L
  slices : Dict String (Nat × Nat)
  phi : Kern K

/-- The second loop of `_construct_basis` (gp_signals.py 110-115): a mask of another length is an `IndexError`, columns of another
length than the number of selected TOAs a `ValueError` (numpy's broadcasting of a single row is not modelled). -/
def blocks (n : Nat) : List (KeyBasis K L) → Nat → List (List K) → Dict String (Nat × Nat) →
    Except PyErr (List (List K) × Dict String (Nat × Nat))
  | [], _, A, sl => .ok (A, sl)
  | kb :: t, nctot, A, sl =>
    if kb.mask.length ≠ n then .error .indexError
    else if ∃ c ∈ kb.cols, c.length ≠ WhiteNoise.maskCount kb.mask then .error .valueError
    else
      let nn := kb.cols.length
      blocks n t (nctot + nn) (assignBlock A nctot kb.mask kb.cols) (sl.set kb.key (nctot, nn + nctot))

/-- `_construct_basis` (gp_signals.py 97-115) for the bases of the sorted keys; `self._masks[0]` of no masks is an `IndexError`. -/
def construct (items : List (KeyBasis K L)) : Except PyErr (Built K L) :=
  match items with
  | [] => .error .indexError
  | kb :: t =>
    let n := kb.mask.length
    let labels : Dict String L := (kb :: t).foldl (fun d x => d.set x.key x.labels) []
    let nc := ((kb :: t).map fun x => x.cols.length).sum
    match blocks n (kb :: t) 0 (List.replicate nc (List.replicate n 0)) [] with
    | .error e => .error e
    | .ok (A, sl) => .ok { basis := A, labels := labels, slices := sl, phi := Kern.zeros nc }

/-- The loop of `get_phi` (gp_signals.py 177-179). -/
def phiLoop (prior : String → L → Arr K) (labels : Dict String L) : List (String × Nat × Nat) → Kern K → Except PyErr (Kern K)
  | [], φ => .ok φ
  | x :: t, φ =>
    match labels.get? x.1 with
    | none => .error .keyError
    | some l =>
      match φ.set (prior x.1 l) (.slice x.2.1 x.2.2) with
      | .error e => .error e
      | .ok φ' => phiLoop prior labels t φ'

/-- `get_phi` (gp_signals.py 174-180) when the basis is the one of the last call: the kernel is changed in place and returned. -/
def getPhi (s : Built K L) (prior : String → L → Arr K) : Except PyErr (Built K L) :=
  match phiLoop prior s.labels s.slices s.phi with
  | .error e => .error e
  | .ok φ => .ok { s with phi := φ }

/-- Calls of `get_phi` with different parameters, one after the other. -/
def getPhis (s : Built K L) : List (String → L → Arr K) → Except PyErr (Built K L)
  | [] => .ok s
  | p :: t =>
    match getPhi s p with
    | .error e => .error e
    | .ok s' => getPhis s' t

/-! ## For the collection -/

/-- A kernel (`KernelMatrix`, utils.py 229-309) as the array given to `KernelMatrix.add`. -/
def arrOf {K : Type} : Kern K → Arr K
  | .one n v => .one n v
  | .two n M _ => .two n n M

/-- What a `BasisGP` without varying basis tells the collection (gp_signals.py 33-40, 169-183). -/
def signal (combine : Bool) (s : Built ℝ L) : Combine.BSig ℝ :=
  { combine := combine, varying := false, basis := some (s.basis.map fun c a => c.getD a 0),
    basisAt := s.basis.map fun c a => c.getD a 0, phi := arrOf s.phi }

/-! ## ECORR as a Gaussian process -/

/-- `ecorr_basis_prior` (gp_signals.py 256-261); `amp` is `10 ** (2 * log10_ecorr)`. -/
def ecorrPrior (weights : List K) (amp : K) : Arr K := .one weights.length fun i => weights.getD i 0 * amp

variable [LinearOrder K]

/-- The bases of `EcorrBasisModel` (gp_signals.py 264-282): `create_quantization_matrix` with default arguments (`dt = 1`,
`nmin = 2`; `dt` is kept general) of the TOAs of each mask, and the weights, which are ones (utils.py 776-783). -/
def ecorrBases (argsort : List K → List Nat) (toas : List K) (dt : K) (masks : Dict String Mask) : Except PyErr (List (KeyBasis K (List K))) :=
  (WhiteNoise.sortedItems masks).mapM fun km =>
    match Quantize.quantCols (maskSelect toas km.2) (argsort (maskSelect toas km.2)) dt 2 with
    | .error e => .error e
    | .ok cols => .ok { key := km.1, mask := km.2, cols := cols, labels := List.replicate cols.length 1 }

end Verif.BasisGP
