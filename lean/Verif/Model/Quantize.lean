import Verif.Model.WhiteNoise

/-!
# Observing epochs (`enterprise/signals/utils.py` 759-814) and the ECORR index
lists (`enterprise/signals/white_signals.py` 205-296)
-/

namespace Verif.Quantize

open Verif

variable {K : Type} [Field K] [LinearOrder K]

/-- What `np.argsort(toas)` guarantees: a permutation of the indices along which the TOAs
are non-decreasing.  numpy's default sort is not stable, so nothing is said on ties. -/
structure IsArgsort (toas : List K) (isort : List Nat) : Prop where
  perm : isort.Perm (List.range toas.length)
  sorted : (isort.map fun i => toas.getD i 0).Pairwise (· ≤ ·)

/-- The loop of `create_quantization_matrix`, utils.py 767-772, with the last bucket
(`bucket_ref[-1]`, `bucket_ind[-1]`) as accumulator; returns the list of
`(bucket_ref, bucket_ind)` pairs. -/
def bucketLoop (t : Nat → K) (dt : K) : K → List Nat → List Nat → List (K × List Nat)
  | ref, cur, [] => [(ref, cur)]
  | ref, cur, i :: rest =>
    if t i - ref < dt then bucketLoop t dt ref (cur ++ [i]) rest
    else (ref, cur) :: bucketLoop t dt (t i) [i] rest

/-- One column of `U`: ones at the listed rows, utils.py 778-779. -/
def indicatorCol (n : Nat) (l : List Nat) : List K :=
  (List.range n).map fun r => if r ∈ l then 1 else 0

/-- `create_quantization_matrix(toas, dt, nmin)[0]`, utils.py 759-783, as the list of its
columns, for a given result `isort` of `np.argsort`.  `isort[0]` of an empty array raises
`IndexError`. The `weights` (all ones) are omitted. -/
def quantCols (toas : List K) (isort : List Nat) (dt : K) (nmin : Nat) :
    Except PyErr (List (List K)) :=
  match isort with
  | [] => .error .indexError
  | i0 :: rest =>
    let t := fun i => toas.getD i 0
    let buckets := (bucketLoop t dt (t i0) [i0] rest).map Prod.snd
    let buckets2 := buckets.filter fun ind => decide (nmin ≤ ind.length)
    .ok (buckets2.map (indicatorCol toas.length))

/-- An index array or a slice. -/
inductive IdxOrSlice
  | arr (l : List Nat)
  | slc (start stop : Nat)
  deriving DecidableEq, Repr

/-- `np.flatnonzero(col)`. -/
def flatnonzero (col : List K) : List Nat :=
  (List.range col.length).filter fun r => decide (col.getD r 0 ≠ 0)

/-- Body of the loop of `quant2ind`, utils.py 799-804; `epinds[-1]` of an empty array raises
`IndexError`. -/
def quant2indCol (asSlice : Bool) (col : List K) : Except PyErr IdxOrSlice :=
  let epinds := flatnonzero col
  match epinds.head?, epinds.getLast? with
  | some a, some b =>
    if b - a + 1 ≠ epinds.length ∨ asSlice = false then .ok (.arr epinds)
    else .ok (.slc a (b + 1))
  | _, _ => .error .indexError

/-- `quant2ind(U, as_slice)`, utils.py 786-805. -/
def quant2ind (cols : List (List K)) (asSlice : Bool) : Except PyErr (List IdxOrSlice) :=
  cols.mapM (quant2indCol asSlice)

/-- `indices_from_slice`, utils.py 808-814: `np.arange(*slc.indices(slc.stop))`. -/
def indicesFromSlice : IdxOrSlice → List Nat
  | .arr l => l
  | .slc a b => List.range' a (b - a)

/-- The per-key part of `EcorrKernelNoise.__init__`, white_signals.py 213-230: epochs of the
masked TOAs, scattered to the rows of the mask in the columns of this key, then turned
into index arrays. `argsort` is the sorting function numpy uses. -/
def ecorrIdxs1 (argsort : List K → List Nat) (toas : List K) (dt : K) (mask : Mask) :
    Except PyErr (List (List Nat)) := do
  let sub : List K := maskSelect toas mask
  let cols ← quantCols sub (argsort sub) dt 2
  let full := cols.map fun c => maskScatter (List.replicate toas.length (0 : K)) mask c
  let slices ← quant2ind full false
  return slices.map indicesFromSlice

/-- `self._idxs` of `EcorrKernelNoise`, white_signals.py 204-230: one list of index arrays per
key, in sorted key order. `dt = 1` second in the code. -/
def ecorrIdxs (argsort : List K → List Nat) (toas : List K) (dt : K)
    (masks : Dict String Mask) : Except PyErr (List (String × List (List Nat))) :=
  (WhiteNoise.sortedItems masks).mapM fun km => do
    let idx ← ecorrIdxs1 argsort toas dt km.2
    return (km.1, idx)

/-- `_get_jvecs`, white_signals.py 289-294: concatenated index arrays and, in step, the
amplitude `10 ** (2 * log10_ecorr)` of the key (here `amp key`), repeated per epoch. -/
def getJvecs (idxs : List (String × List (List Nat))) (amp : String → K) :
    List (List Nat) × List K :=
  let keys := (idxs.map Prod.fst).insertionSort (· ≤ ·)
  ((keys.map fun k => (Dict.get? idxs k).getD []).flatten,
   (keys.map fun k => List.replicate ((Dict.get? idxs k).getD []).length (amp k)).flatten)

end Verif.Quantize
