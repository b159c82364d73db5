import Verif.Model.Basic
import Mathlib.Data.List.Sort
import Mathlib.Algebra.Order.Field.Basic

/-!
# Pulsar data arrays (`enterprise/pulsar.py` 71-323)

Per-TOA arrays are lists in file ("raw") order; rows of two- and three-dimensional
arrays are opaque values `V` except for the design matrix.
-/

namespace Verif.PulsarData

open Verif

/-- The arrays of a `BasePulsar`.  `isort`/`iisort` are `none` for `slice(None)`.
`flagsIsRecord` says the flags are stored as a numpy record array. -/
structure Psr (K V : Type) where
  sort : Bool
  toas : List K
  stoas : List K
  toaerrs : List K
  residuals : List K
  ssbfreqs : List K
  designmatrix : List (List K)
  fitpars : List String
  flags : Dict String (List String)
  flagsIsRecord : Bool
  planetssb : Option (List V)
  sunssb : Option (List V)
  posT : List V
  telescope : List String
  isort : Option (List Nat)
  iisort : Option (List Nat)

section
variable {K V : Type} [Field K] [LinearOrder K]

/-- Order of the stable sort: by TOA, ties by file position. -/
def lexLe (t : Nat → K) (i j : Nat) : Prop := t i < t j ∨ (t i = t j ∧ i ≤ j)

instance (t : Nat → K) : DecidableRel (lexLe t) := fun i j => by
  unfold lexLe; infer_instance

/-- `np.argsort(toas, kind="mergesort")`: the stable sorting permutation, i.e. the one sorted by
(value, position). -/
def argsortStable (toas : List K) : List Nat :=
  (List.range toas.length).insertionSort (lexLe fun i => toas.getD i 0)

/-- `iisort = zeros(len(isort)); for ii, p in enumerate(isort): iisort[p] = ii`,
pulsar.py 131-133. -/
def invPerm (isort : List Nat) : List Nat :=
  (isort.zipIdx).foldl (fun acc pi => acc.set pi.1 pi.2) (List.replicate isort.length 0)

/-- `sort_data`, pulsar.py 127-136. -/
def sortData (p : Psr K V) : Psr K V :=
  if p.sort then
    let isort := argsortStable p.toas
    { p with isort := some isort, iisort := some (invPerm isort) }
  else { p with isort := none, iisort := none }

end

/-- `arr[isort]` where `isort` is an index array or `slice(None)`. -/
def applyIdx {α : Type} (isort : Option (List Nat)) (arr : List α) : Except PyErr (List α) :=
  match isort with
  | none => .ok arr
  | some idx => gather arr idx

namespace Psr
variable {K V : Type} [Field K] [LinearOrder K] (p : Psr K V)

/-- property `toas`, pulsar.py 200-203. -/
def getToas := applyIdx p.isort p.toas
/-- property `stoas`, pulsar.py 205-208. -/
def getStoas := applyIdx p.isort p.stoas
/-- property `residuals`, pulsar.py 210-213. -/
def getResiduals := applyIdx p.isort p.residuals
/-- property `toaerrs`, pulsar.py 215-218. -/
def getToaerrs := applyIdx p.isort p.toaerrs
/-- property `freqs`, pulsar.py 220-223. -/
def getFreqs := applyIdx p.isort p.ssbfreqs
/-- property `Mmat`, pulsar.py 225-228. -/
def getMmat := applyIdx p.isort p.designmatrix
/-- property `pos_t`, pulsar.py 305-308. -/
def getPosT := applyIdx p.isort p.posT
/-- property `planetssb`, pulsar.py 310-313; indexing `None` raises `TypeError`. -/
def getPlanetssb : Except PyErr (List V) :=
  match p.planetssb with
  | some a => applyIdx p.isort a
  | none => .error .typeError
/-- property `sunssb`, pulsar.py 315-318. -/
def getSunssb : Except PyErr (List V) :=
  match p.sunssb with
  | some a => applyIdx p.isort a
  | none => .error .typeError
/-- property `telescope`, pulsar.py 320-323. -/
def getTelescope := applyIdx p.isort p.telescope
/-- property `flags` for one flag name, pulsar.py 246-252 (the code builds the dictionary of
all flags; a single entry is modelled). -/
def getFlag (name : String) : Except PyErr (List String) := do
  let f ← Dict.get! p.flags name
  applyIdx p.isort f

/-- `set_flags`, pulsar.py 254-260. -/
def setFlags (name : String) (values : List String) : Except PyErr (Psr K V) := do
  if p.flagsIsRecord then .error .notImplementedError
  else
    let v ← applyIdx p.iisort values
    return { p with flags := Dict.set p.flags name v }

end Psr

section
variable {K V : Type} [Field K] [LinearOrder K]

/-- Column sums of a matrix given by rows: `np.sum(M, axis=0)` with `ncol` columns. -/
def colSums (ncol : Nat) (rows : List (List K)) : List K :=
  (List.range ncol).map fun c => (rows.map fun r => r.getD c 0).sum

/-- The time mask, pulsar.py 140-143; multiplying a missing bound (`None`) raises `TypeError`. -/
def windowMask (start stop : Option K) (toas : List K) : Except PyErr Mask :=
  match start, stop with
  | none, none => .ok (toas.map fun _ => true)
  | some a, some b => .ok (toas.map fun t => decide (a * 86400 ≤ t) && decide (t ≤ b * 86400))
  | _, _ => .error .typeError

/-- Planet positions in `filter_data`, pulsar.py 160-161: the mask in file order is applied to
the sorted property. -/
def filterPlanets (p : Psr K V) (mask : Mask) : Except PyErr (Option (List V)) :=
  match p.planetssb with
  | none => .ok none
  | some _ => p.getPlanetssb.map fun s => some (maskSelect s mask)

/-- `filter_data`, pulsar.py 138-163.  Giving only one of the two times multiplies `None`
and raises `TypeError`.  `ncol` is the number of design-matrix columns.
The mask is computed on the raw TOAs; `planetssb` is taken through the *sorted*
property (line 161) and then masked; `stoas`, `posT`, `sunssb`, `telescope`,
`fitpars` are not touched. -/
def filterData (ncol : Nat) (start stop : Option K) (p : Psr K V) : Except PyErr (Psr K V) := do
  let mask ← windowMask start stop p.toas
  let dm := maskSelect p.designmatrix mask
  let dmxMask := (colSums ncol dm).map fun s => decide (s ≠ 0)
  let planets ← filterPlanets p mask
  return sortData { p with
    toas := maskSelect p.toas mask
    toaerrs := maskSelect p.toaerrs mask
    residuals := maskSelect p.residuals mask
    ssbfreqs := maskSelect p.ssbfreqs mask
    designmatrix := dm.map fun row => maskSelect row dmxMask
    flags := p.flags.map fun kv => (kv.1, maskSelect kv.2 mask)
    planetssb := planets }

end

/-- A flag column: numpy `U<width>` array. -/
structure FlagCol where
  width : Nat
  vals : List String

/-- Storing a string in a numpy `U<w>` array truncates it to `w` characters. -/
def trunc (w : Nat) (s : String) : String := String.ofList (s.toList.take w)

/-- `a + "_" + b if (a and b) else ""`, pulsar.py 282. -/
def feBe (a b : String) : String := if a ≠ "" ∧ b ≠ "" then a ++ "_" ++ b else ""

/-- One round of the loop over flags, pulsar.py 284-286. -/
def flagRound (w : Nat) (flags : Dict String FlagCol) (ret : List String) (flag : String) :
    List String :=
  match Dict.get? flags flag with
  | some c => List.zipWith (fun r f => trunc w (if f = "" then r else f)) ret c.vals
  | none => ret

/-- `backend_flags`, pulsar.py 262-288, in raw order (the final `ret[self._isort]` is
`applyIdx`).  The array is allocated with the widest dtype among the *existing* flags (276),
so the concatenation `fe_be` is truncated to that width; with no flags `max([])` raises
`ValueError`. -/
def backendFlagsRaw (n : Nat) (flags : Dict String FlagCol) : Except PyErr (List String) :=
  match flags with
  | [] => .error .valueError
  | _ :: _ =>
    let w := (flags.map fun kv => kv.2.width).foldl max 0
    let ret := List.replicate n ""
    let ret := match Dict.get? flags "fe", Dict.get? flags "be" with
      | some fe, some be => List.zipWith (fun a b => trunc w (feBe a b)) fe.vals be.vals
      | _, _ => ret
    .ok (["f", "i", "sys", "g", "group"].foldl (flagRound w flags) ret)

end Verif.PulsarData
