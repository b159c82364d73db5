import Verif.Model.Selections
import Mathlib.Analysis.SpecialFunctions.Pow.Real

/-!
# White noise and deterministic signals
(`enterprise/signals/white_signals.py`, `enterprise/signals/deterministic_signals.py`)
-/

namespace Verif.WhiteNoise

open Verif

/-- `keys = sorted(masks.keys()); zip(keys, [masks[key] for key in keys])`,
white_signals.py 43-44, deterministic_signals.py 28-29. -/
def sortedItems {α : Type*} (masks : Dict String α) : List (String × α) :=
  ((Dict.keys masks).insertionSort (· ≤ ·)).filterMap fun k =>
    (Dict.get? masks k).map fun m => (k, m)

section
variable {K : Type*} [Field K]

/-- `arr * mask` for a float array and a boolean array. -/
def mulMask (arr : List K) (m : Mask) : List K :=
  List.zipWith (fun a b => if b then a else 0) arr m

/-- Body of the loop in `WhiteNoise.get_ndiag`, white_signals.py 61-62. -/
def ndiagStep (ndiag : String → List K) (ret : List K) (km : String × Mask) : List K :=
  List.zipWith (· + ·) ret (mulMask (ndiag km.1) km.2)

/-- `WhiteNoise.get_ndiag`, white_signals.py 58-63, without its cache.
`ndiag key` is the value of `self._ndiag[key](params=params)`, one entry per TOA.
Simplification: the accumulator starts as `n` zeros instead of the scalar `0` that
numpy broadcasts. -/
def getNdiag (n : Nat) (masks : Dict String Mask) (ndiag : String → List K) : List K :=
  (sortedItems masks).foldl (ndiagStep ndiag) (List.replicate n 0)

/-- Number of selected TOAs, `mask.sum()`. -/
def maskCount (m : Mask) : Nat := m.count true

/-- Body of the loop in `Deterministic.get_delay`, deterministic_signals.py 49-50: assigning
an array of the wrong length raises `ValueError` (numpy's broadcasting of length-one
arrays is not modelled). -/
def delayStep (wf : String → Mask → List K) (delay : List K) (km : String × Mask) :
    Except PyErr (List K) :=
  let v := wf km.1 km.2
  if v.length = maskCount km.2 then .ok (maskScatter delay km.2 v) else .error .valueError

/-- `Deterministic.get_delay`, deterministic_signals.py 45-51, without its cache.
`wf key mask` is `self._wf[key](params=params, mask=mask)`. -/
def getDelay (n : Nat) (masks : Dict String Mask) (wf : String → Mask → List K) :
    Except PyErr (List K) :=
  (sortedItems masks).foldlM (delayStep wf) (List.replicate n 0)

end

/-- `efac_ndiag`, white_signals.py 68-70. -/
noncomputable def efacNdiag (toaerrs : List ℝ) (efac : ℝ) : List ℝ :=
  toaerrs.map fun e => efac ^ 2 * e ^ 2

/-- `combined_ndiag`, white_signals.py 73-75. -/
noncomputable def combinedNdiag (toaerrs : List ℝ) (efac log10T2equad : ℝ) : List ℝ :=
  toaerrs.map fun e => efac ^ 2 * (e ^ 2 + (10 : ℝ) ^ (2 * log10T2equad))

/-- `tnequad_ndiag`, white_signals.py 100-102. -/
noncomputable def tnequadNdiag (toas : List ℝ) (log10Tnequad : ℝ) : List ℝ :=
  toas.map fun _ => 1 * (10 : ℝ) ^ (2 * log10Tnequad)

end Verif.WhiteNoise
