import Verif.Model.Basic
import Mathlib.Data.String.Basic
import Mathlib.Algebra.Order.Field.Basic
import Mathlib.Data.List.Sort

/-!
# Selection functions (`enterprise/signals/selections.py`)

Selection functions map pulsar attributes to a dictionary of boolean masks.
Strings are Lean `String`s ordered by code points, as Python's are.
-/

namespace Verif.Selections

open Verif

/-- `np.unique(x)`: the distinct values in increasing order. -/
def npUnique (l : List String) : List String :=
  l.dedup.insertionSort (· ≤ ·)

/-- `flags == val` on a numpy string array. -/
def eqMask (flags : List String) (val : String) : Mask :=
  flags.map fun f => decide (f = val)

/-- `{val: flags == val for val in vals}`. -/
def maskDict (flags : List String) (vals : List String) : Dict String Mask :=
  Dict.ofList (vals.map fun v => (v, eqMask flags v))

/-- Python `b in val` on strings (substring test). -/
def isSubstr (b val : String) : Bool := decide (b.toList <:+: val.toList)

/-- `[val for val in vals if any([b in val for b in names])]`,
selections.py 140, 174, 196, 205, 213. -/
def filterNames (names : List String) (vals : List String) : List String :=
  vals.filter fun val => names.any fun b => isSubstr b val

/-- `by_backend`, selections.py 130-133 (and `by_telescope`, 144-147, which is
the same code on the telescope array). -/
def byBackend (backendFlags : List String) : Dict String Mask :=
  maskDict backendFlags (npUnique backendFlags)

/-- `by_telescope`, selections.py 144-147. -/
def byTelescope (telescope : List String) : Dict String Mask :=
  maskDict telescope (npUnique telescope)

/-- `by_band`, selections.py 100-103: `flags["B"]` raises `KeyError` when absent. -/
def byBand (flags : Dict String (List String)) : Except PyErr (Dict String Mask) := do
  let f ← Dict.get! flags "B"
  return maskDict f (npUnique f)

/-- `by_frontend`, selections.py 124-127. -/
def byFrontend (flags : Dict String (List String)) : Except PyErr (Dict String Mask) := do
  let f ← Dict.get! flags "fe"
  return maskDict f (npUnique f)

/-- `no_selection`, selections.py 158-160. -/
def noSelection {K : Type*} (toas : List K) : Dict String Mask :=
  [("", toas.map fun _ => true)]

/-- The backend names of `nanograv_backends`, selections.py 139. -/
def ngb : List String := ["ASP", "GASP", "GUPPI", "PUPPI", "YUPPI", "CHIME", "VEGAS"]

/-- `nanograv_backends`, selections.py 136-141. -/
def nanogravBackends (backendFlags : List String) : Dict String Mask :=
  maskDict backendFlags (filterNames ngb (npUnique backendFlags))

/-- `by_index`, selections.py 150-155.  `np.isin(np.arange(n), idx)`. -/
def byIndex {K : Type*} (name : String) (idx : List Int) (toas : List K) : Dict String Mask :=
  [(name, (List.range toas.length).map fun i : Nat => decide ((i : Int) ∈ idx))]

section Numeric

variable {K : Type*} [Field K] [LinearOrder K] [IsStrictOrderedRing K]

/-- Maximum of a non-empty array, `toas.max()`. -/
def arrMax : K → List K → K
  | a, [] => a
  | a, b :: t => arrMax (max a b) t

/-- Minimum of a non-empty array, `toas.min()`. -/
def arrMin : K → List K → K
  | a, [] => a
  | a, b :: t => arrMin (min a b) t

/-- `cut_half`, selections.py 94-97.  `max` of an empty array raises `ValueError`. -/
def cutHalf : List K → Except PyErr (Dict String Mask)
  | [] => .error .valueError
  | t :: ts =>
    let toas := t :: ts
    let midpoint := (arrMax t ts + arrMin t ts) / 2
    .ok [("t1", toas.map fun x => decide (x ≤ midpoint)),
         ("t2", toas.map fun x => decide (x > midpoint))]

/-- The default EPTA bands, selections.py 116. -/
def defaultBands : Dict String (K × K) :=
  [("Band.1", (0, 1000)), ("Band.2", (1000, 2000)), ("Band.3", (2000, 3000)),
   ("Band.4", (3000, 10000))]

/-- `(freqs >= fl) & (freqs < fh)`. -/
def bandMask (freqs : List K) (b : K × K) : Mask :=
  freqs.map fun f => decide (b.1 ≤ f) && decide (f < b.2)

/-- `by_freq_band(bands)(freqs)`, selections.py 106-121, with the `nonlocal bands`
made explicit: argument `none` stands for anything that is not a dictionary; the
second result is the value of the closure variable after the call. -/
def byFreqBand (bands : Option (Dict String (K × K))) (freqs : List K) :
    Dict String Mask × Option (Dict String (K × K)) :=
  let bands := bands.getD defaultBands
  (Dict.ofList ((bands.filter fun kb => (bandMask freqs kb.2).any id).map
      fun kb => (kb.1, bandMask freqs kb.2)),
   some bands)

end Numeric

/-- The `cb` argument of `custom_backends`: a string or a list of strings. -/
inductive CbArg
  | str (s : String)
  | list (l : List String)
  deriving DecidableEq, Repr

/-- `list(np.atleast_1d(cb))`. -/
def CbArg.toList : CbArg → List String
  | .str s => [s]
  | .list l => l

/-- `custom_backends(cb)(backend_flags)`, selections.py 163-179; second result is
the closure variable `cb` after the call. -/
def customBackends (cb : Option CbArg) (backendFlags : List String) :
    Dict String Mask × Option CbArg :=
  let flagvals := npUnique backendFlags
  match cb with
  | some c =>
    let l := c.toList
    (maskDict backendFlags (filterNames l flagvals), some (.list l))
  | none => (maskDict backendFlags flagvals, none)

/-- The `cb` argument of `custom_backends_dict`. -/
inductive CbDictArg
  | str (s : String)
  | list (l : List String)
  | dict (d : Dict String (Option CbArg))
  | other
  deriving DecidableEq, Repr

/-- One iteration of the loop over `cb.keys()`, selections.py 199-217. -/
def cbDictStep (backendFlags : List String) (flags : Dict String (List String))
    (flagdict : Dict String Mask) (kv : String × Option CbArg) :
    Except PyErr (Dict String Mask) := do
  let arr ← if kv.1 = "backend" then Except.ok backendFlags else Dict.get! flags kv.1
  let flagvals := npUnique arr
  let flagvals := match kv.2 with
    | some c => filterNames c.toList flagvals
    | none => flagvals
  return Dict.update flagdict (maskDict arr flagvals)

/-- `custom_backends_dict(cb)(backend_flags, flags, toas)`, selections.py 182-221;
second result is the closure variable `cb` after the call. -/
def customBackendsDict {K : Type*} (cb : CbDictArg) (backendFlags : List String)
    (flags : Dict String (List String)) (toas : List K) :
    Except PyErr (Dict String Mask) × CbDictArg :=
  match cb with
  | .str s =>
    (.ok (maskDict backendFlags (filterNames [s] (npUnique backendFlags))), .list [s])
  | .list l =>
    (.ok (maskDict backendFlags (filterNames l (npUnique backendFlags))), .list l)
  | .dict d => (d.foldlM (cbDictStep backendFlags flags) [], .dict d)
  | .other => (.ok (noSelection toas), .other)

end Verif.Selections
