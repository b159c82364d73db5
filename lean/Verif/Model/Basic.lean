import Mathlib.Data.List.Basic
import Mathlib.Data.List.Nodup
import Mathlib.Data.List.Dedup

/-!
# Common vocabulary for the Python model

Python exceptions as values, insertion-ordered dictionaries, boolean masks.
This file models the Python/numpy runtime, not a particular file in `/repo`.
-/

namespace Verif

/-- Python exception classes that occur in the modelled code. -/
inductive PyErr
  | keyError
  | indexError
  | typeError
  | valueError
  | attributeError
  | notImplementedError
  | fileNotFoundError
  | ioError
  | linAlgError
  | zeroDivisionError
  | runtimeError
  | other
  deriving DecidableEq, Repr

/-- A Python `dict`: association list in insertion order.  Keys are kept
distinct by `Dict.set`. -/
abbrev Dict (κ α : Type*) := List (κ × α)

namespace Dict

variable {κ α : Type*} [DecidableEq κ]

/-- `d[k] = v`: replaces in place when the key exists, appends otherwise. -/
def set : Dict κ α → κ → α → Dict κ α
  | [], k, v => [(k, v)]
  | (k', v') :: t, k, v => if k' = k then (k', v) :: t else (k', v') :: set t k v

/-- `d.get(k)`. -/
def get? : Dict κ α → κ → Option α
  | [], _ => none
  | (k', v') :: t, k => if k' = k then some v' else get? t k

/-- `d.update(e)`, also the semantics of a dict display / comprehension
evaluated left to right. -/
def update (d : Dict κ α) (e : List (κ × α)) : Dict κ α :=
  e.foldl (fun d kv => set d kv.1 kv.2) d

/-- `{k: v for k, v in l}`. -/
def ofList (l : List (κ × α)) : Dict κ α := update [] l

/-- `d.pop(k, None)`: the dictionary without `k`. -/
def erase (d : Dict κ α) (k : κ) : Dict κ α := d.filter fun kv => kv.1 ≠ k

/-- `list(d.keys())`. -/
def keys (d : Dict κ α) : List κ := d.map Prod.fst

/-- `list(d.values())`. -/
def values (d : Dict κ α) : List α := d.map Prod.snd

/-- `d[k]`, raising `KeyError`. -/
def get! (d : Dict κ α) (k : κ) : Except PyErr α :=
  match get? d k with
  | some v => .ok v
  | none => .error .keyError

end Dict

/-- A boolean numpy array used as a mask. -/
abbrev Mask := List Bool

/-- `arr[mask]` for a mask of the same length (numpy boolean indexing). -/
def maskSelect {α : Type*} : List α → Mask → List α
  | a :: as, true :: ms => a :: maskSelect as ms
  | _ :: as, false :: ms => maskSelect as ms
  | _, _ => []

/-- `arr[mask] = vals` for a mask of the same length and `len(vals) = mask.sum()`. -/
def maskScatter {α : Type*} : List α → Mask → List α → List α
  | a :: as, false :: ms, vs => a :: maskScatter as ms vs
  | _ :: as, true :: ms, v :: vs => v :: maskScatter as ms vs
  | as, _, _ => as

/-- Index list of the `True` entries, `np.nonzero(mask)[0]`, offset by `k`. -/
def maskIdxFrom : Nat → Mask → List Nat
  | _, [] => []
  | k, true :: ms => k :: maskIdxFrom (k + 1) ms
  | k, false :: ms => maskIdxFrom (k + 1) ms

/-- `np.nonzero(mask)[0]`. -/
def maskIdx (m : Mask) : List Nat := maskIdxFrom 0 m

/-- `[arr[i] for i in idx]`, numpy fancy indexing; `IndexError` when out of range. -/
def gather {α : Type*} (arr : List α) (idx : List Nat) : Except PyErr (List α) :=
  idx.mapM fun i => match arr[i]? with
    | some a => .ok a
    | none => .error .indexError

end Verif
