import Verif.Model.Kernel

/-!
# Sharing basis columns between the signals of a pulsar

`enterprise/signals/signal_base.py` 877-931 (`_combine_basis_columns`), 947-977 (`get_basis`, `get_phi`).
A column is a function of the row; the hash of its bytes is a parameter.
-/

namespace Verif.Combine

open Verif Verif.Kernel

variable {K : Type} [Field K] {H : Type} [DecidableEq H]

/-- A column of a basis. -/
abbrev Col (K : Type) := Nat → K

/-- What the collection asks a signal: `basis_combine`, whether `basis_params` is nonempty, the basis with
default parameters and with the parameters at hand (`None` without one), and the prior. -/
structure BSig (K : Type) where
  combine : Bool
  varying : Bool
  basis : Option (List (Col K))
  basisAt : List (Col K)
  phi : Arr K

/-- The loop over the columns of a signal without basis parameters (signal_base.py 900-918). -/
def columns (hash : Col K → H) (combine : Bool) : List (Col K) → List H → Nat → List Nat × List H × Nat
  | [], hl, cc => ([], hl, cc)
  | c :: t, hl, cc =>
    if combine = true ∧ hash c ∈ hl then
      let r := columns hash combine t hl cc
      (hl.idxOf (hash c) :: r.1, r.2)
    else
      let r := columns hash combine t (hl ++ [hash c]) (cc + 1)
      (cc :: r.1, r.2)

/-- The loop over the signals (signal_base.py 889-922); the positions of each signal, `none` for a signal
without a basis. -/
def combineIdx (hash : Col K → H) : List (BSig K) → List H → Nat → List (Option (List Nat))
  | [], _, _ => []
  | s :: t, hl, cc =>
    match s.basis with
    | none => none :: combineIdx hash t hl cc
    | some F =>
      if s.varying = false then
        let r := columns hash s.combine F hl cc
        some r.1 :: combineIdx hash t r.2.1 r.2.2
      else
        some (List.range' cc F.length) :: combineIdx hash t hl (cc + F.length)

/-- `len(np.unique(sum(idx.values(), [])))` (signal_base.py 926-927). -/
def ncol (ix : List (Option (List Nat))) : Nat :=
  (ix.flatMap fun o => o.getD []).dedup.length

/-- `_idx` (signal_base.py 889, 924-927). -/
def idxOf (hash : Col K → H) (sigs : List (BSig K)) : List (Option (List Nat)) := combineIdx hash sigs [] 0

/-- `Fmat[:, idx] = F`: assignment of columns, the last one counting. -/
def putCols (T : Nat → Col K) : List (Nat × Col K) → Nat → Col K
  | [] => T
  | w :: t => putCols (Function.update T w.1 w.2) t

/-- The loop of `get_basis` (signal_base.py 955-961).  An empty position array has float type and cannot
index; a basis that changes its number of columns cannot be assigned unless it has one. -/
def basisLoop (n : Nat) : List (BSig K × Option (List Nat)) → (Nat → Col K) → Except PyErr (Nat → Col K)
  | [], T => .ok T
  | (_, none) :: t, T => basisLoop n t T
  | (s, some l) :: t, T =>
    if l = [] ∨ ∃ i ∈ l, n ≤ i then .error .indexError
    else if fits s.basisAt.length l.length = false then .error .valueError
    else basisLoop n t (putCols T (l.zipIdx.map fun x => (x.1, s.basisAt.getD (bc s.basisAt.length x.2) fun _ => 0)))

/-- `SignalCollection.get_basis`; `None` if no signal has a basis (signal_base.py 924-925, 952-953). -/
def getBasis (hash : Col K → H) (sigs : List (BSig K)) : Except PyErr (Option (Nat × (Nat → Col K))) :=
  let ix := idxOf hash sigs
  if ∀ o ∈ ix, o = none then .ok none
  else match basisLoop (ncol ix) (sigs.zip ix) fun _ _ => 0 with
    | .ok T => .ok (some (ncol ix, T))
    | .error e => .error e

/-- The loop of `get_phi` (signal_base.py 973-975). -/
def phiLoop : List (BSig K × Option (List Nat)) → Kern K → Except PyErr (Kern K)
  | [], Φ => .ok Φ
  | (_, none) :: t, Φ => phiLoop t Φ
  | (s, some l) :: t, Φ =>
    if l = [] then .error .indexError
    else match Φ.add s.phi (.ints l) with
      | .ok Φ' => phiLoop t Φ'
      | .error e => .error e

/-- `SignalCollection.get_phi` (signal_base.py 967-977). -/
def getPhi (hash : Col K → H) (sigs : List (BSig K)) : Except PyErr (Option (Kern K)) :=
  let ix := idxOf hash sigs
  if ∀ o ∈ ix, o = none then .ok none
  else match phiLoop (sigs.zip ix) (Kern.zeros (ncol ix)) with
    | .ok Φ => .ok (some Φ)
    | .error e => .error e

end Verif.Combine
