import Verif.Model.Basic
import Mathlib.Algebra.Field.Basic
import Mathlib.Logic.Function.Basic

/-!
# Prior covariance matrices: `KernelMatrix`

`enterprise/signals/utils.py` 229-309.  Arrays are functions of their indices together with their sizes;
entries outside the sizes are never read.  Numbers are elements of a field, so rounding is not modelled.
-/

namespace Verif.Kernel

open Verif

variable {K : Type} [Field K]

/-- A one- or two-dimensional float array. -/
inductive Arr (K : Type)
  | one (n : Nat) (v : Nat → K)
  | two (n m : Nat) (M : Nat → Nat → K)

/-- An index given to `[]`: an array of non-negative integers, or a slice with non-negative ends. -/
inductive Idx
  | ints (l : List Nat)
  | slice (a b : Nat)

/-- The positions addressed on an axis of length `n` (slices are clipped). -/
def Idx.positions (n : Nat) : Idx → List Nat
  | .ints l => l
  | .slice a b => List.range' a (min b n - a)

/-- An integer array must stay within the axis. -/
def Idx.check (n : Nat) : Idx → Bool
  | .ints l => l.all fun i => i < n
  | .slice _ _ => true

/-- Labels of independent blocks and the next label (`_cliques`, `_clcount`, utils.py 236-238). -/
structure Cliques where
  label : Nat → Int
  count : Nat

/-- `-1 * np.ones(n)` and `0` (utils.py 237-238). -/
def Cliques.none : Cliques := ⟨fun _ => -1, 0⟩

/-- A `KernelMatrix`: one-dimensional, or square with labels. -/
inductive Kern (K : Type)
  | one (n : Nat) (v : Nat → K)
  | two (n : Nat) (M : Nat → Nat → K) (cl : Cliques)

/-- `KernelMatrix(n)` (utils.py 231-232). -/
def Kern.zeros (n : Nat) : Kern K := .one n fun _ => 0

/-- `shape[0]`. -/
def Kern.size : Kern K → Nat
  | .one n _ => n
  | .two n _ _ => n

/-- `a[positions] = values` for a vector; of repeated positions the last counts. -/
def put1 (f : Nat → K) : List (Nat × K) → Nat → K
  | [] => f
  | w :: t => put1 (Function.update f w.1 w.2) t

/-- `a[positions] = values` for a matrix. -/
def put2 (M : Nat → Nat → K) : List (Nat × Nat × K) → Nat → Nat → K
  | [] => M
  | w :: t => put2 (fun i j => if i = w.1 ∧ j = w.2.1 then w.2.2 else M i j) t

/-- Broadcasting an axis of length `m` to one of length `k`. -/
def fits (m k : Nat) : Bool := m = k || m = 1

/-- The position read on an axis of length `m` when filling position `p`. -/
def bc (m p : Nat) : Nat := if m = 1 then 0 else p

/-- `np.in1d(self._cliques, allidx)` where `allidx` is a `set`: NumPy makes it a zero-dimensional
object array, and no float equals a set, so the result is always false (utils.py 253;
signal_base.py 593, 605). -/
def in1dSet (_ : Int) (_ : List Int) : Bool := false

/-- `max(allidx)` of a nonempty list. -/
def maxOf (a : Int) (l : List Int) : Int := l.foldl max a

/-- `KernelMatrix._setcliques` (utils.py 242-253) on the addressed positions; `max` of an empty set is
a `ValueError`. -/
def Cliques.set (c : Cliques) (idxs : List Nat) : Except PyErr Cliques :=
  match idxs.map c.label with
  | [] => .error .valueError
  | a :: t =>
    let maxidx := maxOf a t
    if maxidx = -1 then
      .ok ⟨fun i => if i ∈ idxs then (c.count : Int) else c.label i, c.count + 1⟩
    else
      .ok ⟨fun i => if in1dSet (if i ∈ idxs then maxidx else c.label i) (a :: t) then maxidx
        else if i ∈ idxs then maxidx else c.label i, c.count⟩

/-- `np.diag(self)` of a vector, or the matrix itself. -/
def diagMat (v : Nat → K) : Nat → Nat → K := fun i j => if i = j then v i else 0

/-- The bodies of `KernelMatrix.add` (utils.py 255-269) and `KernelMatrix.set` (271-285), which differ only
in `+=` and `=`: `op old new` is `old + new` or `new`. -/
def Kern.write (op : K → K → K) (s : Kern K) (o : Arr K) (idx : Idx) : Except PyErr (Kern K) :=
  let s' : Kern K := match o, s with
    | .two _ _ _, .one n v => .two n (diagMat v) Cliques.none
    | _, s => s
  match s' with
  | .one n v =>
    match o with
    | .two _ _ _ => .error .other
    | .one m w =>
      let pos := idx.positions n
      if idx.check n = false then .error .indexError
      else if fits m pos.length = false then .error .valueError
      else .ok (.one n (put1 v (pos.zipIdx.map fun x => (x.1, op (v x.1) (w (bc m x.2))))))
  | .two n M cl =>
    let pos := idx.positions n
    if idx.check n = false then .error .indexError
    else match o with
      | .one m w =>
        if fits m pos.length = false then .error .valueError
        else match idx with
          | .ints _ => .ok (.two n (put2 M (pos.zipIdx.map fun x => (x.1, x.1, op (M x.1 x.1) (w (bc m x.2))))) cl)
          | .slice _ _ => .ok (.two n (put2 M (pos.flatMap fun i => pos.zipIdx.map fun x =>
              (i, x.1, op (M i x.1) (w (bc m x.2))))) cl)
      | .two p q W =>
        match cl.set pos with
        | .error e => .error e
        | .ok cl' =>
          if fits p pos.length = false ∨ fits q pos.length = false then .error .valueError
          else .ok (.two n (put2 M (pos.zipIdx.flatMap fun x => pos.zipIdx.map fun y =>
              (x.1, y.1, op (M x.1 y.1) (W (bc p x.2) (bc q y.2))))) cl')

/-- `KernelMatrix.add`. -/
def Kern.add (s : Kern K) (o : Arr K) (idx : Idx) : Except PyErr (Kern K) := s.write (fun a b => a + b) o idx

/-- `KernelMatrix.set`. -/
def Kern.set (s : Kern K) (o : Arr K) (idx : Idx) : Except PyErr (Kern K) := s.write (fun _ b => b) o idx

end Verif.Kernel
