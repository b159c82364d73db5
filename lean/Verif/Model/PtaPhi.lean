import Verif.Model.Kernel

/-!
# The prior covariance of an array of pulsars

`enterprise/signals/signal_base.py` 384-415 (`_commonsignals`, `_get_slices`), 558-673 (cliques and
`get_phi`); `enterprise/signals/gp_signals.py` 391-408 (`BasisCommonGP.get_phi`, `get_phicross`).
-/

namespace Verif.PtaPhi

open Verif Verif.Kernel

variable {K : Type} [Field K]

/-! ## Common signals -/

/-- A signal as `_commonsignals` sees it: its class, whether it is a `CommonSignal`, whether it has
`_coefficients`, and its positions in the basis of its pulsar. -/
structure PSig where
  cls : Nat
  common : Bool
  coeff : Bool
  idx : List Nat
  deriving DecidableEq

/-- An entry of a common-signal dictionary: the pulsar and the positions. -/
structure Item where
  psr : Nat
  idx : List Nat
  deriving DecidableEq

/-- The inner loop of `_commonsignals` (signal_base.py 394-398) for one pulsar. -/
def collectPsr (a : Nat) : List PSig → Dict Nat (List Item) → Dict Nat (List Item)
  | [], d => d
  | s :: t, d =>
    if s.common = true ∧ s.coeff = false then
      collectPsr a t (Dict.set d s.cls (((Dict.get? d s.cls).getD []) ++ [⟨a, s.idx⟩]))
    else collectPsr a t d

/-- The loop of `_commonsignals` over the pulsars (signal_base.py 389-398); the flag tells whether the
pulsar has a basis (`_Fmat is not None`).  Dictionary keys are signal objects, all different. -/
def collect : List (Bool × List PSig) → Nat → Dict Nat (List Item) → Dict Nat (List Item)
  | [], _, d => d
  | p :: t, a, d => collect t (a + 1) (if p.1 = true then collectPsr a p.2 d else d)

/-- `_commonsignals` (signal_base.py 384-403): classes with more than one signal. -/
def commonSignals (ps : List (Bool × List PSig)) : Dict Nat (List Item) :=
  (collect ps 0 []).filter fun kv => 1 < kv.2.length

/-! ## The matrix -/

/-- `BasisCommonGP.get_phicross` (gp_signals.py 404-409): the prior of the first signal times the overlap. -/
def phicross (prior : Arr K) (orf : K) : Arr K :=
  match prior with
  | .one n v => .one n fun i => v i * orf
  | .two n m M => .two n m fun i j => M i j * orf

/-- A class of common signals with its items and `get_phicross` of two of them (by position in the
dictionary). -/
structure Klass (K : Type) where
  items : List Item
  cross : Nat → Nat → Arr K

/-- `_get_slices` (signal_base.py 407-415): start and length of the span of each pulsar. -/
def slices : List (Option (Kern K)) → Nat → List (Nat × Nat)
  | [], _ => []
  | none :: t, o => (o, 0) :: slices t o
  | some k :: t, o => (o, k.size) :: slices t (o + k.size)

/-- The entries of a kernel, a vector standing for a diagonal matrix. -/
def entries : Kern K → Nat → Nat → K
  | .one _ v => diagMat v
  | .two _ M _ => M

/-- `sl.block_diag` of the kernels, or `np.diag` of the concatenated vectors (signal_base.py 632-636):
the same matrix. -/
def blockDiag : List (Option (Kern K)) → Nat → Nat → K
  | [] => fun _ _ => 0
  | none :: t => blockDiag t
  | some k :: t => fun i j =>
    if i < k.size ∧ j < k.size then entries k i j
    else if k.size ≤ i ∧ k.size ≤ j then blockDiag t (i - k.size) (j - k.size)
    else 0

/-- `Phi.shape[0]`. -/
def total : List (Option (Kern K)) → Nat
  | [] => 0
  | none :: t => total t
  | some k :: t => k.size + total t

/-- `Phi[block1, block2][idx1, idx2] += crossdiag` for a vector, with `np.ix_` for a matrix
(signal_base.py 661-666).  Simplified: index arrays of different lengths always raise, while NumPy
would broadcast one of length one. -/
def addCross (M : Nat → Nat → K) (b1 : Nat × Nat) (l1 : List Nat) (b2 : Nat × Nat) (l2 : List Nat) (X : Arr K) :
    Except PyErr (Nat → Nat → K) :=
  if (∃ i ∈ l1, b1.2 ≤ i) ∨ (∃ j ∈ l2, b2.2 ≤ j) then .error .indexError
  else match X with
    | .one m w =>
      if l1.length ≠ l2.length then .error .indexError
      else if fits m l1.length = false then .error .valueError
      else .ok (put2 M ((l1.zip l2).zipIdx.map fun x =>
        (b1.1 + x.1.1, b2.1 + x.1.2, M (b1.1 + x.1.1) (b2.1 + x.1.2) + w (bc m x.2))))
    | .two p q W =>
      if fits p l1.length = false ∨ fits q l2.length = false then .error .valueError
      else .ok (put2 M (l1.zipIdx.flatMap fun x => l2.zipIdx.map fun y =>
        (b1.1 + x.1, b2.1 + y.1, M (b1.1 + x.1) (b2.1 + y.1) + W (bc p x.2) (bc q y.2))))

/-- `itertools.combinations(l, 2)`. -/
def pairs {α : Type} : List α → List (α × α)
  | [] => []
  | a :: t => t.map (fun b => (a, b)) ++ pairs t

/-- The loop over the pairs of a class (signal_base.py 653-669). -/
def pairLoop (sl : List (Nat × Nat)) (cross : Nat → Nat → Arr K) :
    List ((Item × Nat) × (Item × Nat)) → (Nat → Nat → K) → Except PyErr (Nat → Nat → K)
  | [], M => .ok M
  | (x, y) :: t, M =>
    let b1 := sl.getD x.1.psr (0, 0)
    let b2 := sl.getD y.1.psr (0, 0)
    match addCross M b1 x.1.idx b2 y.1.idx (cross x.2 y.2) with
    | .error e => .error e
    | .ok M1 =>
      match addCross M1 b2 y.1.idx b1 x.1.idx (cross x.2 y.2) with
      | .error e => .error e
      | .ok M2 => pairLoop sl cross t M2

/-- The loop over the classes (signal_base.py 649-669). -/
def classLoop (sl : List (Nat × Nat)) : List (Klass K) → (Nat → Nat → K) → Except PyErr (Nat → Nat → K)
  | [], M => .ok M
  | c :: t, M =>
    match pairLoop sl c.cross (pairs c.items.zipIdx) M with
    | .error e => .error e
    | .ok M' => classLoop sl t M'

/-- The result of `PTA.get_phi`: a list of kernels, or one matrix. -/
inductive Phi (K : Type)
  | list (l : List (Option (Kern K)))
  | big (n : Nat) (M : Nat → Nat → K)

/-- `PTA.get_phi` (signal_base.py 626-673). -/
def getPhi (phis : List (Option (Kern K))) (classes : List (Klass K)) : Except PyErr (Phi K) :=
  match classes with
  | [] => .ok (.list phis)
  | _ => match classLoop (slices phis 0) classes (blockDiag phis) with
    | .ok M => .ok (.big (total phis) M)
    | .error e => .error e

/-! ## Cliques -/

/-- `_setpulsarcliques` (signal_base.py 610-624) for one kernel starting at `o`: labels below `n`. -/
def pulsarLabels (o : Nat) (n : Nat) (own : Nat → Int) : List Nat → Cliques → Cliques
  | [], c => c
  | k :: t, c =>
    if ∃ i ∈ List.range n, own i = (k : Int) then
      pulsarLabels o n own t
        ⟨fun i => if o ≤ i ∧ i < o + n ∧ own (i - o) = (k : Int) then (c.count : Int) else c.label i, c.count + 1⟩
    else pulsarLabels o n own t c

/-- `_setpulsarcliques` over all pulsars. -/
def setPulsarCliques : List (Option (Kern K)) → Nat → Cliques → Cliques
  | [], _, c => c
  | none :: t, o, c => setPulsarCliques t o c
  | some (.one n _) :: t, o, c => setPulsarCliques t (o + n) c
  | some (.two n _ own) :: t, o, c => setPulsarCliques t (o + n) (pulsarLabels o n own.label (List.range own.count) c)

/-- Row `k` of `idxmatrix` (signal_base.py 572-576). -/
def row (sl : List (Nat × Nat)) (items : List Item) (k : Nat) : List Nat :=
  items.map fun it => (sl.getD it.psr (0, 0)).1 + it.idx.getD k 0

/-- The rows of `idxmatrix`; `np.array` of lists of different lengths fails (`ValueError`). -/
def rows (sl : List (Nat × Nat)) (items : List Item) : Except PyErr (List (List Nat)) :=
  match items with
  | [] => .ok []
  | it :: t =>
    if ∃ it' ∈ t, it'.idx.length ≠ it.idx.length then .error .valueError
    else .ok ((List.range it.idx.length).map (row sl items))

/-- Successive updates of the labels by rows (signal_base.py 579-605): the body of the loop is that of
`KernelMatrix._setcliques`, the two extra merges being without effect (`in1dSet`). -/
def setRows : List (List Nat) → Cliques → Except PyErr Cliques
  | [], c => .ok c
  | r :: t, c =>
    match c.set r with
    | .error e => .error e
    | .ok c' => setRows t c'

/-- `_setcliques` for each class in turn (signal_base.py 650-651). -/
def setClassCliques (sl : List (Nat × Nat)) : List (Klass K) → Cliques → Except PyErr Cliques
  | [], c => .ok c
  | k :: t, c =>
    match rows sl k.items with
    | .error e => .error e
    | .ok rs =>
      match setRows rs c with
      | .error e => .error e
      | .ok c' => setClassCliques sl t c'

/-- `self._cliques` after `get_phi(params, cliques=True)` (signal_base.py 644-651). -/
def ptaCliques (phis : List (Option (Kern K))) (classes : List (Klass K)) : Except PyErr Cliques :=
  setClassCliques (slices phis 0) classes (setPulsarCliques phis 0 Cliques.none)

end Verif.PtaPhi
