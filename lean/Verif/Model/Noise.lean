import Verif.Model.Basic
import Mathlib.LinearAlgebra.Matrix.PosDef
import Mathlib.LinearAlgebra.Matrix.NonsingularInverse
import Mathlib.Analysis.SpecialFunctions.Log.Basic

/-!
Noise matrices: `ndarray_alt`, `ShermanMorrison`, `BlockMatrix`, `csc_matrix_alt`
(signal_base.py 1074-1334) and `MarginalizingNmat` (gp_signals.py 822-887), with the additions
Python dispatches between them.

The numbers are exact. A TOA index is a `Fin n`, so numpy's `IndexError` for an index out of
range does not appear (`EcorrKernelNoise` makes only indices in range).
-/

namespace Verif.Noise

open Matrix

/-- An array argument of `solve` with `n` rows, by its `ndim`. -/
inductive Arr (n : Nat) (K : Type)
  | d1 (v : Fin n → K)
  | d2 (m : Nat) (M : Matrix (Fin n) (Fin m) K)
  | dk

/-- The result of a solve: a number, a vector or a matrix. -/
inductive Out (K : Type)
  | num (x : K)
  | vec (k : Nat) (v : Fin k → K)
  | mat (p q : Nat) (M : Matrix (Fin p) (Fin q) K)

/-- The diagonal `_nvec` of a kernel: the initial scalar 0, an array, or an object that is
neither and that no solve can divide by (signal_base.py 1137-1147, 1238-1242). -/
inductive NV (n : Nat) (K : Type)
  | zero
  | arr (v : Fin n → K)
  | bad

section Generic

variable {K : Type} [Field K] {n : Nat}

/-- A sum over the entries of `x[idx]`. -/
def over (idx : List (Fin n)) (f : Fin n → K) : K := (idx.map f).sum

/-- `beta` of one epoch, signal_base.py 1263, 1279, 1294, 1308. -/
def beta (nvec : Fin n → K) (e : List (Fin n) × K) : K :=
  1 / (over e.1 (fun i => 1 / nvec i) + 1 / e.2)

/-- One round of the loop of `_solve_D1`, signal_base.py 1259-1264. `Nx[idx] -= ...` changes
each listed row once. -/
def stepD1 (nvec x : Fin n → K) (Nx : Fin n → K) (e : List (Fin n) × K) : Fin n → K :=
  if 1 < e.1.length then
    fun i => if i ∈ e.1 then
        Nx i - beta nvec e * over e.1 (fun k => 1 / nvec k * x k) * (1 / nvec i)
      else Nx i
  else Nx

/-- `ShermanMorrison._solve_D1`, signal_base.py 1255-1265. The list is
`zip(self._idxs, self._jvec)`. -/
def solveD1 (ep : List (List (Fin n) × K)) (nvec x : Fin n → K) : Fin n → K :=
  ep.foldl (stepD1 nvec x) fun i => x i / nvec i

/-- `ShermanMorrison._solve_1D1`, signal_base.py 1267-1281. -/
def solve1D1 (ep : List (List (Fin n) × K)) (nvec x y : Fin n → K) : K :=
  ep.foldl (fun yNx e =>
      if 1 < e.1.length then
        yNx - beta nvec e * over e.1 (fun k => 1 / nvec k * x k) *
          over e.1 (fun k => 1 / nvec k * y k)
      else yNx)
    (∑ i, y i * (x i / nvec i))

/-- One round of the loop of `_solve_2D2`, signal_base.py 1289-1297. -/
def step2D2 {m p : Nat} (nvec : Fin n → K) (X : Matrix (Fin n) (Fin m) K)
    (Z : Matrix (Fin n) (Fin p) K) (ZNX : Matrix (Fin p) (Fin m) K) (e : List (Fin n) × K) :
    Matrix (Fin p) (Fin m) K :=
  if 1 < e.1.length then
    of fun a b => ZNX a b - beta nvec e *
      (over e.1 (fun k => 1 / nvec k * Z k a) * over e.1 (fun k => 1 / nvec k * X k b))
  else ZNX

/-- `ShermanMorrison._solve_2D2`, signal_base.py 1283-1298. -/
def solve2D2 {m p : Nat} (ep : List (List (Fin n) × K)) (nvec : Fin n → K)
    (X : Matrix (Fin n) (Fin m) K) (Z : Matrix (Fin n) (Fin p) K) : Matrix (Fin p) (Fin m) K :=
  ep.foldl (step2D2 nvec X Z) (of fun a b => ∑ i, Z i a / nvec i * X i b)

/-- Noise objects other than `MarginalizingNmat`: the integer 0 that `sum` starts from, a
diagonal array, the three forms of a kernel, and an object that cannot be solved with. -/
inductive Base (n : Nat) (K : Type)
  | zero
  | arr (v : Fin n → K)
  | sm (ep : List (List (Fin n) × K)) (nv : NV n K)
  | block (bl : List (List (Fin n) × (Nat → Nat → K))) (nv : NV n K)
  | csc (M : Matrix (Fin n) (Fin n) K)
  | bad

/-- `self._nvec + other` for an array `other`, signal_base.py 1150, 1245. -/
def NV.add : NV n K → (Fin n → K) → NV n K
  | .zero, w => .arr w
  | .arr v, w => .arr fun i => v i + w i
  | .bad, _ => .bad

variable [DecidableEq K]

/-- `BlockMatrix.__init__`, signal_base.py 1137-1147: with a diagonal that is not zero the rows
outside all blocks are found with `np.concatenate`, which raises `ValueError` for no blocks.
An object with no length raises `TypeError`. -/
def mkBlock (bl : List (List (Fin n) × (Nat → Nat → K))) : NV n K → Except PyErr (Base n K)
  | .zero => .ok (.block bl .zero)
  | .arr v =>
    if (∃ i, v i ≠ 0) ∧ bl = [] then .error .valueError else .ok (.block bl (.arr v))
  | .bad => .error .typeError

/-- `a + b` in Python for noise objects other than `MarginalizingNmat`.
* `ndarray_alt.__add__`, signal_base.py 1117-1122: numpy adds an object that is no array to each
  entry, where `__radd__` (1154-1158, 1249-1253) raises `TypeError` unless the entry is 0; the
  exception is caught and `other + self` is tried. When all entries are 0 the result is an array
  of objects. Numpy leaves the addition to a sparse matrix.
* `ShermanMorrison.__add__`, 1244-1246, puts the sum of any object into `_nvec`; when that is no
  array later solves raise.
* `BlockMatrix.__add__`, 1149-1151.
* `csc_matrix_alt.__add__` and `__radd__`, 1079-1095; the sum with 0 is a copy; the sum with a
  kernel of another form asks for the truth value of a matrix.
An object that cannot be solved with stays one under additions (in Python some of these
raise). -/
def Base.add : Base n K → Base n K → Except PyErr (Base n K)
  | .bad, _ => .ok .bad
  | _, .bad => .ok .bad
  | .zero, .zero => .ok .zero
  | .zero, .arr v => .ok (.arr v)
  | .zero, .sm ep nv => .ok (.sm ep nv)
  | .zero, .block bl nv => mkBlock bl nv
  | .zero, .csc M => .ok (.csc M)
  | .arr v, .zero => .ok (.arr v)
  | .arr v, .arr w => .ok (.arr fun i => v i + w i)
  | .arr v, .sm ep nv => if ∀ i, v i = 0 then .ok .bad else .ok (.sm ep (nv.add v))
  | .arr v, .block bl nv => if ∀ i, v i = 0 then .ok .bad else mkBlock bl (nv.add v)
  | .arr v, .csc M => .ok (.csc (of fun i j => M i j + if i = j then v i else 0))
  | .sm ep nv, .zero => .ok (.sm ep nv)
  | .sm ep nv, .arr v => .ok (.sm ep (nv.add v))
  | .sm ep _, _ => .ok (.sm ep .bad)
  | .block bl nv, .zero => mkBlock bl nv
  | .block bl nv, .arr v => mkBlock bl (nv.add v)
  | .block _ _, _ => .error .typeError
  | .csc M, .zero => .ok (.csc M)
  | .csc M, .arr v => .ok (.csc (of fun i j => M i j + if i = j then v i else 0))
  | .csc M, .csc M' => .ok (.csc (of fun i j => M i j + M' i j))
  | .csc _, _ => .error .valueError

/-- `EcorrKernelNoise._get_jvecs`, white_signals.py 289-294, for TOAs numbered below `n`: the index
arrays zipped with the amplitudes (`Quantize.getJvecs` computes both lists). -/
def epochsOf (n : Nat) (ij : List (List Nat) × List K) : List (List (Fin n) × K) :=
  (ij.1.map fun idx => idx.filterMap fun i => if h : i < n then some ⟨i, h⟩ else none).zip ij.2

/-- `_get_ndiag_sherman_morrison`, white_signals.py 273-275. -/
def ecorrSM (ep : List (List (Fin n) × K)) : Base n K := .sm ep .zero

/-- `_get_ndiag_block`, white_signals.py 281-287: constant blocks. -/
def ecorrBlock (ep : List (List (Fin n) × K)) : Base n K :=
  .block (ep.map fun e => (e.1, fun _ _ => e.2)) .zero

/-- One assignment `Ns[np.ix_(idx, idx)] = j`, white_signals.py 269-270. -/
def cscStep (M : Matrix (Fin n) (Fin n) K) (e : List (Fin n) × K) : Matrix (Fin n) (Fin n) K :=
  if 1 < e.1.length then of fun a b => if a ∈ e.1 ∧ b ∈ e.1 then e.2 else M a b else M

/-- `_setup_sparse` and `_get_ndiag_sparse`, white_signals.py 258-271: the matrix after all
assignments. The keys are taken in the order of `_get_jvecs`; that the object is reused between
calls is the subject of C30. -/
def ecorrSparse (ep : List (List (Fin n) × K)) : Base n K := .csc (ep.foldl cscStep 0)

/-- Any noise object; `marg m M N` is `MarginalizingNmat(M, N)` with `m` columns. -/
inductive Nmat (n : Nat) (K : Type)
  | base (b : Base n K)
  | marg (m : Nat) (M : Matrix (Fin n) (Fin m) K) (N : Base n K)

/-- `a + b` in Python. `MarginalizingNmat.__add__` and `__radd__`, gp_signals.py 827-835; the
left operand goes first, so a `ShermanMorrison` takes a `MarginalizingNmat` into `_nvec` and
`BlockMatrix.__init__` asks it for a length. -/
def Nmat.add : Nmat n K → Nmat n K → Except PyErr (Nmat n K)
  | .marg _ _ _, .marg _ _ _ => .error .valueError
  | .marg m M N, .base .zero => .ok (.marg m M N)
  | .marg m M N, .base b => (N.add b).map (.marg m M)
  | .base .zero, .marg m M N => .ok (.marg m M N)
  | .base (.arr v), .marg m M N =>
    if ∀ i, v i = 0 then .ok (.base .bad) else (N.add (.arr v)).map (.marg m M)
  | .base (.sm ep _), .marg _ _ _ => .ok (.base (.sm ep .bad))
  | .base (.block _ _), .marg _ _ _ => .error .typeError
  | .base (.csc M'), .marg m M N => (N.add (.csc M')).map (.marg m M)
  | .base .bad, .marg _ _ _ => .ok (.base .bad)
  | .base a, .base b => (a.add b).map .base

/-- `SignalCollection.get_ndiag`, signal_base.py 933-936: Python's `sum` over the matrices of
the signals that have one. -/
def getNdiag (l : List (Nmat n K)) : Except PyErr (Nmat n K) :=
  l.foldlM Nmat.add (.base .zero)

end Generic

section Solve

variable {n : Nat}

/-- `np.dot(left_array.T, mult)` and the lack of a left array, signal_base.py 1100-1101,
1129-1130. -/
noncomputable def dotLeft : Arr n ℝ → Option (Arr n ℝ) → Except PyErr (Out ℝ)
  | .d1 x, none => .ok (.vec n x)
  | .d1 x, some (.d1 y) => .ok (.num (y ⬝ᵥ x))
  | .d1 x, some (.d2 p Z) => .ok (.vec p (Zᵀ *ᵥ x))
  | .d2 m X, none => .ok (.mat n m X)
  | .d2 m X, some (.d1 y) => .ok (.vec m (y ᵥ* X))
  | .d2 m X, some (.d2 p Z) => .ok (.mat p m (Zᵀ * X))
  | _, _ => .error .other

/-- `ndarray_alt.solve`, signal_base.py 1124-1133, without the log determinant. -/
noncomputable def arrSolve (v : Fin n → ℝ) (other : Arr n ℝ) (left : Option (Arr n ℝ)) :
    Except PyErr (Out ℝ) :=
  match other with
  | .d1 x => dotLeft (.d1 fun i => x i / v i) left
  | .d2 m X => dotLeft (.d2 m (of fun i b => X i b / v i)) left
  | .dk => .error .other

/-- `csc_matrix_alt.solve`, signal_base.py 1097-1103. `sksparse`'s `cholesky` is taken at its
contract: the inverse of a positive definite matrix, an exception otherwise (it reads one
triangle only; the matrices here are symmetric). -/
noncomputable def cscSolve (M : Matrix (Fin n) (Fin n) ℝ) (other : Arr n ℝ)
    (left : Option (Arr n ℝ)) : Except PyErr (Out ℝ) :=
  open Classical in
  if M.PosDef then
    match other with
    | .d1 x => dotLeft (.d1 (M⁻¹ *ᵥ x)) left
    | .d2 m X => dotLeft (.d2 m (M⁻¹ * X)) left
    | .dk => .error .other
  else .error .linAlgError

/-- `ShermanMorrison.solve`, signal_base.py 1312-1334, without the log determinant. -/
noncomputable def smSolve (ep : List (List (Fin n) × ℝ)) (v : Fin n → ℝ) (other : Arr n ℝ)
    (left : Option (Arr n ℝ)) : Except PyErr (Out ℝ) :=
  match other, left with
  | .d1 x, none => .ok (.vec n (solveD1 ep v x))
  | .d1 x, some (.d1 y) => .ok (.num (solve1D1 ep v x y))
  | .d1 x, some (.d2 p Z) => .ok (.vec p (Zᵀ *ᵥ solveD1 ep v x))
  | .d2 _ _, none => .error .notImplementedError
  | .d2 m X, some (.d2 p Z) => .ok (.mat p m (solve2D2 ep v X Z))
  | .d2 m X, some (.d1 y) => .ok (.vec m (Xᵀ *ᵥ solveD1 ep v y))
  | _, _ => .error .typeError

/-- `ShermanMorrison._get_logdet`, signal_base.py 1300-1310. -/
noncomputable def smLogdet (ep : List (List (Fin n) × ℝ)) (v : Fin n → ℝ) : ℝ :=
  ep.foldl (fun ld e =>
      if 1 < e.1.length then ld + (Real.log e.2 - Real.log (beta v e)) else ld)
    (∑ i, Real.log (v i))

/-- `block + np.diag(self._nvec[idx])`, signal_base.py 1180, 1199, 1213. -/
def blockMat (v : Fin n → ℝ) (e : List (Fin n) × (Nat → Nat → ℝ)) :
    Matrix (Fin e.1.length) (Fin e.1.length) ℝ :=
  of fun p q => e.2 p q + if p = q then v (e.1.get p) else 0

/-- Rows outside every block, `self._idx` of signal_base.py 1143-1147. -/
def outside (bl : List (List (Fin n) × (Nat → Nat → ℝ))) (i : Fin n) : Bool :=
  bl.all fun e => decide (i ∉ e.1)

/-- The term of one block in `_solve_ZNX`, signal_base.py 1175-1184. `cho_factor` is taken at its
contract for symmetric matrices: it fails exactly when the matrix is not positive definite. -/
noncomputable def blockTerm {m p : Nat} (v : Fin n → ℝ) (X : Matrix (Fin n) (Fin m) ℝ)
    (Z : Matrix (Fin n) (Fin p) ℝ) (e : List (Fin n) × (Nat → Nat → ℝ)) :
    Except PyErr (Matrix (Fin p) (Fin m) ℝ) :=
  open Classical in
  if 1 < e.1.length then
    if (blockMat v e).PosDef then
      .ok ((Z.submatrix e.1.get id)ᵀ * ((blockMat v e)⁻¹ * X.submatrix e.1.get id))
    else .error .linAlgError
  else .ok ((Z.submatrix e.1.get id)ᵀ * of fun r b => X (e.1.get r) b / v (e.1.get r))

/-- The sum over the blocks in `_solve_ZNX`, signal_base.py 1175-1184. -/
noncomputable def blockZNXLoop {m p : Nat} (v : Fin n → ℝ) (X : Matrix (Fin n) (Fin m) ℝ)
    (Z : Matrix (Fin n) (Fin p) ℝ) :
    List (List (Fin n) × (Nat → Nat → ℝ)) → Matrix (Fin p) (Fin m) ℝ →
    Except PyErr (Matrix (Fin p) (Fin m) ℝ)
  | [], acc => .ok acc
  | e :: t, acc =>
    match blockTerm v X Z e with
    | .error x => .error x
    | .ok A => blockZNXLoop v X Z t (acc + A)

/-- `ZNX.squeeze() if len(ZNX) > 1 else float(ZNX)`, signal_base.py 1186. -/
def squeezeZNX (p m : Nat) (A : Matrix (Fin p) (Fin m) ℝ) : Except PyErr (Out ℝ) :=
  if 1 < p then
    if h : m = 1 then .ok (.vec p fun a => A a ⟨0, by omega⟩) else .ok (.mat p m A)
  else if h : p = 1 ∧ m = 1 then .ok (.num (A ⟨0, by omega⟩ ⟨0, by omega⟩))
  else .error .typeError

/-- `BlockMatrix._solve_ZNX`, signal_base.py 1160-1186, on two-dimensional arrays. The attribute
`_idx` exists only when the diagonal is not all zero. -/
noncomputable def blockZNX {m p : Nat} (bl : List (List (Fin n) × (Nat → Nat → ℝ)))
    (v : Fin n → ℝ) (X : Matrix (Fin n) (Fin m) ℝ) (Z : Matrix (Fin n) (Fin p) ℝ) :
    Except PyErr (Out ℝ) :=
  open Classical in
  if ∀ i, v i = 0 then .error .attributeError
  else
    match blockZNXLoop v X Z bl 0 with
    | .error e => .error e
    | .ok A => squeezeZNX p m
        (A + of fun a b => ∑ i, if outside bl i then Z i a * (X i b / v i) else 0)

/-- The loop of `_solve_NX`, signal_base.py 1196-1200; `NX[idx] = ...` with the rows of the
solution in the order of `idx`. -/
noncomputable def blockNXLoop {m : Nat} (v : Fin n → ℝ) (X : Matrix (Fin n) (Fin m) ℝ) :
    List (List (Fin n) × (Nat → Nat → ℝ)) → Matrix (Fin n) (Fin m) ℝ →
    Except PyErr (Matrix (Fin n) (Fin m) ℝ)
  | [], NX => .ok NX
  | e :: t, NX =>
    open Classical in
    if 1 < e.1.length then
      if (blockMat v e).PosDef then
        blockNXLoop v X t (of fun i b =>
          if h : i ∈ e.1 then
            ((blockMat v e)⁻¹ * X.submatrix e.1.get id) ⟨e.1.idxOf i, List.idxOf_lt_length_iff.2 h⟩ b
          else NX i b)
      else .error .linAlgError
    else blockNXLoop v X t NX

/-- `NX.squeeze()`, signal_base.py 1201. -/
def squeezeNX (m : Nat) (A : Matrix (Fin n) (Fin m) ℝ) : Out ℝ :=
  if h : m = 1 then
    if h' : n = 1 then .num (A ⟨0, by omega⟩ ⟨0, by omega⟩) else .vec n fun i => A i ⟨0, by omega⟩
  else if h' : n = 1 then .vec m fun b => A ⟨0, by omega⟩ b
  else .mat n m A

/-- `BlockMatrix._solve_NX`, signal_base.py 1188-1201. -/
noncomputable def blockNX {m : Nat} (bl : List (List (Fin n) × (Nat → Nat → ℝ))) (v : Fin n → ℝ)
    (X : Matrix (Fin n) (Fin m) ℝ) : Except PyErr (Out ℝ) :=
  match blockNXLoop v X bl (of fun i b => X i b / v i) with
  | .error e => .error e
  | .ok A => .ok (squeezeNX m A)

/-- `X.reshape(X.shape[0], 1)`, signal_base.py 1165, 1167, 1193. -/
def colMat (x : Fin n → ℝ) : Matrix (Fin n) (Fin 1) ℝ := of fun i _ => x i

/-- `BlockMatrix.solve`, signal_base.py 1219-1232, without the log determinant. -/
noncomputable def blockSolve (bl : List (List (Fin n) × (Nat → Nat → ℝ))) (v : Fin n → ℝ)
    (other : Arr n ℝ) (left : Option (Arr n ℝ)) : Except PyErr (Out ℝ) :=
  match other, left with
  | .dk, _ => .error .typeError
  | _, some .dk => .error .typeError
  | .d1 x, none => blockNX bl v (colMat x)
  | .d2 _ X, none => blockNX bl v X
  | .d1 x, some (.d1 y) => blockZNX bl v (colMat x) (colMat y)
  | .d1 x, some (.d2 _ Z) => blockZNX bl v (colMat x) Z
  | .d2 _ X, some (.d1 y) => blockZNX bl v X (colMat y)
  | .d2 _ X, some (.d2 _ Z) => blockZNX bl v X Z

/-- The sum over the blocks in `_get_logdet`, signal_base.py 1211-1216; twice the sum of the logs
of a Cholesky diagonal is the log of the determinant. -/
noncomputable def blockLogdetLoop (v : Fin n → ℝ) :
    List (List (Fin n) × (Nat → Nat → ℝ)) → ℝ → Except PyErr ℝ
  | [], acc => .ok acc
  | e :: t, acc =>
    open Classical in
    if 1 < e.1.length then
      if (blockMat v e).PosDef then blockLogdetLoop v t (acc + Real.log (blockMat v e).det)
      else .error .linAlgError
    else blockLogdetLoop v t (acc + over e.1 fun i => Real.log (v i))

/-- `BlockMatrix._get_logdet`, signal_base.py 1203-1217. -/
noncomputable def blockLogdet (bl : List (List (Fin n) × (Nat → Nat → ℝ))) (v : Fin n → ℝ) :
    Except PyErr ℝ :=
  open Classical in
  if ∀ i, v i = 0 then .error .attributeError
  else blockLogdetLoop v bl (∑ i, if outside bl i then Real.log (v i) else 0)

/-- `solve` of a noise object. A kernel to which no diagonal was added raises (numpy would divide
by the scalar 0 when there are no epochs; that case is not modelled). -/
noncomputable def Base.solve : Base n ℝ → Arr n ℝ → Option (Arr n ℝ) → Except PyErr (Out ℝ)
  | .zero, _, _ => .error .attributeError
  | .bad, _, _ => .error .attributeError
  | .arr v, x, l => arrSolve v x l
  | .sm ep (.arr v), x, l => smSolve ep v x l
  | .sm _ _, _, _ => .error .typeError
  | .block bl (.arr v), x, l => blockSolve bl v x l
  | .block _ _, _, _ => .error .typeError
  | .csc M, x, l => cscSolve M x l

/-- The log determinant returned by `solve(..., logdet=True)`, signal_base.py 1102, 1132, 1232,
1334. -/
noncomputable def Base.logdet : Base n ℝ → Except PyErr ℝ
  | .zero => .error .attributeError
  | .bad => .error .attributeError
  | .arr v => .ok (∑ i, Real.log (v i))
  | .sm ep (.arr v) => .ok (smLogdet ep v)
  | .sm _ _ => .error .typeError
  | .block bl (.arr v) => blockLogdet bl v
  | .block _ _ => .error .typeError
  | .csc M => open Classical in if M.PosDef then .ok (Real.log M.det) else .error .linAlgError

end Solve

end Verif.Noise
