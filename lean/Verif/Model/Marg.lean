import Verif.Model.Noise

/-!
`MarginalizingNmat.solve`, gp_signals.py 822-887. The memoized methods (`cf`, `MNr`, `MNF`,
`MNMMNF`) are the functions they remember: the memo keeps a reference to its argument and compares
identities, so that it can only return a value computed from the same object.
-/

namespace Verif.Noise

open Matrix

/-- The argument `left_array`: absent, the very object `right`, or another array. -/
inductive Left (n : Nat)
  | none
  | same
  | other (a : Arr n ℝ)

/-- A number where the code goes on with a number. -/
def asNum : Out ℝ → Except PyErr ℝ
  | .num x => .ok x
  | _ => .error .typeError

/-- A vector of `m` entries where the code goes on with one. `BlockMatrix` returns a number for
one column, which `sksparse` does not accept as a right-hand side. -/
def asVec (m : Nat) : Out ℝ → Except PyErr (Fin m → ℝ)
  | .vec k v => if h : k = m then .ok (fun i => v ⟨i, by omega⟩) else .error .valueError
  | _ => .error .typeError

/-- A matrix where the code goes on with one. (A number, that `BlockMatrix` returns for a single
column, is an error here; in the code it becomes one only at `asVec`.) -/
def asMat (p q : Nat) : Out ℝ → Except PyErr (Matrix (Fin p) (Fin q) ℝ)
  | .mat p' q' A => if h : p' = p ∧ q' = q then
      .ok (of fun i j => A ⟨i, by omega⟩ ⟨j, by omega⟩) else .error .valueError
  | _ => .error .typeError

variable {n : Nat}

open Classical in
/-- `cholesky(A)`, taken at its contract: an exception unless the matrix is positive definite. -/
noncomputable def posDefOr {m : Nat} (A : Matrix (Fin m) (Fin m) ℝ) :
    Except PyErr (Matrix (Fin m) (Fin m) ℝ) :=
  if A.PosDef then .ok A else .error .linAlgError

/-- `cf`, gp_signals.py 841-845: the matrix `Mᵀ N⁻¹ M` and its Cholesky factorization, which
fails unless it is positive definite. -/
noncomputable def margCf (m : Nat) (M : Matrix (Fin n) (Fin m) ℝ) (N : Base n ℝ) :
    Except PyErr (Matrix (Fin m) (Fin m) ℝ) := do
  let MNM ← asMat m m (← N.solve (.d2 m M) (some (.d2 m M)))
  posDefOr MNM

/-- `MNr` and `MNF` for a vector, gp_signals.py 847-853. -/
noncomputable def margMN1 (m : Nat) (M : Matrix (Fin n) (Fin m) ℝ) (N : Base n ℝ)
    (x : Fin n → ℝ) : Except PyErr (Fin m → ℝ) := do
  asVec m (← N.solve (.d1 x) (some (.d2 m M)))

/-- `MNF` for a matrix, gp_signals.py 851-853. -/
noncomputable def margMN2 (m : Nat) (M : Matrix (Fin n) (Fin m) ℝ) (N : Base n ℝ)
    (k : Nat) (T : Matrix (Fin n) (Fin k) ℝ) : Except PyErr (Matrix (Fin m) (Fin k) ℝ) := do
  asMat m k (← N.solve (.d2 k T) (some (.d2 m M)))

/-- `MarginalizingNmat.solve`, gp_signals.py 859-887: the value and, only in the first branch and
only when asked for, the log determinant. `self.Mprior` is `m * log(1e40)`, 825. -/
noncomputable def margSolve (m : Nat) (M : Matrix (Fin n) (Fin m) ℝ) (N : Base n ℝ)
    (right : Arr n ℝ) (left : Left n) (logdet : Bool) : Except PyErr (Out ℝ × Option ℝ) :=
  match right, left with
  | .d1 r, .same => do
    let rNr ← asNum (← N.solve (.d1 r) (some (.d1 r)))
    let ldN ← N.logdet
    let MNr ← margMN1 m M N r
    let MNM ← margCf m M N
    let ret := rNr - MNr ⬝ᵥ (MNM⁻¹ *ᵥ MNr)
    return (.num ret, if logdet then
      some (ldN + Real.log MNM.det + m * Real.log (10 ^ 40)) else none)
  | .d1 r, .other (.d2 k T) => do
    let TNr ← asVec k (← N.solve (.d1 r) (some (.d2 k T)))
    let MNF ← margMN2 m M N k T
    let MNM ← margCf m M N
    let MNr ← margMN1 m M N r
    return (.vec k (TNr - (MNM⁻¹ * MNF)ᵀ *ᵥ MNr), none)
  | .d2 k T, .same => do
    let TNT ← asMat k k (← N.solve (.d2 k T) (some (.d2 k T)))
    let MNF ← margMN2 m M N k T
    let MNM ← margCf m M N
    return (.mat k k (TNT - MNFᵀ * (MNM⁻¹ * MNF)), none)
  | .d1 r, .other (.d1 l) => do
    let lNr ← asNum (← N.solve (.d1 r) (some (.d1 l)))
    let MNl ← margMN1 m M N l
    let MNM ← margCf m M N
    let MNr ← margMN1 m M N r
    return (.num (lNr - MNl ⬝ᵥ (MNM⁻¹ *ᵥ MNr)), none)
  | .d2 k T, .other (.d2 q L) => do
    let LNT ← asMat q k (← N.solve (.d2 k T) (some (.d2 q L)))
    let MNL ← margMN2 m M N q L
    let MNM ← margCf m M N
    let MNT ← margMN2 m M N k T
    return (.mat q k (LNT - MNLᵀ * (MNM⁻¹ * MNT)), none)
  | _, _ => .error .valueError

/-- `solve` of any noise object, with the log determinant when it was asked for (and, for a
`MarginalizingNmat`, returned). -/
noncomputable def Nmat.solve : Nmat n ℝ → Arr n ℝ → Left n → Bool →
    Except PyErr (Out ℝ × Option ℝ)
  | .marg m M N, right, left, logdet => margSolve m M N right left logdet
  | .base b, right, left, logdet => do
    let l : Option (Arr n ℝ) := match left with
      | .none => none
      | .same => some right
      | .other a => some a
    let ret ← b.solve right l
    if logdet then return (ret, some (← b.logdet)) else return (ret, none)

end Verif.Noise
