import Verif.Model.Marg
import Verif.Model.Partition

/-!
The likelihood: `SignalCollection` (signal_base.py 933-1003) evaluated for one set of parameters, and
`LogLikelihood.__call__` (signal_base.py 180-264). Numbers are real. Memoization (`cache_call`,
`simplememobyid`) is left out here: it is the subject of C26 to C33 and of `Model/Calls.lean`.
-/

namespace Verif.Likelihood

open Verif Verif.Noise Matrix
open Verif.Kernel (Kern)
open Verif.PhiInv (toMatrix)
open Verif.PtaPhi (Klass total)
open Verif.Partition (Svd kernInv)

/-- What the signals of one pulsar return for the parameters at hand: residuals, `get_delay` and
`get_ndiag` of each signal (`None` for those without one; the delay 0 is the zero vector),
`get_basis` and `get_phi` of the collection (the subject of C46), and `get_logsignalprior` of each
signal. -/
structure PsrEval where
  n : Nat
  res : Fin n → ℝ
  delays : List (Option (Fin n → ℝ))
  noise : List (Option (Nmat n ℝ))
  basis : Option (Σ k, Matrix (Fin n) (Fin k) ℝ)
  phi : Option (Kern ℝ)
  logprior : List ℝ

namespace PsrEval

/-- `SignalCollection.get_delay`, signal_base.py 939-941. -/
def delay (p : PsrEval) : Fin p.n → ℝ := p.delays.reduceOption.sum

/-- `get_detres`, signal_base.py 944-945. -/
noncomputable def detres (p : PsrEval) : Fin p.n → ℝ := p.res - p.delay

/-- `get_TNr`, signal_base.py 979-985. -/
noncomputable def TNr (p : PsrEval) : Except PyErr (Option (Σ k, Fin k → ℝ)) :=
  match p.basis with
  | none => .ok none
  | some ⟨k, T⟩ => do
    let N ← getNdiag p.noise.reduceOption
    let o ← N.solve (.d1 p.detres) (.other (.d2 k T)) false
    let v ← asVec k o.1
    return some ⟨k, v⟩

/-- `get_TNT`, signal_base.py 988-993. -/
noncomputable def TNT (p : PsrEval) : Except PyErr (Option (Σ k, Matrix (Fin k) (Fin k) ℝ)) :=
  match p.basis with
  | none => .ok none
  | some ⟨k, T⟩ => do
    let N ← getNdiag p.noise.reduceOption
    let o ← N.solve (.d2 k T) .same false
    let A ← asMat k k o.1
    return some ⟨k, A⟩

/-- `get_rNr_logdet`, signal_base.py 996-999, summed; without a log determinant `np.sum` gets a
ragged list. -/
noncomputable def rNr (p : PsrEval) : Except PyErr ℝ := do
  let N ← getNdiag p.noise.reduceOption
  let o ← N.solve (.d1 p.detres) .same true
  let x ← asNum o.1
  match o.2 with
  | none => .error .typeError
  | some ld => .ok (x + ld)

/-- `get_logsignalprior`, signal_base.py 1002-1003. -/
noncomputable def lnprior (p : PsrEval) : ℝ := p.logprior.sum

end PsrEval

/-- A kernel as the matrix added to `TNT`, signal_base.py 251. Simplified: a kernel of another
size raises, while numpy would broadcast one of size one. -/
noncomputable def asSquare (k : Nat) (φ : Kern ℝ) : Except PyErr (Matrix (Fin k) (Fin k) ℝ) :=
  if φ.size = k then .ok (toMatrix k (PtaPhi.entries φ)) else .error .valueError

open Classical in
/-- The Cholesky solve and its term, signal_base.py 222-245, 253-262; `none` stands for the return
of minus infinity when the factorization fails, which (for symmetric matrices) it does exactly when
the matrix is not positive definite. -/
noncomputable def gpTerm {k : Nat} (S : Matrix (Fin k) (Fin k) ℝ) (b : Fin k → ℝ) (ldphi : ℝ) :
    Option ℝ :=
  if S.PosDef then some (1 / 2 * (b ⬝ᵥ (S⁻¹ *ᵥ b) - Real.log S.det - ldphi)) else none

/-- The loop over the pulsars without common signals, signal_base.py 246-262. -/
noncomputable def psrLoop :
    List (Option (Σ k, Fin k → ℝ) × Option (Σ k, Matrix (Fin k) (Fin k) ℝ) × Option (Kern ℝ × ℝ)) →
    ℝ → Except PyErr (Option ℝ)
  | [], ll => .ok (some ll)
  | (none, _, _) :: t, ll => psrLoop t ll
  | (some ⟨k, b⟩, some ⟨k', A⟩, some (φ, ld)) :: t, ll =>
    if h : k' = k then
      match asSquare k φ with
      | .error e => .error e
      | .ok P =>
        match gpTerm (A.submatrix (Fin.cast h.symm) (Fin.cast h.symm) + P) b ld with
        | none => .ok none
        | some x => psrLoop t (ll + x)
    else .error .valueError
  | (some _, _, _) :: _, _ => .error .typeError

/-- `block_diag(TNTs)`, signal_base.py 186-190. -/
def blockDiagOf : List (Σ k, Matrix (Fin k) (Fin k) ℝ) → Nat → Nat → ℝ
  | [] => fun _ _ => 0
  | ⟨k, A⟩ :: t => fun i j =>
    if h : i < k ∧ j < k then A ⟨i, h.1⟩ ⟨j, h.2⟩
    else if k ≤ i ∧ k ≤ j then blockDiagOf t (i - k) (j - k) else 0

/-- `np.concatenate(TNrs)`, signal_base.py 194. -/
def concatOf : List (Σ k, Fin k → ℝ) → Nat → ℝ
  | [] => fun _ => 0
  | ⟨k, v⟩ :: t => fun i => if h : i < k then v ⟨i, h⟩ else concatOf t (i - k)

/-- A pulsar without basis gives `None`, which neither function above accepts (numpy raises
`ValueError`; the exception of the sparse `block_diag` depends on the version of scipy). -/
def allSome {α : Type} : List (Option α) → Except PyErr (List α)
  | [] => .ok []
  | none :: _ => .error .valueError
  | some a :: t =>
    match allSome t with
    | .error e => .error e
    | .ok l => .ok (a :: l)

/-- The `method` of `get_phiinv`, signal_base.py 417-425. -/
inductive Method
  | cliques
  | partition
  | sparse
  | other

open Classical in
/-- `get_phiinv(params, logdet=True, method)` with common signals, signal_base.py 417-556. The sparse
Cholesky factorization is taken at its contract. -/
noncomputable def bigPhiinv (svd : ∀ {n : Nat} (M : Matrix (Fin n) (Fin n) ℝ), Svd M)
    (phis : List (Option (Kern ℝ))) (classes : List (Klass ℝ)) :
    Method → Except PyErr (Matrix (Fin (total phis)) (Fin (total phis)) ℝ × ℝ)
  | .cliques => PhiInv.getPhiinv phis classes
  | .partition =>
    match Partition.getPhiinv svd true phis classes with
    | .error e => .error e
    | .ok (d, R, ld) => if d = total phis then .ok (toMatrix _ R, ld) else .error .valueError
  | .sparse =>
    match PtaPhi.getPhi phis classes with
    | .error e => .error e
    | .ok (.list _) => .error .other
    | .ok (.big _ M) =>
      if (toMatrix (total phis) M).PosDef then
        .ok ((toMatrix (total phis) M)⁻¹, Real.log (toMatrix (total phis) M).det)
      else .error .linAlgError
  | .other => .error .notImplementedError

/-- The term with common signals, signal_base.py 213-245. The dense and the sparse factorization
compute the same numbers. That the sparse one reuses the symbolic analysis of the first call is in
`Model/Calls.lean`. -/
noncomputable def commonTerm {d : Nat} (TNrs : List (Option (Σ k, Fin k → ℝ)))
    (TNTs : List (Option (Σ k, Matrix (Fin k) (Fin k) ℝ))) (phiinv : Matrix (Fin d) (Fin d) ℝ)
    (ld : ℝ) : Except PyErr (Option ℝ) :=
  match allSome TNTs, allSome TNrs with
  | .error e, _ => .error e
  | _, .error e => .error e
  | .ok As, .ok bs =>
    if (As.map Sigma.fst).sum = d ∧ (bs.map Sigma.fst).sum = d then
      .ok (gpTerm (toMatrix d (blockDiagOf As) + phiinv) (fun i => concatOf bs i) ld)
    else .error .valueError

/-- `LogLikelihood.__call__`, signal_base.py 196-264. -/
noncomputable def lnlike (svd : ∀ {n : Nat} (M : Matrix (Fin n) (Fin n) ℝ), Svd M) (method : Method)
    (ps : List PsrEval) (classes : List (Klass ℝ)) : Except PyErr (Option ℝ) := do
  let TNrs ← ps.mapM PsrEval.TNr
  let TNTs ← ps.mapM PsrEval.TNT
  let phis := ps.map PsrEval.phi
  match classes with
  | [] => do
    match method with
    | .other => .error .notImplementedError
    | _ => do
      let rs ← ps.mapM PsrEval.rNr
      let ll := 0 + -(1 / 2) * rs.sum + (ps.map PsrEval.lnprior).sum
      psrLoop (TNrs.zip (TNTs.zip (phis.map fun o => o.map (kernInv svd)))) ll
  | _ :: _ => do
    let (phiinv, ld) ← bigPhiinv svd phis classes method
    let rs ← ps.mapM PsrEval.rNr
    let ll := 0 + -(1 / 2) * rs.sum + (ps.map PsrEval.lnprior).sum
    let x ← commonTerm TNrs TNTs phiinv ld
    return x.map (ll + ·)

end Verif.Likelihood
