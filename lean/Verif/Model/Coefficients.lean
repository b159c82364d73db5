import Verif.Model.Likelihood
import Verif.Model.Combine
import Mathlib.Analysis.SpecialFunctions.Trigonometric.Basic

/-!
Coefficients of Gaussian processes: as parameters of the model (gp_signals.py 136-160), their
conditional means and draws (`ConditionalGP`, utils.py 37-138; `get_coefficients`, utils.py 141-226).
Numbers are real; the normal deviates that `np.random.randn` returns are an argument.
-/

namespace Verif.Coefficients

open Verif Verif.Noise Verif.Likelihood Matrix
open Verif.Kernel (Kern)
open Verif.PhiInv (toMatrix)
open Verif.PtaPhi (Klass total)
open Verif.Partition (Svd kernInv)
open Verif.Combine (BSig)

/-! ## Coefficients as parameters -/

/-- `BasisGP._get_coefficient_logprior`, gp_signals.py 122-133, for the prior `phi` and coefficients
`c` of one key of the selection. -/
noncomputable def keyLogprior (svd : ∀ {n : Nat} (M : Matrix (Fin n) (Fin n) ℝ), Svd M) :
    (φ : Kern ℝ) → (Fin φ.size → ℝ) → ℝ
  | .one n v, c =>
    -(1 / 2) * ∑ i : Fin n, c i * c i / v i - 1 / 2 * ∑ i : Fin n, Real.log (v i) -
      1 / 2 * n * Real.log (2 * Real.pi)
  | .two n M _, c =>
    let r := kernInv svd (.two n M Kernel.Cliques.none);
    -(1 / 2) * ((fun i : Fin n => c i) ⬝ᵥ (toMatrix n (PtaPhi.entries r.1) *ᵥ fun i => c i)) -
      1 / 2 * r.2 - 1 / 2 * n * Real.log (2 * Real.pi)

/-- `BasisGP.get_delay`, gp_signals.py 141-149: the coefficients of the keys are stacked in the order
of the keys. -/
noncomputable def coefDelay {n d : Nat} (F : Matrix (Fin n) (Fin d) ℝ) (cs : List (Σ k, Fin k → ℝ)) :
    Fin n → ℝ :=
  F *ᵥ fun i => concatOf cs i

/-! ## Which coefficient belongs to which signal -/

/-- `signal_type`. -/
inductive Kind
  | basis
  | commonBasis
  | other
  deriving DecidableEq

/-- A signal: name, type, and what the collection asks of its basis. -/
structure LSig where
  name : String
  kind : Kind
  b : BSig ℝ

/-- The loop over the signals of a pulsar, utils.py 95-123 (without `tm_params`), 169-181, 207-219:
`want` tells which types count, `len` is `len(b)`, and the result lists the positions `b[ntot : nb +
ntot]` of each signal together with the new `ntot`. A coefficient-mode signal has no basis. -/
def labelLoop (want : Kind → Bool) (len : Nat) : List LSig → Nat →
    Except PyErr (List (String × List Nat) × Nat)
  | [], ntot => .ok ([], ntot)
  | s :: t, ntot =>
    if want s.kind = false then labelLoop want len t ntot
    else
      match s.b.basis with
      | none => .error .attributeError
      | some _ =>
        let nb := s.b.basisAt.length
        if len < nb + ntot then .error .indexError
        else
          match labelLoop want len t (ntot + nb) with
          | .error e => .error e
          | .ok (l, m) => .ok ((s.name, List.range' ntot nb) :: l, m)

/-- The loop over the pulsars, utils.py 93-125, 167-181. -/
def labelAll (want : Kind → Bool) (len : Nat) : List (List LSig) → Nat →
    Except PyErr (List (String × List Nat))
  | [], _ => .ok []
  | p :: t, ntot =>
    match labelLoop want len p ntot with
    | .error e => .error e
    | .ok (l, m) =>
      match labelAll want len t m with
      | .error e => .error e
      | .ok l' => .ok (l ++ l')

/-- `signal_type in ["basis", "common basis"]`, utils.py 97, 171. -/
def wantBoth : Kind → Bool
  | .other => false
  | _ => true

/-- `signal_type == "basis"`, utils.py 210. -/
def wantBasis : Kind → Bool
  | .basis => true
  | _ => false

/-- The labelled coefficients: `pardict[name + "_coefficients"] = b[positions]`. -/
def labelled (b : Nat → ℝ) (l : List (String × List Nat)) : Dict String (List ℝ) :=
  Dict.ofList (l.map fun x => (x.1 ++ "_coefficients", x.2.map b))

/-! ## Mean and draws -/

/-- A sparse Cholesky factorization as CHOLMOD returns it: a fill-reducing permutation `perm` and `L`
with `A[perm][:, perm] = L Lᵀ`. -/
structure SparseChol {d : Nat} (S : Matrix (Fin d) (Fin d) ℝ) where
  perm : Equiv.Perm (Fin d)
  L : Matrix (Fin d) (Fin d) ℝ
  spec : S.PosDef → S.submatrix perm perm = L * Lᵀ

/-- A dense Cholesky factorization `S = L Lᵀ` (`np.tril(ch[0])`, utils.py 71-74). -/
structure DenseChol {d : Nat} (S : Matrix (Fin d) (Fin d) ℝ) where
  L : Matrix (Fin d) (Fin d) ℝ
  spec : S.PosDef → S = L * Lᵀ

/-- The linear algebra of the libraries: which factorization they return is left open. -/
structure Lib where
  svd : ∀ {n : Nat} (M : Matrix (Fin n) (Fin n) ℝ), Svd M
  sp : ∀ {n : Nat} (M : Matrix (Fin n) (Fin n) ℝ), SparseChol M
  dn : ∀ {n : Nat} (M : Matrix (Fin n) (Fin n) ℝ), DenseChol M

/-- `ch.apply_Pt(ch.solve_Lt(z, use_LDLt_decomposition=False))`, utils.py 85. -/
noncomputable def SparseChol.draw {d : Nat} {S : Matrix (Fin d) (Fin d) ℝ} (c : SparseChol S)
    (z : Fin d → ℝ) : Fin d → ℝ :=
  fun i => (c.Lᵀ⁻¹ *ᵥ z) (c.perm.symm i)

/-- `np.dot(sps.linalg.inv(ch.L()).toarray().T, z)`, utils.py 156, 165. -/
noncomputable def SparseChol.drawL {d : Nat} {S : Matrix (Fin d) (Fin d) ℝ} (c : SparseChol S)
    (z : Fin d → ℝ) : Fin d → ℝ :=
  c.L⁻¹ᵀ *ᵥ z

/-- `sl.solve_triangular(c.T, z, lower=False)`, utils.py 90. -/
noncomputable def DenseChol.draw {d : Nat} {S : Matrix (Fin d) (Fin d) ℝ} (c : DenseChol S)
    (z : Fin d → ℝ) : Fin d → ℝ :=
  c.Lᵀ⁻¹ *ᵥ z

/-- `np.dot(u, np.dot(u.T, d) / s)`, utils.py 162, 193. -/
noncomputable def svdMean {d : Nat} {S : Matrix (Fin d) (Fin d) ℝ} (c : Svd S) (b : Fin d → ℝ) :
    Fin d → ℝ :=
  c.u *ᵥ fun i => (c.uᵀ *ᵥ b) i / c.s i

/-- `np.dot(u * np.sqrt(1 / s), z)`, utils.py 163-165, 194, 202. -/
noncomputable def svdDraw {d : Nat} {S : Matrix (Fin d) (Fin d) ℝ} (c : Svd S) (z : Fin d → ℝ) :
    Fin d → ℝ :=
  (of fun i j => c.u i j * Real.sqrt (1 / c.s j)) *ᵥ z

/-- `get_phiinv(params, logdet=False, method)` with common signals. -/
noncomputable def bigPhiinv0 (lib : Lib) (phis : List (Option (Kern ℝ))) (classes : List (Klass ℝ)) :
    Method → Except PyErr (Matrix (Fin (total phis)) (Fin (total phis)) ℝ)
  | .partition =>
    match Partition.getPhiinv lib.svd false phis classes with
    | .error e => .error e
    | .ok (d, R, _) => if d = total phis then .ok (toMatrix _ R) else .error .valueError
  | m => (bigPhiinv lib.svd phis classes m).map Prod.fst

/-- `Sigma` and `TNr` with common signals, utils.py 58-59, 151-152, 158-159. -/
noncomputable def bigSigma {d : Nat} (TNrs : List (Option (Σ k, Fin k → ℝ)))
    (TNTs : List (Option (Σ k, Matrix (Fin k) (Fin k) ℝ))) (phiinv : Matrix (Fin d) (Fin d) ℝ) :
    Except PyErr (Matrix (Fin d) (Fin d) ℝ × (Fin d → ℝ)) :=
  match allSome TNTs, allSome TNrs with
  | .error e, _ => .error e
  | _, .error e => .error e
  | .ok As, .ok bs =>
    if (As.map Sigma.fst).sum = d ∧ (bs.map Sigma.fst).sum = d then
      .ok (toMatrix d (blockDiagOf As) + phiinv, fun i => concatOf bs i)
    else .error .valueError

/-- `Sigma` and `TNr` of one pulsar, utils.py 68-69, 187-189: a pulsar without a basis has `phiinv`
`None`, and `None.ndim` raises. -/
noncomputable def psrSigma (svd : ∀ {n : Nat} (M : Matrix (Fin n) (Fin n) ℝ), Svd M) :
    Option (Σ k, Fin k → ℝ) → Option (Σ k, Matrix (Fin k) (Fin k) ℝ) → Option (Kern ℝ) →
    Except PyErr (Σ k, Matrix (Fin k) (Fin k) ℝ × (Fin k → ℝ))
  | _, _, none => .error .attributeError
  | some ⟨k, b⟩, some ⟨k', A⟩, some φ =>
    if h : k' = k then
      match asSquare k (kernInv svd φ).1 with
      | .error e => .error e
      | .ok P => .ok ⟨k, A.submatrix (Fin.cast h.symm) (Fin.cast h.symm) + P, b⟩
    else .error .valueError
  | _, _, _ => .error .typeError

open Classical in
/-- One vector of coefficients from the dense Cholesky factorization, utils.py 71-74, 89-91; `z` holds
the deviates, `none` without variance. -/
noncomputable def denseCoef (lib : Lib) {k : Nat} (S : Matrix (Fin k) (Fin k) ℝ) (b : Fin k → ℝ)
    (z : Option (Nat → ℝ)) : Except PyErr (Fin k → ℝ) :=
  if S.PosDef then
    .ok (S⁻¹ *ᵥ b + match z with | none => 0 | some z => (lib.dn S).draw fun i => z i)
  else .error .linAlgError

open Classical in
/-- The same with the sparse factorization, utils.py 61-62, 82-85. -/
noncomputable def sparseCoef (lib : Lib) {k : Nat} (S : Matrix (Fin k) (Fin k) ℝ) (b : Fin k → ℝ)
    (z : Option (Nat → ℝ)) : Except PyErr (Fin k → ℝ) :=
  if S.PosDef then
    .ok (S⁻¹ *ᵥ b + match z with | none => 0 | some z => (lib.sp S).draw fun i => z i)
  else .error .linAlgError

open Classical in
/-- The same in `get_coefficients(common_sparse=True)`, utils.py 154-156, 165. -/
noncomputable def sparseCoef' (lib : Lib) {k : Nat} (S : Matrix (Fin k) (Fin k) ℝ) (b : Fin k → ℝ)
    (z : Option (Nat → ℝ)) : Except PyErr (Fin k → ℝ) :=
  if S.PosDef then
    .ok (S⁻¹ *ᵥ b + match z with | none => 0 | some z => (lib.sp S).drawL fun i => z i)
  else .error .linAlgError

/-- The same from the singular value decomposition, utils.py 161-165, 191-194, 202. The fallback for
a decomposition that does not converge is `fallbackCoef`. -/
noncomputable def svdCoef (lib : Lib) {k : Nat} (S : Matrix (Fin k) (Fin k) ℝ) (b : Fin k → ℝ)
    (z : Option (Nat → ℝ)) : Except PyErr (Fin k → ℝ) :=
  .ok (svdMean (lib.svd S) b + match z with | none => 0 | some z => svdDraw (lib.svd S) fun i => z i)

/-- The same if the decomposition of `Sigma` does not converge, utils.py 195-202: `Sigi` is the inverse, from
which the mean follows, and the draws are made from its own decomposition `c` in the way of line 194. -/
noncomputable def fallbackCoef {k : Nat} (S : Matrix (Fin k) (Fin k) ℝ) (c : Svd S⁻¹) (b : Fin k → ℝ)
    (z : Option (Nat → ℝ)) : Fin k → ℝ :=
  S⁻¹ *ᵥ b + match z with | none => 0 | some z => svdDraw c fun i => z i

/-- The coefficients of the pulsars one by one, utils.py 66-74, 87-91; `zs` gives the deviates of each
pulsar. -/
noncomputable def psrCoefs (lib : Lib) (zs : Option (Nat → Nat → ℝ)) : List PsrEval → Nat →
    Except PyErr (List (Σ k, Fin k → ℝ))
  | [], _ => .ok []
  | p :: t, a => do
    let TNr ← p.TNr
    let TNT ← p.TNT
    let ⟨k, S, b⟩ ← psrSigma lib.svd TNr TNT p.phi
    let c ← denseCoef lib S b (zs.map fun z => z a)
    let r ← psrCoefs lib zs t (a + 1)
    return ⟨k, c⟩ :: r

/-- The vector `b` of `ConditionalGP._sample_conditional` for one draw, utils.py 52-91, as its length
and its entries. -/
noncomputable def condVector (lib : Lib) (method : Method) (ps : List PsrEval) (classes : List (Klass ℝ))
    (zs : Option (Nat → Nat → ℝ)) : Except PyErr (Nat × (Nat → ℝ)) :=
  match classes, method with
  | [], .other => .error .notImplementedError
  | [], _ =>
    match psrCoefs lib zs ps 0 with
    | .error e => .error e
    | .ok l => .ok ((l.map Sigma.fst).sum, concatOf l)
  | _ :: _, _ => do
    let TNrs ← ps.mapM PsrEval.TNr
    let TNTs ← ps.mapM PsrEval.TNT
    let phiinv ← bigPhiinv0 lib (ps.map PsrEval.phi) classes method
    let (S, b) ← bigSigma TNrs TNTs phiinv
    let c ← sparseCoef lib S b (zs.map fun z => z 0)
    return (total (ps.map PsrEval.phi), concatOf [⟨_, c⟩])

/-- `ConditionalGP.get_mean_coefficients` (`zs = none`, utils.py 127-128) and one element of
`sample_coefficients` (utils.py 130-131), without `tm_params`. `sigs` are the signals of the pulsars. -/
noncomputable def condCoefficients (lib : Lib) (method : Method) (ps : List PsrEval)
    (classes : List (Klass ℝ)) (sigs : List (List LSig)) (zs : Option (Nat → Nat → ℝ)) :
    Except PyErr (Dict String (List ℝ)) := do
  let (len, b) ← condVector lib method ps classes zs
  let l ← labelAll wantBoth len sigs 0
  return labelled b l

/-- `get_coefficients` with common signals and one draw, utils.py 141-186, as the dictionary that
updates the parameters. -/
noncomputable def getCommon (lib : Lib) (method : Method) (sparse : Bool) (ps : List PsrEval)
    (classes : List (Klass ℝ)) (sigs : List (List LSig)) (zs : Option (Nat → Nat → ℝ)) :
    Except PyErr (Dict String (List ℝ)) := do
  let TNrs ← ps.mapM PsrEval.TNr
  let TNTs ← ps.mapM PsrEval.TNT
  let phiinv ← bigPhiinv0 lib (ps.map PsrEval.phi) classes method
  let (S, b) ← bigSigma TNrs TNTs phiinv
  let z := zs.map fun z => z 0
  let c ← if sparse then sparseCoef' lib S b z else svdCoef lib S b z
  let l ← labelAll wantBoth (total (ps.map PsrEval.phi)) sigs 0
  return labelled (concatOf [⟨_, c⟩]) l

/-- The loop over the pulsars of `get_coefficients` without common signals, utils.py 188-224. -/
noncomputable def getLoop (lib : Lib) (zs : Option (Nat → Nat → ℝ)) : List (PsrEval × List LSig) → Nat →
    Dict String (List ℝ) → Except PyErr (Dict String (List ℝ))
  | [], _, d => .ok d
  | (p, sigs) :: t, a, d => do
    let TNr ← p.TNr
    let TNT ← p.TNT
    let ⟨k, S, b⟩ ← psrSigma lib.svd TNr TNT p.phi
    let c ← svdCoef lib S b (zs.map fun z => z a)
    let (l, _) ← labelLoop wantBasis k sigs 0
    getLoop lib zs t (a + 1) (d.update (labelled (concatOf [⟨k, c⟩]) l))

/-- `get_coefficients` for one draw, utils.py 141-226: the entries added to the parameters. -/
noncomputable def getCoefficients (lib : Lib) (method : Method) (sparse : Bool) (ps : List PsrEval)
    (classes : List (Klass ℝ)) (sigs : List (List LSig)) (zs : Option (Nat → Nat → ℝ)) :
    Except PyErr (Dict String (List ℝ)) :=
  match classes, method with
  | [], .other => .error .notImplementedError
  | [], _ => getLoop lib zs (ps.zip sigs) 0 []
  | _ :: _, _ => getCommon lib method sparse ps classes sigs zs

end Verif.Coefficients
