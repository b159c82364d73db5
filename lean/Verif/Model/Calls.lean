import Verif.Model.Likelihood
import Verif.Model.Cache

/-!
The `LogLikelihood` object between calls (signal_base.py 176-264, 373-381): the memoized blocks
(`_block_TNT`, `_block_TNr`) and the stored sparse factorization (`cf_sp`).  The numbers of one call
are those of `Model/Likelihood.lean`.  The factorization is scikit-sparse's, which is not part of the
code: it is a parameter, with the documented contract of its methods stated in `Props/Calls.lean`.
-/

namespace Verif.Calls

open Verif Verif.Likelihood Matrix
open Verif.Cache (Arg memoCall)
open Verif.PhiInv (toMatrix)
open Verif.PtaPhi (Klass total)
open Verif.Partition (Svd kernInv)

/-- What the code uses of scikit-sparse (signal_base.py 222-235): `cholesky(A)`, which makes a factor
or raises `CholmodError` (`none`); `cf.cholesky_inplace(A)`, which changes the factor and may raise
(`false`); `cf(b)` and `cf.logdet()`.  Simplification: no other exceptions. -/
structure Lib where
  F : Type
  chol : (d : Nat) → Matrix (Fin d) (Fin d) ℝ → Option F
  inplace : F → (d : Nat) → Matrix (Fin d) (Fin d) ℝ → F × Bool
  solve : F → (d : Nat) → (Fin d → ℝ) → Fin d → ℝ
  logdet : F → ℝ

/-- The arrays that exist, by identity: the `TNT` and `TNr` of the pulsars (`None` for a pulsar without
a basis), signal_base.py 979-993.  Identities are not used twice: an array in the memo is kept alive by
it (signal_base.py 58). -/
structure Heap where
  T : Nat → Option (Σ k, Matrix (Fin k) (Fin k) ℝ)
  R : Nat → Option (Σ k, Fin k → ℝ)

/-- `_block_TNT`, signal_base.py 185-190, before the blocks are put together. -/
def blockTNT (h : Heap) : Arg → Except PyErr (List (Σ k, Matrix (Fin k) (Fin k) ℝ))
  | .seq ids => allSome (ids.map h.T)
  | .obj _ => .error .typeError

/-- `_block_TNr`, signal_base.py 192-194, before the vectors are put together. -/
def blockTNr (h : Heap) : Arg → Except PyErr (List (Σ k, Fin k → ℝ))
  | .seq ids => allSome (ids.map h.R)
  | .obj _ => .error .typeError

/-- The attributes of a `LogLikelihood` object that calls change: `_memo_block_TNT`, `_memo_block_TNr`
(signal_base.py 54) and `cf_sp` (230), each absent at first. -/
structure State (lib : Lib) where
  memoT : Option (Arg × List (Σ k, Matrix (Fin k) (Fin k) ℝ))
  memoR : Option (Arg × List (Σ k, Fin k → ℝ))
  cf : Option lib.F

/-- `LogLikelihood(pta)`, signal_base.py 181-183. -/
def State.init (lib : Lib) : State lib := ⟨none, none, none⟩

/-- The factorization with `cholesky_sparse`, signal_base.py 222-235: what `cf_sp` becomes, and whether
a factor of the matrix can be used now. -/
def factor (lib : Lib) (cf : Option lib.F) (d : Nat) (S : Matrix (Fin d) (Fin d) ℝ) :
    Option lib.F × Option lib.F :=
  match cf with
  | some f =>
    let r := lib.inplace f d S
    (some r.1, if r.2 then some r.1 else none)
  | none =>
    match lib.chol d S with
    | some f => (some f, some f)
    | none => (none, none)

/-- The term with common signals, signal_base.py 213-245; `tnr` and `tnt` are the identities of the
arrays in the lists, `none` stands for the return of minus infinity. -/
noncomputable def commonCall (lib : Lib) (sparse : Bool) (h : Heap) (st : State lib) (tnr tnt : List Nat) {d : Nat}
    (phiinv : Matrix (Fin d) (Fin d) ℝ) (ld : ℝ) : State lib × Except PyErr (Option ℝ) :=
  let t := memoCall (blockTNT h) st.memoT (.seq tnt)
  match t.2 with
  | .error e => ({ st with memoT := t.1 }, .error e)
  | .ok As =>
    let r := memoCall (blockTNr h) st.memoR (.seq tnr)
    match r.2 with
    | .error e => ({ st with memoT := t.1, memoR := r.1 }, .error e)
    | .ok bs =>
      if (As.map Sigma.fst).sum = d ∧ (bs.map Sigma.fst).sum = d then
        let S := toMatrix d (blockDiagOf As) + phiinv
        let b : Fin d → ℝ := fun i => concatOf bs i
        if sparse then
          let c := factor lib st.cf d S
          (⟨t.1, r.1, c.1⟩, .ok (c.2.map fun f => 1 / 2 * (b ⬝ᵥ lib.solve f d b - lib.logdet f - ld)))
        else (⟨t.1, r.1, st.cf⟩, .ok (gpTerm S b ld))
      else ({ st with memoT := t.1, memoR := r.1 }, .error .valueError)

/-- One call: what the signals return for its parameters, the classes of common signals, the method
for the inverse, and the identities of the arrays that `get_TNr` and `get_TNT` give. -/
structure Call where
  ps : List PsrEval
  classes : List (Klass ℝ)
  method : Method
  tnr : List Nat
  tnt : List Nat

/-- `LogLikelihood.__call__`, signal_base.py 196-264. -/
noncomputable def call (lib : Lib) (svd : ∀ {n : Nat} (M : Matrix (Fin n) (Fin n) ℝ), Svd M) (sparse : Bool) (h : Heap)
    (st : State lib) (c : Call) : State lib × Except PyErr (Option ℝ) :=
  match c.classes with
  | [] => (st, lnlike svd c.method c.ps [])
  | k :: ks =>
    match c.ps.mapM PsrEval.TNr with
    | .error e => (st, .error e)
    | .ok _ =>
      match c.ps.mapM PsrEval.TNT with
      | .error e => (st, .error e)
      | .ok _ =>
        match bigPhiinv svd (c.ps.map PsrEval.phi) (k :: ks) c.method with
        | .error e => (st, .error e)
        | .ok (phiinv, ld) =>
          match c.ps.mapM PsrEval.rNr with
          | .error e => (st, .error e)
          | .ok rs =>
            let ll := 0 + -(1 / 2) * rs.sum + (c.ps.map PsrEval.lnprior).sum
            let x := commonCall lib sparse h st c.tnr c.tnt phiinv ld
            (x.1, match x.2 with | .error e => .error e | .ok o => .ok (o.map (ll + ·)))

/-- `PTA.get_lnlikelihood`, signal_base.py 373-381: the object is made on first use and kept.  `sparse`
says which of `LogLikelihood` and `LogLikelihoodDenseCholesky` (176-177) the `PTA` was given. -/
noncomputable def getLnlikelihood (lib : Lib) (svd : ∀ {n : Nat} (M : Matrix (Fin n) (Fin n) ℝ), Svd M) (sparse : Bool)
    (h : Heap) (lnlike : Option (State lib)) (c : Call) : Option (State lib) × Except PyErr (Option ℝ) :=
  let r := call lib svd sparse h (lnlike.getD (.init lib)) c
  (some r.1, r.2)

/-- A history of calls of one `PTA`. -/
noncomputable def history (lib : Lib) (svd : ∀ {n : Nat} (M : Matrix (Fin n) (Fin n) ℝ), Svd M) (sparse : Bool) (h : Heap) :
    List Call → Option (State lib) → List (Except PyErr (Option ℝ))
  | [], _ => []
  | c :: t, st =>
    let r := getLnlikelihood lib svd sparse h st c
    r.2 :: history lib svd sparse h t r.1

end Verif.Calls
