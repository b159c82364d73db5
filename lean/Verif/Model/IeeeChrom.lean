import Verif.Model.IeeeNoise

/-!
# The numbers of a pulsar with several Fourier processes in floating-point arithmetic

`enterprise/signals/gp_bases.py` 94-127, 261-292 and `signal_base.py` 934-936, 951-961, 967-977 for white noise, any number of power laws, achromatic or chromatic, and a timing model,
operation by operation in binary64.
-/

namespace Verif.Ieee

open Verif

/-- `FourierBasisGP` or `BasisGP` with a power law (gp_signals.py 23-216): number of frequencies, time span, `log10_A` and `gamma`, and reference frequency and index of a chromatic process. -/
structure ProcF where
  n : Nat
  T : Fl
  log10A : Fl
  gamma : Fl
  chrom : Option (Fl × Fl)

/-- An element of `Dm`: `(fref / freqs) ** 2` (gp_bases.py 125) or `(1400 / freqs) ** idx` (gp_bases.py 290). -/
noncomputable def chromF (A : Arith) (P : Powers) (fref idx freq : Fl) : Fl := npPow P (div A fref freq) idx

/-- The columns of `createfourierdesignmatrix_red` (gp_bases.py 45-91), or of `createfourierdesignmatrix_dm` (gp_bases.py 94-127) and `createfourierdesignmatrix_chromatic` (gp_bases.py
261-292), `F * Dm[:, None]`.  Simplification: without phase shifts, and with the default frequencies. -/
noncomputable def procCols (A : Arith) (P : Powers) (S : Trig) (toas freqs : List Fl) (q : ProcF) : List (List Fl) :=
  (List.range (2 * q.n)).map fun i =>
    match q.chrom with
    | none => fourierCols A P S toas q.n q.T i
    | some (fref, idx) => List.zipWith (mul A) (fourierCols A P S toas q.n q.T i) (freqs.map (chromF A P fref idx))

/-- The variances of the coefficients, `powerlaw` at the frequencies of the basis (gp_signals.py 174-180, gp_priors.py 14-19). -/
noncomputable def procVars (A : Arith) (P : Powers) (q : ProcF) : Except PyErr (List Fl) := powerlawF A P (Bases.rep 2 (harmonicsF A q.n q.T)) q.log10A q.gamma 2

/-- `p` holds the numbers of a pulsar with `MeasurementNoise`, these processes and `TimingModel` for TOAs, radio frequencies, columns of the design matrix of the timing package, errors with EFAC
and EQUAD, and residuals: `SignalCollection.get_basis` (signal_base.py 951-961) and `get_phi` (signal_base.py 967-977).  Simplification: no two processes share columns.  The columns and
variances past the end are not used. -/
def IsPulsarsF (A : Arith) (P : Powers) (S : Trig) (toas freqs : List Fl) (procs : List ProcF) (design : List (List Fl)) (errs : List (Fl × Fl × Fl)) (res : List Fl) (p : PsrF) : Prop :=
  ∃ outs vars, List.Forall₂ (IsNormedCol A none) design outs ∧ procs.mapM (procVars A P) = .ok vars ∧
    p = ⟨((procs.map (procCols A P S toas freqs)).flatten ++ outs).length, fun i => ((procs.map (procCols A P S toas freqs)).flatten ++ outs).getD i [], ndiagsF A P errs, res,
      fun i => (phisF A (vars ++ [List.replicate design.length (tmPriorF A)])).getD i (.fin 1)⟩

end Verif.Ieee
