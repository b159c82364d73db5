import Verif.Model.IeeeChrom

/-!
# ECORR as a Gaussian process, in floating-point arithmetic

`enterprise/signals/gp_signals.py` 256-282 and `utils.py` 777-783 beside the signals of `Model/IeeeChrom`, operation by operation in binary64.
-/

namespace Verif.Ieee

open Verif

/-- The columns of `U`, utils.py 777-779, for TOAs with the number of their epoch.  Simplification: the epochs are given (for these see `Model/Quantize` and C138). -/
def quantCols (m : Nat) (epochs : List (Option Nat)) : List (List Fl) := (List.range m).map fun j => epochs.map fun e => if e = some j then .fin 1 else .fin 0

/-- `ecorr_basis_prior` (gp_signals.py 256-261) with the weights of utils.py 781: `weights * 10 ** (2 * log10_ecorr)`, for the parameter that applies to each epoch. -/
noncomputable def ecorrVars (A : Arith) (P : Powers) (ecorrs : List Fl) : List Fl := ecorrs.map fun x => mul A (.fin 1) (squaredF A P x)

/-- Like `IsPulsarsF`, with `EcorrBasisModel` (gp_signals.py 264-282) after the timing model.  Simplification: no two signals share columns. -/
def IsEpochsF (A : Arith) (P : Powers) (S : Trig) (toas freqs : List Fl) (procs : List ProcF) (design : List (List Fl)) (epochs : List (Option Nat)) (ecorrs : List Fl) (errs : List (Fl × Fl × Fl))
    (res : List Fl) (p : PsrF) : Prop :=
  ∃ outs vars, List.Forall₂ (IsNormedCol A none) design outs ∧ procs.mapM (procVars A P) = .ok vars ∧
    p = ⟨((procs.map (procCols A P S toas freqs)).flatten ++ outs ++ quantCols ecorrs.length epochs).length,
      fun i => ((procs.map (procCols A P S toas freqs)).flatten ++ outs ++ quantCols ecorrs.length epochs).getD i [], ndiagsF A P errs, res,
      fun i => (phisF A (vars ++ [List.replicate design.length (tmPriorF A)] ++ [ecorrVars A P ecorrs])).getD i (.fin 1)⟩

end Verif.Ieee
