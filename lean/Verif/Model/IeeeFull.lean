import Verif.Model.IeeeEpochs
import Verif.Model.IeeeShared

/-!
# All signals of a pulsar, in floating-point arithmetic

White noise, ECORR as a Gaussian process, processes that share columns, and a timing model.
-/

namespace Verif.Ieee

open Verif

/-- Like `IsSharedF`, with `EcorrBasisModel` (gp_signals.py 264-282) after the timing model: columns combined as `idx` says to `n` columns (`_combine_basis_columns`, signal_base.py 877-923;
`get_basis`, 951-961; `get_phi`, 967-977).  Simplification: `idx` is given, and so are the epochs. -/
def IsFullF (A : Arith) (P : Powers) (S : Trig) (toas freqs : List Fl) (procs : List ProcF) (design : List (List Fl)) (epochs : List (Option Nat)) (ecorrs : List Fl) (errs : List (Fl × Fl × Fl))
    (res : List Fl) (n : Nat) (idx : List Nat) (p : PsrF) : Prop :=
  ∃ outs vars, List.Forall₂ (IsNormedCol A none) design outs ∧ procs.mapM (procVars A P) = .ok vars ∧
    p = ⟨n, basisAt idx ((procs.map (procCols A P S toas freqs)).flatten ++ outs ++ quantCols ecorrs.length epochs), ndiagsF A P errs, res,
      fun j => if j < n then phiAt A idx (vars.flatten ++ List.replicate design.length (tmPriorF A) ++ ecorrVars A P ecorrs) j else .fin 1⟩

end Verif.Ieee
