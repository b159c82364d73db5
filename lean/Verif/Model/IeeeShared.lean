import Verif.Model.IeeeChrom

/-!
# Processes that share columns, in floating-point arithmetic

`enterprise/signals/signal_base.py` 951-961, 967-977 for processes whose columns are combined, operation by operation in binary64.
-/

namespace Verif.Ieee

open Verif

/-- Column `j` of `SignalCollection.get_basis`, signal_base.py 951-961: `Fmat[:, self._idx[signal]] = signal.get_basis(params)`, the last signal wins.  `idx` joins the lists `self._idx[signal]`,
`cols` the columns of the signals. -/
def basisAt (idx : List Nat) (cols : List (List Fl)) (j : Nat) : List Fl := (idx.zip cols).foldl (fun c x => if x.1 = j then x.2 else c) []

/-- Element `j` of `SignalCollection.get_phi`, signal_base.py 967-977 and utils.py 259-260: zero, to which the variances of the signals are added.  Simplification: no signal has two columns with the
same index (for this see `Model/Combine`). -/
noncomputable def phiAt (A : Arith) (idx : List Nat) (vars : List Fl) (j : Nat) : Fl := (idx.zip vars).foldl (fun v x => if x.1 = j then add A v x.2 else v) (.fin 0)

/-- Like `IsPulsarsF`, for columns combined as `idx` says to `n` columns (`_combine_basis_columns`, signal_base.py 877-923).  Simplification: `idx` is given.  The columns and variances past
the end are not used. -/
def IsSharedF (A : Arith) (P : Powers) (S : Trig) (toas freqs : List Fl) (procs : List ProcF) (design : List (List Fl)) (errs : List (Fl × Fl × Fl)) (res : List Fl) (n : Nat) (idx : List Nat)
    (p : PsrF) : Prop :=
  ∃ outs vars, List.Forall₂ (IsNormedCol A none) design outs ∧ procs.mapM (procVars A P) = .ok vars ∧
    p = ⟨n, basisAt idx ((procs.map (procCols A P S toas freqs)).flatten ++ outs), ndiagsF A P errs, res,
      fun j => if j < n then phiAt A idx (vars.flatten ++ List.replicate design.length (tmPriorF A)) j else .fin 1⟩

end Verif.Ieee
