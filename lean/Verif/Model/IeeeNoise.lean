import Verif.Model.IeeePhi
import Verif.Model.IeeeTm
import Verif.Model.Bases
import Verif.Model.IeeeBases

/-!
# The numbers of a pulsar with the usual noise model in floating-point arithmetic

`enterprise/signals/signal_base.py` 934-936, 967-977 for white noise, a power law and a timing model, operation by operation in binary64.
-/

namespace Verif.Ieee

open Verif

/-- `SignalCollection.get_ndiag` (signal_base.py 934-936) for `MeasurementNoise` as only white noise: the TOAs are given by their error, EFAC and EQUAD of their group.  `sum` begins with 0. -/
noncomputable def ndiagsF (A : Arith) (P : Powers) (toas : List (Fl × Fl × Fl)) : List Fl :=
  toas.map fun t => add A (.fin 0) (ndiagF A P t.1 t.2.1 (some t.2.2))

/-- `SignalCollection.get_phi` (signal_base.py 967-977) for signals with vectors of variances and columns of their own: each is added to zeros (utils.py 259-260). -/
noncomputable def phisF (A : Arith) (signals : List (List Fl)) : List Fl := signals.flatten.map (add A (.fin 0))

/-- The numbers of a pulsar with `MeasurementNoise`, `FourierBasisGP` of a power law with `n` frequencies (gp_signals.py 188-216, gp_bases.py 56, 82) and `TimingModel` of `p` columns
(gp_signals.py 233-254).  Simplification: the columns of the bases and the residuals are given.  The variances past the end are not used. -/
noncomputable def noiseF (A : Arith) (P : Powers) (n p : Nat) (cols : Nat → List Fl) (toas : List (Fl × Fl × Fl)) (res : List Fl) (T log10A gamma : Fl) : Except PyErr PsrF := do
  let law ← powerlawF A P (Bases.rep 2 (harmonicsF A n T)) log10A gamma 2
  .ok ⟨2 * n + p, cols, ndiagsF A P toas, res, fun i => (phisF A [law, List.replicate p (tmPriorF A)]).getD i (.fin 1)⟩

/-- The columns of `createfourierdesignmatrix_red` without phase shifts (gp_bases.py 45-91), `F[:, i]`. -/
noncomputable def fourierCols (A : Arith) (P : Powers) (S : Trig) (toas : List Fl) (n : Nat) (T : Fl) (i : Nat) : List Fl :=
  (designF A P S toas n T none none (List.replicate n (.fin 0))).map fun row => row.getD i .nan

/-- `p` holds the numbers of such a pulsar for TOAs, columns of the design matrix of the timing package, errors with EFAC and EQUAD, residuals, time span and power law: `SignalCollection.get_basis`
(signal_base.py 951-961) puts the columns of the Fourier basis before those of `normed_tm_basis` (utils.py 900-912).  The columns past the end are not used. -/
def IsPulsarF (A : Arith) (P : Powers) (S : Trig) (n : Nat) (toas : List Fl) (design : List (List Fl)) (errs : List (Fl × Fl × Fl)) (res : List Fl) (T log10A gamma : Fl) (p : PsrF) : Prop :=
  ∃ outs, List.Forall₂ (IsNormedCol A none) design outs ∧
    noiseF A P n design.length (fun i => if i < 2 * n then fourierCols A P S toas n T i else outs.getD (i - 2 * n) []) errs res T log10A gamma = .ok p

end Verif.Ieee
