import Mathlib.Analysis.Calculus.Deriv.Basic
import Verif.Model.Binary

/-!
# Solving the equations of a binary

`solve_coupled_constecc_solution` and `solve_coupled_ecc_solution` (enterprise/signals/utils.py 486-536), with the equations of
`Model/Binary`.  The chirp mass is a number; with an array every evaluation of the equations changes it (`C97_evolution_false`).
`scipy.integrate.odeint` is an argument.
-/

namespace Verif.Inspiral

open Verif Verif.Binary

/-- `odeint(func, y0, t, full_output=True)`: the rows of `y`, and whether the message is "Integration successful." -/
abbrev Odeint (E : Type) := (E → E) → E → List ℝ → List E × Bool

/-- What the functions return: the rows, or the number zero (utils.py 503-508, 531-536). -/
inductive Ret (E : Type)
  | rows (y : List E)
  | zero

/-- `if infodict["message"] == ...` (utils.py 503-508, 531-536). -/
def check {E : Type} (r : List E × Bool) : Ret E := if r.2 then .rows r.1 else .zero

/-- `get_coupled_constecc_eqns` as a function of the state (frequency, phase) (utils.py 432-453). -/
noncomputable def constRhs (mc e0 : ℝ) (y : ℝ × ℝ) : ℝ × ℝ := (constEccEqns (fun _ => 0) y.1 (.num mc) e0).2

/-- `get_coupled_ecc_eqns` as a function of the state (frequency, eccentricity, periastron, phase) (utils.py 456-483). -/
noncomputable def eccRhs (mc q : ℝ) (y : ℝ × ℝ × ℝ × ℝ) : ℝ × ℝ × ℝ × ℝ := (eccEqns (fun _ => 0) y.1 y.2.1 (.num mc) q).2

/-- `solve_coupled_constecc_solution` (utils.py 486-508). -/
noncomputable def solveConst (odeint : Odeint (ℝ × ℝ)) (F0 e0 phase0 mc : ℝ) (t : List ℝ) : Ret (ℝ × ℝ) :=
  check (odeint (constRhs mc e0) (F0, phase0) t)

/-- `solve_coupled_ecc_solution` (utils.py 511-536). -/
noncomputable def solveEcc (odeint : Odeint (ℝ × ℝ × ℝ × ℝ)) (F0 e0 gamma0 phase0 mc q : ℝ) (t : List ℝ) : Ret (ℝ × ℝ × ℝ × ℝ) :=
  check (odeint (eccRhs mc q) (F0, e0, gamma0, phase0) t)

end Verif.Inspiral
