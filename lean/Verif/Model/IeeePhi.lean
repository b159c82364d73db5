import Verif.Model.Ieee
import Verif.Model.Spectra

/-!
# Variances of noise processes in floating-point arithmetic

`enterprise/signals/gp_priors.py` 14-19, 29-38; `gp_bases.py` 56, 82; `white_signals.py` 68-75, 100-102, operation by operation in binary64.  The power
function is that of the system; only its accuracy is assumed.
-/

namespace Verif.Ieee

open Verif

/-- The unit of errors, `2 ** -51`: rounding a number changes its logarithm by less, whatever the rounding rule. -/
noncomputable def eps : ℝ := (2 : ℝ) ^ (-51 : ℤ)

/-- The power function of the system, accurate to a few units in the last place as long as the result is neither huge nor tiny, and `np.pi`. -/
structure Powers where
  pow : ℝ → ℝ → Fl
  acc : ∀ x y, 0 < x → |Real.log (x ^ y)| ≤ 650 → ∃ z, pow x y = .fin z ∧ 0 < z ∧ |Real.log z - Real.log (x ^ y)| ≤ 4 * eps
  pi : ℝ
  pi_acc : 0 < pi ∧ |Real.log pi - Real.log Real.pi| ≤ eps

/-- `x ** y`.  Simplification: NaN unless the base is positive and both are finite; the code has no such powers for the frequencies and parameters
that occur here.  An array to the power 2 is its square by multiplication; this is as accurate as assumed, so the powers are not told apart. -/
noncomputable def npPow (P : Powers) : Fl → Fl → Fl
  | .fin x, .fin y => if 0 < x then P.pow x y else .nan
  | _, _ => .nan

/-- `const.fyr`, constants.py 23-25. -/
noncomputable def fyrF (A : Arith) : Fl := div A (.fin 1) (.fin 31557600)

/-- `1.0 * np.arange(1, nmodes + 1) / T`, gp_bases.py 56. -/
noncomputable def harmonicsF (A : Arith) (n : Nat) (T : Fl) : List Fl := (List.range n).map fun k : Nat => div A (mul A (.fin 1) (.fin ((k : ℝ) + 1))) T

/-- `np.diff(np.concatenate((np.array([0]), f)))`, gp_priors.py 16. -/
noncomputable def stepsF (A : Arith) : Fl → List Fl → List Fl
  | _, [] => []
  | p, x :: xs => sub A x p :: stepsF A x xs

/-- One element of `powerlaw`, gp_priors.py 17-19. -/
noncomputable def powerlawAt (A : Arith) (P : Powers) (log10A gamma f w : Fl) : Fl :=
  mul A (mul A (mul A (div A (div A (npPow P (npPow P (.fin 10) log10A) (.fin 2)) (.fin 12)) (npPow P (.fin P.pi) (.fin 2)))
    (npPow P (fyrF A) (sub A gamma (.fin 3)))) (npPow P f (neg gamma))) w

/-- `powerlaw`, gp_priors.py 14-19. -/
noncomputable def powerlawF (A : Arith) (P : Powers) (f : List Fl) (log10A gamma : Fl) (components : Nat) : Except PyErr (List Fl) :=
  if components = 0 then .error .valueError
  else Spectra.bc (powerlawAt A P log10A gamma) f (Bases.rep components (stepsF A (.fin 0) (Spectra.every components 0 f)))

/-- `KernelMatrix.add` for vectors that fill all columns, utils.py 259-260: two processes on the same basis. -/
noncomputable def addF (A : Arith) (phi other : List Fl) : List Fl := List.zipWith (add A) phi other

/-- `KernelMatrix.inv` for vectors, utils.py 288-289. -/
noncomputable def invF (A : Arith) (phi : List Fl) : List Fl := phi.map (div A (.fin 1))

/-- `10 ** (2 * log10_x)`, for EQUAD (white_signals.py 75, 102), ECORR (white_signals.py 270, 292; gp_signals.py 261, where the weights are one) and one bin of `free_spectrum` (gp_priors.py 38). -/
noncomputable def squaredF (A : Arith) (P : Powers) (x : Fl) : Fl := npPow P (.fin 10) (mul A (.fin 2) x)

/-- One element of `combined_ndiag`, white_signals.py 73-75, and without `log10_t2equad` of `efac_ndiag`, 68-70. -/
noncomputable def ndiagF (A : Arith) (P : Powers) (toaerr efac : Fl) (equad : Option Fl) : Fl :=
  match equad with
  | none => mul A (npPow P efac (.fin 2)) (npPow P toaerr (.fin 2))
  | some q => mul A (npPow P efac (.fin 2)) (add A (npPow P toaerr (.fin 2)) (squaredF A P q))

end Verif.Ieee
