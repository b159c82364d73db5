import Verif.Model.IeeePhi

/-!
# Fourier design matrices in floating-point arithmetic

`enterprise/signals/gp_bases.py` 45-89, operation by operation in binary64.  Sines and cosines are those of numpy; only their accuracy is assumed.
-/

namespace Verif.Ieee

open Verif

/-- `np.sin` and `np.cos`, accurate to a few units in the last place of one. -/
structure Trig where
  sin : ℝ → ℝ
  cos : ℝ → ℝ
  sin_acc : ∀ x, |x| ≤ 2 ^ 100 → |sin x - Real.sin x| ≤ eps
  cos_acc : ∀ x, |x| ≤ 2 ^ 100 → |cos x - Real.cos x| ≤ eps

/-- `np.sin`. -/
noncomputable def npSin (S : Trig) : Fl → Fl
  | .fin x => .fin (S.sin x)
  | _ => .nan

/-- `np.cos`. -/
noncomputable def npCos (S : Trig) : Fl → Fl
  | .fin x => .fin (S.cos x)
  | _ => .nan

/-- `np.linspace(start, stop, n)` (gp_bases.py 69), as numpy computes it.  Simplification: the case of a step that underflows to zero is left out. -/
noncomputable def linspaceF (A : Arith) (start stop : Fl) (n : Nat) : List Fl :=
  (List.range n).map fun i : Nat =>
    if i + 1 = n ∧ 1 < n then stop else add A (mul A (.fin (i : ℝ)) (div A (sub A stop start) (.fin ((n - 1 : ℕ) : ℝ)))) start

/-- The frequencies, gp_bases.py 48-69.  Simplification: without `modes` and `logf`. -/
noncomputable def freqsF (A : Arith) (n : Nat) (T : Fl) (fmin fmax : Option Fl) : List Fl :=
  if fmin = none ∧ fmax = none then harmonicsF A n T
  else linspaceF A (fmin.getD (div A (.fin 1) T)) (fmax.getD (div A (.fin (n : ℝ)) T)) n

/-- The phase of one TOA and one mode, gp_bases.py 88-89. -/
noncomputable def phaseF (A : Arith) (P : Powers) (t f shift : Fl) : Fl := add A (mul A (mul A (mul A (.fin 2) (.fin P.pi)) t) f) shift

/-- One row of the design matrix, gp_bases.py 85-89: sines in the even columns, cosines in the odd ones. -/
noncomputable def rowF (A : Arith) (P : Powers) (S : Trig) (fs shifts : List Fl) (t : Fl) : List Fl :=
  (List.zipWith (fun f p => [npSin S (phaseF A P t f p), npCos S (phaseF A P t f p)]) fs shifts).flatten

/-- The design matrix by rows, gp_bases.py 45-91, with the phase shifts drawn; `np.zeros(nmodes)` if there are none. -/
noncomputable def designF (A : Arith) (P : Powers) (S : Trig) (toas : List Fl) (n : Nat) (T : Fl) (fmin fmax : Option Fl) (shifts : List Fl) : List (List Fl) :=
  toas.map (rowF A P S (freqsF A n T fmin fmax) shifts)

end Verif.Ieee
