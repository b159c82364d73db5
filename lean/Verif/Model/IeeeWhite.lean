import Verif.Model.IeeePhi
import Verif.Model.IeeeDraw

/-!
# The likelihood of white noise in floating-point arithmetic

`enterprise/signals/signal_base.py` 196-214, 246-249, 264, 350-351, 997-1004, 1123-1133, operation by operation in binary64, for pulsars with white noise
only.
-/

namespace Verif.Ieee

open Verif

/-- The operations of `np.dot`: products added in any order and bracketing, fused with the addition or not. -/
inductive DotTree
  | prod (x y : Fl)
  | fma (t : DotTree) (x y : Fl)
  | node (s t : DotTree)

/-- The pairs of factors. -/
def DotTree.leaves : DotTree → List (Fl × Fl)
  | .prod x y => [(x, y)]
  | .fma t x y => t.leaves ++ [(x, y)]
  | .node s t => s.leaves ++ t.leaves

/-- The value of the operations. -/
noncomputable def DotTree.eval (A : Arith) : DotTree → Fl
  | .prod x y => mul A x y
  | .fma t x y => addMul A true (t.eval A) x y
  | .node s t => add A (s.eval A) (t.eval A)

/-- `s` is a value of `np.dot` of two vectors, given as a list of pairs: zero for no numbers.  Simplification: which order the library takes depends on the
machine. -/
def IsDot (A : Arith) (l : List (Fl × Fl)) (s : Fl) : Prop := (l = [] ∧ s = .fin 0) ∨ ∃ t : DotTree, t.leaves.Perm l ∧ t.eval A = s

/-- `q` and `ld` are the numbers of `SignalCollection.get_rNr_logdet`, signal_base.py 997-1000 with `ndarray_alt.solve`, 1123-1133, for TOAs with
residuals and variances. -/
def IsChi (A : Arith) (L : Lib) (toas : List (Fl × Fl)) (q ld : Fl) : Prop :=
  IsDot A (toas.map fun p => (p.1, div A p.1 p.2)) q ∧ IsSum A (toas.map fun p => npLog L p.2) ld

/-- `v` is a value of `LogLikelihood.__call__`, signal_base.py 200, 210, 213, 246-249, 264, for pulsars without Gaussian processes; there `get_TNr`
returns `None`.  The sum of the extra terms of the signals is zero (158-160). -/
def IsLnlike (A : Arith) (L : Lib) (psrs : List (List (Fl × Fl))) (v : Fl) : Prop :=
  ∃ qs : List (Fl × Fl), List.Forall₂ (fun p q => IsChi A L p q.1 q.2) psrs qs ∧
    ∃ s, IsSum A (qs.flatMap fun q => [q.1, q.2]) s ∧ v = add A (add A (.fin 0) (mul A (.fin (-(1 / 2))) s)) (.fin 0)

end Verif.Ieee
