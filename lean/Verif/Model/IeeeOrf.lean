import Verif.Model.IeeeWhite

/-!
# Overlap reduction functions in floating-point arithmetic

`enterprise/signals/utils.py` 845-870, operation by operation in binary64.
-/

namespace Verif.Ieee

open Verif

/-- `a == b`; false if one is NaN. -/
noncomputable def feq (a b : Fl) : Bool := le a b && le b a

/-- `np.all(pos1 == pos2)`, utils.py 848, 858, 867. -/
noncomputable def allEq (p q : Fin 3 → Fl) : Bool := feq (p 0) (q 0) && feq (p 1) (q 1) && feq (p 2) (q 2)

/-- The factors of `np.dot(pos1, pos2)`. -/
def factors (p q : Fin 3 → Fl) : List (Fl × Fl) := [(p 0, q 0), (p 1, q 1), (p 2, q 2)]

/-- `omc2` of `hd_orf`, utils.py 851, from the value of `np.dot`. -/
noncomputable def omc2 (A : Arith) (d : Fl) : Fl := div A (sub A (.fin 1) d) (.fin 2)

/-- The value of `hd_orf` from `omc2`, utils.py 852. -/
noncomputable def hdValue (A : Arith) (L : Lib) (x : Fl) : Fl :=
  add A (sub A (mul A (mul A (.fin (3 / 2)) x) (npLog L x)) (mul A (.fin (1 / 4)) x)) (.fin (1 / 2))

/-- `v` is a value of `hd_orf`, utils.py 845-852.  The order of the additions of `np.dot` is any order. -/
def IsHd (A : Arith) (L : Lib) (p q : Fin 3 → Fl) (v : Fl) : Prop :=
  if allEq p q then v = .fin 1 else ∃ d, IsDot A (factors p q) d ∧ v = hdValue A L (omc2 A d)

/-- `1 + 1e-5`.  Simplification: the literal is rounded by the rule of the operations. -/
noncomputable def selfValue (A : Arith) : Fl := add A (.fin 1) (A.round (1 / 100000))

/-- `v` is a value of `dipole_orf`, utils.py 855-861. -/
def IsDipole (A : Arith) (p q : Fin 3 → Fl) (v : Fl) : Prop := if allEq p q then v = selfValue A else IsDot A (factors p q) v

/-- `monopole_orf`, utils.py 864-870. -/
noncomputable def monopoleF (A : Arith) (p q : Fin 3 → Fl) : Fl := if allEq p q then selfValue A else .fin 1

end Verif.Ieee
