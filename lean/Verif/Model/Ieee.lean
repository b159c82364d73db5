import Mathlib.Analysis.SpecialFunctions.Pow.Real
import Mathlib.Analysis.SpecialFunctions.Sqrt
import Verif.Model.Basic

/-!
# Priors in floating-point arithmetic (`enterprise/signals/parameter.py` 61-74, 201-416; `enterprise/signals/signal_base.py` 684-688)

The other parts of the model compute with real numbers.  Here the prior functions are those of the code evaluated operation by operation in
binary64, with NaN, infinities, rounding, overflow and underflow.  The rounding rule is left open: any monotone rounding to representable numbers
that leaves representable numbers alone.  The sign of zero is not followed: dividing a positive number by zero gives `inf`.
-/

namespace Verif.Ieee

open Verif

/-- A binary64 value (numpy's `float64`). -/
inductive Fl
  | nan | pinf | ninf
  | fin (x : ℝ)

/-- The smallest positive binary64 number, `2 ** -1074`. -/
noncomputable def tiny : ℝ := (2 : ℝ) ^ (-1074 : ℤ)

/-- The largest finite binary64 number. -/
noncomputable def big : ℝ := ((2 ^ 53 - 1 : ℤ) : ℝ) * 2 ^ (2045 : ℕ) * tiny

/-- Representable numbers, if there were no largest one: 53 bits, and multiples of `2 ** -1074`. -/
def Rep (x : ℝ) : Prop := ∃ (n : ℤ) (k : ℕ), |n| ≤ 2 ^ 53 ∧ x = (n : ℝ) * 2 ^ k * tiny

/-- A rounding rule. -/
structure Arith where
  rnd : ℝ → ℝ
  mono : Monotone rnd
  rep : ∀ x, Rep (rnd x)
  fix : ∀ x, Rep x → rnd x = x

/-- The floating-point number for the exact result of an operation: rounded, infinite if that is too large. -/
noncomputable def Arith.round (A : Arith) (x : ℝ) : Fl := if big < A.rnd x then .pinf else if A.rnd x < -big then .ninf else .fin (A.rnd x)

/-- Minus. -/
def neg : Fl → Fl
  | .nan => .nan
  | .pinf => .ninf
  | .ninf => .pinf
  | .fin x => .fin (-x)

/-- `a + b`. -/
noncomputable def add (A : Arith) : Fl → Fl → Fl
  | .nan, _ => .nan
  | _, .nan => .nan
  | .pinf, .ninf => .nan
  | .ninf, .pinf => .nan
  | .pinf, _ => .pinf
  | _, .pinf => .pinf
  | .ninf, _ => .ninf
  | _, .ninf => .ninf
  | .fin x, .fin y => A.round (x + y)

/-- `a - b`. -/
noncomputable def sub (A : Arith) (a b : Fl) : Fl := add A a (neg b)

/-- An infinite product or quotient with the sign of `x`, or NaN for zero. -/
noncomputable def infSign (x : ℝ) : Fl := if 0 < x then .pinf else if x < 0 then .ninf else .nan

/-- `a * b`. -/
noncomputable def mul (A : Arith) : Fl → Fl → Fl
  | .nan, _ => .nan
  | _, .nan => .nan
  | .pinf, .pinf => .pinf
  | .pinf, .ninf => .ninf
  | .ninf, .pinf => .ninf
  | .ninf, .ninf => .pinf
  | .pinf, .fin y => infSign y
  | .ninf, .fin y => infSign (-y)
  | .fin x, .pinf => infSign x
  | .fin x, .ninf => infSign (-x)
  | .fin x, .fin y => A.round (x * y)

/-- `a / b`. -/
noncomputable def div (A : Arith) : Fl → Fl → Fl
  | .nan, _ => .nan
  | _, .nan => .nan
  | .pinf, .pinf => .nan
  | .pinf, .ninf => .nan
  | .ninf, .pinf => .nan
  | .ninf, .ninf => .nan
  | .pinf, .fin y => if y < 0 then .ninf else .pinf
  | .ninf, .fin y => if y < 0 then .pinf else .ninf
  | .fin _, .pinf => .fin 0
  | .fin _, .ninf => .fin 0
  | .fin x, .fin y => if y = 0 then infSign x else A.round (x / y)

/-- `a <= b`; false if one is NaN. -/
noncomputable def le : Fl → Fl → Bool
  | .nan, _ => false
  | _, .nan => false
  | .ninf, _ => true
  | _, .pinf => true
  | .pinf, _ => false
  | _, .ninf => false
  | .fin x, .fin y => decide (x ≤ y)

/-- `a < b`; false if one is NaN. -/
noncomputable def lt : Fl → Fl → Bool
  | .nan, _ => false
  | _, .nan => false
  | .ninf, .ninf => false
  | .pinf, _ => false
  | _, .ninf => false
  | .ninf, _ => true
  | _, .pinf => true
  | .fin x, .fin y => decide (x < y)

/-- A truth value in an arithmetic expression. -/
def ofBool (b : Bool) : Fl := .fin (if b then 1 else 0)

/-- The elementary functions of numpy and its constants on finite arguments.  They need not be rounded correctly; only these bounds are assumed. -/
structure Lib where
  exp : ℝ → Fl
  exp_le : ∀ x ≤ 0, ∃ y, exp x = .fin y ∧ 0 ≤ y ∧ y ≤ 1 ∧ Rep y
  exp_pos : ∀ x, -700 ≤ x → x ≤ 0 → ∃ y, exp x = .fin y ∧ (2 : ℝ) ^ (-1020 : ℤ) ≤ y
  exp_zero : ∀ x ≤ -746, exp x = .fin 0
  log : ℝ → ℝ
  log_rep : ∀ x, Rep x → 0 < x → x ≤ big → |log x| ≤ 1000 ∧ Rep (log x)
  pow10 : ℝ → Fl
  pow_near : ∀ x, |x| ≤ 308 → ∃ y, pow10 x = .fin y ∧ Rep y ∧ (10 : ℝ) ^ x * (1 - 1 / 1000) ≤ y ∧ y ≤ (10 : ℝ) ^ x * (1 + 1 / 1000)
  pow_low : ∀ x ≤ -308, ∃ y, pow10 x = .fin y ∧ 0 ≤ y ∧ y ≤ 1 ∧ Rep y
  pow_over : ∀ x, 309 ≤ x → pow10 x = .pinf
  ln10 : ℝ
  ln10_rep : Rep ln10 ∧ 2 ≤ ln10 ∧ ln10 ≤ 3
  pi : ℝ
  pi_rep : Rep pi ∧ 3 ≤ pi ∧ pi ≤ 4

/-- `np.exp(x)`. -/
def npExp (L : Lib) : Fl → Fl
  | .nan => .nan
  | .pinf => .pinf
  | .ninf => .fin 0
  | .fin x => L.exp x

/-- `np.log(x)`. -/
noncomputable def npLog (L : Lib) : Fl → Fl
  | .nan => .nan
  | .pinf => .pinf
  | .ninf => .nan
  | .fin x => if 0 < x then .fin (L.log x) else if x = 0 then .ninf else .nan

/-- `10 ** x` for a numpy number `x`.  (For a number of Python's type `float` an overflow raises `OverflowError`.) -/
def npPow10 (L : Lib) : Fl → Fl
  | .nan => .nan
  | .pinf => .pinf
  | .ninf => .fin 0
  | .fin x => L.pow10 x

/-- `np.sqrt(x)`, which is rounded correctly. -/
noncomputable def npSqrt (A : Arith) : Fl → Fl
  | .nan => .nan
  | .pinf => .pinf
  | .ninf => .nan
  | .fin x => if x < 0 then .nan else A.round (Real.sqrt x)

/-- `UniformPrior`, parameter.py 201-205, for one number. -/
noncomputable def uniformPrior (A : Arith) (value pmin pmax : Fl) : Fl :=
  div A (ofBool (le pmin value && le value pmax)) (sub A pmax pmin)

/-- `NormalPrior`, parameter.py 242-251, for one number: the second branch. -/
noncomputable def normalPrior (A : Arith) (L : Lib) (value mu sigma : Fl) : Fl :=
  let d := sub A value mu
  let var := mul A sigma sigma
  div A (npExp L (div A (mul A (.fin (-1 / 2)) (mul A d d)) var)) (npSqrt A (mul A (mul A (.fin 2) (.fin L.pi)) var))

/-- `TruncNormalPrior`, parameter.py 299-312, for one number and with `norm` given, as `TruncNormal` (351-362) does for numbers. -/
noncomputable def truncNormalPrior (A : Arith) (L : Lib) (value mu sigma pmin pmax norm : Fl) : Fl :=
  let r := div A (sub A value mu) sigma
  let arg := mul A (.fin (-1 / 2)) (mul A r r)
  mul A (mul A norm (npExp L arg)) (ofBool (lt pmin value && lt value pmax))

/-- `erf(x)` of scipy, with a function `erf` for finite numbers. -/
def npErf (erf : ℝ → ℝ) : Fl → Fl
  | .nan => .nan
  | .pinf => .fin 1
  | .ninf => .fin (-1)
  | .fin x => .fin (erf x)

/-- The `norm` of `TruncNormal`, parameter.py 305-310 and 353-358, for numbers: the same formula in both places. -/
noncomputable def truncNorm (A : Arith) (L : Lib) (erf : ℝ → ℝ) (mu sigma pmin pmax : Fl) : Fl :=
  let half (p : Fl) := npErf erf (div A (div A (sub A p mu) sigma) (npSqrt A (.fin 2)))
  div A (div A (div A (.fin 2) (npSqrt A (mul A (.fin 2) (.fin L.pi)))) sigma) (sub A (half pmax) (half pmin))

/-- `LinearExpPrior`, parameter.py 368-376, for one number. -/
noncomputable def linearExpPrior (A : Arith) (L : Lib) (value pmin pmax : Fl) : Except PyErr Fl :=
  if le pmax pmin then .error .valueError
  else .ok (div A (mul A (mul A (ofBool (le pmin value && le value pmax)) (.fin L.ln10)) (npPow10 L value))
    (sub A (npPow10 L pmax) (npPow10 L pmin)))

/-- The additions of `np.sum`: a tree, as numpy sums in pairs and in blocks. -/
inductive Tree
  | leaf (a : Fl)
  | node (s t : Tree)

/-- The numbers at the leaves. -/
def Tree.leaves : Tree → List Fl
  | .leaf a => [a]
  | .node s t => s.leaves ++ t.leaves

/-- The value of the additions. -/
noncomputable def Tree.eval (A : Arith) : Tree → Fl
  | .leaf a => a
  | .node s t => add A (s.eval A) (t.eval A)

/-- `s` is a value of `np.sum(l)`: zero for no numbers, and otherwise the numbers added in some order and bracketing.  Simplification: which one numpy
takes depends on the number of summands and on the machine. -/
def IsSum (A : Arith) (l : List Fl) (s : Fl) : Prop := (l = [] ∧ s = .fin 0) ∨ ∃ t : Tree, t.leaves.Perm l ∧ t.eval A = s

/-- `Parameter.get_logpdf` with a `prior`, parameter.py 61-74, for the numbers `pdf` that the prior returns: the logarithm, summed for a vector
(`size` given). -/
def IsLogpdf (A : Arith) (L : Lib) (vector : Bool) (pdf : List Fl) (r : Fl) : Prop :=
  if vector then IsSum A (pdf.map (npLog L)) r else ∃ x, pdf = [x] ∧ r = npLog L x

/-- `PTA.get_lnprior`, signal_base.py 684-688, for the values that the priors of the parameters return. -/
def IsLnprior (A : Arith) (L : Lib) (pdfs : List (Bool × List Fl)) (r : Fl) : Prop :=
  ∃ ls : List Fl, List.Forall₂ (fun p l => IsLogpdf A L p.1 p.2 l) pdfs ls ∧ IsSum A ls r

end Verif.Ieee
