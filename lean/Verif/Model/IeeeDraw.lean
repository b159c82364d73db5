import Verif.Model.Ieee

/-!
# Drawing values and percent points in floating-point arithmetic (`enterprise/signals/parameter.py` 208-217, 315-333, 379-394)

The functions that draw values of one number, and the percent-point functions, operation by operation in binary64.  The random numbers are given:
numpy takes a uniform number `k / 2 ** 53` with an integer `k` below `2 ** 53` from its generator.  numpy's and scipy's functions are modelled for
single numbers as in their sources.
-/

namespace Verif.Ieee

open Verif

/-- The random number `k / 2 ** 53` (`random_double` of numpy's Mersenne twister); exact. -/
noncomputable def unit (k : ℕ) : ℝ := (k : ℝ) * (2 : ℝ) ^ (-53 : ℤ)

/-- `a + b * c`, with one rounding if the compiler fuses the two operations (`fused`), as it does for some processors. -/
noncomputable def addMul (A : Arith) (fused : Bool) : Fl → Fl → Fl → Fl
  | .fin x, .fin y, .fin z => if fused then A.round (x + y * z) else add A (.fin x) (mul A (.fin y) (.fin z))
  | a, b, c => add A a (mul A b c)

/-- `np.random.uniform(low, high)` for numbers: `OverflowError` (`other`) if the range is not finite, and otherwise `low + range * u`. -/
noncomputable def rngUniform (A : Arith) (fused : Bool) (k : ℕ) (low high : Fl) : Except PyErr Fl :=
  match sub A high low with
  | .fin w => .ok (addMul A fused low (.fin w) (.fin (unit k)))
  | _ => .error .other

/-- `UniformSampler`, parameter.py 208-211, for one number. -/
noncomputable def uniformSampler (A : Arith) (fused : Bool) (k : ℕ) (pmin pmax : Fl) : Except PyErr Fl := rngUniform A fused k pmin pmax

/-- `sstats.uniform.ppf(value, loc, scale)`: `value * scale + loc`, and NaN unless `scale > 0` and `0 <= value <= 1`. -/
noncomputable def statsPPF (A : Arith) (value loc scale : Fl) : Fl :=
  if lt (.fin 0) scale && le (.fin 0) value && le value (.fin 1) then add A (mul A value scale) loc else .nan

/-- `UniformPPF`, parameter.py 214-217, for one number. -/
noncomputable def uniformPPF (A : Arith) (value pmin pmax : Fl) : Fl := statsPPF A value pmin (sub A pmax pmin)

/-- `np.log10(x)`, with a function `g` for positive numbers. -/
noncomputable def npLog10 (g : ℝ → ℝ) : Fl → Fl
  | .nan => .nan
  | .pinf => .pinf
  | .ninf => .nan
  | .fin x => if 0 < x then .fin (g x) else if x = 0 then .ninf else .nan

/-- `LinearExpSampler`, parameter.py 379-387, for one number. -/
noncomputable def linearExpSampler (A : Arith) (fused : Bool) (L : Lib) (g : ℝ → ℝ) (k : ℕ) (pmin pmax : Fl) : Except PyErr Fl :=
  if le pmax pmin then .error .valueError
  else match rngUniform A fused k (npPow10 L pmin) (npPow10 L pmax) with
    | .error e => .error e
    | .ok x => .ok (npLog10 g x)

/-- `LinearExpPPF`, parameter.py 390-394, for one number. -/
noncomputable def linearExpPPF (A : Arith) (L : Lib) (g : ℝ → ℝ) (value pmin pmax : Fl) : Fl :=
  npLog10 g (statsPPF A value (npPow10 L pmin) (sub A (npPow10 L pmax) (npPow10 L pmin)))

/-- `TruncNormalSampler`, parameter.py 315-333, for one number: the first of the normal numbers `draws` that is not out of bounds; `none` if the
loop has not ended with these. -/
noncomputable def truncNormalSampler (pmin pmax : Fl) : List Fl → Option Fl
  | [] => none
  | samp :: draws => if lt pmax samp || lt samp pmin then truncNormalSampler pmin pmax draws else some samp

end Verif.Ieee
