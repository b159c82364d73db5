import Mathlib.Analysis.SpecialFunctions.Log.Base
import Mathlib.Analysis.SpecialFunctions.Pow.Real
import Mathlib.Analysis.SpecialFunctions.Trigonometric.Basic
import Mathlib.LinearAlgebra.Matrix.NonsingularInverse
import Mathlib.MeasureTheory.Integral.IntervalIntegral.Basic
import Verif.Model.Basic

/-!
# Prior densities, quantile functions and samplers

`enterprise/signals/parameter.py` 61-114 (`Parameter.get_logpdf`, `get_pdf`, `get_ppf`) and 201-416
(`Uniform`, `Normal`, `TruncNormal`, `LinearExp`).  Numbers are exact.
-/

namespace Verif.Priors

open Verif

/-! ## numpy values with at most one axis -/

/-- A number, or a one-dimensional array (numpy). -/
inductive Arr (α : Type)
  | num (x : α)
  | vec (xs : List α)
  deriving DecidableEq

variable {α β γ : Type}

/-- An elementwise function of one argument (numpy). -/
def Arr.map (f : α → β) : Arr α → Arr β
  | .num x => .num (f x)
  | .vec xs => .vec (xs.map f)

/-- An elementwise operator of two arguments with numpy's broadcasting: a number or an array of length
one is repeated, other lengths have to agree. -/
def Arr.map2 (f : α → β → γ) : Arr α → Arr β → Except PyErr (Arr γ)
  | .num x, .num y => .ok (.num (f x y))
  | .num x, .vec ys => .ok (.vec (ys.map (f x)))
  | .vec xs, .num y => .ok (.vec (xs.map (f · y)))
  | .vec xs, .vec ys =>
    if xs.length = ys.length then .ok (.vec (List.zipWith f xs ys))
    else match xs, ys with
      | [x], ys => .ok (.vec (ys.map (f x)))
      | xs, [y] => .ok (.vec (xs.map (f · y)))
      | _, _ => .error .valueError

/-- The entries. -/
def Arr.entries : Arr α → List α
  | .num x => [x]
  | .vec xs => xs

/-- `np.any`. -/
def Arr.any (m : Arr Bool) : Bool := m.entries.any id

/-! ## Uniform -/

section
variable {K : Type} [Field K] [LinearOrder K]

/-- A boolean in an arithmetic expression. -/
def ofBool (b : Bool) : K := if b then 1 else 0

/-- `UniformPrior` (parameter.py 201-205).  Simplification: exact division; with `pmax = pmin` numpy
divides by zero, here that gives zero. -/
def uniformPrior (value pmin pmax : Arr K) : Except PyErr (Arr K) := do
  let lo ← Arr.map2 (fun v a => decide (a ≤ v)) value pmin
  let hi ← Arr.map2 (fun v b => decide (v ≤ b)) value pmax
  let inside ← Arr.map2 (fun p q => p && q) lo hi
  let width ← Arr.map2 (fun b a => b - a) pmax pmin
  Arr.map2 (fun m w => ofBool m / w) inside width

/-- One entry of `scipy.stats.uniform.ppf(q, loc, scale)`: `none` is nan, returned for a scale that is
not positive and for `q` outside the unit interval (library semantics). -/
def scipyUniformPpf (q loc scale : K) : Option K :=
  if 0 < scale ∧ 0 ≤ q ∧ q ≤ 1 then some (q * scale + loc) else none

/-- `UniformPPF` (parameter.py 214-217). -/
def uniformPPF (value pmin pmax : Arr K) : Except PyErr (Arr (Option K)) := do
  let scale ← Arr.map2 (fun b a => b - a) pmax pmin
  let f ← Arr.map2 (fun q loc => scipyUniformPpf q loc) value pmin
  Arr.map2 (fun g s => g s) f scale

/-- `np.random.uniform(low, high)`, one number, for one draw `u` of the standard generator on [0,1)
(library semantics). -/
def rngUniform (u low high : K) : K := low + (high - low) * u

/-- `UniformSampler` (parameter.py 208-211) for numbers `pmin`, `pmax` and `size=None`. -/
def uniformSampler (u pmin pmax : K) : K := rngUniform u pmin pmax

/-- `np.random.uniform(low, high, size=us.length)` for the draws `us` of the standard generator (library semantics): bounds are
numbers or vectors that can be broadcast to that length, otherwise a ValueError. -/
def rngUniformVec (us : List K) (low high : Arr K) : Except PyErr (Arr K) := do
  let f ← Arr.map2 (fun u a => rngUniform u a) (.vec us) low
  let r ← Arr.map2 (fun g b => g b) f high
  if r.entries.length = us.length then .ok r else .error .valueError

/-- `UniformSampler` (parameter.py 208-211) for a vector parameter, `size = us.length`. -/
def uniformSamplerVec (us : List K) (pmin pmax : Arr K) : Except PyErr (Arr K) := rngUniformVec us pmin pmax

end

/-! ## LinearExp -/

section
noncomputable section

/-- `10**x`. -/
def pow10 (x : ℝ) : ℝ := (10 : ℝ) ^ x

/-- `np.log10` of a positive number; nan stays nan. -/
def log10 (x : ℝ) : ℝ := Real.logb 10 x

/-- The check of `LinearExpPrior` and `LinearExpSampler` (parameter.py 371-372, 382-383). -/
def linearExpCheck (pmin pmax : Arr ℝ) : Except PyErr Unit := do
  let bad ← Arr.map2 (fun a b => decide (b ≤ a)) pmin pmax
  if bad.any then .error .valueError else .ok ()

/-- `LinearExpPrior` (parameter.py 368-376). -/
def linearExpPrior (value pmin pmax : Arr ℝ) : Except PyErr (Arr ℝ) := do
  linearExpCheck pmin pmax
  let lo ← Arr.map2 (fun a v => decide (a ≤ v)) pmin value
  let hi ← Arr.map2 (fun v b => decide (v ≤ b)) value pmax
  let inside ← Arr.map2 (fun p q => p && q) lo hi
  let top ← Arr.map2 (fun m v => ofBool m * Real.log 10 * pow10 v) inside value
  let width ← Arr.map2 (fun b a => pow10 b - pow10 a) pmax pmin
  Arr.map2 (fun x y => x / y) top width

/-- `LinearExpSampler` (parameter.py 379-387) for numbers and `size=None`, for one draw `u`. -/
def linearExpSampler (u pmin pmax : ℝ) : Except PyErr ℝ := do
  linearExpCheck (.num pmin) (.num pmax)
  .ok (log10 (rngUniform u (pow10 pmin) (pow10 pmax)))

/-- `LinearExpSampler` (parameter.py 379-387) for a vector parameter, `size = us.length`. -/
def linearExpSamplerVec (us : List ℝ) (pmin pmax : Arr ℝ) : Except PyErr (Arr ℝ) := do
  linearExpCheck pmin pmax
  let r ← rngUniformVec us (pmin.map pow10) (pmax.map pow10)
  .ok (r.map log10)

/-- `LinearExpPPF` (parameter.py 390-394): no check of the bounds. -/
def linearExpPPF (value pmin pmax : Arr ℝ) : Except PyErr (Arr (Option ℝ)) := do
  let scale ← Arr.map2 (fun b a => pow10 b - pow10 a) pmax pmin
  let f ← Arr.map2 (fun q a => scipyUniformPpf q (pow10 a)) value pmin
  let ev ← Arr.map2 (fun g s => g s) f scale
  .ok (ev.map (Option.map log10))

/-! ## Normal -/

/-- `NormalPrior` with a `sigma` that is not a matrix (parameter.py 251). -/
def normalPrior (value mu sigma : Arr ℝ) : Except PyErr (Arr ℝ) := do
  let dx ← Arr.map2 (fun v m => v - m) value mu
  let e ← Arr.map2 (fun d s => Real.exp (-(1 / 2) * d ^ 2 / s ^ 2)) dx sigma
  Arr.map2 (fun x s => x / Real.sqrt (2 * Real.pi * s ^ 2)) e sigma

/-- `NormalPrior` with a covariance matrix (parameter.py 247-249); `np.linalg.inv` raises for a singular
matrix. -/
def normalPriorMat {n : ℕ} (value mu : Fin n → ℝ) (sigma : Matrix (Fin n) (Fin n) ℝ) : Except PyErr ℝ :=
  open Classical in
  if sigma.det = 0 then .error .linAlgError
  else .ok (Real.exp (-(1 / 2) * (value - mu) ⬝ᵥ (sigma⁻¹.mulVec (value - mu))) /
    Real.sqrt ((2 * Real.pi) • sigma).det)

/-! ## TruncNormal -/

/-- `scipy.special.erf` (library semantics: the error function). -/
def erf (x : ℝ) : ℝ := 2 / Real.sqrt Real.pi * ∫ t in (0 : ℝ)..x, Real.exp (-t ^ 2)

/-- The normalisation of `TruncNormal` (parameter.py 305-310, 353-358). -/
def truncNorm (mu sigma pmin pmax : ℝ) : ℝ :=
  2 / Real.sqrt (2 * Real.pi) / sigma /
    (erf ((pmax - mu) / sigma / Real.sqrt 2) - erf ((pmin - mu) / sigma / Real.sqrt 2))

/-- `TruncNormalPrior` (parameter.py 299-312) for numbers; vectors are handled elementwise. -/
def truncNormalPrior (value mu sigma pmin pmax : ℝ) (norm : Option ℝ) : ℝ :=
  let n := norm.getD (truncNorm mu sigma pmin pmax)
  let arg := -(1 / 2) * ((value - mu) / sigma) ^ 2
  n * Real.exp arg * ofBool (decide (pmin < value) && decide (value < pmax))

/-- The `norm` that the class factory `TruncNormal` stores (parameter.py 351-360): computed from numbers,
`None` (after a `TypeError`) when an argument is a Parameter class; `none` stands for such an argument. -/
def truncClassNorm (mu sigma pmin pmax : Option ℝ) : Option ℝ :=
  match mu, sigma, pmin, pmax with
  | some m, some s, some a, some b => some (truncNorm m s a b)
  | _, _, _, _ => none

/-- The density of a `TruncNormal` parameter: `_prior` called with the values of the Parameter arguments
filled in (parameter.py 362). -/
def truncNormalPdf (value : ℝ) (mu sigma pmin pmax : ℝ) (isPar : Fin 4 → Bool) : ℝ :=
  let arg := fun (i : Fin 4) (x : ℝ) => if isPar i then none else some x
  truncNormalPrior value mu sigma pmin pmax
    (truncClassNorm (arg 0 mu) (arg 1 sigma) (arg 2 pmin) (arg 3 pmax))

end
end

/-! ## The sampler of TruncNormal -/

section
variable {K : Type} [Field K] [LinearOrder K]

/-- `np.random.normal(mu, sigma)` for numbers: the next number `z r` of the stream of standard normals
(library semantics, including the error for a negative scale). -/
def drawOne (z : ℕ → K) (r : ℕ) (mu sigma : K) : Except PyErr K :=
  if sigma < 0 then .error .valueError else .ok (mu + sigma * z r)

/-- Can an argument be broadcast to length `n` (numpy)? -/
def drawFits (n : ℕ) : Arr K → Bool
  | .num _ => true
  | .vec xs => xs.length = n || xs.length = 1

/-- Its entry `i` after broadcasting. -/
def drawAt (i : ℕ) : Arr K → K
  | .num x => x
  | .vec xs => if xs.length = 1 then xs.getD 0 0 else xs.getD i 0

/-- `np.random.normal(mu, sigma, size=n)` (library semantics): `n` numbers of the stream; vector
arguments must have that length. -/
def drawVec (z : ℕ → K) (r : ℕ) (mu sigma : Arr K) (n : ℕ) : Except PyErr (List K) :=
  if !(drawFits n mu && drawFits n sigma) then .error .valueError
  else if sigma.entries.any (· < 0) then .error .valueError
  else .ok ((List.range n).map fun i => drawAt i mu + drawAt i sigma * z (r + i))

/-- The number of components of `np.random.normal(mu, sigma, None)`; `none` for a plain number. -/
def drawLen (mu sigma : Arr K) : Option ℕ :=
  match mu, sigma with
  | .num _, .num _ => none
  | .vec xs, .num _ => some xs.length
  | .num _, .vec ys => some ys.length
  | .vec xs, .vec ys => some (if xs.length = 1 then ys.length else xs.length)

/-- `np.logical_or(samp > pmax, samp < pmin)` (parameter.py 323, 329). -/
def outMask (samp : List K) (pmin pmax : Arr K) : Except PyErr (List Bool) := do
  let hi ← Arr.map2 (fun s b => decide (b < s)) (.vec samp) pmax
  let lo ← Arr.map2 (fun s a => decide (s < a)) (.vec samp) pmin
  let m ← Arr.map2 (fun p q => p || q) hi lo
  .ok m.entries

/-- `xs[mask]` (numpy). -/
def pick : List K → List Bool → List K
  | x :: xs, b :: bs => if b then x :: pick xs bs else pick xs bs
  | _, _ => []

/-- `samp[mask] = new` (numpy). -/
def put : List K → List Bool → List K → List K
  | x :: xs, b :: bs, new =>
    if b then match new with
      | y :: ys => y :: put xs bs ys
      | [] => x :: put xs bs []
    else x :: put xs bs new
  | xs, _, _ => xs

/-- `a[mask]` for `mu` or `sigma`: an array of another length raises, a number has no items. -/
def pickArr (mask : List Bool) : Arr K → Except PyErr (List K)
  | .num _ => .error .typeError
  | .vec xs => if xs.length = mask.length then .ok (pick xs mask) else .error .indexError

/-- The new values drawn for the components in `mask` (parameter.py 325-328). -/
def redraw (z : ℕ → K) (r : ℕ) (mu sigma : Arr K) (mask : List Bool) : Except PyErr (List K) :=
  let n := mask.count true
  match mu with
  | .vec _ => do
    let m ← pickArr mask mu
    let s ← pickArr mask sigma
    drawVec z r (.vec m) (.vec s) n
  | .num _ => drawVec z r mu sigma n

/-- The loop for arrays (parameter.py 323-329), at most `fuel` rounds; `none` when it has not ended by
then.  The stream position goes up by the number of values drawn. -/
def loopVec (z : ℕ → K) (mu sigma pmin pmax : Arr K) : ℕ → ℕ → List K → Except PyErr (Option (List K))
  | fuel, r, samp => do
    let mask ← outMask samp pmin pmax
    if mask.any id then
      match fuel with
      | 0 => .ok none
      | fuel + 1 =>
        if mask.length = samp.length then do
          let new ← redraw z r mu sigma mask
          loopVec z mu sigma pmin pmax fuel (r + mask.count true) (put samp mask new)
        else .error .indexError
    else .ok (some samp)

/-- The truth value of a comparison with a bound; an array of several values has none. -/
def boundOf : Arr K → Except PyErr K
  | .num x => .ok x
  | .vec [x] => .ok x
  | .vec _ => .error .valueError

/-- The loop for a number (parameter.py 331-332). -/
def loopOne (z : ℕ → K) (mu sigma pmin pmax : K) : ℕ → ℕ → K → Except PyErr (Option K)
  | fuel, r, samp =>
    if pmax < samp ∨ samp < pmin then
      match fuel with
      | 0 => .ok none
      | fuel + 1 => do
        let s ← drawOne z r mu sigma
        loopOne z mu sigma pmin pmax fuel (r + 1) s
    else .ok (some samp)

/-- `TruncNormalSampler` (parameter.py 315-333) with the stream of standard normals `z` and at most `fuel`
rounds of the loop; `none` when it has not returned by then.  Simplification: `mu` and the others are
numbers or numpy arrays, not lists. -/
def truncNormalSampler (z : ℕ → K) (mu sigma pmin pmax : Arr K) (size : Option ℕ) (fuel : ℕ) :
    Except PyErr (Option (Arr K)) :=
  match size, drawLen mu sigma with
  | none, none =>
    match mu, sigma with
    | .num m, .num s => do
      let x ← drawOne z 0 m s
      let b ← boundOf pmax
      let a ← boundOf pmin
      let y ← loopOne z m s a b fuel 1 x
      .ok (y.map Arr.num)
    | _, _ => .error .other
  | none, some n => do
    let xs ← drawVec z 0 mu sigma n
    let ys ← loopVec z mu sigma pmin pmax fuel n xs
    .ok (ys.map Arr.vec)
  | some n, _ => do
    let xs ← drawVec z 0 mu sigma n
    let ys ← loopVec z mu sigma pmin pmax fuel n xs
    .ok (ys.map Arr.vec)

end

/-! ## Parameters -/

noncomputable section

/-- `np.log` of a density: minus infinity (`⊥`) at zero.  A negative argument, nan in numpy, is not a
density. -/
def npLog (x : ℝ) : WithBot ℝ := open Classical in if x = 0 then ⊥ else (Real.log x : ℝ)

/-- `np.exp` of a log density. -/
def npExp : WithBot ℝ → ℝ
  | ⊥ => 0
  | (x : ℝ) => Real.exp x

/-- The `prior` or `logprior` of a parameter, hyperparameters filled in (parameter.py 46-52). -/
inductive Density
  | prior (f : Arr ℝ → Except PyErr (Arr ℝ))
  | logprior (f : Arr ℝ → Except PyErr (Arr (WithBot ℝ)))

/-- `Parameter.get_logpdf(value)` (parameter.py 61-74).  An array result of a parameter without size is
returned as it is. -/
def getLogpdf (size : Option ℕ) (d : Density) (value : Arr ℝ) : Except PyErr (Arr (WithBot ℝ)) := do
  let logpdf ← match d with
    | .prior f => do
      let p ← f value
      pure (p.map npLog)
    | .logprior f => f value
  match size with
  | none => .ok logpdf
  | some _ => .ok (.num logpdf.entries.sum)

/-- `Parameter.get_pdf(value)` (parameter.py 76-89). -/
def getPdf (size : Option ℕ) (d : Density) (value : Arr ℝ) : Except PyErr (Arr ℝ) := do
  let pdf ← match d with
    | .prior f => f value
    | .logprior f => do
      let p ← f value
      pure (p.map npExp)
  match size with
  | none => .ok pdf
  | some _ => .ok (.num pdf.entries.prod)

end

end Verif.Priors
