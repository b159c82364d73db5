import Mathlib.Analysis.SpecialFunctions.Gamma.Basic
import Verif.Model.Bases

/-!
# Power spectra of Gaussian processes

`enterprise/signals/gp_priors.py`.  Numbers are exact reals; the quotients and powers of a frequency that is
not positive, where numpy gives infinities or nan, are numbers here.
-/

namespace Verif.Spectra

open Verif Verif.Bases

/-- `const.fyr` (constants.py 23-25): one over the Julian year. -/
noncomputable def fyr : ℝ := 1 / 31557600

/-- `f[::n]` for `n > 0`, taken from the `k`-th element on. -/
def every {α : Type} (n : Nat) : Nat → List α → List α
  | _, [] => []
  | 0, x :: xs => x :: every n (n - 1) xs
  | k + 1, _ :: xs => every n k xs

/-- `np.diff(np.concatenate((np.array([0]), f)))`. -/
def steps : ℝ → List ℝ → List ℝ
  | _, [] => []
  | p, x :: xs => (x - p) :: steps x xs

/-- An elementwise operator on two vectors with numpy's broadcasting. -/
def bc {α β γ : Type} (f : α → β → γ) (xs : List α) (ys : List β) : Except PyErr (List γ) :=
  if xs.length = ys.length then .ok (List.zipWith f xs ys)
  else match xs, ys with
    | [x], ys => .ok (ys.map (f x))
    | xs, [y] => .ok (xs.map (f · y))
    | _, _ => .error .valueError

/-- The widths `np.repeat(df, components)` of the frequency bins (gp_priors.py 16-18).  A step of zero
raises.  Simplification: `components` is not negative. -/
def widths (components : Nat) (f : List ℝ) : Except PyErr (List ℝ) :=
  if components = 0 then .error .valueError
  else .ok (rep components (steps 0 (every components 0 f)))

/-- `powerlaw` (gp_priors.py 14-19). -/
noncomputable def powerlaw (f : List ℝ) (log10A gamma : ℝ) (components : Nat) : Except PyErr (List ℝ) := do
  let df ← widths components f
  bc (fun x w => ((10 : ℝ) ^ log10A) ^ 2 / 12 / Real.pi ^ 2 * fyr ^ (gamma - 3) * x ^ (-gamma) * w) f df

/-- `turnover` (gp_priors.py 22-26). -/
noncomputable def turnover (f : List ℝ) (log10A gamma lf0 kappa beta : ℝ) : Except PyErr (List ℝ) := do
  let df ← widths 2 f
  bc (fun x w =>
    ((10 : ℝ) ^ log10A * (x / fyr) ^ ((3 - gamma) / 2) / (1 + ((10 : ℝ) ^ lf0 / x) ^ kappa) ^ beta) ^ 2
      / 12 / Real.pi ^ 2 / x ^ 3 * w) f df

/-- `free_spectrum` (gp_priors.py 29-38); `f` is not used. -/
noncomputable def freeSpectrum (log10rho : List ℝ) : List ℝ := rep 2 (log10rho.map fun r => (10 : ℝ) ^ (2 * r))

/-- `t_process` (gp_priors.py 41-48). -/
noncomputable def tProcess (f : List ℝ) (log10A gamma : ℝ) (alphas : Option (List ℝ)) : Except PyErr (List ℝ) := do
  let al := match alphas with
    | none => f.map fun _ => 1
    | some a => rep 2 a
  let p ← powerlaw f log10A gamma 2
  bc (fun x y => x * y) p al

/-- `np.rint`: to the nearest integer, halves to the even one. -/
noncomputable def rint (x : ℝ) : Int :=
  if x - ⌊x⌋ < 1 / 2 then ⌊x⌋
  else if 1 / 2 < x - ⌊x⌋ then ⌊x⌋ + 1
  else if ⌊x⌋ % 2 = 0 then ⌊x⌋ else ⌊x⌋ + 1

/-- `l[i] = v` for an array: a negative index counts from the end, others out of range raise. -/
def setItem (l : List ℝ) (i : Int) (v : ℝ) : Except PyErr (List ℝ) :=
  if 0 ≤ i ∧ i < l.length then .ok (l.set i.toNat v)
  else if i < 0 ∧ -(l.length : Int) ≤ i then .ok (l.set (i + l.length).toNat v)
  else .error .indexError

/-- The argument `alphas_adapt` with `nfreq` (gp_priors.py 57-65).  Simplification: with `nfreq` it is a
number. -/
inductive Adapt
  | none
  | vec (a : List ℝ)
  | one (a nfreq : ℝ)

/-- `t_process_adapt` (gp_priors.py 51-67). -/
noncomputable def tProcessAdapt (f : List ℝ) (log10A gamma : ℝ) (ad : Adapt) : Except PyErr (List ℝ) := do
  let al ← match ad with
    | .none => .ok (f.map fun _ => 1)
    | .vec a => .ok (rep 2 a)
    | .one a n => do
      let l ← setItem (f.map fun _ => 1) (2 * rint n) a
      setItem l (2 * rint n + 1) a
  let p ← powerlaw f log10A gamma 2
  bc (fun x y => x * y) p al

/-- `InvGammaPrior` (gp_priors.py 70-72): `scipy.stats.invgamma.pdf(value, alpha, scale=gamma)` of one number
with `alpha` and `gamma` positive (library semantics). -/
noncomputable def invGammaPrior (value alpha gamma : ℝ) : ℝ :=
  if 0 < value then (value / gamma) ^ (-alpha - 1) / Real.Gamma alpha * Real.exp (-(1 / (value / gamma))) / gamma
  else 0

/-- `turnover_knee` (gp_priors.py 98-118). -/
noncomputable def turnoverKnee (f : List ℝ) (log10A gamma lfb lfk kappa delta : ℝ) : Except PyErr (List ℝ) := do
  let df ← widths 2 f
  bc (fun x w =>
    ((10 : ℝ) ^ log10A * (x / fyr) ^ ((3 - gamma) / 2) * (1 + x / (10 : ℝ) ^ lfk) ^ delta
      / Real.sqrt (1 + ((10 : ℝ) ^ lfb / x) ^ kappa)) ^ 2 / 12 / Real.pi ^ 2 / x ^ 3 * w) f df

/-- `broken_powerlaw` (gp_priors.py 120-139). -/
noncomputable def brokenPowerlaw (f : List ℝ) (log10A gamma delta log10fb kappa : ℝ) : Except PyErr (List ℝ) := do
  let df ← widths 2 f
  bc (fun x w =>
    ((10 : ℝ) ^ log10A * (x / fyr) ^ ((3 - gamma) / 2)
      * (1 + (x / (10 : ℝ) ^ log10fb) ^ (1 / kappa)) ^ (kappa * (gamma - delta) / 2)) ^ 2
      / 12 / Real.pi ^ 2 / x ^ 3 * w) f df

/-- `powerlaw_genmodes` (gp_priors.py 142-150). -/
noncomputable def powerlawGenmodes (f : List ℝ) (log10A gamma : ℝ) (components : Nat) (wgts : Option (List ℝ)) :
    Except PyErr (List ℝ) := do
  let df ← match wgts with
    | some w => .ok (rep components (w.map fun x => x ^ 2))
    | none => widths components f
  bc (fun x w => ((10 : ℝ) ^ log10A) ^ 2 / 12 / Real.pi ^ 2 * fyr ^ (gamma - 3) * x ^ (-gamma) * w) f df

/-- `infinitepower` (gp_priors.py 153-155). -/
noncomputable def infinitepower (f : List ℝ) : List ℝ := f.map fun _ => 10 ^ 40

end Verif.Spectra
