import Mathlib.Analysis.SpecialFunctions.Trigonometric.Basic
import Mathlib.Analysis.SpecialFunctions.Pow.Real
import Mathlib.Algebra.Order.Floor.Ring
import Mathlib.LinearAlgebra.Matrix.Notation
import Mathlib.Data.Complex.Basic
import Verif.Model.Orf

/-!
# Anisotropic backgrounds

`enterprise/signals/anis_coefficients.py`.  Numbers are exact reals and complex numbers.  What the code takes from healpy
appears as follows: `hp.Alm.getidx` and `hp.Alm.getsize` by their formulas, the pixel directions and the transform
`hp.alm2map` as parameters.
-/

namespace Verif.Anis

open Verif Verif.Orf Matrix

/-- `hp.Alm.getidx(lmax, l, m)`, a healpy function called on anis_coefficients.py 131 and 165. -/
def almIdx (lmax l m : Int) : Int := m * (2 * lmax + 1 - m) / 2 + l

/-- `hp.Alm.getsize(lmax)`, a healpy function called on anis_coefficients.py 125. -/
def almSize (lmax : Int) : Int := lmax * (2 * lmax + 1 - lmax) / 2 + lmax + 1

/-- The two loops `for ll in range(0, maxl + 1): for mm in range(-ll, ll + 1)` (anis_coefficients.py 129-130, 163-164,
323-324) with `clmindex`. -/
def loops (maxl : Int) : List ((Nat × Int) × Nat) :=
  ((List.range (maxl + 1).toNat).flatMap fun l => (List.range (2 * l + 1)).map fun (k : Nat) => (l, (k : Int) - l)).zipIdx

/-- What an entry of `clm` adds to an entry of `alm` (anis_coefficients.py 133-138). -/
noncomputable def contrib (m : Int) (c : ℝ) : ℂ :=
  if m = 0 then (c : ℂ)
  else if m < 0 then -(Complex.I * c / (Real.sqrt 2 : ℂ))
  else (c : ℂ) / (Real.sqrt 2 : ℂ)

/-- `l[i]`. -/
def item {α : Type} (l : List α) (i : Nat) : Except PyErr α :=
  match l[i]? with
  | some x => .ok x
  | none => .error .indexError

/-- `almFromClm` (anis_coefficients.py 116-142).  `int(np.sqrt(n))` is the integer square root. -/
noncomputable def almFromClm (clm : List ℝ) : Except PyErr (List ℂ) :=
  let maxl : Int := (Nat.sqrt clm.length : Int) - 1
  (loops maxl).foldlM (fun alm x => do
    let i := (almIdx maxl x.1.1 |x.1.2|).toNat
    let c ← item clm x.2
    let v ← item alm i
    return alm.set i (v + contrib x.1.2 c)) (List.replicate (almSize maxl).toNat (0 : ℂ))

/-- `clmFromAlm` (anis_coefficients.py 145-176).  The loop fills `clm` from its first entry to its last. -/
noncomputable def clmFromAlm (alm : List ℂ) : Except PyErr (List ℝ) :=
  let nalm : ℝ := alm.length
  let maxl : Int := ⌊Real.sqrt (9 - 4 * (2 - 2 * nalm)) * 0.5 - 1.5⌋
  if (alm.length : Int) ≠ ⌊(0.5 : ℝ) * (maxl + 1) * (maxl + 2)⌋ then .error .valueError
  else (loops maxl).mapM fun x => do
    let a ← item alm (almIdx maxl x.1.1 |x.1.2|).toNat
    return if x.1.2 = 0 then a.re else if x.1.2 < 0 then -a.im * Real.sqrt 2 else a.re * Real.sqrt 2

variable {P N : Nat}

/-- A pulsar's unit vector (anis_coefficients.py 90). -/
noncomputable def psrVec (phi theta : ℝ) : Pos := ![Real.cos phi * Real.sin theta, Real.sin phi * Real.sin theta, Real.cos theta]

/-- `createSignalResponse_pol` (anis_coefficients.py 69-113) for one pulsar and one pixel of `npixels`.  Simplification:
where the denominator is zero, where numpy gives nan or infinities, the quotient is zero. -/
noncomputable def responsePol (npixels : Nat) (pphi ptheta gwphi gwtheta : ℝ) (plus norm : Bool) : ℝ :=
  let omega : Pos := ![-Real.sin gwtheta * Real.cos gwphi, -Real.sin gwtheta * Real.sin gwphi, -Real.cos gwtheta]
  let mhat : Pos := ![-Real.sin gwphi, Real.cos gwphi, 0]
  let nhat : Pos := ![-Real.cos gwphi * Real.cos gwtheta, -Real.cos gwtheta * Real.sin gwphi, Real.sin gwtheta]
  let p := psrVec pphi ptheta
  let c := if norm then Real.sqrt 1.5 / Real.sqrt npixels else 1 / Real.sqrt npixels
  if plus then 0.5 * c * (dot nhat p ^ 2 - dot mhat p ^ 2) / (1 - dot omega p)
  else c * dot mhat p * dot nhat p / (1 - dot omega p)

/-- `signalResponse_fast` and `createSignalResponse` (anis_coefficients.py 34-66): the two polarisations of a pixel are in
neighbouring columns. -/
noncomputable def response (ptheta pphi : Fin P → ℝ) (gwtheta gwphi : Fin N → ℝ) : Matrix (Fin P) (Fin (N * 2)) ℝ :=
  of fun a j => if j.modNat = 0 then responsePol N (pphi a) (ptheta a) (gwphi j.divNat) (gwtheta j.divNat) true true
    else responsePol N (pphi a) (ptheta a) (gwphi j.divNat) (gwtheta j.divNat) false true

/-- `np.array([h, h]).T.flatten()` (anis_coefficients.py 287, 360). -/
def double (h : Fin N → ℝ) : Fin (N * 2) → ℝ := fun j => h j.divNat

/-- `orfFromMap_fast` with the response `F_e` (anis_coefficients.py 334-366); also the end of `getCov` (287-293).
Not modelled: arrays whose shapes do not match. -/
def orfFromMap (F : Matrix (Fin P) (Fin (N * 2)) ℝ) (h : Fin N → ℝ) : Matrix (Fin P) (Fin P) ℝ :=
  let hdcov := (of fun a j => F a j * double h j) * Fᵀ
  hdcov + diagonal fun a => hdcov a a

/-- `getCov` (anis_coefficients.py 271-293) with `mapFromClm_fast` (179-196); `alm2map` is healpy's transform. -/
noncomputable def getCov (alm2map : Int → List ℂ → Fin N → ℝ) (clm : List ℝ) (F : Matrix (Fin P) (Fin (N * 2)) ℝ) :
    Except PyErr (Matrix (Fin P) (Fin P) ℝ) := do
  let alm ← almFromClm clm
  .ok (orfFromMap F (alm2map ((Nat.sqrt clm.length : Int) - 1) alm))

/-- `anis_basis` (anis_coefficients.py 296-331). -/
noncomputable def anisBasis (alm2map : Int → List ℂ → Fin N → ℝ) (F : Matrix (Fin P) (Fin (N * 2)) ℝ) (lmax : Nat) :
    Except PyErr (List (Matrix (Fin P) (Fin P) ℝ)) :=
  (loops lmax).mapM fun x => getCov alm2map ((List.replicate ((lmax + 1) ^ 2) 0).set x.2 1) F

end Verif.Anis
