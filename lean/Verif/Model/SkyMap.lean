import Mathlib.Analysis.Complex.Basic
import Verif.Model.Anis

/-!
# Sky maps and their coefficients

`enterprise/signals/anis_coefficients.py` 18-31 and 179-268.  The pixels of the sky are `Fin N`; what scipy's
`sph_harm(m, l, phi, theta)` is in the direction of pixel `k` is the parameter `Y m l k`.  healpy's transforms `alm2map` and
`map2alm` appear by their definitions, the first as the sum over the harmonics, the second as the sum over the pixels followed by
three rounds of improvement.  Not modelled: numbers of pixels that are not those of a healpix map, for which `npix2nside` raises.
-/

namespace Verif.SkyMap

open Verif Verif.Anis

variable {N : Nat}

/-- `real_sph_harm` (anis_coefficients.py 18-31) in the direction of a pixel. -/
noncomputable def realSphHarm (Y : Int → Nat → Fin N → ℂ) (mm : Int) (ll : Nat) (k : Fin N) : ℝ :=
  if 0 < mm then ((1 / (Real.sqrt 2 : ℂ)) * (Y mm ll k + (-1) ^ mm * Y (-mm) ll k)).re
  else if mm = 0 then (Y 0 ll k).re
  else ((1 / ((Real.sqrt 2 : ℂ) * Complex.I)) * (Y (-mm) ll k - (-1) ^ mm * Y mm ll k)).re

/-- `mapFromClm` (anis_coefficients.py 199-223). -/
noncomputable def mapFromClm (Y : Int → Nat → Fin N → ℂ) (clm : List ℝ) : Except PyErr (Fin N → ℝ) :=
  (loops ((Nat.sqrt clm.length : Int) - 1)).foldlM (fun h x => do
    let c ← item clm x.2
    return fun k => h k + c * realSphHarm Y x.1.2 x.1.1 k) (fun _ => 0)

/-- healpy's `alm2map(alm, nside, lmax)`, called on anis_coefficients.py 194: the sum over the harmonics, where those with
negative `m` are the conjugates of those with positive `m`. -/
noncomputable def alm2map (Y : Int → Nat → Fin N → ℂ) (lmax : Int) (alm : List ℂ) : Fin N → ℝ := fun k =>
  ((List.range (lmax + 1).toNat).map fun (l : Nat) => (alm.getD (almIdx lmax l 0).toNat 0 * Y 0 l k).re +
    2 * ((List.range l).map fun (m : Nat) => (alm.getD (almIdx lmax l (m + 1 : Nat)).toNat 0 * Y (m + 1 : Nat) l k).re).sum).sum

/-- `mapFromClm_fast` (anis_coefficients.py 179-196). -/
noncomputable def mapFromClmFast (Y : Int → Nat → Fin N → ℂ) (clm : List ℝ) : Except PyErr (Fin N → ℝ) := do
  let maxl := (Nat.sqrt clm.length : Int) - 1
  let alm ← almFromClm clm
  .ok (alm2map Y maxl alm)

/-- The sums over the pixels in healpy's `map2alm` with `iter=0`, in healpy's order: all `l` for `m = 0`, then all for
`m = 1`, and so on. -/
noncomputable def quadrature (Y : Int → Nat → Fin N → ℂ) (lmax : Int) (h : Fin N → ℝ) : List ℂ :=
  (List.range (lmax + 1).toNat).flatMap fun m => (List.range ((lmax + 1).toNat - m)).map fun i =>
    (4 * Real.pi / N : ℂ) * ∑ k, (h k : ℂ) * (starRingEnd ℂ) (Y m (m + i) k)

/-- healpy's `map2alm(h, lmax=lmax, iter=rounds)`, called on anis_coefficients.py 238: each round adds the coefficients of
what the map of the coefficients so far leaves over. -/
noncomputable def map2alm (Y : Int → Nat → Fin N → ℂ) (lmax : Int) (h : Fin N → ℝ) : Nat → List ℂ
  | 0 => quadrature Y lmax h
  | j + 1 =>
    let alm := map2alm Y lmax h j
    List.zipWith (· + ·) alm (quadrature Y lmax fun k => h k - alm2map Y lmax alm k)

/-- `clmFromMap_fast` (anis_coefficients.py 226-241); `iter=3` is healpy's default. -/
noncomputable def clmFromMapFast (Y : Int → Nat → Fin N → ℂ) (h : Fin N → ℝ) (lmax : Nat) : Except PyErr (List ℝ) :=
  let alm := map2alm Y lmax h 3
  clmFromAlm (alm.set 0 (((∑ k, h k) * Real.sqrt (4 * Real.pi) / N : ℝ) : ℂ))

/-- `clmFromMap` (anis_coefficients.py 244-268).  Each entry of `clm` is written once. -/
noncomputable def clmFromMap (Y : Int → Nat → Fin N → ℂ) (h : Fin N → ℝ) (lmax : Nat) : List ℝ :=
  (loops lmax).map fun x => (∑ k, h k * realSphHarm Y x.1.2 x.1.1 k) * 4 * Real.pi / N

end Verif.SkyMap
