import Mathlib.Analysis.SpecialFunctions.Log.Basic
import Mathlib.Analysis.SpecialFunctions.Trigonometric.Inverse
import Mathlib.Analysis.SpecialFunctions.Pow.Real
import Mathlib.Data.Matrix.Mul
import Verif.Model.Basic

/-!
# Overlap reduction functions and bursts with memory

`enterprise/signals/utils.py` 689-759 (antenna patterns, `bwm_delay`) and 845-890 (overlap reduction functions).
Numbers are exact reals; positions are vectors with three components.
-/

namespace Verif.Orf

open Verif

/-- A position: a vector with three components. -/
abbrev Pos := Fin 3 → ℝ

/-- `np.dot(p, q)`. -/
def dot (p q : Pos) : ℝ := ∑ c, p c * q c

open Classical in
/-- `hd_orf` (utils.py 845-852); `np.all(pos1 == pos2)` is equality. -/
noncomputable def hdOrf (p q : Pos) : ℝ :=
  if p = q then 1
  else
    let omc2 := (1 - dot p q) / 2
    1.5 * omc2 * Real.log omc2 - 0.25 * omc2 + 0.5

open Classical in
/-- `dipole_orf` (utils.py 855-861). -/
noncomputable def dipoleOrf (p q : Pos) : ℝ := if p = q then 1 + 1e-5 else dot p q

open Classical in
/-- `monopole_orf` (utils.py 864-870). -/
noncomputable def monopoleOrf (p q : Pos) : ℝ := if p = q then 1 + 1e-5 else 1

open Classical in
/-- `[ii for ii in range(len(psrs_pos)) if np.all(psrs_pos[ii] == pos)][0]` (utils.py 881-882). -/
noncomputable def posIndex (ps : List Pos) (p : Pos) : Except PyErr Nat :=
  match ps.findIdx? (fun q => decide (q = p)) with
  | some i => .ok i
  | none => .error .indexError

/-- `clm` (utils.py 884-887); the assignment to `clm[1:]` broadcasts one number and rejects other lengths. -/
noncomputable def anisClm (lmax : Nat) (params : List ℝ) : Except PyErr (List ℝ) :=
  let c0 := 2 * Real.sqrt Real.pi
  if lmax = 0 then .ok [c0]
  else if params.length = (lmax + 1) ^ 2 - 1 then .ok (c0 :: params)
  else match params with
    | [x] => .ok (c0 :: List.replicate ((lmax + 1) ^ 2 - 1) x)
    | _ => .error .valueError

/-- `anis_orf` (utils.py 873-889).  `basis` is the list of the matrices `anis_basis[k]`, all for `size` pulsars.
The error for an index outside of them follows from the slicing. -/
noncomputable def anisOrf (basis : List (Nat → Nat → ℝ)) (size : Nat) (ps : List Pos) (lmax : Nat) (params : List ℝ)
    (p q : Pos) : Except PyErr ℝ := do
  let i ← posIndex ps p
  let j ← posIndex ps q
  let clm ← anisClm lmax params
  if size ≤ i ∨ size ≤ j then .error .indexError
  else .ok (List.zipWith (fun c B => c * B i j) clm (basis.take ((lmax + 1) ^ 2))).sum

/-- `create_gw_antenna_pattern` (utils.py 689-712): `fplus`, `fcross` and `cosMu`.  Simplification: where the
denominator is zero, where numpy gives nan or infinities, the quotient is zero. -/
noncomputable def antenna (pos : Pos) (gwtheta gwphi : ℝ) : ℝ × ℝ × ℝ :=
  let m : Pos := ![Real.sin gwphi, -Real.cos gwphi, 0]
  let n : Pos := ![-Real.cos gwtheta * Real.cos gwphi, -Real.cos gwtheta * Real.sin gwphi, Real.sin gwtheta]
  let omhat : Pos := ![-Real.sin gwtheta * Real.cos gwphi, -Real.sin gwtheta * Real.sin gwphi, -Real.cos gwtheta]
  let fplus := 0.5 * (dot m pos ^ 2 - dot n pos ^ 2) / (1 + dot omhat pos)
  let fcross := (dot m pos * dot n pos) / (1 + dot omhat pos)
  (fplus, fcross, -dot omhat pos)

/-- `np.heaviside(x, 0.5)`. -/
noncomputable def heaviside (x : ℝ) : ℝ := open Classical in if x < 0 then 0 else if x = 0 then 0.5 else 1

/-- `bwm_delay` (utils.py 716-756) for one TOA.  Simplification: `np.arccos` outside of `[-1, 1]`, which gives nan, is
the angle of the nearer end. -/
noncomputable def bwmDelay (pattern : Option (Pos → ℝ → ℝ → ℝ × ℝ)) (toa : ℝ) (pos : Pos)
    (log10_h cos_gwtheta gwphi gwpol t0 : ℝ) : ℝ :=
  let h := (10 : ℝ) ^ log10_h
  let gwtheta := Real.arccos cos_gwtheta
  let t0 := t0 * 86400
  let apc := match pattern with
    | none => ((antenna pos gwtheta gwphi).1, (antenna pos gwtheta gwphi).2.1)
    | some f => f pos gwtheta gwphi
  let pol := Real.cos (2 * gwpol) * apc.1 + Real.sin (2 * gwpol) * apc.2
  pol * h * heaviside (toa - t0) * (toa - t0)

end Verif.Orf
