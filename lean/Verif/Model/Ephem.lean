import Mathlib.Analysis.SpecialFunctions.Trigonometric.Basic
import Mathlib.LinearAlgebra.Matrix.Notation
import Verif.Model.Orf

/-!
# Solar-system ephemeris perturbations

`enterprise/signals/utils.py` 944-1160 and `enterprise/constants.py` 48-51.  Numbers are exact reals.  The functions on
`(n, 3)` arrays act on each row by itself; the model is of one row, that is, of one TOA.
-/

namespace Verif.Ephem

open Verif Verif.Orf Matrix

/-- `const.e_ecl` (constants.py 48). -/
noncomputable def eEcl : ℝ := 23.43704 * Real.pi / 180

/-- `const.M_ecl` (constants.py 51). -/
noncomputable def mEcl : Matrix (Fin 3) (Fin 3) ℝ :=
  !![1, 0, 0; 0, Real.cos eEcl, -Real.sin eEcl; 0, Real.sin eEcl, Real.cos eEcl]

/-- `ecl2eq_vec` (utils.py 944-949): `np.einsum("jk,ik->ij", M_ecl, x)`. -/
noncomputable def ecl2eq (v : Pos) : Pos := fun j => ∑ k, mEcl j k * v k

/-- `eq2ecl_vec` (utils.py 952-957): `np.einsum("kj,ik->ij", M_ecl, x)`. -/
noncomputable def eq2ecl (v : Pos) : Pos := fun j => ∑ k, mEcl k j * v k

/-- `euler_vec` (utils.py 960-991). -/
noncomputable def euler (z y x : ℝ) : Matrix (Fin 3) (Fin 3) ℝ :=
  let L := !![1, 0, 0; 0, Real.cos x, -Real.sin x; 0, Real.sin x, Real.cos x]
  let N := !![Real.cos y, 0, Real.sin y; 0, 1, 0; -Real.sin y, 0, Real.cos y]
  let M := !![Real.cos z, -Real.sin z, 0; Real.sin z, Real.cos z, 0; 0, 0, 1]
  L * N * M

/-- `ss_framerotate` (utils.py 994-1016). -/
noncomputable def framerotate (mjd : ℝ) (planet : Pos) (x y z dz : ℝ) (offset : Option Pos) (equatorial : Bool) : Pos :=
  let planet := if equatorial then eq2ecl planet else planet
  let E := euler (z + dz * (mjd - 55197) / 365.25) y x
  let planet : Pos := fun j => ∑ k, E j k * planet k
  let planet := match offset with
    | some o => fun c => o c + planet c
    | none => planet
  if equatorial then ecl2eq planet else planet

/-- `dmass` (utils.py 1019-1020). -/
def dmass (planet : Pos) (dm : ℝ) : Pos := fun c => dm * planet c

/-- `np.interp(x, xp, fp)` past the first point, for increasing `xp`: between two points linear, after the last constant. -/
noncomputable def interpFrom (x : ℝ) : ℝ × ℝ → List (ℝ × ℝ) → ℝ
  | a, [] => a.2
  | a, b :: l => if x < b.1 then (b.2 - a.2) / (b.1 - a.1) * (x - a.1) + a.2 else interpFrom x b l

/-- `np.interp(x, xp, fp)` for increasing `xp`; no points are a `ValueError`. -/
noncomputable def interp (x : ℝ) (xp fp : List ℝ) : Except PyErr ℝ :=
  match xp.zip fp with
  | [] => .error .valueError
  | a :: l => .ok (if x < a.1 then a.2 else interpFrom x a l)

/-- The files read by `get_planet_orbital_elements` (utils.py 933-941): times, and the derivatives of the orbits of Jupiter
and Saturn with respect to six elements. -/
structure Orbits (n : Nat) where
  times : Fin n → ℝ
  jupiter : Fin 6 → Fin n → Pos
  saturn : Fin 6 → Fin n → Pos

variable {n : Nat}

open Classical in
/-- The displacement from orbital elements (utils.py 1142-1152): nothing if all elements are zero; otherwise the files are
needed (without them `np.einsum` fails). -/
noncomputable def orbit (mjd mass : ℝ) (el : Fin 6 → ℝ) (files : Option ((Fin n → ℝ) × (Fin 6 → Fin n → Pos))) : Except PyErr Pos :=
  if ∀ i, el i = 0 then .ok 0
  else match files with
    | none => .error .valueError
    | some (times, orb) => do
      let f := fun aa => interp mjd (List.ofFn times) (List.ofFn fun j => mass * ∑ i, el i * orb i j aa)
      let x ← f 0
      let y ← f 1
      let z ← f 2
      .ok ![x, y, z]

/-- The arguments of `physical_ephem_delay` that are fitted (utils.py 1107-1113). -/
structure Params where
  frame_drift_rate : ℝ := 0
  d_jupiter_mass : ℝ := 0
  d_saturn_mass : ℝ := 0
  d_uranus_mass : ℝ := 0
  d_neptune_mass : ℝ := 0
  jup_orb_elements : Fin 6 → ℝ := 0
  sat_orb_elements : Fin 6 → ℝ := 0

/-- `physical_ephem_delay` (utils.py 1103-1160) for one TOA; `planets` are the positions in its row of `planetssb`. -/
noncomputable def delay (toa : ℝ) (planets : Fin 9 → Pos) (pos : Pos) (par : Params) (files : Option (Orbits n))
    (equatorial : Bool) : Except PyErr ℝ := do
  let mjd := toa / 86400
  let earth := framerotate mjd (planets 2) 0 0 0 par.frame_drift_rate none equatorial
  let earth := earth + dmass (planets 4) par.d_jupiter_mass
  let earth := earth + dmass (planets 5) par.d_saturn_mass
  let earth := earth + dmass (planets 6) par.d_uranus_mass
  let earth := earth + dmass (planets 7) par.d_neptune_mass
  let j ← orbit mjd 0.0009547918983127075 par.jup_orb_elements (files.map fun f => (f.times, f.jupiter))
  let earth := earth + j
  let s ← orbit mjd 0.00028588567008942334 par.sat_orb_elements (files.map fun f => (f.times, f.saturn))
  let earth := earth + s
  .ok (dot (planets 2) pos - dot earth pos)

/-- The prior widths that are arguments of `createfourierdesignmatrix_physicalephem` (utils.py 1034-1040); `None` excludes a
parameter, as does zero. -/
structure Sigmas where
  frame_drift_rate : Option ℝ := some 1e-9
  d_jupiter_mass : Option ℝ := some 1.54976690e-11
  d_saturn_mass : Option ℝ := some 8.17306184e-12
  d_uranus_mass : Option ℝ := some 5.71923361e-11
  d_neptune_mass : Option ℝ := some 7.96103855e-11
  jup_orb_elements : Option ℝ := some 0.05
  sat_orb_elements : Option ℝ := some 0.5

open Classical in
/-- `if ppar:`. -/
noncomputable def truthy (p : Option ℝ) : Option ℝ := p.bind fun x => if x = 0 then none else some x

/-- The column of a number (utils.py 1082-1086), if it is included. -/
noncomputable def oneColumn (p : Option ℝ) (q : Params) : List (ℝ × Bool × Params) := (truthy p).elim [] fun x => [(x, false, q)]

/-- The six columns of a vector (utils.py 1087-1097), if it is included. -/
noncomputable def sixColumns (p : Option ℝ) (q : Fin 6 → Params) : List (ℝ × Bool × Params) :=
  (truthy p).elim [] fun x => (List.finRange 6).map fun i => (x, true, q i)

/-- The columns of the design matrix in order (utils.py 1070-1097), each with its prior width, whether the files are given to
`physical_ephem_delay`, and the argument that is varied. -/
noncomputable def columns (s : Sigmas) (d : ℝ) : List (ℝ × Bool × Params) :=
  oneColumn s.frame_drift_rate { frame_drift_rate := d } ++ oneColumn s.d_jupiter_mass { d_jupiter_mass := d } ++
    oneColumn s.d_saturn_mass { d_saturn_mass := d } ++ oneColumn s.d_uranus_mass { d_uranus_mass := d } ++
    oneColumn s.d_neptune_mass { d_neptune_mass := d } ++
    sixColumns s.jup_orb_elements (fun i => { jup_orb_elements := Pi.single i d }) ++
    sixColumns s.sat_orb_elements (fun i => { sat_orb_elements := Pi.single i d })

/-- `createfourierdesignmatrix_physicalephem` (utils.py 1029-1100) for one TOA: the row of the matrix and the widths.  The
columns of masses and of the frame are computed without the files. -/
noncomputable def designRow (toa : ℝ) (planets : Fin 9 → Pos) (pos : Pos) (s : Sigmas) (files : Orbits n) :
    Except PyErr (List ℝ × List ℝ) := do
  let d : ℝ := 1e-5
  let row ← (columns s d).mapM fun c => do
    let x ← delay toa planets pos c.2.2 (if c.2.1 then some files else none) true
    return x / d
  .ok (row, (columns s d).map fun c => c.1)

/-- `physicalephem_spectrum` (utils.py 1023-1026). -/
def spectrum (sigmas : List ℝ) : List ℝ := sigmas.map fun s => s ^ 2

end Verif.Ephem
