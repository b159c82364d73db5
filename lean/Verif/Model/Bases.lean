import Mathlib.Analysis.SpecialFunctions.Log.Base
import Mathlib.Analysis.SpecialFunctions.Pow.Real
import Mathlib.Analysis.SpecialFunctions.Trigonometric.Basic
import Mathlib.Algebra.Order.Floor.Ring
import Verif.Model.Basic

/-!
# Fourier design matrices

`enterprise/signals/gp_bases.py`.  Numbers are exact reals, a matrix is the list of its rows.
-/

namespace Verif.Bases

open Verif

/-! ## numpy -/

/-- The state of `np.random`: the numbers in the unit interval it is going to return. -/
abbrev Rng := Nat → ℝ

/-- `np.random.uniform(0.0, 2 * np.pi, n)` and the state it leaves (numpy: the legacy generator fills the
array in order from the stream of `random_sample`). -/
noncomputable def rngPhases (rng : Rng) (n : Nat) : List ℝ × Rng :=
  ((List.range n).map fun i : Nat => 2 * Real.pi * rng i, fun i => rng (n + i))

/-- `toas.max() - toas.min()`; `max` of an empty array raises. -/
noncomputable def span : List ℝ → Except PyErr ℝ
  | [] => .error .valueError
  | t :: ts => .ok (ts.foldl max t - ts.foldl min t)

/-- `np.linspace(a, b, n)`. -/
noncomputable def linspace (a b : ℝ) (n : Nat) : List ℝ :=
  (List.range n).map fun i : Nat => a + i * ((b - a) / ((n : ℝ) - 1))

/-- `np.logspace(a, b, n)`. -/
noncomputable def logspace (a b : ℝ) (n : Nat) : List ℝ := (linspace a b n).map fun x => (10 : ℝ) ^ x

/-- `np.repeat(l, n)`. -/
def rep {α : Type} (n : Nat) (l : List α) : List α := l.flatMap fun x => List.replicate n x

/-- `int(x)` for a float: towards zero. -/
noncomputable def trunc (x : ℝ) : Int := if 0 ≤ x then ⌊x⌋ else ⌈x⌉

/-! ## `createfourierdesignmatrix_red` -/

/-- The argument `modes`: a Python list or a numpy array. -/
inductive Modes
  | list (f : List ℝ)
  | array (f : List ℝ)

/-- The arguments of `createfourierdesignmatrix_red` after `toas` (gp_bases.py 27-28).  Simplification:
`nmodes` is not negative, `fmin` and `fmax` are numbers. -/
structure Args where
  nmodes : Nat := 30
  Tspan : Option ℝ := none
  logf : Bool := false
  fmin : Option ℝ := none
  fmax : Option ℝ := none
  pshift : Bool := false
  modes : Option Modes := none
  pseed : Option Int := none

/-- `T` (gp_bases.py 47). -/
noncomputable def tspan (toas : List ℝ) (a : Args) : Except PyErr ℝ :=
  match a.Tspan with
  | some T => .ok T
  | none => span toas

/-- `1.0 * np.arange(1, nmodes + 1) / T` (gp_bases.py 56). -/
noncomputable def harmonics (n : Nat) (T : ℝ) : List ℝ := (List.range n).map fun k : Nat => 1 * ((k : ℝ) + 1) / T

/-- The frequencies `f` (gp_bases.py 47-69); `true` marks a Python list.  Simplification: exact division,
so `T = 0`, where numpy gives infinities or Python raises, gives zero here; `np.log10` of a number that is
not positive is a number here. -/
noncomputable def freqs (toas : List ℝ) (a : Args) : Except PyErr (List ℝ × Bool) := do
  let T ← tspan toas a
  match a.modes with
  | some (.list f) => .ok (f, true)
  | some (.array f) => .ok (f, false)
  | none =>
    if a.fmin = none ∧ a.fmax = none ∧ a.logf = false then
      .ok (harmonics a.nmodes T, false)
    else
      let fmin := a.fmin.getD (1 / T)
      let fmax := a.fmax.getD (a.nmodes / T)
      if a.logf then .ok (logspace (Real.logb 10 fmin) (Real.logb 10 fmax) a.nmodes, false)
      else .ok (linspace fmin fmax a.nmodes, false)

/-- The phases `ranphase` for `nmodes` modes and the state of `np.random` left behind (gp_bases.py 72-80).
`seeded s` is the state after `np.random.seed(s)`, which raises unless `0 ≤ s < 2 ** 32` (numpy). -/
noncomputable def phases (seeded : Int → Rng) (rng : Rng) (toas : List ℝ) (a : Args) (nmodes : Nat) :
    Except PyErr (List ℝ × Rng) :=
  match a.pseed with
  | some p =>
    match toas with
    | [] => .error .indexError
    | t :: _ =>
      let s := trunc (t / 17) + p
      if 0 ≤ s ∧ s < 2 ^ 32 then .ok (rngPhases (seeded s) nmodes) else .error .valueError
  | none =>
    if a.pshift then .ok (rngPhases rng nmodes) else .ok (List.replicate nmodes 0, rng)

/-- One row of `F`: the sine and the cosine of each mode, interleaved by the assignments to `F[:, ::2]` and
`F[:, 1::2]` (gp_bases.py 88-89). -/
noncomputable def row (t : ℝ) (f φ : List ℝ) : List ℝ :=
  (List.zipWith (fun x p => [Real.sin (2 * Real.pi * t * x + p), Real.cos (2 * Real.pi * t * x + p)]) f φ).flatten

/-- `createfourierdesignmatrix_red` (gp_bases.py 25-91): the matrix, the frequency of each column, and the
state of `np.random`.  With a Python list `f[None, :]` raises. -/
noncomputable def red (seeded : Int → Rng) (rng : Rng) (toas : List ℝ) (a : Args) :
    Except PyErr ((List (List ℝ) × List ℝ) × Rng) := do
  let (f, isList) ← freqs toas a
  let (φ, rng) ← phases seeded rng toas a f.length
  if isList then .error .typeError
  else .ok ((toas.map fun t => row t f φ, rep 2 f), rng)

/-! ## Chromatic and other scalings -/

/-- `F * w[:, None]`: each row times a number.  numpy repeats a vector or a matrix of one row; other
lengths have to agree. -/
noncomputable def scaleRows (w : List ℝ) (F : List (List ℝ)) : Except PyErr (List (List ℝ)) :=
  if w.length = F.length then .ok (List.zipWith (fun x r => r.map fun y => y * x) w F)
  else match w, F with
    | [x], F => .ok (F.map fun r => r.map fun y => y * x)
    | w, [r] => .ok (w.map fun x => r.map fun y => y * x)
    | _, _ => .error .valueError

/-- `F *= w[:, None]`: the same in place, where the result cannot have more rows than `F`. -/
noncomputable def scaleRowsIn (w : List ℝ) (F : List (List ℝ)) : Except PyErr (List (List ℝ)) :=
  if w.length = F.length then .ok (List.zipWith (fun x r => r.map fun y => y * x) w F)
  else match w with
    | [x] => .ok (F.map fun r => r.map fun y => y * x)
    | _ => .error .valueError

/-- `createfourierdesignmatrix_dm` (gp_bases.py 94-127); `pseed` is not an argument. -/
noncomputable def dm (seeded : Int → Rng) (rng : Rng) (toas nu : List ℝ) (a : Args) (fref : ℝ) :
    Except PyErr ((List (List ℝ) × List ℝ) × Rng) := do
  let ((F, f), rng) ← red seeded rng toas { a with pseed := none }
  let F ← scaleRows (nu.map fun v => (fref / v) ^ 2) F
  .ok ((F, f), rng)

/-- The factor `np.sqrt(12) * np.pi / 1400 / 1400 / 2.41e-4` (gp_bases.py 163, 346). -/
noncomputable def tnFactor (x : ℝ) : ℝ := x * Real.sqrt 12 * Real.pi / 1400 / 1400 / 2.41e-4

/-- `createfourierdesignmatrix_dm_tn` (gp_bases.py 130-165). -/
noncomputable def dmTn (seeded : Int → Rng) (rng : Rng) (toas nu : List ℝ) (a : Args) (fref idx : ℝ) :
    Except PyErr ((List (List ℝ) × List ℝ) × Rng) := do
  let ((F, f), rng) ← red seeded rng toas { a with pseed := none }
  let F ← scaleRows (nu.map fun v => tnFactor ((fref / v) ^ idx)) F
  .ok ((F, f), rng)

/-- `createfourierdesignmatrix_env` (gp_bases.py 168-211). -/
noncomputable def env (seeded : Int → Rng) (rng : Rng) (toas : List ℝ) (a : Args) (log10Amp log10Q t0 : ℝ) :
    Except PyErr ((List (List ℝ) × List ℝ) × Rng) := do
  let ((F, f), rng) ← red seeded rng toas { a with pseed := none, pshift := false }
  let A := (10 : ℝ) ^ log10Amp
  let Q := (10 : ℝ) ^ log10Q * 86400
  let F ← scaleRows (toas.map fun t => A * Real.exp (-(t - t0) ^ 2 / 2 / Q ^ 2)) F
  .ok ((F, f), rng)

/-- `createfourierdesignmatrix_chromatic` (gp_bases.py 261-292). -/
noncomputable def chromatic (seeded : Int → Rng) (rng : Rng) (toas nu : List ℝ) (a : Args) (idx : ℝ) :
    Except PyErr ((List (List ℝ) × List ℝ) × Rng) := do
  let ((F, f), rng) ← red seeded rng toas { a with pseed := none, pshift := false }
  let F ← scaleRows (nu.map fun v => (1400 / v) ^ idx) F
  .ok ((F, f), rng)

/-- The columns of one coordinate triple in `createfourierdesignmatrix_ephem`: a row of `F0` with entry `s`
replaced by `s * pos[0], s * pos[1], s * pos[2]`. -/
def ephemRow (pos : ℝ × ℝ × ℝ) (r : List ℝ) : List ℝ := r.flatMap fun s => [s * pos.1, s * pos.2.1, s * pos.2.2]

/-- `createfourierdesignmatrix_ephem` (gp_bases.py 214-250): `F1[i, m, s, c] = F0[i, 2 m + s] * pos[c]` with
the last three axes joined, which is each entry of a row replaced by three.  `pos` has three entries. -/
noncomputable def ephem (seeded : Int → Rng) (rng : Rng) (toas : List ℝ) (pos : ℝ × ℝ × ℝ) (nmodes : Nat)
    (Tspan : Option ℝ) : Except PyErr ((List (List ℝ) × List ℝ) × Rng) := do
  let ((F0, f0), rng) ← red seeded rng toas { nmodes := nmodes, Tspan := Tspan }
  .ok ((F0.map (ephemRow pos), rep 3 f0), rng)

/-- The arguments of `createfourierdesignmatrix_general` after `flags` (gp_bases.py 299-312).  `flagval`
empty or missing is `none`, `idx` zero or missing is `none` (both are tested for truth). -/
structure Gen where
  flagname : String := "group"
  flagval : Option String := none
  idx : Option ℝ := none
  tndm : Bool := false
  psrTspan : Bool := true

/-- `toas[np.where(flags[flagname] == flagval)]` (gp_bases.py 335). -/
def selected (toas : List ℝ) (fl : List String) (v : String) : List ℝ :=
  ((toas.zip fl).filter fun tf => tf.2 = v).map Prod.fst

/-- `createfourierdesignmatrix_general` (gp_bases.py 295-355).  Simplification: the flag column has one
value per TOA. -/
noncomputable def general (seeded : Int → Rng) (rng : Rng) (toas nu : List ℝ) (flags : Dict String (List String))
    (g : Gen) (a : Args) : Except PyErr ((List (List ℝ) × List ℝ) × Rng) := do
  let Tspan ← match g.flagval, g.psrTspan with
    | some v, false => match flags.get? g.flagname with
      | some fl => (span (selected toas fl v)).map some
      | none => .error .keyError
    | _, _ => .ok a.Tspan
  let ((F, f), rng) ← red seeded rng toas { a with Tspan := Tspan }
  let F ← match g.idx with
    | some i =>
      scaleRowsIn (nu.map fun v => if g.tndm then tnFactor ((1400 / v) ^ i) else (1400 / v) ^ i) F
    | none => .ok F
  let F ← match g.flagval with
    | some v => match flags.get? g.flagname with
      | some fl => .ok (List.zipWith (fun x r => r.map fun y => if x = v then y else 0) fl F)
      | none => .error .keyError
    | none => .ok F
  .ok ((F, f), rng)

end Verif.Bases
