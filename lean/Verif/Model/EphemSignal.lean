import Verif.Model.Ephem
import Verif.Model.Function

/-!
# The options of the ephemeris signal

`PhysicalEphemerisSignal` (`enterprise/signals/deterministic_signals.py` 56-168): from the options to the arguments of the waveform, which is
`physical_ephem_delay` (`Model/Ephem`) as a `Function` (`Model/Function`).
-/

namespace Verif.EphemSignal

open Verif Verif.Fun Verif.Ephem Verif.Orf

/-- What keywords can hold.  Simplification: `files` stands for the arrays of `get_planet_orbital_elements`, `psr` for a pulsar. -/
inductive Value
  | bool (b : Bool)
  | num (x : ℝ)
  | vec (v : Fin 6 → ℝ)
  | files
  | psr

/-- What is given for an option: `True` or `False`, a Parameter (a class has its name by the time the Function exists, parameter.py 490-498), or a value. -/
inductive Opt
  | bool (b : Bool)
  | par (p : ParRef Value)
  | value (v : Value)

/-- The options (deterministic_signals.py 57-63). -/
structure Options where
  frame_drift_rate : Opt := .bool true
  d_jupiter_mass : Opt := .bool true
  d_saturn_mass : Opt := .bool true
  d_uranus_mass : Opt := .bool true
  d_neptune_mass : Opt := .bool true
  jup_orb_elements : Opt := .bool true
  sat_orb_elements : Opt := .bool false

/-- The prior of a parameter without hyperparameters; `size` elements have it each. -/
inductive Prior
  | uniform (pmin pmax : ℝ)
  | normal (mu sigma : ℝ)

/-- The parameters that `True` stands for, with their priors (deterministic_signals.py 125-144). -/
noncomputable def byDefault : List (String × Prior) :=
  [("frame_drift_rate", .uniform (-1e-9) 1e-9), ("d_jupiter_mass", .normal 0 1.54976690e-11), ("d_saturn_mass", .normal 0 8.17306184e-12),
   ("d_uranus_mass", .normal 0 5.71923361e-11), ("d_neptune_mass", .normal 0 7.96103855e-11), ("jup_orb_elements", .uniform (-0.05) 0.05),
   ("sat_orb_elements", .uniform (-0.5) 0.5)]

/-- `if option is True` (deterministic_signals.py 125-144): a parameter with the given name; anything else is passed on. -/
def item (name : String) : Opt → Item Value
  | .bool true => .par ⟨name, none⟩
  | .bool false => .val (.bool false)
  | .par p => .par p
  | .value v => .val v

/-- The keywords of the waveform (deterministic_signals.py 149-162). -/
def items (o : Options) : Items Value :=
  .cons "frame_drift_rate" (item "frame_drift_rate" o.frame_drift_rate) <| .cons "d_jupiter_mass" (item "d_jupiter_mass" o.d_jupiter_mass) <|
  .cons "d_saturn_mass" (item "d_saturn_mass" o.d_saturn_mass) <| .cons "d_uranus_mass" (item "d_uranus_mass" o.d_uranus_mass) <|
  .cons "d_neptune_mass" (item "d_neptune_mass" o.d_neptune_mass) <| .cons "jup_orb_elements" (item "jup_orb_elements" o.jup_orb_elements) <|
  .cons "sat_orb_elements" (item "sat_orb_elements" o.sat_orb_elements) <| .cons "times" (.val .files) <| .cons "jup_orbit" (.val .files) <|
  .cons "sat_orbit" (.val .files) .nil

/-- An argument that multiplies an array with three columns (utils.py 1131-1140): `True` is one, `False` zero, and six numbers do not fit. -/
def number : Value → Except PyErr ℝ
  | .bool b => .ok (if b then 1 else 0)
  | .num x => .ok x
  | .vec _ => .error .valueError
  | .files => .error .valueError
  | .psr => .error .typeError

open Classical in
/-- An argument of `np.any`, and if that is true of `np.einsum("i,ijk->jk", ...)`, which needs a vector (utils.py 1143-1144, 1149-1150). -/
noncomputable def elements : Value → Except PyErr (Fin 6 → ℝ)
  | .bool b => if b then .error .valueError else .ok 0
  | .num x => if x = 0 then .ok 0 else .error .valueError
  | .vec v => .ok v
  | .files => .error .valueError
  | .psr => .error .typeError

/-- An argument with a default. -/
def arg {α : Type} (read : Value → Except PyErr α) (dflt : α) (kw : Dict String Value) (name : String) : Except PyErr α :=
  match Dict.get? kw name with
  | none => .ok dflt
  | some v => read v

variable {n : Nat}

/-- `physical_ephem_delay` (utils.py 1103-1160) with the arguments as they come, for one TOA of the pulsar (for the epochs of the signal see `Model/EpochEphem`).
Simplification: the files come together. -/
noncomputable def waveform (toa : ℝ) (planets : Fin 9 → Pos) (pos : Pos) (files : Orbits n) : Body Value := fun _ kw => do
  let rate ← arg number 0 kw "frame_drift_rate"
  let mj ← arg number 0 kw "d_jupiter_mass"
  let ms ← arg number 0 kw "d_saturn_mass"
  let mu ← arg number 0 kw "d_uranus_mass"
  let mn ← arg number 0 kw "d_neptune_mass"
  let ej ← arg elements 0 kw "jup_orb_elements"
  let es ← arg elements 0 kw "sat_orb_elements"
  let d ← delay toa planets pos ⟨rate, mj, ms, mu, mn, ej, es⟩ ((Dict.get? kw "times").map fun _ => files) true
  .ok (.num d)

/-- The waveform of the signal for a pulsar (deterministic_signals.py 151-164, and 32-35 of `Deterministic`). -/
noncomputable def signal (toa : ℝ) (planets : Fin 9 → Pos) (pos : Pos) (files : Orbits n) (o : Options) : Fn Value :=
  .mk (waveform toa planets pos files)
    ["toas", "planetssb", "pos_t", "frame_drift_rate", "d_jupiter_mass", "d_saturn_mass", "d_uranus_mass", "d_neptune_mass", "jup_orb_elements", "sat_orb_elements", "times",
      "jup_orbit", "sat_orbit", "equatorial"] (some .psr) (items o) []

end Verif.EphemSignal
