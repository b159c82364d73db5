import Verif.Model.Ephem
import Verif.Model.PulsarData

/-!
# Pulsars from timing packages

`enterprise/pulsar.py` 94-125 and 327-624: what `PintPulsar` and `Tempo2Pulsar` take from PINT and from libstempo.  The timing
package and pyephem are given as data.  Numbers are exact reals; units have been converted to those that the comments of the
fields name.
-/

namespace Verif.Sources

open Verif Verif.Orf Verif.Ephem

/-! ## Flags -/

/-- The body of the inner loop (pulsar.py 364-369): `_flags[flag][ii] = value`, with a new list of empty strings for a new
flag. -/
def putFlag (ntoas ii : Nat) (d : Dict String (List String)) (kv : String × String) : Except PyErr (Dict String (List String)) := do
  let d := if kv.1 ∈ d.keys then d else d.set kv.1 (List.replicate ntoas "")
  let col ← d.get! kv.1
  if ii < col.length then .ok (d.set kv.1 (col.set ii kv.2)) else .error .indexError

/-- The loop over the TOAs of PINT (pulsar.py 362-369); PINT keeps flags as strings. -/
def pintFlags (ntoas : Nat) (obsflags : List (Dict String String)) : Except PyErr (Dict String (List String)) :=
  obsflags.zipIdx.foldlM (fun d x => x.1.foldlM (putFlag ntoas x.2) d) []

/-! ## Positions -/

/-- pyephem: `Equatorial(Ecliptic(elong, elat), epoch=...)`; `none` for a `TypeError`. -/
abbrev PyEphem := String → ℝ → ℝ → Option (ℝ × ℝ)

/-- `_get_radec_from_ecliptic` (pulsar.py 94-116). -/
def radecFromEcliptic (eph : PyEphem) (name : String) (elong elat : ℝ) : ℝ × ℝ :=
  let epoch := if 'B' ∈ name.toList then "1950" else "2000"
  (eph epoch elong elat).getD (0, 0)

/-- `_get_pos` (pulsar.py 118-125). -/
noncomputable def getPos (raj decj : ℝ) : Pos :=
  ![Real.cos raj * Real.cos decj, Real.sin raj * Real.cos decj, Real.sin decj]

/-! ## PINT -/

/-- A parameter of a PINT model: value, uncertainty, and whether it is kept fixed. -/
structure PintPar where
  value : ℝ
  uncertainty : Option ℝ
  frozen : Bool

/-- What is read of a PINT model: the name of the pulsar, the names of its parameters and the parameters. -/
structure PintModel where
  psr : String
  params : List String
  par : Dict String PintPar

/-- `getattr(model, par)`, `model[par]`. -/
def PintModel.get (m : PintModel) (p : String) : Except PyErr PintPar := (m.par.get? p).elim (.error .attributeError) .ok

/-- `_get_radec` of PINT (pulsar.py 431-439), angles in radians. -/
def pintRadec (eph : PyEphem) (m : PintModel) : Except PyErr (ℝ × ℝ) :=
  if (m.par.get? "RAJ").isSome ∧ (m.par.get? "DECJ").isSome then do
    let raj ← m.get "RAJ"
    let decj ← m.get "DECJ"
    .ok (raj.value, decj.value)
  else do
    let elong ← m.get "ELONG"
    let elat ← m.get "ELAT"
    .ok (radecFromEcliptic eph m.psr elong.value elat.value)

/-- An entry of `psr.dmx`. -/
structure Dmx where
  DMX : ℝ
  DMXerr : Option ℝ
  DMXR1 : ℝ
  DMXR2 : ℝ
  fit : Bool

/-- `"DMX_" in par`. -/
def isBin (par : String) : Bool := decide ("DMX_".toList <:+: par.toList)

/-- `par[:3] + "R1" + par[3:]`. -/
def binName (r par : String) : String := String.ofList (par.toList.take 3 ++ r.toList ++ par.toList.drop 3)

/-- The dictionary comprehension of `_set_dm` for PINT (pulsar.py 409-424): the parameters that are not frozen. -/
def pintDmx (m : PintModel) : Except PyErr (Dict String Dmx) := do
  let all ← m.params.mapM fun p => do return (p, ← m.get p)
  let pars := (all.filter fun x => !x.2.frozen).map Prod.fst
  let items ← (pars.filter fun p => isBin p).mapM fun p => do
    let x ← m.get p
    let r1 ← m.get (binName "R1" p)
    let r2 ← m.get (binName "R2" p)
    return (p, { DMX := x.value, DMXerr := x.uncertainty, DMXR1 := r1.value, DMXR2 := r2.value, fit := decide (p ∈ pars) })
  .ok (Dict.ofList items)

/-- `psr.dmx` (pulsar.py 426-429): an empty dictionary becomes `None`. -/
def orNone {α : Type} (d : Dict String α) : Option (Dict String α) := if d.isEmpty then none else some d

/-- The table of PINT's TOAs: the columns of vectors from the observatory to a planet, and the position of the observatory, in
metres. -/
structure PintTable where
  cols : Dict String (List Pos)
  obs : List Pos

/-- `_get_ssb_lsec` (pulsar.py 441-449). -/
noncomputable def ssbLsec (t : PintTable) (planet : String) : Except PyErr (List Pos) :=
  (t.cols.get? planet).elim (.error .valueError) fun v => .ok (List.zipWith (fun a b j => (a j + b j) / 299792458) v t.obs)

/-- One row of `planetssb`: nine planets with position and velocity; `none` is nan. -/
abbrev Row := Fin 9 → Fin 6 → Option ℝ

/-- `planetssb[:, k, :3] = ...`. -/
def putPlanet (k : Fin 9) (rows : List Row) (v : List Pos) : List Row :=
  List.zipWith (fun r p => fun i j => if i = k ∧ (j : Nat) < 3 then some (p (Fin.ofNat 3 j)) else r i j) rows v

/-- `_get_planetssb` of PINT (pulsar.py 451-472). -/
noncomputable def pintPlanets (planets : Bool) (t : PintTable) : Except PyErr (Option (List Row)) :=
  if planets then do
    let rows : List Row := t.obs.map fun _ _ _ => none
    let rows := putPlanet 2 rows (← ssbLsec t "obs_earth_pos")
    let rows := putPlanet 4 rows (← ssbLsec t "obs_jupiter_pos")
    let rows := putPlanet 5 rows (← ssbLsec t "obs_saturn_pos")
    let rows := putPlanet 6 rows (← ssbLsec t "obs_uranus_pos")
    let rows := putPlanet 7 rows (← ssbLsec t "obs_neptune_pos")
    .ok (some rows)
  else .ok none

/-! ## libstempo -/

/-- What is read of a `tempopulsar`: its name, the fitted and the set parameters with their values, the direction to the pulsar
and the position and velocity of the nine planets for each TOA. -/
structure T2 where
  name : String
  fitted : List String
  set : List String
  val : Dict String ℝ
  err : Dict String ℝ
  psrPos : List Pos
  planets : List (Fin 9 → Pos × Pos)

/-- `t2pulsar[par].val`. -/
def T2.get (t : T2) (p : String) : Except PyErr ℝ := (t.val.get? p).elim (.error .keyError) .ok

/-- `t2pulsar[par].err`. -/
def T2.getErr (t : T2) (p : String) : Except PyErr ℝ := (t.err.get? p).elim (.error .keyError) .ok

/-- `_get_radec` of libstempo (pulsar.py 577-585). -/
def t2Radec (eph : PyEphem) (t : T2) : Except PyErr (ℝ × ℝ) :=
  if "RAJ" ∈ t.fitted ++ t.set then do
    let raj ← t.get "RAJ"
    let decj ← t.get "DECJ"
    .ok (raj, decj)
  else do
    let elong ← t.get "ELONG"
    let elat ← t.get "ELAT"
    .ok (radecFromEcliptic eph t.name elong elat)

/-- `_pos_t` (pulsar.py 537-539): `"ELONG" and "ELAT" in ...` asks for `ELAT` only. -/
noncomputable def t2PosT (t : T2) : List Pos := if "ELAT" ∈ t.fitted ++ t.set then t.psrPos.map ecl2eq else t.psrPos

/-- `_get_planetssb` of libstempo (pulsar.py 587-609).  Simplification: the planet masses of the `tempopulsar`, which are set to
zero before, are not part of the model. -/
noncomputable def t2Planets (planets : Bool) (t : T2) : Option (List (Fin 9 → Pos × Pos)) :=
  if planets then
    some (if "ELAT" ∈ t.fitted ++ t.set then t.planets.map fun row k => (ecl2eq (row k).1, ecl2eq (row k).2) else t.planets)
  else none

/-- The dictionary comprehension of `_set_dm` for libstempo (pulsar.py 554-570): the parameters that are set. -/
def t2Dmx (t : T2) : Except PyErr (Dict String Dmx) := do
  let pars := t.set
  let items ← (pars.filter fun p => isBin p).mapM fun p => do
    let x ← t.get p
    let s ← t.getErr p
    let r1 ← t.get (binName "R1" p)
    let r2 ← t.get (binName "R2" p)
    return (p, { DMX := x, DMXerr := some s, DMXR1 := r1, DMXR2 := r2, fit := decide (p ∈ pars) })
  .ok (Dict.ofList items)

/-- `fitpars` of libstempo (pulsar.py 509). -/
def t2Fitpars (t : T2) : List String := "Offset" :: t.fitted

/-- `setpars` of libstempo (pulsar.py 512-513). -/
def t2Setpars (t : T2) : List String := t.set.filter fun p => decide (p ∉ t2Fitpars t)

end Verif.Sources
