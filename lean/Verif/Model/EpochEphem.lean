import Verif.Model.Ephem
import Verif.Model.Quantize

/-!
# The ephemeris signal on epoch-averaged TOAs

`PhysicalEphemerisSignal` (enterprise/signals/deterministic_signals.py 170-213).  The waveform is `physical_ephem_delay`
(`Model/Ephem`), epochs are those of `create_quantization_matrix` (`Model/Quantize`).
-/

namespace Verif.EpochEphem

open Verif Verif.Orf Verif.Ephem Verif.Quantize

/-- What the signal reads of a pulsar: `toas`, and the rows of `planetssb` and `pos_t`. -/
structure Psr where
  toas : List ℝ
  planetssb : Nat → Fin 9 → Pos
  pos_t : Nat → Pos

/-- `np.interp(x, xp, fp)`.  A number beyond the last point gives the last value before anything else is looked at, which matters
when `xp` is not increasing; in long arrays numpy then searches by bisection, which for increasing `xp` finds the same interval.
Without points, where numpy raises, the value is zero; the constructor has raised before. -/
noncomputable def npInterp (x : ℝ) (xp fp : List ℝ) : ℝ :=
  match (xp.zip fp).getLast? with
  | none => 0
  | some last => if last.1 < x then last.2 else
    match xp.zip fp with
    | [] => 0
    | a :: l => if x < a.1 then a.2 else interpFrom x a l

/-- An entry of `_uinds` with those of `_avetoas`, `_planetssb` and `_pos_t`. -/
structure Epoch where
  idx : List Nat
  ave : ℝ
  planets : Fin 9 → Pos
  pos : Pos

/-- `psr.toas[sc].mean()` (deterministic_signals.py 178). -/
noncomputable def mean (toas : List ℝ) (sc : List Nat) : ℝ := (sc.map fun i => toas.getD i 0).sum / sc.length

/-- The averages of an epoch (deterministic_signals.py 178-190). -/
noncomputable def epoch (p : Psr) (sc : List Nat) : Epoch :=
  let ave := mean p.toas sc
  let rows := List.range p.toas.length
  { idx := sc, ave := ave
    planets := fun jj aa => npInterp ave p.toas (rows.map fun i => p.planetssb i jj aa)
    pos := fun aa => npInterp ave p.toas (rows.map fun i => p.pos_t i aa) }

/-- `PhysicalEphemerisSignal.__init__` with `use_epoch_toas` (deterministic_signals.py 170-194) for a given result of
`np.argsort`; the `dt` of `create_quantization_matrix` is one second. -/
noncomputable def init (isort : List Nat) (p : Psr) : Except PyErr (List Epoch) := do
  let u ← quantCols p.toas isort 1 1
  let uinds ← quant2ind u false
  .ok ((uinds.map indicesFromSlice).map (epoch p))

/-- `self._delay[slc] = val`. -/
def assign (d : List ℝ) (slc : List Nat) (val : ℝ) : List ℝ := slc.foldl (fun d i => d.set i val) d

/-- `get_delay` with `use_epoch_toas` (deterministic_signals.py 198-205), without the cache (`Model/Cache`); `d` are the contents of
`self._delay`. -/
noncomputable def getDelay {n : Nat} (es : List Epoch) (d : List ℝ) (par : Params) (files : Option (Orbits n)) :
    Except PyErr (List ℝ) := do
  let delay ← es.mapM fun e => Ephem.delay e.ave e.planets e.pos par files true
  .ok ((es.zip delay).foldl (fun d x => assign d x.1.idx x.2) d)

/-- `get_delay` without `use_epoch_toas` (deterministic_signals.py 206-207): the waveform at the TOAs of the pulsar. -/
noncomputable def getDelayAll {n : Nat} (p : Psr) (par : Params) (files : Option (Orbits n)) : Except PyErr (List ℝ) :=
  (List.range p.toas.length).mapM fun i => Ephem.delay (p.toas.getD i 0) (p.planetssb i) (p.pos_t i) par files true

end Verif.EpochEphem
