import Mathlib.Data.Rat.Defs
import Verif.Model.Basic

/-!
# Distances of pulsars

`enterprise/pulsar.py` 74-92 with `enterprise/datafiles/pulsar_distances.json`.
-/

namespace Verif.Distance

open Verif

/-- What `json.load` gives for `enterprise/datafiles/pulsar_distances.json` (1-126), distances and uncertainties in kpc.  Simplification: rational numbers for their binary64 neighbours. -/
def catalogue : Dict String (ℚ × ℚ) :=
  [("B1855+09", 0.9, 0.2), ("B1953+29", 5.39, 1.1), ("J0030+0451", 0.28, 0.1), ("J0437-4715", 0.156, 0.001), ("J0613-0200", 0.9, 0.4), ("J0711-6830", 1.04, 0.2),
   ("J1012+5307", 0.7, 0.2), ("J1022+1001", 0.52, 0.09), ("J1024-0719", 0.49, 0.12), ("J1045-4509", 0.23, 0.17), ("J1455-3330", 0.74, 0.15), ("J1600-3053", 2.4, 0.9),
   ("J1603-7202", 1.64, 0.3), ("J1640+2224", 1.19, 0.238), ("J1643-1224", 0.42, 0.09), ("J1713+0747", 1.05, 0.06), ("J1730-2304", 0.51, 0.1), ("J1732-5049", 1.81, 0.36),
   ("J1744-1134", 0.42, 0.02), ("J1824-2452A", 3.6, 0.72), ("J1853+1308", 0.65, 0.13), ("J1857+0943", 0.9, 0.2), ("J1909-3744", 1.26, 0.03), ("J1910+1256", 1.95, 0.39),
   ("J1918-0642", 1.4, 0.28), ("J1939+2134", 5, 2), ("B1937+21", 5, 2), ("J2124-3358", 0.3, 0.07), ("J2129-5721", 0.4, 0.2), ("J2145-0750", 0.57, 0.11), ("J2317+1439", 1.89, 0.38)]

/-- The distance of pulsars that are not listed, pulsar.py 83, 85. -/
def unknown : ℚ × ℚ := (1, 0.2)

/-- `_get_pdist`, pulsar.py 74-92: the value of the attribute `pdist`, and whether there is a warning (87-91).  `self.name[0]` (79) raises `IndexError` for an empty name. -/
def getPdist (pdict : Dict String (ℚ × ℚ)) (name : String) : Except PyErr ((ℚ × ℚ) × Bool) :=
  match name.toList.head? with
  | none => .error .indexError
  | some c =>
    let pdist :=
      if c ∉ ['J', 'B'] then
        match pdict.get? ("J" ++ name) with
        | some v => v
        | none => (pdict.get? ("B" ++ name)).getD unknown
      else (pdict.get? name).getD unknown
    .ok (pdist, pdist = unknown)

end Verif.Distance
