import Verif.Model.Basic
import Mathlib.Data.List.Sort
import Mathlib.Data.String.Basic

/-!
# Feather files (`enterprise/pulsar.py` 666-769)

Column contents and metadata values are opaque (`V`, `M`): writing a column to a feather file and
reading it back, and the JSON encoding of metadata values, are taken to be the identity.
-/

namespace Verif.Feather

open Verif

/-- `s.startswith(p)`. -/
def startsWith (s p : String) : Bool := decide (p.toList <+: s.toList)

/-- `s.split("_")` on character lists. -/
def splitU : List Char → List (List Char)
  | [] => [[]]
  | c :: t =>
    if c = '_' then [] :: splitU t
    else match splitU t with
      | [] => [[c]]
      | h :: r => (c :: h) :: r

/-- `"_".join(parts)` on character lists. -/
def joinU : List (List Char) → List Char
  | [] => []
  | [x] => x
  | x :: t => x ++ '_' :: joinU t

/-- `"_".join(c.split("_")[:-1])`, pulsar.py 703. -/
def dropLastPart (s : String) : String := String.ofList (joinU (splitU s.toList).dropLast)

/-- `"_".join(array.split("_")[1:])`, pulsar.py 714. -/
def dropFirstPart (s : String) : String := String.ofList (joinU (splitU s.toList).tail)

/-- `FeatherPulsar.columns`, pulsar.py 667. -/
def columns : List String :=
  ["toas", "stoas", "toaerrs", "residuals", "freqs", "backend_flags", "telescope"]

/-- `FeatherPulsar.vector_columns`, pulsar.py 668. -/
def vectorColumns : List String := ["Mmat", "sunssb", "pos_t"]

/-- `FeatherPulsar.metadata`, pulsar.py 671. -/
def metadataNames : List String := ["name", "dm", "dmx", "pdist", "pos", "phi", "theta"]

/-- The attributes of the pulsar being saved, as its properties return them: plain columns, the
columns of the two-dimensional arrays (`None` without planets), the columns of `planetssb`,
the flags, the attributes listed in `metadata` that exist, and the noise dictionary. -/
structure Src (V M : Type) where
  name : String
  col : String → V
  vec : String → Option (List V)
  planets : Option (List (List V))
  flags : Dict String V
  attrs : Dict String M
  noisedict : Option (Dict String M)

/-- What a feather file holds. -/
structure File (V M : Type) where
  cols : Dict String V
  metaAttrs : Dict String M
  noise : Option (Dict String M)

/-- `f"{array}_{i}": getattr(self, array)[:, i]`, pulsar.py 737-743. -/
def vecCols {V : Type} (array : String) (vs : List V) : List (String × V) :=
  vs.zipIdx.map fun vi => (array ++ "_" ++ Nat.repr vi.2, vi.1)

/-- `f"{array}_{i}_{j}": getattr(self, array)[:, i, j]`, pulsar.py 745-752. -/
def tenCols {V : Type} (array : String) (pl : List (List V)) : List (String × V) :=
  pl.zipIdx.flatMap fun ri => vecCols (array ++ "_" ++ Nat.repr ri.2) ri.1

/-- The vector columns of all arrays; a missing array (`None[:, i]`) raises `TypeError`. -/
def allVecCols {V : Type} (vec : String → Option (List V)) : List String → Except PyErr (List (String × V))
  | [] => .ok []
  | a :: t =>
    match vec a with
    | none => .error .typeError
    | some vs =>
      match allVecCols vec t with
      | .ok r => .ok (vecCols a vs ++ r)
      | .error e => .error e

/-- `pydict`, pulsar.py 735-754. -/
def pydict {V M : Type} (p : Src V M) : Except PyErr (Dict String V) :=
  match allVecCols p.vec vectorColumns, p.planets with
  | .ok vs, some pl =>
    .ok (((Dict.update (Dict.update (Dict.ofList (columns.map fun c => (c, p.col c))) vs)
      (tenCols "planetssb" pl))).update (p.flags.map fun kv => ("flags_" ++ kv.1, kv.2)))
  | .error e, _ => .error e
  | .ok _, none => .error .typeError

/-- The entries of the noise dictionary that are kept, pulsar.py 767. -/
def keepNoise {M : Type} (name : String) (nd : Dict String M) : Dict String M :=
  nd.filter fun kv => startsWith kv.1 name

/-- `noisedict = getattr(self, "noisedict", None) if noisedict is None else noisedict; if noisedict:`,
pulsar.py 764-767. -/
def noiseMeta {M : Type} (name : String) (own arg : Option (Dict String M)) : Option (Dict String M) :=
  match (match arg with | some d => some d | none => own) with
  | some (kv :: t) => some (keepNoise name (kv :: t))
  | _ => none

/-- `save_feather`, pulsar.py 733-769, as a function of what the attribute lookup
`Pulsar.metadata` (757) gives. -/
def saveWith {V M : Type} (lookup : Except PyErr (List String)) (p : Src V M)
    (noisearg : Option (Dict String M)) : Except PyErr (File V M) :=
  match pydict p with
  | .error e => .error e
  | .ok d =>
    match lookup with
    | .error e => .error e
    | .ok names =>
      .ok { cols := d
            metaAttrs := names.filterMap fun a => (Dict.get? p.attrs a).map fun v => (a, v)
            noise := noiseMeta p.name p.noisedict noisearg }

/-- `Pulsar.metadata` (757): in this module `Pulsar` is the function defined at 772, which has no
such attribute. -/
def pulsarMetadata : Except PyErr (List String) := .error .attributeError

/-- `save_feather` / `to_feather` as written, pulsar.py 165-166, 733-769. -/
def saveFeather {V M : Type} (p : Src V M) (noisearg : Option (Dict String M)) :
    Except PyErr (File V M) := saveWith pulsarMetadata p noisearg

/-- The attributes of a loaded pulsar. -/
structure Loaded (V M : Type) where
  cols : Dict String V
  vecs : Dict String (List V)
  planets : List (List V)
  flags : Dict String V
  metaAttrs : Dict String M
  noise : Option (Dict String M)

/-- Values of the columns satisfying a test, in file order. -/
def pick {V : Type} (tbl : Dict String V) (f : String → Bool) : List V :=
  (tbl.filter fun kv => f kv.1).map Prod.snd

/-- Vector columns, pulsar.py 698-700; with no matching column `swapaxes` raises. -/
def readVec {V : Type} (tbl : Dict String V) (array : String) : Except PyErr (String × List V) :=
  match pick tbl fun c => startsWith c array with
  | [] => .error .valueError
  | vs => .ok (array, vs)

/-- The row names of a tensor, pulsar.py 703: `sorted(set(...))`. -/
def tensorRows {V : Type} (tbl : Dict String V) (array : String) : List String :=
  (((tbl.filter fun kv => startsWith kv.1 array).map fun kv => dropLastPart kv.1).dedup).insertionSort (· ≤ ·)

/-- Tensor columns, pulsar.py 702-709. -/
def readTensor {V : Type} (tbl : Dict String V) (array : String) : Except PyErr (List (List V)) :=
  match tensorRows tbl array with
  | [] => .error .valueError
  | rows => .ok (rows.map fun row => pick tbl fun c => startsWith c row)

/-- `read_feather`, pulsar.py 690-728. -/
def readFeather {V M : Type} (f : File V M) : Except PyErr (Loaded V M) := do
  let vecs ← vectorColumns.mapM (readVec f.cols)
  let planets ← readTensor f.cols "planetssb"
  return {
    cols := columns.filterMap fun a => (Dict.get? f.cols a).map fun v => (a, v)
    vecs := vecs
    planets := planets
    flags := Dict.ofList ((f.cols.filter fun kv => startsWith kv.1 "flags_").map
      fun kv => (dropFirstPart kv.1, kv.2))
    metaAttrs := metadataNames.filterMap fun a => (Dict.get? f.metaAttrs a).map fun v => (a, v)
    noise := f.noise }

end Verif.Feather
