import Verif.Model.Basic

/-!
# Timing objects and pickling (`enterprise/pulsar.py` 168-188, 326-406, 483-551, 632-636)

Of the attributes of a pulsar only those that refer to the timing package are followed: `model`, `parfile`, `pint_toas` and `timfile` of a
`PintPulsar`, `t2pulsar`, `parfile` and `timfile` of a `Tempo2Pulsar`.  All others together are one value `D`, which the functions here do not
touch.
-/

namespace Verif.Pickle

open Verif

/-- The class of the pulsar (pulsar.py 326, 483). -/
inductive Kind
  | pint | tempo2
  deriving DecidableEq

/-- A pulsar object: class, name, which of the attributes above it has, and all its other attributes. -/
structure Psr (D : Type) where
  kind : Kind
  name : String
  has : List String
  data : D

/-- The file of a pickle: what `pickle.dump` wrote, or nothing if it raised after the file was opened for writing. -/
inductive File (D : Type)
  | whole (p : Psr D)
  | broken

/-- The files and directories. -/
structure Disk (D : Type) where
  files : Dict String (File D)
  dirs : List String

/-- What the system allows: which attribute values can be pickled, which directories can be made, which files be opened for writing. -/
structure Sys where
  cwd : String
  picklable : String → Bool
  mkdir : String → Bool
  open_ : String → Bool

variable {D : Type}

/-- `del self.a; del self.b; ...`: the attributes left, and `AttributeError` at the first that is missing; those before it are gone. -/
def delAll : List String → List String → List String × Option PyErr
  | has, [] => (has, none)
  | has, a :: t => if a ∈ has then delAll (has.filter (· ≠ a)) t else (has, some .attributeError)

/-- `with contextlib.suppress(E)`: exceptions of class `E` are dropped.  -/
def suppress (isE : PyErr → Bool) : Option PyErr → Option PyErr
  | none => none
  | some e => if isE e then none else some e

/-- `NameError`: nothing that is modelled raises it, so that `PyErr` has no such constructor; `AttributeError` is no subclass of it. -/
def isNameError : PyErr → Bool := fun _ => false

/-- `AttributeError`. -/
def isAttributeError : PyErr → Bool
  | .attributeError => true
  | _ => false

/-- `PintPulsar.drop_pintpsr` (pulsar.py 393-398) and `Tempo2Pulsar.drop_tempopsr` (pulsar.py 549-551). -/
def drop (p : Psr D) : Psr D × Option PyErr :=
  match p.kind with
  | .pint =>
    let r := delAll p.has ["model", "parfile", "pint_toas", "timfile"]
    ({ p with has := r.1 }, suppress isNameError r.2)
  | .tempo2 =>
    let r := delAll p.has ["t2pulsar"]
    ({ p with has := r.1 }, suppress isNameError r.2)

/-- `drop_not_picklable`: pulsar.py 400-406 for `PintPulsar`, 632-636 for `Tempo2Pulsar`, and the empty method of the base class, 168-174. -/
def dropNotPicklable (p : Psr D) : Psr D × Option PyErr :=
  match p.kind with
  | .pint =>
    let r := delAll p.has ["model", "pint_toas"]
    ({ p with has := r.1 }, suppress isAttributeError r.2)
  | .tempo2 =>
    let r := delAll p.has ["t2pulsar"]
    ({ p with has := r.1 }, suppress isAttributeError r.2)

/-- `PintPulsar.__init__`, pulsar.py 327-338: the timing objects are kept only if asked for. -/
def mkPint (name : String) (data : D) (dropIt : Bool) : Psr D :=
  ⟨.pint, name, if dropIt then [] else ["model", "parfile", "pint_toas", "timfile"], data⟩

/-- `Tempo2Pulsar.__init__`, pulsar.py 484-547: `t2pulsar` is kept for the construction and dropped at its end by default; otherwise the texts of
the files are kept if their names are given and they exist (`par`, `tim`). -/
def mkTempo2 (name : String) (data : D) (dropIt par tim : Bool) : Psr D × Option PyErr :=
  let p : Psr D := ⟨.tempo2, name, ["t2pulsar"], data⟩
  if dropIt then drop p
  else ({ p with has := p.has ++ (if par then ["parfile"] else []) ++ (if tim then ["timfile"] else []) }, none)

/-- `outdir + "/{0}.pkl".format(self.name)`, pulsar.py 187. -/
def path (outdir name : String) : String := outdir ++ "/" ++ name ++ ".pkl"

/-- `os.makedirs(outdir)` if it does not exist, pulsar.py 184-185. -/
def makeDir (sys : Sys) (disk : Disk D) (outdir : String) : Except PyErr (Disk D) :=
  if outdir ∈ disk.dirs then .ok disk
  else if sys.mkdir outdir then .ok { disk with dirs := disk.dirs ++ [outdir] } else .error .ioError

/-- `with open(..., "wb") as f: pickle.dump(self, f)`, pulsar.py 187-188: opening empties the file; pickling fails at an attribute that cannot be
pickled. -/
def dump (sys : Sys) (disk : Disk D) (p : Psr D) (f : String) : Disk D × Option PyErr :=
  if sys.open_ f then
    if p.has.all sys.picklable then ({ disk with files := disk.files.set f (.whole p) }, none)
    else ({ disk with files := disk.files.set f .broken }, some .typeError)
  else (disk, some .ioError)

/-- `BasePulsar.to_pickle`, pulsar.py 176-188. -/
def toPickle (sys : Sys) (disk : Disk D) (p : Psr D) (outdir : Option String) : Psr D × Disk D × Option PyErr :=
  match dropNotPicklable p with
  | (p, some e) => (p, disk, some e)
  | (p, none) =>
    let dir := outdir.getD sys.cwd
    match makeDir sys disk dir with
    | .error e => (p, disk, some e)
    | .ok disk =>
      let r := dump sys disk p (path dir p.name)
      (p, r.1, r.2)

/-- `pickle.load(open(f, "rb"))`. -/
def load (disk : Disk D) (f : String) : Except PyErr (Psr D) :=
  match disk.files.get? f with
  | some (.whole p) => .ok p
  | some .broken => .error .other
  | none => .error .fileNotFoundError

/-- What a user does with one pulsar: the calls above, in any order; an exception is caught and the work goes on. -/
inductive Op
  | drop
  | dropNotPicklable
  | toPickle (outdir : Option String)

/-- One call. -/
def step (sys : Sys) (s : Psr D × Disk D) : Op → Psr D × Disk D
  | .drop => ((drop s.1).1, s.2)
  | .dropNotPicklable => ((dropNotPicklable s.1).1, s.2)
  | .toPickle o => ((toPickle sys s.2 s.1 o).1, (toPickle sys s.2 s.1 o).2.1)

end Verif.Pickle
