import Verif.Model.Basic

/-!
# The `Pulsar` factory and `get_maxobs`

`enterprise/pulsar.py` 51-68 (`get_maxobs`) and 772-859 (`Pulsar`).
-/

namespace Verif.Loader

open Verif

/-- Python's `str.split(c)` for one character, on lists of characters. -/
def splitAt1 (c : Char) : List Char → List (List Char)
  | [] => [[]]
  | d :: s =>
    if d = c then [] :: splitAt1 c s
    else match splitAt1 c s with
      | h :: t => (d :: h) :: t
      | [] => [[d]]

/-- Python's `str.split(c)`. -/
def pySplit (c : Char) (s : String) : List String := (splitAt1 c s.toList).map String.ofList

/-! ## Paths -/

/-- A directory or file of the file system by its physical components; `[]` is the root. -/
abbrev Path := List String

/-- A path as written by the caller: absolute or relative, and its components without empty ones
and `.`.  Simplification: strings are split once, at `parse`; posix only. -/
structure PathArg where
  abs : Bool
  comps : List String
  deriving DecidableEq

/-- Splitting a path string at slashes (`posixpath.normpath`, used through `os.path.relpath` and
`os.path.split` at pulsar.py 812-815). -/
def parse (s : String) : PathArg :=
  ⟨s.toList.head? = some '/', (pySplit '/' s).filter fun c => c ≠ "" ∧ c ≠ "."⟩

/-- One component of lexical normalisation: `..` drops the last component. -/
def lexStep (d : Path) (c : String) : Path := if c = ".." then d.dropLast else d ++ [c]

/-- `os.path.abspath` (used by `os.path.relpath`, pulsar.py 815): lexical. -/
def abspath (cwd : Path) (p : PathArg) : Path :=
  (if p.abs then [] else cwd).foldl lexStep [] |> fun d => p.comps.foldl lexStep d

/-- Length of the common prefix (`os.path.commonprefix` of the component lists). -/
def commonLen : Path → Path → Nat
  | a :: s, b :: t => if a = b then commonLen s t + 1 else 0
  | _, _ => 0

/-- `os.path.relpath(path, start)`, pulsar.py 815. -/
def relpath (cwd : Path) (p start : PathArg) : PathArg :=
  let s := abspath cwd start
  let q := abspath cwd p
  let i := commonLen s q
  ⟨false, List.replicate (s.length - i) ".." ++ q.drop i⟩

/-- `os.path.split(timfile)[0] or "./"` (pulsar.py 812-813). -/
def dirOf (p : PathArg) : PathArg := ⟨p.abs, p.comps.dropLast⟩

/-- `os.path.split(timfile)[-1]` (pulsar.py 814). -/
def baseOf (p : PathArg) : PathArg := ⟨false, p.comps.drop (p.comps.length - 1)⟩

/-! ## The process state -/

/-- What the process sees of the system.  `rest` is everything else. -/
structure W (R : Type) where
  cwd : Path
  /-- symbolic links: physical path of the link, physical path it leads to -/
  links : Path → Option Path
  isDir : Path → Bool
  isFile : Path → Bool
  rest : R

/-- The kernel's lookup of one component in a directory. -/
def walkStep {R : Type} (w : W R) (d : Path) (c : String) : Path :=
  if c = ".." then d.dropLast
  else match w.links (d ++ [c]) with
    | some t => t
    | none => d ++ [c]

/-- The kernel's path resolution: what `open`, `os.path.isfile` and `os.chdir` refer to. -/
def resolve {R : Type} (w : W R) (p : PathArg) : Path :=
  p.comps.foldl (walkStep w) (if p.abs then [] else w.cwd)

/-- Code that can raise and change the state. -/
abbrev M (R α : Type) := W R → Except PyErr α × W R

/-- Sequencing. -/
def M.bind {R α β : Type} (x : M R α) (f : α → M R β) : M R β := fun w =>
  match x w with
  | (.ok a, w') => f a w'
  | (.error e, w') => (.error e, w')

def M.pure {R α : Type} (a : α) : M R α := fun w => (.ok a, w)

def raise {R α : Type} (e : PyErr) : M R α := fun w => (.error e, w)

instance {R : Type} : Monad (M R) where
  pure := M.pure
  bind := M.bind

/-- `try: body finally: fin`; an exception in `fin` replaces the outcome. -/
def tryFinally {R α : Type} (body : M R α) (fin : M R Unit) : M R α := fun w =>
  match body w with
  | (r, w') =>
    match fin w' with
    | (.ok (), w'') => (r, w'')
    | (.error e, w'') => (.error e, w'')

/-- `os.chdir`. -/
def chdir {R : Type} (p : PathArg) : M R Unit := fun w =>
  if w.isDir (resolve w p) then (.ok (), { w with cwd := resolve w p })
  else (.error .fileNotFoundError, w)

/-- `os.chdir(cwd)` with the physical path `os.getcwd()` returned.  Simplification: no component
of a path returned by `getcwd` has since been replaced by a symbolic link. -/
def chdirBack {R : Type} (d : Path) : M R Unit := fun w =>
  if w.isDir d then (.ok (), { w with cwd := d }) else (.error .fileNotFoundError, w)

/-! ## Arguments -/

/-- Positional arguments by the type tests of pulsar.py 773, 792-799. -/
inductive Arg (T P N : Type) where
  | str (s : String)
  | toas (t : T)
  | model (m : P)
  | t2psr (n : N)
  | other

/-- Keyword arguments (pulsar.py 776-789).  The flags passed on unchanged (`sort`,
`drop_t2pulsar`, ...) are one opaque value of the constructors. -/
structure Kw where
  filepath : Option String := none
  timingPackage : Option String := none
  clk : Option String := none
  bipm : Option String := none

/-- The functions of other modules: they may do anything to the state and raise anything.
`t2`, `pint` say whether the packages could be imported. -/
structure Env (R T P N Q : Type) where
  t2 : Bool
  pint : Bool
  readFeather : String → M R Q
  mkPint : T → P → M R Q
  mkTempo2 : N → M R Q
  maxobs : PathArg → M R Nat
  tempopulsar : PathArg → PathArg → Nat → M R N
  modelAndToas : PathArg → PathArg → Option String → M R (P × T)

/-- `x.split(".")[-1]`, pulsar.py 798-799. -/
def ext (s : String) : String := (pySplit '.' s).getLast?.getD ""

/-- `[x for x in args if isinstance(x, str) and x.endswith(".feather")]`, pulsar.py 773. -/
def feathers {T P N : Type} (args : List (Arg T P N)) : List String :=
  args.filterMap fun a => match a with
    | .str s => if ".feather".toList <:+ s.toList then some s else none
    | _ => none

/-- `parfile`, pulsar.py 798. -/
def parfiles {T P N : Type} (args : List (Arg T P N)) : List String :=
  args.filterMap fun a => match a with
    | .str s => if ext s = "par" then some s else none
    | _ => none

/-- `timfile`, pulsar.py 799. -/
def timfiles {T P N : Type} (args : List (Arg T P N)) : List String :=
  args.filterMap fun a => match a with
    | .str s => if ext s = "tim" ∨ ext s = "toa" then some s else none
    | _ => none

/-- `toas`, pulsar.py 792. -/
def toasArgs {T P N : Type} (args : List (Arg T P N)) : List T :=
  args.filterMap fun a => match a with
    | .toas t => some t
    | _ => none

/-- `model`, pulsar.py 793. -/
def modelArgs {T P N : Type} (args : List (Arg T P N)) : List P :=
  args.filterMap fun a => match a with
    | .model t => some t
    | _ => none

/-- `t2pulsar`, pulsar.py 796. -/
def t2Args {T P N : Type} (args : List (Arg T P N)) : List N :=
  args.filterMap fun a => match a with
    | .t2psr t => some t
    | _ => none

/-- The BIPM version passed to PINT (pulsar.py 848-849): `clk.split("(")[1][:-1]`, an
`IndexError` without an opening bracket. -/
def bipmOf (kw : Kw) : Except PyErr (Option String) :=
  match kw.clk, kw.bipm with
  | some c, none =>
    match (pySplit '(' c)[1]? with
    | some v => .ok (some (String.ofList v.toList.dropLast))
    | none => .error .indexError
  | _, b => .ok b

/-- The Tempo2 branch (pulsar.py 831-844). -/
def loadTempo2 {R T P N Q : Type} (env : Env R T P N Q) (par tim : PathArg) : M R Q :=
  if env.t2 then
    M.bind (env.maxobs tim) fun n =>
      M.bind (env.tempopulsar par tim (n + 100)) fun p => env.mkTempo2 p
  else raise .valueError

/-- The PINT branch (pulsar.py 845-854). -/
def loadPint {R T P N Q : Type} (env : Env R T P N Q) (kw : Kw) (cwd : Path) (par tim : PathArg) : M R Q :=
  if env.pint then
    match bipmOf kw with
    | .error e => raise e
    | .ok b =>
      M.bind (env.modelAndToas par tim b) fun mt =>
        M.bind (chdirBack cwd) fun _ => env.mkPint mt.2 mt.1
  else raise .valueError

/-- The body of the `try` (pulsar.py 828-856). -/
def loadBody {R T P N Q : Type} (env : Env R T P N Q) (kw : Kw) (cwd : Path) (pkg : String)
    (dir par tim : PathArg) : M R Q :=
  M.bind (chdir dir) fun _ =>
    if pkg = "tempo2" then loadTempo2 env par tim
    else if pkg = "pint" then loadPint env kw cwd par tim
    else raise .valueError

/-- `timing_package` after pulsar.py 787-789 and 817-823; lower-casing is idempotent, so the
later `.lower()` calls are dropped. -/
def package {R T P N Q : Type} (env : Env R T P N Q) (kw : Kw) : Except PyErr String :=
  match kw.timingPackage with
  | some s => .ok s.toLower
  | none => if env.t2 then .ok "tempo2" else if env.pint then .ok "pint" else .error .valueError

/-- The par/tim branch (pulsar.py 805-858). -/
def loadFiles {R T P N Q : Type} (env : Env R T P N Q) (kw : Kw) (par tim : String) : M R Q := fun w =>
  if ¬ w.isFile (resolve w (parse par)) ∨ ¬ w.isFile (resolve w (parse tim)) then (.error .ioError, w)
  else
    let dir := dirOf (parse tim)
    let relpar := relpath w.cwd (parse par) dir
    match package env kw with
    | .error e => (.error e, w)
    | .ok pkg =>
      tryFinally (loadBody env kw w.cwd pkg dir relpar (baseOf (parse tim))) (chdirBack w.cwd) w

/-- `Pulsar(*args, **kwargs)` (pulsar.py 772-859). -/
def pulsar {R T P N Q : Type} (env : Env R T P N Q) (args : List (Arg T P N)) (kw : Kw) : M R Q :=
  match feathers args with
  | f :: _ => env.readFeather f
  | [] =>
    match kw.filepath.filter (· ≠ "") with
    | some f => env.readFeather f
    | none =>
      match env.pint, toasArgs args, modelArgs args with
      | true, t :: _, m :: _ => env.mkPint t m
      | _, _, _ =>
        match env.t2, t2Args args with
        | true, p :: _ => env.mkTempo2 p
        | _, _ =>
          match parfiles args, timfiles args with
          | par :: _, tim :: _ => loadFiles env kw par tim
          | _, _ => raise .valueError

/-! ## `get_maxobs` -/

/-- A line of a tim file, with or without its line end. -/
abbrev Line := List Char

/-- White space of `str.split()`.  Simplification: the ASCII characters only. -/
def isSpace (c : Char) : Bool := c = ' ' ∨ c = '\t' ∨ c = '\n' ∨ c = '\r'

/-- `str.split()`: maximal runs of other characters; the accumulator is the current run. -/
def wordsAux : Line → Line → List Line
  | [], acc => if acc = [] then [] else [acc]
  | c :: s, acc =>
    if isSpace c then (if acc = [] then wordsAux s [] else acc :: wordsAux s [])
    else wordsAux s (acc ++ [c])

def words (l : Line) : List Line := wordsAux l []

/-- `ln.startswith("C")`, pulsar.py 62. -/
def isComment (l : Line) : Bool := l.head? = some 'C'

/-- `"INCLUDE" in ln`, pulsar.py 63. -/
def isInclude (l : Line) : Bool := decide (['I', 'N', 'C', 'L', 'U', 'D', 'E'] <:+: l)

/-- `line.rstrip("\n")` is not empty, pulsar.py 67. -/
def nonblank (l : Line) : Bool := l.any (· ≠ '\n')

/-- `line.split()[-1]`, pulsar.py 65. -/
def includeName (l : Line) : Line := (words l).getLast?.getD []

/-- The files that can be opened. -/
abbrev Files := Line → Option (List Line)

/-- Add up recursive results (pulsar.py 64-65). -/
def sumE : List (Except PyErr Nat) → Except PyErr Nat
  | [] => .ok 0
  | .error e :: _ => .error e
  | .ok n :: t =>
    match sumE t with
    | .ok m => .ok (n + m)
    | .error e => .error e

/-- `get_maxobs(timfile)` (pulsar.py 51-68).  `depth` is what is left of Python's recursion
limit (`RecursionError` is a `RuntimeError`). -/
def getMaxobs (fs : Files) : Nat → Line → Except PyErr Nat
  | 0, _ => .error .runtimeError
  | depth + 1, name =>
    match fs name with
    | none => .error .fileNotFoundError
    | some flines =>
      let lines := flines.filter fun l => !isComment l
      if lines.any isInclude then
        sumE ((lines.filter isInclude).map fun l => getMaxobs fs depth (includeName l))
      else .ok (lines.countP nonblank)

end Verif.Loader
