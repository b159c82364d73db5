import Mathlib.Data.String.Basic
import Mathlib.Data.List.Sort
import Mathlib.Algebra.BigOperators.Group.List.Basic
import Verif.Model.Basic

/-!
# Parameters of a model

`enterprise/signals/parameter.py` 14-142 (`sample`, `Parameter`), 419-449 (`Constant`),
`enterprise/signals/signal_base.py` 97-133 (`Signal`), 286-309 (`PTA.params`, `param_names`),
675-699 (`map_params`, `get_lnprior`, `get_hypercube_transform`), 729-773 (`summary`), 826-844
(`SignalCollection.params`), and the parameter names of
`enterprise/signals/selections.py` 73-86, `white_signals.py` 41-51, `gp_signals.py` 46-62 and
`parameter.py` 489-508.
-/

set_option linter.unusedSectionVars false

namespace Verif.Params

open Verif

/-- A `Parameter` instance (parameter.py 39-142): its identity (`id`), name, `_size`, and the
Parameters among the arguments of its prior Function.  Constants in the prior are left out, as in
`params` (119). -/
inductive Par
  | mk (id : Nat) (name : String) (size : Option Nat) (hypers : List Par)

def Par.id : Par → Nat
  | .mk i _ _ _ => i
def Par.name : Par → String
  | .mk _ n _ _ => n
def Par.size : Par → Option Nat
  | .mk _ _ s _ => s
def Par.hypers : Par → List Par
  | .mk _ _ _ hs => hs

mutual
/-- `Parameter.params` (parameter.py 120-124): the parameter, then the `params` of its prior
(`Function.params`, 576-580, the sum of the `params` of its Parameters). -/
def Par.params : Par → List Par
  | .mk i n s hs => .mk i n s hs :: paramsAll hs
def paramsAll : List Par → List Par
  | [] => []
  | h :: t => h.params ++ paramsAll t
end

/-! ## Lists of parameters -/

/-- The elements of a Python `set` of objects: one per identity. -/
def dedupId : List Par → List Par
  | [] => []
  | p :: t => p :: (dedupId t).filter fun q => q.id ≠ p.id

/-- `sorted(..., key=lambda par: par.name)`: stable. -/
def sortByName (l : List Par) : List Par := l.insertionSort fun p q => p.name ≤ q.name

/-- A signal, as its list of varying parameters (`Signal.params`, signal_base.py 98-101). -/
abbrev Sig := List Par
/-- A `SignalCollection`: its signals. -/
abbrev SC := List Sig
/-- A `PTA`: its signal collections. -/
abbrev Pta := List SC

/-- `SignalCollection.params` (signal_base.py 825-827).  `ord` is the order in which the set is
traversed, which Python leaves open (it depends on addresses). -/
def scParams (ord : List Par → List Par) (sc : SC) : List Par :=
  sortByName (ord (dedupId (sc.flatMap id)))

/-- `PTA.params` (signal_base.py 286-294). -/
def ptaParams (ord : List Par → List Par) (pta : Pta) : List Par :=
  sortByName (ord (dedupId (pta.flatMap fun sc => (scParams ord sc).flatMap Par.params)))

/-- Decimal digits of a natural number, `"{}".format(ii)`. -/
def fmt (n : Nat) : String := toString n

/-- The entries of `param_names` for one parameter (signal_base.py 303-308); a size of `None` or 0
gives one entry. -/
def Par.names (p : Par) : List String :=
  match p.size with
  | some (n + 1) => (List.range (n + 1)).map fun i => p.name ++ "_" ++ fmt i
  | _ => [p.name]

/-- `PTA.param_names` (signal_base.py 301-309). -/
def paramNames (ps : List Par) : List String := ps.flatMap Par.names

/-! ## Values -/

/-- A float or an array. -/
inductive Value (K : Type)
  | num (x : K)
  | vec (xs : List K)
  deriving DecidableEq

variable {K : Type}

/-- `p.size if p.size else 1` (signal_base.py 679). -/
def Par.width (p : Par) : Nat :=
  match p.size with
  | some (n + 1) => n + 1
  | _ => 1

/-- `xs[ct:ct+n] if n > 1 else float(xs[ct])` (signal_base.py 680). -/
def slice (xs : List K) (ct n : Nat) : Except PyErr (Value K) :=
  if n > 1 then .ok (.vec ((xs.drop ct).take n))
  else match xs[ct]? with
    | some x => .ok (.num x)
    | none => .error .indexError

/-- The loop of `PTA.map_params` (signal_base.py 675-682). -/
def mapLoop : List Par → Nat → List K → Dict String (Value K) → Except PyErr (Dict String (Value K))
  | [], _, _, d => .ok d
  | p :: t, ct, xs, d =>
    match slice xs ct p.width with
    | .error e => .error e
    | .ok v => mapLoop t (ct + p.width) xs (Dict.set d p.name v)

/-- `PTA.map_params` (signal_base.py 675-682). -/
def mapParams (ps : List Par) (xs : List K) : Except PyErr (Dict String (Value K)) := mapLoop ps 0 xs []

/-- The entries of a value. -/
def Value.entries : Value K → List K
  | .num x => [x]
  | .vec xs => xs

/-- The argument of `get_lnprior`, `get_hypercube_transform`: a dictionary or a vector. -/
inductive Input (K : Type)
  | dict (d : Dict String (Value K))
  | vec (xs : List K)

/-- `params if isinstance(params, dict) else self.map_params(params)` (signal_base.py 686, 697). -/
def Input.toDict (ps : List Par) : Input K → Except PyErr (Dict String (Value K))
  | .dict d => .ok d
  | .vec xs => mapParams ps xs

/-- `kwargs["params"][name]`. -/
def look (d : Dict String (Value K)) (n : String) (e : PyErr) : Except PyErr (Value K) :=
  match Dict.get? d n with
  | some v => .ok v
  | none => .error e

/-- Values of the hyperparameters that a prior, sampler or ppf is called with (`Function.__call__`,
parameter.py 540-548): by name from `params`; a missing one leaves the argument out, which is a
`TypeError` (the functions have no defaults for them). -/
def hyperValues (d : Dict String (Value K)) : List Par → Except PyErr (List (Value K))
  | [] => .ok []
  | h :: t =>
    match look d h.name .typeError with
    | .error e => .error e
    | .ok v =>
      match hyperValues d t with
      | .error e => .error e
      | .ok vs => .ok (v :: vs)

/-- The prior functions of the parameter objects: `logp p j x hs` is the log density of component `j`
of parameter `p` at `x` given the hyperparameter values, `ppf p j u hs` its quantile function if
there is one.  Simplification: the components of a vector parameter are independent. -/
structure Priors (K : Type) where
  logp : Par → Nat → K → List (Value K) → K
  ppf : Par → Option (Nat → K → List (Value K) → K)

section
variable [AddCommMonoid K]

/-- `get_logpdf(params=d)` (parameter.py 60-74): the value is looked up by name, vector results are
summed. -/
def getLogpdf (π : Priors K) (d : Dict String (Value K)) (p : Par) : Except PyErr K :=
  match look d p.name .keyError with
  | .error e => .error e
  | .ok v =>
    match hyperValues d p.hypers with
    | .error e => .error e
    | .ok hs => .ok (v.entries.zipIdx.map fun xj => π.logp p xj.2 xj.1 hs).sum

/-- `np.sum([p.get_logpdf(params=params) for p in self.params])`. -/
def sumLogpdf (π : Priors K) (d : Dict String (Value K)) : List Par → Except PyErr K
  | [] => .ok 0
  | p :: t =>
    match getLogpdf π d p with
    | .error e => .error e
    | .ok x =>
      match sumLogpdf π d t with
      | .error e => .error e
      | .ok y => .ok (x + y)

/-- `PTA.get_lnprior` (signal_base.py 684-688). -/
def getLnprior (π : Priors K) (ps : List Par) (x : Input K) : Except PyErr K :=
  match x.toDict ps with
  | .error e => .error e
  | .ok d => sumLogpdf π d ps

end

/-- `get_ppf(params=d)` (parameter.py 107-114). -/
def getPpf (π : Priors K) (d : Dict String (Value K)) (p : Par) : Except PyErr (List K) :=
  match π.ppf p with
  | none => .error .notImplementedError
  | some q =>
    match look d p.name .keyError with
    | .error e => .error e
    | .ok v =>
      match hyperValues d p.hypers with
      | .error e => .error e
      | .ok hs => .ok (v.entries.zipIdx.map fun xj => q xj.2 xj.1 hs)

/-- `np.hstack([p.get_ppf(params=params) for p in self.params])`. -/
def stackPpf (π : Priors K) (d : Dict String (Value K)) : List Par → Except PyErr (List K)
  | [] => .ok []
  | p :: t =>
    match getPpf π d p with
    | .error e => .error e
    | .ok x =>
      match stackPpf π d t with
      | .error e => .error e
      | .ok y => .ok (x ++ y)

/-- `PTA.get_hypercube_transform` (signal_base.py 694-699).  Simplification: `np.hstack([])`, an
error for a model without parameters, gives the empty vector. -/
def hypercube (π : Priors K) (ps : List Par) (x : Input K) : Except PyErr (List K) :=
  match x.toDict ps with
  | .error e => .error e
  | .ok d => stackPpf π d ps

/-! ## Sampling -/

mutual
/-- Number of draws made for a parameter with everything below it; only used to show that `sampleList`
ends. -/
def Par.weight : Par → Nat
  | .mk _ _ _ hs => 1 + 2 * weightAll hs
def weightAll : List Par → Nat
  | [] => 0
  | h :: t => h.weight + weightAll t
end

/-- Weight of one element of the list given to `_sample`. -/
def Par.cost (p : Par) : Nat := 1 + weightAll p.hypers

theorem costs_append (a b : List Par) :
    ((a ++ b).map Par.cost).sum = (a.map Par.cost).sum + (b.map Par.cost).sum := by simp

mutual
theorem cost_params (p : Par) : (p.params.map Par.cost).sum = p.weight := by
  match p with
  | .mk i n s hs =>
    rw [Par.params, Par.weight, List.map_cons, List.sum_cons, cost_paramsAll hs]
    simp only [Par.cost, Par.hypers]
    omega
theorem cost_paramsAll (l : List Par) : ((paramsAll l).map Par.cost).sum = weightAll l := by
  match l with
  | [] => rfl
  | h :: t => rw [paramsAll, weightAll, costs_append, cost_params h, cost_paramsAll t]
end

theorem tail_params (p : Par) : p.params.tail = paramsAll p.hypers := by
  cases p; rw [Par.params]; rfl

variable {V : Type}

/-- `_sample(parlist, parvalues)` (parameter.py 27-36).  `draw p hs r` is the value `p.sample` returns
at the `r`-th use of the random generator with the given hyperparameter values; `r` is threaded
through.  The test `par not in parvalues` compares an object with the names in the dictionary and
is always true.  `sample(par.params[1:])` starts from an empty dictionary.  Simplification: every
parameter has a sampler. -/
def sampleList (draw : Par → List (Option V) → Nat → V) (l : List Par) (d : Dict String V) (r : Nat) :
    Dict String V × Nat :=
  match l with
  | [] => (d, r)
  | p :: t =>
    let e := sampleList draw p.params.tail [] r
    let d1 := Dict.update d e.1
    sampleList draw t (Dict.set d1 p.name (draw p (p.hypers.map fun h => Dict.get? d1 h.name) e.2)) (e.2 + 1)
termination_by (l.map Par.cost).sum
decreasing_by
  · rw [tail_params, cost_paramsAll]; simp [Par.cost]; omega
  · simp [Par.cost]

/-- `sample(parlist)` (parameter.py 14-24). -/
def sample (draw : Par → List (Option V) → Nat → V) (l : List Par) (r : Nat) : Dict String V :=
  (sampleList draw l [] r).1

/-! ## Constants -/

/-- A `Constant` instance (parameter.py 419-449). -/
structure Const (V : Type) where
  name : String
  value : Option V

/-- What a signal's `_params` holds: a Constant (by identity) or a Parameter, with the Constants used
in its prior. -/
inductive Entry
  | const (id : Nat)
  | par (name : String) (priorConsts : List Nat)
  deriving DecidableEq

/-- The Constants in memory, by identity. -/
abbrev Heap (V : Type) := Nat → Const V

/-- One step of the loop in `Signal.set_default_params` (signal_base.py 123-133); the warning for unset
Constants is left out. -/
def setOne (d : Dict String V) (h : Heap V) : Entry → Heap V
  | .const i =>
    match Dict.get? d (h i).name with
    | some v => fun j => if j = i then { h i with value := some v } else h j
    | none => h
  | .par _ _ => h

/-- `Signal.set_default_params` (signal_base.py 123-133). -/
def setSignal (d : Dict String V) (h : Heap V) (sig : Dict String Entry) : Heap V :=
  sig.foldl (fun h kv => setOne d h kv.2) h

/-- `PTA.set_default_params`, `SignalCollection.set_default_params` (signal_base.py 365-367, 873-875). -/
def setPta (d : Dict String V) (h : Heap V) (pta : List (List (Dict String Entry))) : Heap V :=
  pta.foldl (fun h sc => sc.foldl (setSignal d) h) h

/-! ## Names -/

/-- `"_".join([n for n in l if n])` (parameter.py 494; white_signals.py 48; gp_signals.py 56). -/
def joinNames : List String → String
  | [] => ""
  | n :: t =>
    if n = "" then joinNames t
    else if joinNames t = "" then n
    else n ++ "_" ++ joinNames t

/-- Name of the Parameter made for keyword `kw` of a Function called `fname` in a signal called
`sname`, for selection key `key` (white_signals.py 47-49 or gp_signals.py 55-58, then parameter.py
493-494). -/
def selName (psr sname key fname kw : String) : String :=
  joinNames [joinNames [psr, sname, key], fname, kw]

/-- Name of the Parameter made by `Selection.__call__` (selections.py 76-78). -/
def selectionName (psr key parname : String) : String :=
  psr ++ "_" ++ (if key = "" then parname else key ++ "_" ++ parname)

/-! ## Summary -/

/-- What `PTA.summary` sees of a signal: the number of its `param_names` and its `_params` values. -/
structure SumSig where
  names : List String
  entries : List Entry

/-- The counters of `PTA.summary` (signal_base.py 729-773). -/
structure Summary where
  total : Nat
  varying : Nat
  common : Nat
  fixed : Nat
  pulsars : Nat
  deriving DecidableEq

/-- `copcount` for one signal: only counted while listing the parameters (756-761). -/
def fixedOf (s : SumSig) : Nat := (s.entries.filter fun e => match e with | .const _ => true | .par _ _ => false).length

/-- `PTA.summary` (signal_base.py 729-773), the numbers.  `contains` is `in` for strings. -/
def summary (contains : String → String → Bool) (nvary : Nat) (pta : List (String × List SumSig)) (includeParams : Bool) :
    Summary :=
  let cp := (pta.map fun sc => (sc.2.map fun s => (s.names.filter fun n => !contains sc.1 n).length).sum).sum
  let cop := if includeParams then (pta.map fun sc => (sc.2.map fixedOf).sum).sum else 0
  ⟨nvary + cop, nvary, cp, cop, pta.length⟩

end Verif.Params
