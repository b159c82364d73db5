import Verif.Model.Function
import Verif.Model.Params

/-!
# Parameters with priors that are Functions

`enterprise/signals/parameter.py` 39-118 (`Parameter`), 145-155 (`GPCoefficients`), 158-185 (`UserParameter`), 419-449 (`Constant`) and
456-510 (`Function.__init__`, for keywords that are not Functions).
-/

namespace Verif.UserPar

open Verif Verif.Fun
open Verif.Params (joinNames)

variable {V : Type}

/-- What may be given for a keyword of a Function class: a Parameter class, a Constant class, an instance of either, or a value.
Simplification: no Function (see `Fun.Item`). -/
inductive Arg (V : Type)
  | parCls
  | constCls (v : V)
  | inst (p : ParRef V)
  | val (v : V)

/-- A Function class, `Function(func, name, **kwargs)` (parameter.py 456-474). -/
structure FnCls (V : Type) where
  body : Body V
  fargs : List String
  fname : String
  kwargs : Dict String (Arg V)

/-- The instance of a keyword (parameter.py 490-510): a class gets the name `name_fname_kw`. -/
def Arg.item (name fname kw : String) : Arg V → Item V
  | .parCls => .par ⟨joinNames [name, fname, kw], none⟩
  | .constCls v => .par ⟨joinNames [name, fname, kw], some v⟩
  | .inst p => .par p
  | .val v => .val v

/-- The loop of parameter.py 489-510. -/
def items (name fname : String) : Dict String (Arg V) → Items V
  | [] => .nil
  | (kw, a) :: t => .cons kw (a.item name fname kw) (items name fname t)

/-- `cls(name)` (parameter.py 460-510). -/
def FnCls.make (c : FnCls V) (name : String) : Fn V := .mk c.body c.fargs none (items name c.fname c.kwargs) []

/-- A Parameter class: `UserParameter(prior, logprior, sampler, ppf, size)` (parameter.py 174-183), or `GPCoefficients` (149-153), or one
of the classes of 220-416, which are made in the same way. -/
structure ParCls (V : Type) where
  prior : Option (FnCls V) := none
  logprior : Option (FnCls V) := none
  sampler : Option (Body V) := none
  ppf : Option (FnCls V) := none
  size : Option Nat := none

/-- `GPCoefficients(logprior, size)` (parameter.py 145-155). -/
def gpCoefficients (logprior : FnCls V) (size : Nat) : ParCls V := { logprior := some logprior, size := some size }

/-- The Function that gives the density, or its logarithm. -/
inductive Dens (V : Type)
  | prior (f : Fn V)
  | logprior (f : Fn V)

/-- `self.prior` or `self.logprior`. -/
def Dens.fn : Dens V → Fn V
  | .prior f => f
  | .logprior f => f

/-- An instance of a Parameter class. -/
structure Inst (V : Type) where
  name : String
  dens : Dens V
  sampler : Option (Body V)
  ppf : Option (Fn V)
  size : Option Nat

/-- `Parameter.__init__` (parameter.py 43-59). -/
def ParCls.make (c : ParCls V) (name : String) : Except PyErr (Inst V) :=
  let rest (d : Dens V) : Inst V := ⟨name, d, c.sampler, c.ppf.map fun f => f.make name, c.size⟩
  match c.prior with
  | some f => .ok (rest (.prior (f.make name)))
  | none =>
    match c.logprior with
    | some f => .ok (rest (.logprior (f.make name)))
    | none => .error .attributeError

/-- numpy and Python as the methods use them: `np.log`, `np.exp`, `np.sum`, `np.prod`, `None` and a number. -/
structure Ops (V : Type) where
  log : V → V
  exp : V → V
  sum : V → V
  prod : V → V
  pyNone : V
  int : Nat → V

/-- `value = kwargs["params"][self.name]` if no value is given (parameter.py 65-66, 82-83, 111-112). -/
def Inst.value (o : Ops V) (p : Inst V) (value : Option V) (params : Option (Dict String V)) : Except PyErr V :=
  match value, params with
  | some v, _ => .ok v
  | none, some d =>
    match Dict.get? d p.name with
    | some v => .ok v
    | none => .error .keyError
  | none, none => .ok o.pyNone

/-- `get_pdf(value, params=params, **kwargs)` (parameter.py 77-90). -/
def Inst.getPdf (o : Ops V) (p : Inst V) (value : Option V) (kwargs : Dict String V) (params : Option (Dict String V)) : Except PyErr V :=
  match p.value o value params with
  | .error e => .error e
  | .ok v =>
    match p.dens.fn.call [v] kwargs (params.getD []) with
    | .error e => .error e
    | .ok r =>
      let pdf := match p.dens with
        | .prior _ => r
        | .logprior _ => o.exp r
      .ok (if p.size.isNone then pdf else o.prod pdf)

/-- `get_logpdf(value, params=params, **kwargs)` (parameter.py 60-75). -/
def Inst.getLogpdf (o : Ops V) (p : Inst V) (value : Option V) (kwargs : Dict String V) (params : Option (Dict String V)) : Except PyErr V :=
  match p.value o value params with
  | .error e => .error e
  | .ok v =>
    match p.dens.fn.call [v] kwargs (params.getD []) with
    | .error e => .error e
    | .ok r =>
      let logpdf := match p.dens with
        | .prior _ => o.log r
        | .logprior _ => r
      .ok (if p.size.isNone then logpdf else o.sum logpdf)

/-- `sample(params=params, **kwargs)` (parameter.py 92-106); `size` given twice is a `TypeError`. -/
def Inst.sample (o : Ops V) (p : Inst V) (kwargs : Dict String V) (params : Option (Dict String V)) : Except PyErr V :=
  match p.sampler with
  | none => .error .attributeError
  | some g =>
    if (Dict.get? kwargs p.name).isSome then .error .valueError
    else if (Dict.get? kwargs "size").isSome then .error .typeError
    else p.dens.fn.callWith g [] (("size", (p.size.map o.int).getD o.pyNone) :: kwargs) (params.getD [])

/-- `get_ppf(value, params=params, **kwargs)` (parameter.py 107-114). -/
def Inst.getPpf (o : Ops V) (p : Inst V) (value : Option V) (kwargs : Dict String V) (params : Option (Dict String V)) : Except PyErr V :=
  match p.ppf with
  | none => .error .notImplementedError
  | some f =>
    match p.value o value params with
    | .error e => .error e
    | .ok v => f.call [v] kwargs (params.getD [])

/-- A Python function of the given signature as what a Function calls; `f` is what it does with its arguments. -/
def pyFun (names : List String) (defaults : Dict String V) (f : Dict String V → Except PyErr V) : Body V := fun args kwargs =>
  match bindCall names defaults args kwargs with
  | .error e => .error e
  | .ok d => f d

end Verif.UserPar
