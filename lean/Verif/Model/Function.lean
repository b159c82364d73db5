import Verif.Model.Basic

/-!
# Functions of parameters

`enterprise/signals/parameter.py` 456-585 (`Function`), 588-638 (`get_funcargs`, `function`) and
`enterprise/signals/selections.py` 20-51 (`selection_func`).
-/

namespace Verif.Fun

open Verif

/-- A parameter as a Function sees it: its name, and its `value` attribute if it is a Constant
(`ConstantParameter`, parameter.py 419-449). -/
structure ParRef (V : Type) where
  name : String
  const : Option V

/-- What is finally called: positional arguments and keywords. -/
abbrev Body (V : Type) := List V → Dict String V → Except PyErr V

mutual
/-- An instance of a `Function` class (parameter.py 456-585): the wrapped function, its argument
names (`func_args`), the pulsar if any, the keywords with what was given for them (`func_kwargs`,
after classes have been instantiated, 489-510), and keywords added with `add_kwarg` (573-574). -/
inductive Fn (V : Type) : Type
  | mk (body : Body V) (fargs : List String) (psr : Option V) (items : Items V) (added : Dict String V) : Fn V
/-- `func_kwargs.items()`. -/
inductive Items (V : Type) : Type
  | nil : Items V
  | cons (kw : String) (it : Item V) (rest : Items V) : Items V
/-- A Parameter (or Constant), a Function, or a plain value. -/
inductive Item (V : Type) : Type
  | par (p : ParRef V) : Item V
  | fn (f : Fn V) : Item V
  | val (v : V) : Item V
end

variable {V : Type}

/-- `func_kwargs.keys()`. -/
def Items.keys : Items V → List String
  | .nil => []
  | .cons kw _ rest => kw :: rest.keys

def Fn.items : Fn V → Items V
  | .mk _ _ _ items _ => items

def Fn.keys (f : Fn V) : List String := f.items.keys

mutual
/-- `self._params` after `__init__` (parameter.py 489-510). -/
def Fn.params : Fn V → Dict String (ParRef V)
  | .mk _ _ _ items _ => items.params []
/-- The loop of 489-510, on the dictionary so far. -/
def Items.params : Items V → Dict String (ParRef V) → Dict String (ParRef V)
  | .nil, acc => acc
  | .cons kw it rest, acc => rest.params (it.params kw acc)
/-- One keyword: a parameter is stored under the keyword (496, 498), a Function's parameters are
merged in under their own keywords (505, 508). -/
def Item.params : Item V → String → Dict String (ParRef V) → Dict String (ParRef V)
  | .par p, kw, acc => Dict.set acc kw p
  | .fn f, _, acc => Dict.update acc f.params
  | .val _, _, acc => acc
end

/-- `self._defaults` after `__init__` (510). -/
def Items.defaults : Items V → Dict String V
  | .nil => []
  | .cons kw (.val v) rest => (kw, v) :: rest.defaults
  | .cons _ _ rest => rest.defaults

/-- Value of a keyword found in `_params` (542-548): from `params` by the parameter's name, else the
Constant's value, else nothing. -/
def parValue (p : ParRef V) (params : Dict String V) : Option V :=
  match Dict.get? params p.name with
  | some v => some v
  | none => p.const

/-- `d[kw] = v` if there is a value. -/
def setOpt (d : Dict String V) (kw : String) : Option V → Dict String V
  | some v => Dict.set d kw v
  | none => d

/-- Keywords that reach the function (565-569). -/
def allowed (keys fargs : List String) (k : String) : Bool :=
  decide (k ∈ keys ∨ k ∈ fargs ∨ k ∈ ["psr", "mask", "size"])

/-- `if self._psr is not None and "psr" not in kwargs` (558-559). -/
def addPsr (psr : Option V) (kwargs : Dict String V) : Dict String V :=
  match psr with
  | some p => if (Dict.get? kwargs "psr").isSome then kwargs else Dict.set kwargs "psr" p
  | none => kwargs

mutual
/-- `__call__` (512-571) without `func`; see `callWith`.  `params` is `kwargs["params"]`. -/
def Fn.call : Fn V → List V → Dict String V → Dict String V → Except PyErr V
  | .mk body fargs psr items added, args, kwargs, params =>
    match items.augment (items.params []) (Dict.update items.defaults added) kwargs params with
    | .error e => .error e
    | .ok kw1 => body args ((addPsr psr kw1).filter fun kv => allowed items.keys fargs kv.1)
/-- The loop of 540-555.  `pars` and `dfl` are `self._params` and `self._defaults`. -/
def Items.augment : Items V → Dict String (ParRef V) → Dict String V → Dict String V → Dict String V →
    Except PyErr (Dict String V)
  | .nil, _, _, kwargs, _ => .ok kwargs
  | .cons kw it rest, pars, dfl, kwargs, params =>
    if (Dict.get? kwargs kw).isSome then rest.augment pars dfl kwargs params
    else
      match Dict.get? pars kw with
      | some p => rest.augment pars dfl (setOpt kwargs kw (parValue p params)) params
      | none =>
        match Dict.get? dfl kw with
        | some v => rest.augment pars dfl (Dict.set kwargs kw v) params
        | none =>
          match it.eval kwargs params with
          | .error e => .error e
          | .ok r => rest.augment pars dfl (setOpt kwargs kw r) params
/-- Evaluation of a nested Function (551-555): it gets the keywords so far that are its own. -/
def Item.eval : Item V → Dict String V → Dict String V → Except PyErr (Option V)
  | .fn f, kwargs, params =>
    match f.call [] (kwargs.filter fun kv => decide (kv.1 ∈ f.keys)) params with
    | .error e => .error e
    | .ok v => .ok (some v)
  | .par _, _, _ => .ok none
  | .val _, _, _ => .ok none
end

/-- `f(func=g, ...)` (522-524): the same arguments go to `g` instead. -/
def Fn.callWith (g : Body V) : Fn V → List V → Dict String V → Dict String V → Except PyErr V
  | .mk _ fargs psr items added, args, kwargs, params =>
    (Fn.mk g fargs psr items added).call args kwargs params

/-- `f.add_kwarg(**kwargs)` (573-574). -/
def Fn.addKwarg : Fn V → Dict String V → Fn V
  | .mk body fargs psr items added, kw => .mk body fargs psr items (Dict.update added kw)

/-! ## `selection_func` -/

/-- An array (indexed by its first axis) or any other object. -/
inductive Val (V : Type)
  | arr (xs : List V)
  | obj (v : V)

/-- `attr[mask]` for a boolean mask of the same length. -/
def applyMask (xs : List V) (mask : List Bool) : List V :=
  ((xs.zip mask).filter fun p => p.2).map Prod.fst

/-- selections.py 39-43: an array is masked iff the mask has its length; without a mask
(`Ellipsis`) nothing changes. -/
def maskAttr (mask : Option (List Bool)) : Val V → Val V
  | .arr xs =>
    match mask with
    | some m => if m.length = xs.length then .arr (applyMask xs m) else .arr xs
    | none => .arr xs
  | .obj v => .obj v

/-- The attributes appended as positional arguments (selections.py 37-43). `attr` is
`call_me_maybe(getattr(psr, name))` where the attribute exists. -/
def appended (attr : String → Option (Val V)) (mask : Option (List Bool)) (kwargs : Dict String (Val V)) :
    List String → List (Val V)
  | [] => []
  | a :: rest =>
    match Dict.get? kwargs a, attr a with
    | none, some x => maskAttr mask x :: appended attr mask kwargs rest
    | _, _ => appended attr mask kwargs rest

/-- Python's binding of a call to a signature without `*args`, `**kwargs`: positional arguments in
order, then keywords, then defaults; too many, repeated, unknown or missing arguments are
`TypeError`s. -/
def bindCall {α : Type} (names : List String) (defaults : Dict String α) (args : List α)
    (kwargs : Dict String α) : Except PyErr (Dict String α) :=
  if args.length > names.length then .error .typeError
  else if (names.take args.length).any fun n => (Dict.get? kwargs n).isSome then .error .typeError
  else if kwargs.any fun kv => decide (kv.1 ∉ names) then .error .typeError
  else if (names.drop args.length).any fun n => (Dict.get? kwargs n).isNone && (Dict.get? defaults n).isNone then
    .error .typeError
  else .ok (names.zip args ++ (names.drop args.length).filterMap fun n =>
    match Dict.get? kwargs n with
    | some v => some (n, v)
    | none => (Dict.get? defaults n).map fun v => (n, v))

/-- `selection_func(func)(*args, **kwargs)` (selections.py 26-49) up to the call of `func`.
`psr` is the attribute table of `kwargs["psr"]`; `kwargs` is without `psr` and `mask`.
Simplification: `func` has no argument named `psr`. -/
def selectionCall (names : List String) (defaults : Dict String (Val V)) (args : List (Val V))
    (kwargs : Dict String (Val V)) (psr : Option (String → Option (Val V))) (mask : Option (List Bool)) :
    Except PyErr (Dict String (Val V)) :=
  let extra := match psr with
    | some attr => if args.length < names.length then appended attr mask kwargs (names.drop args.length) else []
    | none => []
  bindCall names defaults (args ++ extra) kwargs

/-! ## The `function` decorator -/

/-- What the decorated function gives: a `Function` class or the plain result (parameter.py 605-638).
`required` are the arguments without defaults (588-602); `kwargs` says for each keyword whether it
is a Parameter or Function (class or instance). -/
inductive Decorated
  | makesFunction | callsThrough
  deriving DecidableEq

def decorated (required : List String) (nargs : Nat) (kwargs : List (String × Bool)) : Decorated :=
  let given := (required.take nargs) ++ kwargs.map Prod.fst
  if required.any fun a => decide (a ∉ given) then .makesFunction
  else if kwargs.any fun kv => kv.2 then .makesFunction
  else .callsThrough

end Verif.Fun
