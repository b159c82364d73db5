import Verif.Model.Basic

/-!
# Adding signals and pulsar models, and looking them up

`enterprise/signals/signal_base.py` 65-88 (`MetaSignal`, `MetaCollection`), 267-284 (`PTA`), 320-340
(`PTA.__getitem__`, `keys`, `items`), 701-727 (`_set_signal_dict`, `get_signal`), 788-794 and
846-871 (`SignalCollection`).
-/

namespace Verif.Coll

open Verif

/-! ## Classes: building the model of a pulsar -/

/-- A class: a `Signal` class, a `SignalCollection` class with its `_metasignals`, or something
else. -/
inductive Meta (S : Type)
  | sig (s : S)
  | coll (l : List S)
  | alien

variable {S : Type}

/-- `a + b` for classes: `MetaSignal.__add__` (signal_base.py 68-74), `MetaCollection.__add__` (82-88).
If the left operand is neither, Python finds no addition at all (`TypeError`). -/
def Meta.add : Meta S → Meta S → Except PyErr (Meta S)
  | .sig a, .sig b => .ok (.coll [a, b])
  | .sig a, .coll l => .ok (.coll ([a] ++ l))
  | .sig _, .alien => .error .typeError
  | .coll l, .sig b => .ok (.coll (l ++ [b]))
  | .coll l, .coll m => .ok (.coll (l ++ m))
  | .coll _, .alien => .error .typeError
  | .alien, _ => .error .typeError

/-- An expression built with `+`. -/
inductive Expr (α : Type)
  | leaf (a : α)
  | add (x y : Expr α)

/-- Evaluation of an expression, left operand first. -/
def Expr.eval {α : Type} (plus : α → α → Except PyErr α) : Expr α → Except PyErr α
  | .leaf a => .ok a
  | .add x y =>
    match x.eval plus with
    | .error e => .error e
    | .ok a =>
      match y.eval plus with
      | .error e => .error e
      | .ok b => plus a b

/-! ## Instances: building the array -/

/-- A signal object: its `name` and `signal_id`. -/
structure SigObj where
  name : String
  sid : String
  deriving DecidableEq

/-- A `SignalCollection` object. -/
structure ScObj where
  psrname : String
  signals : List SigObj
  deriving DecidableEq

/-- A `SignalCollection` or `PTA` object; a PTA has a likelihood class. -/
inductive Model
  | sc (c : ScObj)
  | pta (l : List ScObj) (like : Nat)
  deriving DecidableEq

/-- `PTA.__init__` (signal_base.py 267-277) on a list.  `_set_signal_dict` (701-718) reads `_signals` of
every element, which a PTA does not have. -/
def mkPta (l : List Model) (like : Nat) : Except PyErr Model :=
  match l with
  | [] => .ok (.pta [] like)
  | .sc c :: t =>
    match mkPta t like with
    | .ok (.pta m _) => .ok (.pta (c :: m) like)
    | .ok (.sc _) => .error .other
    | .error e => .error e
  | .pta _ _ :: _ => .error .attributeError

/-- The default `lnlikelihood=LogLikelihood` (signal_base.py 268). -/
def defaultLike : Nat := 0

/-- `a + b` for objects: `SignalCollection.__add__` (signal_base.py 792-793), `PTA.__add__` (279-283). -/
def Model.add : Model → Model → Except PyErr Model
  | .sc c, x => mkPta [.sc c, x] defaultLike
  | .pta l like, .pta m _ => mkPta (l.map .sc ++ m.map .sc) like
  | .pta l like, .sc c => mkPta (l.map .sc ++ [.sc c]) like

/-! ## Lookup -/

/-- A key given to `[]`: a Python `int`, or anything else, compared with the names. -/
inductive Key
  | int (i : Int)
  | str (s : String)

/-- List indexing with an `int`, negative ones counting from the end. -/
def pyIndex {α : Type} (l : List α) (i : Int) : Except PyErr α :=
  let j := if i < 0 then i + l.length else i
  if j < 0 then .error .indexError
  else match l[j.toNat]? with
    | some a => .ok a
    | none => .error .indexError

/-- `for x in l: if x.attr == key: return x` then `raise KeyError`. -/
def firstWith {α : Type} (attr : α → String) (k : String) : List α → Except PyErr α
  | [] => .error .keyError
  | a :: t => if attr a = k then .ok a else firstWith attr k t

/-- `PTA.__getitem__` (signal_base.py 323-331). -/
def ptaGet (l : List ScObj) : Key → Except PyErr ScObj
  | .int i => pyIndex l i
  | .str s => firstWith ScObj.psrname s l

/-- `SignalCollection.__getitem__` (signal_base.py 852-860). -/
def scGet (c : ScObj) : Key → Except PyErr SigObj
  | .int i => pyIndex c.signals i
  | .str s => firstWith SigObj.sid s c.signals

/-- The loop of `_set_signal_dict` (signal_base.py 701-718): a signal is entered unless its name has
been seen.  The warning is left out. -/
def signalDict : List SigObj → List String → Dict String SigObj → Dict String SigObj
  | [], _, d => d
  | s :: t, seen, d =>
    if s.name ∉ seen then signalDict t (seen ++ [s.name]) (Dict.set d s.name s)
    else signalDict t seen d

/-- `PTA.get_signal` (signal_base.py 725-727). -/
def getSignal (l : List ScObj) (name : String) : Except PyErr SigObj :=
  Dict.get! (signalDict (l.flatMap ScObj.signals) [] []) name

end Verif.Coll
