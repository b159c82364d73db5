import Verif.Model.Collections

/-!
# PTA and SignalCollection as dictionaries

`enterprise/signals/signal_base.py` 318-340 and 847-869 ("emulate a dictionary"), and what Python makes of objects with these methods.
-/

namespace Verif.Mapping

open Verif Verif.Coll

variable {α : Type}

/-- `__getitem__` of both classes (signal_base.py 323-331, 852-860), for a list of members and their attribute: `psrname` or `signal_id`. -/
def getItem (attr : α → String) (l : List α) : Key → Except PyErr α
  | .int i => pyIndex l i
  | .str s => firstWith attr s l

/-- `keys()` (signal_base.py 333-334, 862-863). -/
def keys (attr : α → String) (l : List α) : List String := l.map attr

/-- `items()` (signal_base.py 339-340, 868-869); `values()` (336-337, 865-866) is the list itself, and `len` (320-321, 849-850) its length. -/
def items (attr : α → String) (l : List α) : List (String × α) := l.map fun a => (attr a, a)

/-- `for x in obj` for an object with `__getitem__` and without `__iter__`: `obj[0]`, `obj[1]`, ... until an `IndexError`; `xs` are the values of `x` from `obj[i]` on. -/
inductive Iterates (get : Key → Except PyErr α) : Nat → List α → Prop
  | stop {i : Nat} : get (.int i) = .error .indexError → Iterates get i []
  | next {i : Nat} {a : α} {xs : List α} : get (.int i) = .ok a → Iterates get (i + 1) xs → Iterates get i (a :: xs)

/-- What is compared by `in`: a string or a member. -/
inductive Obj (α : Type)
  | str (s : String)
  | member (a : α)

/-- `==` of a member and an object: members have no `__eq__`, so that it is identity, and a string is never equal. -/
def Equal (a : α) : Obj α → Prop
  | .str _ => False
  | .member b => a = b

/-- `x in obj` for an object without `__contains__`: whether an element of the iteration is equal. -/
def Contains (get : Key → Except PyErr α) (x : Obj α) : Prop := ∃ xs, Iterates get 0 xs ∧ ∃ a ∈ xs, Equal a x

/-- `dict(obj)` for an object with `keys`: `{k: obj[k] for k in obj.keys()}`. -/
def toDict (attr : α → String) (l : List α) : Except PyErr (Dict String α) := do
  let pairs ← (keys attr l).mapM fun k => do
    let v ← getItem attr l (.str k)
    return (k, v)
  return Dict.ofList pairs

end Verif.Mapping
