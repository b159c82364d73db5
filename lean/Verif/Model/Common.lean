import Verif.Model.Bases

/-!
# The span of common Fourier processes

`enterprise/signals/gp_signals.py` 285-462: `FourierBasisCommonGP` keeps the first and last TOAs of its pulsars in lists that
belong to the class, and computes the span from them when the basis of a signal is built.
-/

namespace Verif.Common

open Verif Verif.Bases

/-- `toas.min()`. -/
noncomputable def amin : List ℝ → Except PyErr ℝ
  | [] => .error .valueError
  | t :: ts => .ok (ts.foldl min t)

/-- `toas.max()`; also Python's `max` of a list. -/
noncomputable def amax : List ℝ → Except PyErr ℝ
  | [] => .error .valueError
  | t :: ts => .ok (ts.foldl max t)

/-- A signal of the class: the TOAs of its pulsar, and the cache of `_construct_basis`: the values of the basis parameters of
the last call and the span with which `_basis` and `_labels` were computed (gp_signals.py 457-460; the cache has one
place). -/
structure Inst (κ : Type) where
  toas : List ℝ
  cache : Option (κ × ℝ) := none

/-- The class attributes (gp_signals.py 445) and the signals made from the class. -/
structure Cls (κ : Type) where
  tmin : List ℝ := []
  tmax : List ℝ := []
  insts : List (Inst κ) := []

variable {κ : Type} [DecidableEq κ]

/-- `FourierBasisCommonGP(...)` (gp_signals.py 414-437): coefficients need the argument `Tspan`. -/
def factory (coefficients : Bool) (Tspan : Option ℝ) : Except PyErr (Cls κ) :=
  if coefficients = true ∧ Tspan = none then .error .valueError else .ok {}

/-- `__init__` (gp_signals.py 447-452), without coefficients. -/
noncomputable def new (Tspan : Option ℝ) (c : Cls κ) (toas : List ℝ) : Except PyErr (Cls κ) :=
  match Tspan with
  | some _ => .ok { c with insts := c.insts ++ [{ toas := toas }] }
  | none => do
    let lo ← amin toas
    let hi ← amax toas
    .ok { tmin := c.tmin ++ [lo], tmax := c.tmax ++ [hi], insts := c.insts ++ [{ toas := toas }] }

/-- `span` (gp_signals.py 459). -/
noncomputable def clsSpan (Tspan : Option ℝ) (c : Cls κ) : Except PyErr ℝ :=
  match Tspan with
  | some T => .ok T
  | none => do
    let hi ← amax c.tmax
    let lo ← amin c.tmin
    .ok (hi - lo)

/-- `_construct_basis` of the signal `i` for the values `key` of the basis parameters (gp_signals.py 457-460), which
`get_basis` and `get_phi` call (391-402): nothing happens if the last call was for the same values. -/
noncomputable def construct (Tspan : Option ℝ) (c : Cls κ) (i : Nat) (key : κ) : Except PyErr (Cls κ) :=
  match c.insts[i]? with
  | none => .error .indexError
  | some s =>
    if s.cache.map Prod.fst = some key then .ok c
    else do
      let T ← clsSpan Tspan c
      .ok { c with insts := c.insts.set i { s with cache := some (key, T) } }

/-- What the user does with the class: make a signal for a pulsar, ask a signal for its basis. -/
inductive Op (κ : Type)
  | new (toas : List ℝ)
  | eval (i : Nat) (key : κ)

/-- One operation. -/
noncomputable def step (Tspan : Option ℝ) (c : Cls κ) : Op κ → Except PyErr (Cls κ)
  | .new toas => new Tspan c toas
  | .eval i key => construct Tspan c i key

/-- A history. -/
noncomputable def run (Tspan : Option ℝ) (c : Cls κ) (h : List (Op κ)) : Except PyErr (Cls κ) := h.foldlM (step Tspan) c

/-- `_basis` and `_labels` of a signal: `createfourierdesignmatrix_red` with the arguments of the factory and the span
(gp_signals.py 435-437, 460).  `args key` are the other arguments for the values of the basis parameters. -/
noncomputable def stored (seeded : Int → Rng) (rng : Rng) (args : κ → Args) (s : Inst κ) :
    Option (Except PyErr ((List (List ℝ) × List ℝ) × Rng)) :=
  s.cache.map fun x => red seeded rng s.toas { args x.1 with Tspan := some x.2 }

end Verif.Common
