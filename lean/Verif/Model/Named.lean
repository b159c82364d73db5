import Verif.Model.Function
import Verif.Model.Params
import Verif.Model.Quantize
import Verif.Model.Spectra
import Verif.Model.WhiteNoise

/-!
# From the dictionary of parameters to the noise

How the signals of a pulsar name the parameters of their Functions and what they make of the values given under these names
(`enterprise/signals/parameter.py` 456-585, `enterprise/signals/white_signals.py`, `enterprise/signals/gp_signals.py`).
-/

namespace Verif.Named

open Verif Fun Params

variable {V : Type}

mutual
/-- A `Function` class before it is given a name (parameter.py 456-459): the wrapped function, its argument names, the name of the
Function and the keywords with what was given for them. -/
inductive FnC (V : Type) : Type
  | mk (body : Body V) (fargs : List String) (fname : String) (items : ItemsC V) : FnC V
/-- `func_kwargs.items()` (parameter.py 456). -/
inductive ItemsC (V : Type) : Type
  | nil : ItemsC V
  | cons (kw : String) (it : ItemC V) (rest : ItemsC V) : ItemsC V
/-- What can be given for a keyword (parameter.py 476-487): a class of parameters (of Constants with this value, parameter.py
439-447), a Parameter with its name, a class of Functions, a Function, or a plain value. -/
inductive ItemC (V : Type) : Type
  | parClass (const : Option V) : ItemC V
  | par (p : ParRef V) : ItemC V
  | fnClass (f : FnC V) : ItemC V
  | fn (f : Fn V) : ItemC V
  | val (v : V) : ItemC V
end

mutual
/-- `Function.__init__` (parameter.py 460-510). -/
def FnC.make : FnC V → String → Option V → Fn V
  | .mk body fargs fname items, name, psr => .mk body fargs psr (items.make name fname psr) []
/-- The loop of 489-510; parameters and Functions get the name `"_".join` of the nonempty among `[name, fname, kw]` (493-494,
501-502). -/
def ItemsC.make : ItemsC V → String → String → Option V → Items V
  | .nil, _, _, _ => .nil
  | .cons kw it rest, name, fname, psr => .cons kw (it.make (joinNames [name, fname, kw]) psr) (rest.make name fname psr)
/-- One keyword (490-510). -/
def ItemC.make : ItemC V → String → Option V → Item V
  | .parClass c, n, _ => .par ⟨n, c⟩
  | .par p, _, _ => .par p
  | .fnClass f, n, psr => .fn (f.make n psr)
  | .fn f, _, _ => .fn f
  | .val v, _, _ => .val v
end

/-- The Python values that signals and Functions pass around: numbers and arrays, masks, pulsars. -/
inductive Py
  | val (v : Val ℝ)
  | mask (m : Mask)
  | psr (attr : String → Option (Val ℝ))

/-- A value that is a number or an array. -/
def Py.val? : Py → Option (Val ℝ)
  | .val v => some v
  | _ => none

/-- The arguments `mask` and `psr` that `selection_func` takes out (selections.py 30-36). -/
def maskOf (kwargs : Dict String Py) : Option Mask :=
  match Dict.get? kwargs "mask" with
  | some (.mask m) => some m
  | _ => none
/-- See `maskOf`. -/
def psrOf (kwargs : Dict String Py) : Option (String → Option (Val ℝ)) :=
  match Dict.get? kwargs "psr" with
  | some (.psr a) => some a
  | _ => none

/-- `selection_func(func)` (selections.py 20-51) for a function of numbers and arrays, with the arguments `names` and the given
defaults. -/
def wrap (names : List String) (defaults : Dict String (Val ℝ)) (f : Dict String (Val ℝ) → Except PyErr Py) : Body Py :=
  fun args kwargs =>
    match selectionCall names defaults (args.filterMap Py.val?)
        (kwargs.filterMap fun kv => kv.2.val?.map fun v => (kv.1, v)) (psrOf kwargs) (maskOf kwargs) with
    | .error e => .error e
    | .ok b => f b

/-- A bound argument that is a number.  Simplification: an array, which numpy would broadcast, is an error here. -/
def num (b : Dict String (Val ℝ)) (k : String) : Except PyErr ℝ :=
  match Dict.get? b k with
  | some (.obj x) => .ok x
  | some (.arr _) => .error .other
  | none => .error .typeError

/-- A bound argument that is an array. -/
def arr (b : Dict String (Val ℝ)) (k : String) : Except PyErr (List ℝ) :=
  match Dict.get? b k with
  | some (.arr x) => .ok x
  | some (.obj _) => .error .other
  | none => .error .typeError

/-- `efac_ndiag(efac=efac)` (white_signals.py 68-70, 89). -/
noncomputable def efacFn (efac : ItemC Py) : FnC Py :=
  .mk (wrap ["toaerrs", "efac"] [("efac", .obj 1)] fun b => do
      let e ← arr b "toaerrs"
      let x ← num b "efac"
      .ok (.val (.arr (WhiteNoise.efacNdiag e x))))
    ["toaerrs", "efac"] "" (.cons "efac" efac .nil)

/-- `combined_ndiag(efac=efac, log10_t2equad=log10_t2equad)` (white_signals.py 73-75, 89). -/
noncomputable def combinedFn (efac equad : ItemC Py) : FnC Py :=
  .mk (wrap ["toaerrs", "efac", "log10_t2equad"] [("efac", .obj 1), ("log10_t2equad", .obj (-8))] fun b => do
      let e ← arr b "toaerrs"
      let x ← num b "efac"
      let q ← num b "log10_t2equad"
      .ok (.val (.arr (WhiteNoise.combinedNdiag e x q))))
    ["toaerrs", "efac", "log10_t2equad"] "" (.cons "efac" efac (.cons "log10_t2equad" equad .nil))

/-- `tnequad_ndiag(log10_tnequad=log10_tnequad)` (white_signals.py 100-102, 108). -/
noncomputable def tnequadFn (equad : ItemC Py) : FnC Py :=
  .mk (wrap ["toas", "log10_tnequad"] [("log10_tnequad", .obj (-8))] fun b => do
      let t ← arr b "toas"
      let q ← num b "log10_tnequad"
      .ok (.val (.arr (WhiteNoise.tnequadNdiag t q))))
    ["toas", "log10_tnequad"] "" (.cons "log10_tnequad" equad .nil)

/-- The Function of `MeasurementNoise` (white_signals.py 88-90). -/
noncomputable def measurementFn (efac : ItemC Py) : Option (ItemC Py) → FnC Py
  | none => efacFn efac
  | some equad => combinedFn efac equad

/-- `powerlaw(log10_A=..., gamma=...)` (gp_priors.py 14-19). -/
noncomputable def powerlawFn (log10A gamma : ItemC Py) : FnC Py :=
  .mk (wrap ["f", "log10_A", "gamma", "components"] [("log10_A", .obj (-16)), ("gamma", .obj 5), ("components", .obj 2)] fun b => do
      let f ← arr b "f"
      let A ← num b "log10_A"
      let g ← num b "gamma"
      let c ← num b "components"
      let r ← Spectra.powerlaw f A g ⌊c⌋₊
      .ok (.val (.arr r)))
    ["f", "log10_A", "gamma", "components"] "" (.cons "log10_A" log10A (.cons "gamma" gamma .nil))

/-- A pulsar object: its name and its attributes. -/
structure Pulsar where
  name : String
  attr : String → Option (Val ℝ)

/-- `vfn(pname, psr=psr)` (white_signals.py 47-49, gp_signals.py 55-58); `sname` is the name of the signal. -/
def selected (f : FnC Py) (psr : Pulsar) (sname key : String) : Fn Py :=
  f.make (joinNames [psr.name, sname, key]) (some (.psr psr.attr))

/-- One pass of the loop in `get_ndiag` (white_signals.py 61-62). -/
noncomputable def ndiagLoop (f : FnC Py) (psr : Pulsar) (sname : String) (params : Dict String Py) (ret : List ℝ) (km : String × Mask) :
    Except PyErr (List ℝ) :=
  match (selected f psr sname km.1).call [] [] params with
  | .error e => .error e
  | .ok (.val (.arr a)) =>
    if a.length = km.2.length then .ok (WhiteNoise.ndiagStep (fun _ => a) ret km) else .error .valueError
  | .ok _ => .error .typeError

/-- `get_ndiag(params)` of a `WhiteNoise` signal (white_signals.py 41-63) for the masks of its selection.  Simplification: the
accumulator starts as `n` zeros instead of the scalar `0` that numpy broadcasts. -/
noncomputable def ndiag (f : FnC Py) (psr : Pulsar) (sname : String) (n : Nat) (masks : Dict String Mask) (params : Dict String Py) :
    Except PyErr (List ℝ) :=
  (WhiteNoise.sortedItems masks).foldlM (ndiagLoop f psr sname params) (List.replicate n 0)

/-- A waveform made by a user with `Function(func, fname, x=...)` (parameter.py 452-510) from a function of the TOAs and of one argument
`x`. -/
noncomputable def waveFn (w : List ℝ → ℝ → List ℝ) (fname : String) (x : ItemC Py) : FnC Py :=
  .mk (wrap ["toas", "x"] [] fun b => do
      let t ← arr b "toas"
      let x ← num b "x"
      .ok (.val (.arr (w t x))))
    ["toas", "x"] fname (.cons "x" x .nil)

/-- One pass of the loop in `Deterministic.get_delay` (deterministic_signals.py 49-50).  Simplification: a number, which numpy would
broadcast, is an error here. -/
noncomputable def delayLoop (f : FnC Py) (psr : Pulsar) (sname : String) (params : Dict String Py) (delay : List ℝ) (km : String × Mask) :
    Except PyErr (List ℝ) :=
  match (selected f psr sname km.1).call [] [("mask", .mask km.2)] params with
  | .error e => .error e
  | .ok (.val (.arr a)) => WhiteNoise.delayStep (fun _ _ => a) delay km
  | .ok _ => .error .typeError

/-- `get_delay(params)` of a `Deterministic` signal (deterministic_signals.py 25-51) for the masks of its selection. -/
noncomputable def delay (f : FnC Py) (psr : Pulsar) (sname : String) (n : Nat) (masks : Dict String Mask) (params : Dict String Py) :
    Except PyErr (List ℝ) :=
  (WhiteNoise.sortedItems masks).foldlM (delayLoop f psr sname params) (List.replicate n 0)

/-- `self._prior[key](self._labels[key], params=params)` of a Gaussian process (gp_signals.py 55-58, 178). -/
def prior (f : FnC Py) (psr : Pulsar) (sname key : String) (labels : List ℝ) (params : Dict String Py) : Except PyErr Py :=
  (selected f psr sname key).call [.val (.arr labels)] [] params

/-- `BasisCommonGP._prior(self._labels, params=params)` of a common process (gp_signals.py 294, 399, 407). -/
def commonPrior (f : FnC Py) (sname : String) (labels : List ℝ) (params : Dict String Py) : Except PyErr Py :=
  (f.make sname none).call [.val (.arr labels)] [] params

/-- `self._params` of `EcorrKernelNoise(log10_ecorr=...)` (white_signals.py 208-209; selections.py 73-86): the parameters for the
keys of the selection under their names without the pulsar.  The `name` of the signal, here `_sname`, is not used. -/
def ecorrParams (psr _sname : String) (const : Option Py) (masks : Dict String Mask) : Dict String (ParRef Py) :=
  masks.foldl (fun d km => Dict.set d (if km.1 = "" then "log10_ecorr" else km.1 ++ "_log10_ecorr")
    ⟨selectionName psr km.1 "log10_ecorr", const⟩) []

/-- `self.get(kname, params)` (signal_base.py 117-121) with `kname` as in `ecorrParams`: a KeyError of `params` leads to the
attribute `value`, which only Constants have; the second KeyError is that of `self._params`. -/
def getPar (pars : Dict String (ParRef Py)) (kname : String) (params : Dict String Py) : Except PyErr Py :=
  match Dict.get? pars kname with
  | none => .error .keyError
  | some p =>
    match Dict.get? params p.name with
    | some v => .ok v
    | none =>
      match p.const with
      | some v => .ok v
      | none => .error .attributeError

/-- `10 ** (2 * self.get(key, params))` for one key of the selection (white_signals.py 289-294). -/
noncomputable def ecorrAmp (psr sname : String) (const : Option Py) (masks : Dict String Mask) (key : String) (params : Dict String Py) :
    Except PyErr ℝ :=
  match getPar (ecorrParams psr sname const masks) (if key = "" then "log10_ecorr" else key ++ "_log10_ecorr") params with
  | .error e => .error e
  | .ok (.val (.obj x)) => .ok ((10 : ℝ) ^ (2 * x))
  | .ok _ => .error .typeError

end Verif.Named
