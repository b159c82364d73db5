import Verif.Model.Function
import Verif.Model.Cache

/-!
# Signals and the parameters they register and read

How the signal classes build `self._params` from the Functions and parameters they are given, which names they give to their
caches, and how their methods read a dictionary of parameters.  What the methods do with the values that the Functions return is
arithmetic of arrays modelled elsewhere (`Model/WhiteNoise`, `Model/BasisGP`, `Model/Noise`, `Model/Wideband`); here it is an
argument of the signal.
-/

namespace Verif.SigParams

open Verif Fun Cache

variable {K V : Type}

/-- The dictionary as Functions see it: `inj` is the value as a Python object. -/
def asVals (inj : PVal K → V) (p : Params K) : Dict String V := p.map fun kv => (kv.1, inj kv.2)

/-- `for param in params: self._params[param.name] = param`, white_signals.py 50-51, deterministic_signals.py 37-38,
gp_signals.py 61-62, 305-308, 579-598. -/
def register (d : Dict String (ParRef V)) (l : List (ParRef V)) : Dict String (ParRef V) :=
  l.foldl (fun d p => Dict.set d p.name p) d

/-- `self._params` of a signal with these Functions, in the order in which they are gone through. -/
def registered (fs : List (Fn V)) : Dict String (ParRef V) :=
  fs.foldl (fun d f => register d (Dict.values f.params)) []

/-- `[par for par in self._params.values() if not isinstance(par, ConstantParameter)]` as names, signal_base.py 98-101 with
white_signals.py 53-56, 235-238 and deterministic_signals.py 40-43. -/
def varying (d : Dict String (ParRef V)) : List String := ((Dict.values d).filter fun p => p.const.isNone).map ParRef.name

/-- `[pp.name for pp in basis.params]`, gp_signals.py 86-91, 337-340: the parameters of the Function that are not constant, each
with its hyperparameters (parameter.py 576-580 and 120-122). -/
def fnVarying (hyper : String → List String) (f : Fn V) : List String :=
  ((Dict.values f.params).filter fun p => p.const.isNone).flatMap fun p => p.name :: hyper p.name

/-- `params[p.name] if p.name in params else p.value` (gp_signals.py 147, 367, 675, 686, 692; `Signal.get`, signal_base.py
117-121); a Parameter has no attribute `value`. -/
def look (inj : PVal K → V) (p : Params K) (q : ParRef V) : Except PyErr V :=
  match Dict.get? p q.name with
  | some v => .ok (inj v)
  | none =>
    match q.const with
    | some v => .ok v
    | none => .error .attributeError

/-- One selection of a signal: the arguments that the signal gives to its Function besides `params` (the mask, deterministic_signals.py
50, gp_signals.py 100; arrays of the epochs, deterministic_signals.py 200) and the Function. -/
structure Sel (V : Type) where
  kwargs : Dict String V
  fn : Fn V

/-- `fn(params=params, **kwargs)`. -/
def Sel.eval (inj : PVal K → V) (s : Sel V) (p : Params K) : Except PyErr V := s.fn.call [] s.kwargs (asVals inj p)

/-- A signal object.  The arguments named `out` are the arithmetic on what the Functions return. -/
inductive Obj (V : Type)
  /-- `WhiteNoise`, white_signals.py 31-63. -/
  | white (sels : List (Sel V)) (out : List V → Except PyErr V)
  /-- `Deterministic`, deterministic_signals.py 15-53, and `PhysicalEphemerisSignal`, 156-211. -/
  | deterministic (sels : List (Sel V)) (out : List V → Except PyErr V)
  /-- `EcorrKernelNoise`, white_signals.py 199-294: one parameter for each selection, stored under the name without the pulsar
  (207, selections.py 73-82). -/
  | ecorr (pars : Dict String (ParRef V)) (out : List V → Except PyErr V)
  /-- `BasisGP` without coefficients, gp_signals.py 22-185: for each selection the basis and the prior; `label` takes the labels
  out of what the basis returns. -/
  | gp (sels : List (Sel V × Fn V)) (label : V → V) (basis phi : List V → Except PyErr V)
  /-- `BasisGP` with coefficients, gp_signals.py 118-158, and `BasisCommonGP` with coefficients, 349-381. -/
  | coefficients (sels : List (Sel V × Fn V)) (pars : List (ParRef V)) (out : List V → List V → Except PyErr V)
  /-- `BasisCommonGP`, gp_signals.py 285-409; `pos` is the position of the pulsar. -/
  | common (basis : Sel V) (prior orf : Fn V) (label : V → V) (pos : V) (times : V → V → Except PyErr V)
  /-- `WidebandTimingModel`, gp_signals.py 522-788: DMEFAC, DMEQUAD and DMJUMP parameters (in the order of 641-645;
  570-598 store the EQUADs between the EFACs); the basis has none. -/
  | wideband (pars : List (ParRef V)) (basis : V) (phi delay prior : List V → Except PyErr V)

/-- `self._params`. -/
def Obj.pars : Obj V → Dict String (ParRef V)
  | .white sels _ | .deterministic sels _ => registered (sels.map Sel.fn)
  | .ecorr pars _ => pars
  | .wideband pars _ _ _ _ => register [] pars
  | .gp sels _ _ _ => registered (sels.flatMap fun s => [s.2, s.1.fn])
  | .coefficients sels pars _ => register (registered (sels.flatMap fun s => [s.2, s.1.fn])) pars
  | .common basis prior orf _ _ _ => registered [prior, orf, basis.fn]

/-- `[p.name for p in self.params]`, what the signal contributes to `PTA.params`. -/
def Obj.listed (o : Obj V) : List String := varying o.pars

/-- Python's `"_coefficients" in name`. -/
def isCoef (n : String) : Bool := decide ("_coefficients".toList <:+: n.toList)

/-- The methods without caches and the names they are cached under.  Methods a class does not define return `None` or 0
(signal_base.py 135-160), here `none` and `zero`. -/
def Obj.sig (inj : PVal K → V) (hyper : String → List String) (none zero : V) : Obj V → Sig K V
  | .white sels out => {
      ndiag := fun p => sels.mapM (Sel.eval inj · p) >>= out
      delay := fun _ => .ok zero
      basis := fun _ => .ok none
      ndiagNames := varying (registered (sels.map Sel.fn))
      delayNames := [], collDelayNames := [], basisNames := [] }
  | .deterministic sels out => {
      ndiag := fun _ => .ok none
      delay := fun p => sels.mapM (Sel.eval inj · p) >>= out
      basis := fun _ => .ok none
      ndiagNames := []
      delayNames := varying (registered (sels.map Sel.fn))
      collDelayNames := varying (registered (sels.map Sel.fn))
      basisNames := [] }
  | .ecorr pars out => {
      ndiag := fun p => (Dict.values pars).mapM (look inj p) >>= out
      delay := fun _ => .ok zero
      basis := fun _ => .ok none
      ndiagNames := varying pars
      delayNames := [], collDelayNames := [], basisNames := [] }
  | .gp sels _ basis _ => {
      ndiag := fun _ => .ok none
      delay := fun _ => .ok zero
      basis := fun p => sels.mapM (fun s => s.1.eval inj p) >>= basis
      ndiagNames := [], delayNames := [], collDelayNames := []
      basisNames := sels.flatMap fun s => fnVarying hyper s.1.fn }
  | .coefficients sels pars out => {
      ndiag := fun _ => .ok none
      delay := fun p => do
        let bs ← sels.mapM fun s => s.1.eval inj p
        let cs ← pars.mapM (look inj p)
        out bs cs
      basis := fun _ => .ok none
      ndiagNames := []
      delayNames := (sels.flatMap fun s => fnVarying hyper s.1.fn) ++
        (varying (Obj.coefficients sels pars out).pars).filter isCoef
      collDelayNames := (varying (Obj.coefficients sels pars out).pars).filter isCoef
      basisNames := sels.flatMap fun s => fnVarying hyper s.1.fn }
  | .common basis _ _ _ _ _ => {
      ndiag := fun _ => .ok none
      delay := fun _ => .ok zero
      basis := fun p => basis.eval inj p
      ndiagNames := [], delayNames := [], collDelayNames := []
      basisNames := fnVarying hyper basis.fn }
  | .wideband pars basis _ delay _ => {
      ndiag := fun _ => .ok none
      delay := fun p => pars.mapM (look inj p) >>= delay
      basis := fun _ => .ok basis
      ndiagNames := []
      delayNames := pars.map ParRef.name
      collDelayNames := pars.map ParRef.name
      basisNames := [] }

/-- `get_phi(params)`, gp_signals.py 173-179, 396-402, 648-661. -/
def Obj.phi (inj : PVal K → V) (none : V) : Obj V → Params K → Except PyErr V
  | .gp sels label _ phi, p => do
    let ls ← sels.mapM fun s => s.1.eval inj p
    let vs ← (sels.zip ls).mapM fun x => x.1.2.call [label x.2] [] (asVals inj p)
    phi vs
  | .common basis prior orf label pos times, p => do
    let b ← basis.eval inj p
    let v ← prior.call [label b] [] (asVals inj p)
    let w ← orf.call [pos, pos] [] (asVals inj p)
    times v w
  | .wideband pars _ phi _ _, p => pars.mapM (look inj p) >>= phi
  | _, _ => .ok none

/-- `get_phicross(signal1, signal2, params)` of a common process, gp_signals.py 404-409; `pos2` is the position of the second
pulsar. -/
def Obj.phicross (inj : PVal K → V) (none : V) (pos2 : V) : Obj V → Params K → Except PyErr V
  | .common basis prior orf label pos times, p => do
    let b ← basis.eval inj p
    let v ← prior.call [label b] [] (asVals inj p)
    let w ← orf.call [pos, pos2] [] (asVals inj p)
    times v w
  | _, _ => .ok none

/-- `get_logsignalprior(params)`, gp_signals.py 742-757, signal_base.py 158-160. -/
def Obj.logprior (inj : PVal K → V) (zero : V) : Obj V → Params K → Except PyErr V
  | .wideband pars _ _ _ prior, p => pars.mapM (look inj p) >>= prior
  | _, _ => .ok zero

end Verif.SigParams
