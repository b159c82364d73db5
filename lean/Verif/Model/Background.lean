import Verif.Model.Fourier
import Verif.Model.Joined

/-!
# Common Fourier processes

`FourierBasisCommonGP` (`enterprise/signals/gp_signals.py` 414-463) on `BasisCommonGP` (285-411).
-/

namespace Verif.Background

open Verif Verif.Noise Verif.Combine Verif.Joined
open Verif.Orf (Pos)

/-! ## The time span -/

/-- The class that `FourierBasisCommonGP(...)` returns and the objects made of it: `Tspan` is the argument, `tmin` and `tmax` the
lists `_Tmin` and `_Tmax` (gp_signals.py 445), `objs` the TOAs of the pulsar of each object with the time span with which its basis
was computed, once it has been. -/
structure Cls where
  Tspan : Option ℝ
  tmin : List ℝ := []
  tmax : List ℝ := []
  objs : List (List ℝ × Option ℝ) := []

/-- What users do with the class: make a signal of a pulsar, or ask the signal of an object for its basis or prior, as the first
call of the likelihood does. -/
inductive Op
  | make (toas : List ℝ)
  | use (i : Nat)

/-- `max(l)` (Python). -/
noncomputable def pyMax : List ℝ → Except PyErr ℝ
  | [] => .error .valueError
  | x :: l => .ok (l.foldl max x)

/-- `min(l)` (Python). -/
noncomputable def pyMin : List ℝ → Except PyErr ℝ
  | [] => .error .valueError
  | x :: l => .ok (l.foldl min x)

/-- `__init__` (gp_signals.py 447-452), for `coefficients=False`. -/
noncomputable def Cls.make (c : Cls) (toas : List ℝ) : Except PyErr Cls :=
  match c.Tspan with
  | some _ => .ok { c with objs := c.objs ++ [(toas, none)] }
  | none =>
    match pyMin toas, pyMax toas with
    | .ok a, .ok b => .ok { c with tmin := c.tmin ++ [a], tmax := c.tmax ++ [b], objs := c.objs ++ [(toas, none)] }
    | .error e, _ => .error e
    | _, .error e => .error e

/-- `_construct_basis` of object `i` (gp_signals.py 457-460): the time span given to the basis function.  Since the basis has no
parameters the call is cached and the body runs once.  Simplified: an error of the basis function is not modelled. -/
noncomputable def Cls.use (c : Cls) (i : Nat) : Except PyErr (Cls × ℝ) :=
  match c.objs[i]? with
  | none => .error .indexError
  | some (_, some T) => .ok (c, T)
  | some (toas, none) =>
    match c.Tspan with
    | some T => .ok ({ c with objs := c.objs.set i (toas, some T) }, T)
    | none =>
      match pyMax c.tmax, pyMin c.tmin with
      | .ok b, .ok a => .ok ({ c with objs := c.objs.set i (toas, some (b - a)) }, b - a)
      | .error e, _ => .error e
      | _, .error e => .error e

/-- One operation, and the time span if a basis was asked for.  What raises changes nothing. -/
noncomputable def Cls.step (c : Cls) : Op → Cls × Except PyErr (Option ℝ)
  | .make toas =>
    match c.make toas with
    | .error e => (c, .error e)
    | .ok c' => (c', .ok none)
  | .use i =>
    match c.use i with
    | .error e => (c, .error e)
    | .ok (c', T) => (c', .ok (some T))

/-- A session. -/
noncomputable def Cls.run (c : Cls) : List Op → Cls
  | [] => c
  | o :: l => (c.step o).1.run l

/-! ## The process in a pulsar -/

/-- The arguments of `FourierBasisCommonGP` (gp_signals.py 414-428) and the spectrum at the parameters of the call. -/
structure Common where
  args : Bases.Args
  combine : Bool := true
  spectrum : List ℝ → Except PyErr (List ℝ)

/-- The process in a pulsar: basis and labels (gp_signals.py 457-460) with the time span `span`, and the prior of the labels
(gp_signals.py 396-402); `cls` is 0.  Simplified as in `Joined.GSig`: what raises when the prior is asked for raises here. -/
noncomputable def Common.gsig (k : Common) (seeded : Int → Bases.Rng) (span : ℝ) (toas : List ℝ) (rng : Bases.Rng) :
    Except PyErr (GSig × Bases.Rng) :=
  match Bases.red seeded rng toas { k.args with Tspan := some span } with
  | .error e => .error e
  | .ok ((F, f), rng') =>
    match k.spectrum f with
    | .error e => .error e
    | .ok v =>
      let cols : List (Col ℝ) := (Fourier.columns f.length F).map fun c a => c.getD a 0
      .ok (⟨k.combine, false, some cols, cols, .one v.length fun p => v.getD p 0, some 0⟩, rng')

/-- A Gaussian process of a single pulsar among those of an array. -/
def ownSig (b : BSig ℝ) : GSig := ⟨b.combine, b.varying, b.basis, b.basisAt, b.phi, none⟩

/-- A pulsar of the array: what its other signals return, before and after the common process. -/
structure Member where
  toas : List ℝ
  pos : Pos
  res : Fin toas.length → ℝ
  delays : List (Option (Fin toas.length → ℝ)) := []
  noise : List (Option (Nmat toas.length ℝ))
  before : List (BSig ℝ) := []
  after : List (BSig ℝ) := []
  logprior : List ℝ := []

/-- The pulsar with the common process (signal_base.py 783-789). -/
noncomputable def Member.psr (m : Member) (g : GSig) : JPsr where
  n := m.toas.length
  pos := m.pos
  res := m.res
  delays := m.delays
  noise := m.noise
  gps := m.before.map ownSig ++ g :: m.after.map ownSig
  logprior := m.logprior

/-- The pulsars of the array, for a common process with time span `span`; the random state goes from one to the next. -/
noncomputable def members (seeded : Int → Bases.Rng) (k : Common) (span : ℝ) : List Member → Bases.Rng → Except PyErr (List JPsr)
  | [], _ => .ok []
  | m :: t, rng =>
    match k.gsig seeded span m.toas rng with
    | .error e => .error e
    | .ok (g, rng') =>
      match members seeded k span t rng' with
      | .error e => .error e
      | .ok l => .ok (m.psr g :: l)

end Verif.Background
