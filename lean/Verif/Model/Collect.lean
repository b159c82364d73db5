import Verif.Model.Combine
import Verif.Model.Likelihood

/-!
# From the signals of a pulsar to its likelihood

`SignalCollection` (`enterprise/signals/signal_base.py` 933-1003) for one set of parameters.
-/

namespace Verif.Collect

open Verif Verif.Likelihood Verif.Noise

variable {H : Type} [DecidableEq H]

/-- What the signals of a pulsar return: delays, noise, bases and priors, and terms of the prior. -/
structure Psr where
  n : Nat
  res : Fin n → ℝ
  delays : List (Option (Fin n → ℝ))
  noise : List (Option (Nmat n ℝ))
  sigs : List (Combine.BSig ℝ)
  logprior : List ℝ

/-- The collection (signal_base.py 933-1003): `get_basis` and `get_phi` (947-977) combine the signals, the other methods add up
what they return.  Simplified: an error of `get_basis` or `get_phi` comes at once and not when the likelihood asks for them. -/
noncomputable def collect (hash : Combine.Col ℝ → H) (s : Psr) : Except PyErr PsrEval :=
  match Combine.getBasis hash s.sigs, Combine.getPhi hash s.sigs with
  | .error e, _ => .error e
  | _, .error e => .error e
  | .ok b, .ok φ => .ok
    { n := s.n, res := s.res, delays := s.delays, noise := s.noise
      basis := b.map fun kT => ⟨kT.1, Matrix.of fun a i => kT.2 i a⟩
      phi := φ, logprior := s.logprior }

/-- `LogLikelihood` of a `PTA` without common signals (signal_base.py 180-264). -/
noncomputable def likelihood (hash : Combine.Col ℝ → H) (svd : ∀ {n : Nat} (M : Matrix (Fin n) (Fin n) ℝ), Partition.Svd M)
    (method : Method) (ps : List Psr) : Except PyErr (Option ℝ) :=
  match ps.mapM (collect hash) with
  | .error e => .error e
  | .ok qs => lnlike svd method qs []

end Verif.Collect
