import Verif.Model.Collect
import Verif.Model.Wideband

/-!
# A pulsar with the wideband timing model

What `SignalCollection` (`enterprise/signals/signal_base.py` 933-1003) gets from a `WidebandTimingModel`
(`enterprise/signals/gp_signals.py` 545-757) beside the other signals of a pulsar.
-/

namespace Verif.Wideband

open Verif Verif.Combine Verif.Collect

/-- The pulsar: the wideband signal after `__init__`, the columns of `psr.Mmat`, the residuals, and what the other signals return.
The other Gaussian processes stand before and after the wideband signal. -/
structure WPsr where
  n : Nat
  signal : Signal n
  mmat : List (Col ℝ)
  res : Fin n → ℝ
  delays : List (Option (Fin n → ℝ))
  noise : List (Option (Noise.Nmat n ℝ))
  before : List (BSig ℝ)
  after : List (BSig ℝ)
  logprior : List ℝ

/-- The wideband timing model as a Gaussian process (gp_signals.py 541-550, 647-661; utils.py 893-897): the unnormed design
matrix, which has no parameters and is not combined, and the prior. -/
def tmSig (mmat : List (Col ℝ)) (phi : List ℝ) : BSig ℝ :=
  ⟨false, false, some mmat, mmat, .one phi.length fun i => phi.getD i 0⟩

/-- The collection of the signals at `params`: `get_delay` (gp_signals.py 667-679), `get_phi` (647-661) and `get_logsignalprior`
(741-757) beside what the other signals return; the signal has no noise (`get_ndiag` of signal_base.py 135-140 returns `None`).
Simplified: an error comes at once and not when the likelihood asks for the quantity. -/
noncomputable def WPsr.collection (p : WPsr) (params : Dict String ℝ) : Except PyErr Collect.Psr := do
  let delay ← getDelay p.signal params
  let phi ← getPhi p.signal params
  let l ← logSignalPrior p.signal params
  .ok { n := p.n, res := p.res, delays := some delay :: p.delays, noise := none :: p.noise,
        sigs := p.before ++ tmSig p.mmat phi :: p.after, logprior := l :: p.logprior }

/-- `PTA.get_lnlikelihood` of that pulsar alone. -/
noncomputable def WPsr.likelihood {H : Type} [DecidableEq H] (hash : Col ℝ → H)
    (svd : ∀ {n : Nat} (M : Matrix (Fin n) (Fin n) ℝ), Partition.Svd M) (method : Likelihood.Method) (p : WPsr)
    (params : Dict String ℝ) : Except PyErr (Option ℝ) :=
  match p.collection params with
  | .error e => .error e
  | .ok s => Collect.likelihood hash svd method [s]

end Verif.Wideband
