import Verif.Model.Several
import Verif.Model.Standard

/-!
# An array of pulsars with the usual signals

`PTA([model(psr) for psr in psrs])` (`enterprise/signals/signal_base.py` 267-276) for
`model = MeasurementNoise + EcorrKernelNoise + TimingModel + FourierBasisGP + ... + FourierBasisCommonGP + ...`.
-/

namespace Verif.StdArray

open Verif Verif.Noise Verif.Combine Verif.Joined Verif.Standard Verif.Background
open Verif.Orf (Pos)

/-- A pulsar and the parameters of its signals: the white noise with its masks, ECORR with its masks, the Fourier processes of its
own and the random state in which their bases are computed, the columns of the timing model (`get_timing_model_basis`), and whether
the model has a `MarginalizingTimingModel` or a `TimingModel`. -/
structure Std where
  toas : List ℝ
  nu : List ℝ
  errs : List ℝ
  pos : Pos
  res : Fin toas.length → ℝ
  delays : List (Option (Fin toas.length → ℝ)) := []
  white : White
  masks : Dict String Mask
  dt : ℝ
  emasks : Dict String Mask
  log10Ecorr : String → ℝ
  procs : List PowerGP
  rng : Bases.Rng
  tm : Σ k : Nat, Matrix (Fin toas.length) (Fin k) ℝ
  marg : Bool

/-- The pulsar with its noise, its timing model and its processes `bs` (signal_base.py 783-789; white_signals.py 57-230;
gp_signals.py 233-253, 791-819). -/
noncomputable def Std.build (d : Std) (idxs : Dict String (List (List Nat))) (bs : List (BSig ℝ)) : Member where
  toas := d.toas
  pos := d.pos
  res := d.res
  delays := d.delays
  noise :=
    let white := d.white.noise d.errs d.toas d.masks d.toas.length ++ [ecorr idxs d.log10Ecorr d.toas.length]
    (if d.marg then marginalizing d.tm :: white else white).map some
  before := if d.marg then bs else timingModel d.tm :: bs

/-- The signals of a pulsar before its common processes (white_signals.py 126-167; gp_signals.py 24-216; signal_base.py 783-789).
Simplified: an error of a signal is met here and not when the likelihood asks for it. -/
noncomputable def Std.member (argsort : List ℝ → List Nat) (seeded : Int → Bases.Rng) (d : Std) : Except PyErr Member :=
  match Quantize.ecorrIdxs argsort d.toas d.dt d.emasks with
  | .error e => .error e
  | .ok idxs =>
    match runs seeded d.toas d.nu d.procs d.rng with
    | .error e => .error e
    | .ok bs => .ok (d.build idxs bs)

/-- The pulsars without their common processes. -/
noncomputable def ownSignals (argsort : List ℝ → List Nat) (seeded : Int → Bases.Rng) : List Std → Except PyErr (List Member)
  | [] => .ok []
  | d :: t =>
    match d.member argsort seeded with
    | .error e => .error e
    | .ok m =>
      match ownSignals argsort seeded t with
      | .error e => .error e
      | .ok l => .ok (m :: l)

/-- The array (signal_base.py 267-276) with the common processes `ks`, built in the random state `rng`. -/
noncomputable def pta (argsort : List ℝ → List Nat) (seeded : Int → Bases.Rng) (ks : List (Common × ℝ)) (ds : List Std)
    (rng : Bases.Rng) : Except PyErr (List JPsr) :=
  match ownSignals argsort seeded ds with
  | .error e => .error e
  | .ok ms => arrayOf seeded ks ms rng

end Verif.StdArray
