import Verif.Model.Collect
import Verif.Model.Fourier
import Verif.Model.Interp
import Verif.Model.WhiteNoise

/-!
# A pulsar with the usual signals

`MeasurementNoise + EcorrKernelNoise + TimingModel + FourierBasisGP + ...` for one set of parameters
(`enterprise/signals/white_signals.py`, `enterprise/signals/gp_signals.py`).
-/

namespace Verif.Standard

open Verif Verif.Noise Verif.Combine

/-- A `TimingModel` (gp_signals.py 233-253) for its collection: a `BasisGP` without selection with the basis `B`, from
`get_timing_model_basis`, and the prior variances `tm_prior` (utils.py 925-927); `combine` is left at its default. -/
def timingModel {n : Nat} (B : Σ k : Nat, Matrix (Fin n) (Fin k) ℝ) : BSig ℝ where
  combine := true
  varying := false
  basis := some ((List.finRange B.1).map fun j a => if h : a < n then B.2 ⟨a, h⟩ j else 0)
  basisAt := (List.finRange B.1).map fun j a => if h : a < n then B.2 ⟨a, h⟩ j else 0
  phi := .one B.1 fun _ => 1e40

/-- What `MeasurementNoise` with `log10_t2equad` returns (white_signals.py 57-63, 73-96). -/
noncomputable def measurement (errs : List ℝ) (masks : Dict String Mask) (efac q : String → ℝ) (n : Nat) : Nmat n ℝ :=
  .base (.arr fun i => (WhiteNoise.getNdiag errs.length masks fun k => WhiteNoise.combinedNdiag errs (efac k) (q k)).getD i 0)

/-- What `MeasurementNoise` without `log10_t2equad` returns (white_signals.py 57-70, 78-96). -/
noncomputable def efacNoise (errs : List ℝ) (masks : Dict String Mask) (efac : String → ℝ) (n : Nat) : Nmat n ℝ :=
  .base (.arr fun i => (WhiteNoise.getNdiag errs.length masks fun k => WhiteNoise.efacNdiag errs (efac k)).getD i 0)

/-- What `TNEquadNoise` returns (white_signals.py 57-63, 99-114). -/
noncomputable def tnequad (toas : List ℝ) (masks : Dict String Mask) (q : String → ℝ) (n : Nat) : Nmat n ℝ :=
  .base (.arr fun i => (WhiteNoise.getNdiag toas.length masks fun k => WhiteNoise.tnequadNdiag toas (q k)).getD i 0)

/-- What `EcorrKernelNoise` returns (white_signals.py 126-230), with the epochs `idxs`. -/
noncomputable def ecorr (idxs : Dict String (List (List Nat))) (log10Ecorr : String → ℝ) (n : Nat) : Nmat n ℝ :=
  .base (ecorrSM (epochsOf n (Quantize.getJvecs idxs fun k => (10 : ℝ) ^ (2 * log10Ecorr k))))

/-- `EquadNoise` (white_signals.py 117-123): the factory raises whatever its arguments. -/
def equadNoise {α β : Type} (_ : α) : Except PyErr β := .error .notImplementedError

/-- The two ways of giving a white component in addition to the measured uncertainties: `MeasurementNoise(efac, log10_t2equad)`,
or `MeasurementNoise(efac) + TNEquadNoise(log10_tnequad)`. -/
inductive White
  | t2 (efac q : String → ℝ)
  | tn (efac q : String → ℝ)

/-- The noise matrices of these signals in order. -/
noncomputable def White.noise (w : White) (errs toas : List ℝ) (masks : Dict String Mask) (n : Nat) : List (Nmat n ℝ) :=
  match w with
  | .t2 efac q => [measurement errs masks efac q n]
  | .tn efac q => [efacNoise errs masks efac n, tnequad toas masks q n]

/-- A Fourier process with a power law: basis function and its arguments, masks of the selection, `combine`, the amplitudes and
slopes of the calls so far and of this call. -/
structure PowerGP where
  chrom : Fourier.Chrom
  args : Bases.Args
  masks : Dict String Mask
  combine : Bool := true
  hist : List (String → ℝ × ℝ) := []
  now : String → ℝ × ℝ

/-- The process built for a pulsar, `FourierBasisGP(spectrum=powerlaw(...))` (gp_signals.py 24-216, gp_priors.py 14-19), and the
random state left behind. -/
noncomputable def PowerGP.run (seeded : Int → Bases.Rng) (toas nu : List ℝ) (g : PowerGP) (rng : Bases.Rng) :
    Except PyErr (BSig ℝ × Bases.Rng) :=
  match Fourier.bases g.chrom seeded g.args toas nu (WhiteNoise.sortedItems g.masks) rng with
  | .error e => .error e
  | .ok (items, rng') =>
    match BasisGP.construct items with
    | .error e => .error e
    | .ok s =>
      match BasisGP.getPhis s (((g.hist ++ [g.now]).map fun h k f => Spectra.powerlaw f (h k).1 (h k).2 2).map Fourier.prior) with
      | .error e => .error e
      | .ok s' => .ok (BasisGP.signal g.combine s', rng')

/-- Processes built one after the other (signal_base.py 786). -/
noncomputable def runs (seeded : Int → Bases.Rng) (toas nu : List ℝ) : List PowerGP → Bases.Rng → Except PyErr (List (BSig ℝ))
  | [], _ => .ok []
  | g :: t, rng =>
    match g.run seeded toas nu rng with
    | .error e => .error e
    | .ok (b, rng') =>
      match runs seeded toas nu t rng' with
      | .error e => .error e
      | .ok l => .ok (b :: l)

/-- A pulsar with the noise and the processes of these signals (signal_base.py 933-1003). -/
def pulsar {n : Nat} (res : Fin n → ℝ) (delays : List (Option (Fin n → ℝ))) (noise : List (Nmat n ℝ)) (sigs : List (BSig ℝ)) :
    Collect.Psr where
  n := n
  res := res
  delays := delays
  noise := noise.map some
  sigs := sigs
  logprior := []

/-- `MarginalizingTimingModel` (gp_signals.py 791-819) as noise: its `Nmat` starts as 0. -/
def marginalizing {n : Nat} (B : Σ k : Nat, Matrix (Fin n) (Fin k) ℝ) : Nmat n ℝ := .marg B.1 B.2 .zero

end Verif.Standard
