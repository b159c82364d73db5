import Verif.Model.Bases
import Verif.Model.BasisGP
import Verif.Model.Spectra

/-!
# Fourier processes of a pulsar

`FourierBasisGP` (`enterprise/signals/gp_signals.py` 188-216) and `BasisGP` (24-185) with the DM and chromatic Fourier bases.
-/

namespace Verif.Fourier

open Verif Verif.Bases Verif.BasisGP

/-- The basis function of a Fourier process: `createfourierdesignmatrix_red` for `FourierBasisGP` (gp_signals.py 205-207), or
`_dm` and `_chromatic` given to `BasisGP`. -/
inductive Chrom
  | red
  | dm (fref : ℝ)
  | chromatic (idx : ℝ)

/-- The call of the basis function for the TOAs and radio frequencies of a mask (gp_signals.py 100, gp_bases.py 25-127,
261-292). -/
noncomputable def Chrom.design (c : Chrom) (seeded : Int → Rng) (a : Args) (toas nu : List ℝ) (rng : Rng) :
    Except PyErr ((List (List ℝ) × List ℝ) × Rng) :=
  match c with
  | .red => Bases.red seeded rng toas a
  | .dm fref => Bases.dm seeded rng toas nu a fref
  | .chromatic idx => Bases.chromatic seeded rng toas nu a idx

/-- The columns of a matrix with `k` columns given by its rows. -/
def columns (k : Nat) (F : List (List ℝ)) : List (List ℝ) := (List.range k).map fun j => F.map fun r => r.getD j 0

/-- The first loop of `_construct_basis` (gp_signals.py 99-100) over the sorted keys: the random state goes from one call of the
basis function to the next. -/
noncomputable def bases (c : Chrom) (seeded : Int → Rng) (a : Args) (toas nu : List ℝ) : List (String × Mask) → Rng →
    Except PyErr (List (KeyBasis ℝ (List ℝ)) × Rng)
  | [], rng => .ok ([], rng)
  | km :: t, rng =>
    match c.design seeded a (maskSelect toas km.2) (maskSelect nu km.2) rng with
    | .error e => .error e
    | .ok ((F, f), rng') =>
      match bases c seeded a toas nu t rng' with
      | .error e => .error e
      | .ok (l, rng'') => .ok (⟨km.1, km.2, columns f.length F, f⟩ :: l, rng'')

/-- A spectrum as the prior of a key (gp_signals.py 178).  Simplified: a spectrum that raises is an empty array here. -/
noncomputable def prior (S : String → List ℝ → Except PyErr (List ℝ)) (key : String) (f : List ℝ) : Kernel.Arr ℝ :=
  match S key f with
  | .error _ => .one 0 fun _ => 0
  | .ok v => .one v.length fun i => v.getD i 0

end Verif.Fourier
