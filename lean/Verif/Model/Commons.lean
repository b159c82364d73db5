import Verif.Model.Background
import Verif.Model.Ephem

/-!
# Common processes with other bases

`BasisCommonGP` (`enterprise/signals/gp_signals.py` 285-411), `FourierBasisCommonGP_ephem` (466-470) and
`FourierBasisCommonGP_physicalephem` (475-519).
-/

namespace Verif.Background

open Verif Verif.Noise Verif.Combine Verif.Joined
open Verif.Orf (Pos)

/-- The process of `BasisCommonGP` in a pulsar whose basis function returns the matrix `F`, given by its rows, and `labels`, with
the prior of the labels at the parameters of the call (gp_signals.py 333-334 and 391-409); `cls` is 0.  Simplified as in
`Common.gsig`. -/
noncomputable def basisGsig (combine : Bool) (spectrum : List ℝ → Except PyErr (List ℝ)) (F : List (List ℝ)) (labels : List ℝ) :
    Except PyErr GSig :=
  match spectrum labels with
  | .error e => .error e
  | .ok v =>
    let cols : List (Col ℝ) := (Fourier.columns labels.length F).map fun c a => c.getD a 0
    .ok ⟨combine, false, some cols, cols, .one v.length fun p => v.getD p 0, some 0⟩

/-- The process of `FourierBasisCommonGP_ephem(spectrum, components, Tspan)` in a pulsar (gp_signals.py 466-470); `combine` is the
default. -/
noncomputable def ephemGsig (seeded : Int → Bases.Rng) (spectrum : List ℝ → Except PyErr (List ℝ)) (components : Nat) (Tspan : Option ℝ)
    (m : Member) (rng : Bases.Rng) : Except PyErr (GSig × Bases.Rng) :=
  match Bases.ephem seeded rng m.toas (m.pos 0, m.pos 1, m.pos 2) components Tspan with
  | .error e => .error e
  | .ok ((F, f), rng') =>
    match basisGsig true spectrum F f with
    | .error e => .error e
    | .ok g => .ok (g, rng')

/-- `createfourierdesignmatrix_physicalephem` (utils.py 1029-1100) for all TOAs; `sky` has for each TOA its rows of `planetssb` and
`pos_t`.  The labels are the widths. -/
noncomputable def physDesign {n : Nat} (toas : List ℝ) (sky : List ((Fin 9 → Pos) × Pos)) (s : Ephem.Sigmas) (files : Ephem.Orbits n) :
    Except PyErr (List (List ℝ) × List ℝ) := do
  let rows ← (toas.zip sky).mapM fun x => Ephem.designRow x.1 x.2.1 x.2.2 s files
  .ok (rows.map Prod.fst, (Ephem.columns s 1e-5).map fun c => c.1)

/-- The process of `FourierBasisCommonGP_physicalephem(...)` in a pulsar, for `coefficients=False` (gp_signals.py 475-519). -/
noncomputable def physGsig {n : Nat} (s : Ephem.Sigmas) (files : Ephem.Orbits n) (m : Member) (sky : List ((Fin 9 → Pos) × Pos)) :
    Except PyErr GSig :=
  match physDesign m.toas sky s files with
  | .error e => .error e
  | .ok (F, l) => basisGsig true (fun l => .ok (Ephem.spectrum l)) F l

/-- The pulsars of an array whose common process is made by `mk`; the random state goes from one to the next (signal_base.py
783-789). -/
noncomputable def membersOf {α : Type} (mem : α → Member) (mk : α → Bases.Rng → Except PyErr (GSig × Bases.Rng)) :
    List α → Bases.Rng → Except PyErr (List JPsr)
  | [], _ => .ok []
  | x :: t, rng =>
    match mk x rng with
    | .error e => .error e
    | .ok (g, rng') =>
      match membersOf mem mk t rng' with
      | .error e => .error e
      | .ok l => .ok ((mem x).psr g :: l)

end Verif.Background
