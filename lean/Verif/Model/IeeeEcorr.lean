import Verif.Model.IeeeWhite

/-!
# The likelihood of white noise with ECORR in floating-point arithmetic

`enterprise/signals/signal_base.py` 1235-1344 with 196-214, operation by operation in binary64, for pulsars with white noise and
`EcorrKernelNoise(method="sherman-morrison")`.
-/

namespace Verif.Ieee

open Verif

/-- The numbers of one pulsar: residuals and variances of the TOAs of each epoch with its `jv`, and of the TOAs in no epoch.  Simplification: the indices
of the epochs are left out; they are disjoint (C09, C12), and sums are taken in any order here. -/
structure Ecorr where
  blocks : List (Fl × List (Fl × Fl))
  rest : List (Fl × Fl)

/-- All TOAs. -/
def Ecorr.toas (p : Ecorr) : List (Fl × Fl) := p.rest ++ p.blocks.flatMap Prod.snd

/-- `beta = 1.0 / (np.einsum("i->", niblock) + 1.0 / jv)`, signal_base.py 1262-1263. -/
def IsBeta (A : Arith) (j : Fl) (b : List (Fl × Fl)) (beta : Fl) : Prop :=
  ∃ s, IsSum A (b.map fun t => div A (.fin 1) t.2) s ∧ beta = div A (.fin 1) (add A s (div A (.fin 1) j))

/-- The loop of `_solve_1D1`, signal_base.py 1274-1280, with both vectors the residuals. -/
def IsLoop (A : Arith) : List (Fl × List (Fl × Fl)) → Fl → Fl → Prop
  | [], y, v => v = y
  | (j, b) :: bs, y, v =>
    if 1 < b.length then
      ∃ beta d e, IsBeta A j b beta ∧ IsDot A (b.map fun t => (div A (.fin 1) t.2, t.1)) d ∧ IsDot A (b.map fun t => (div A (.fin 1) t.2, t.1)) e ∧
        IsLoop A bs (sub A y (mul A (mul A beta d) e)) v
    else IsLoop A bs y v

/-- The loop of `_get_logdet`, signal_base.py 1305-1309. -/
def IsLogLoop (A : Arith) (L : Lib) : List (Fl × List (Fl × Fl)) → Fl → Fl → Prop
  | [], y, v => v = y
  | (j, b) :: bs, y, v =>
    if 1 < b.length then ∃ beta, IsBeta A j b beta ∧ IsLogLoop A L bs (add A y (sub A (npLog L j) (npLog L beta))) v
    else IsLogLoop A L bs y v

/-- `q` and `ld` are the numbers of `get_rNr_logdet` for `ShermanMorrison.solve`, signal_base.py 1272-1281, 1300-1310, 1312-1344. -/
def IsEcorrChi (A : Arith) (L : Lib) (p : Ecorr) (q ld : Fl) : Prop :=
  (∃ y, IsDot A (p.toas.map fun t => (t.1, div A t.1 t.2)) y ∧ IsLoop A p.blocks y q) ∧ ∃ y, IsSum A (p.toas.map fun t => npLog L t.2) y ∧ IsLogLoop A L p.blocks y ld

/-- `v` is a value of `LogLikelihood.__call__`, signal_base.py 200, 210, 213, 246-249, 264, for pulsars without Gaussian processes. -/
def IsEcorrLike (A : Arith) (L : Lib) (psrs : List Ecorr) (v : Fl) : Prop :=
  ∃ qs : List (Fl × Fl), List.Forall₂ (fun p q => IsEcorrChi A L p q.1 q.2) psrs qs ∧
    ∃ s, IsSum A (qs.flatMap fun q => [q.1, q.2]) s ∧ v = add A (add A (.fin 0) (mul A (.fin (-(1 / 2))) s)) (.fin 0)

end Verif.Ieee
