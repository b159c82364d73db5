import Verif.Model.Collect
import Verif.Model.Orf

/-!
# From the signals of an array to its likelihood

`PTA` (`enterprise/signals/signal_base.py` 384-403, 626-673, 180-264) on pulsars given by their signals, with common processes
(`enterprise/signals/gp_signals.py` 285-409), for one set of parameters.
-/

namespace Verif.Joined

open Verif Verif.Likelihood Verif.Noise Verif.Combine
open Verif.Kernel (Arr)
open Verif.PtaPhi (PSig Klass phicross)
open Verif.Orf (Pos)

variable {H : Type} [DecidableEq H]

/-- A Gaussian process of a pulsar: `cls` is its class if it is a `BasisCommonGP` (gp_signals.py 285-409).  The basis is `None`
for a process given by its coefficients (gp_signals.py 370-371). -/
structure GSig where
  combine : Bool
  varying : Bool
  basis : Option (List (Col ℝ))
  basisAt : List (Col ℝ)
  prior : Arr ℝ
  cls : Option Nat

/-- What the signals of a pulsar return, and its position. -/
structure JPsr where
  n : Nat
  pos : Pos
  res : Fin n → ℝ
  delays : List (Option (Fin n → ℝ))
  noise : List (Option (Nmat n ℝ))
  gps : List GSig
  logprior : List ℝ

/-- What the collection asks the process of a pulsar at `p`: `BasisCommonGP.get_phi` (gp_signals.py 396-402) is the prior times
the overlap of the pulsar with itself. -/
noncomputable def bsig (orf : Nat → Pos → Pos → ℝ) (p : Pos) (g : GSig) : BSig ℝ where
  combine := g.combine
  varying := g.varying
  basis := g.basis
  basisAt := g.basisAt
  phi := g.cls.elim g.prior fun c => phicross g.prior (orf c p p)

/-- The pulsar for its own collection (signal_base.py 933-1003). -/
noncomputable def toPsr (orf : Nat → Pos → Pos → ℝ) (p : JPsr) : Collect.Psr where
  n := p.n
  res := p.res
  delays := p.delays
  noise := p.noise
  sigs := p.gps.map (bsig orf p.pos)
  logprior := p.logprior

/-- A process as `_commonsignals` sees it (signal_base.py 393-398), with its positions in the basis of the pulsar. -/
def psig (g : GSig) (o : Option (List Nat)) : PSig := ⟨g.cls.getD 0, g.cls.isSome, g.basis.isNone, o.getD []⟩

/-- A pulsar as `_commonsignals` sees it (signal_base.py 389-398): whether it has a basis, and its processes. -/
noncomputable def psigs (hash : Col ℝ → H) (orf : Nat → Pos → Pos → ℝ) (p : JPsr) : Bool × List PSig :=
  let ix := idxOf hash (p.gps.map (bsig orf p.pos))
  (ix.any Option.isSome, List.zipWith psig p.gps ix)

/-- Prior and position of the processes of class `c`, in the order of the dictionary (signal_base.py 389-398). -/
def ofClass (ps : List JPsr) (c : Nat) : List (Arr ℝ × Pos) :=
  ps.flatMap fun p => (p.gps.filter fun g => g.basis.isSome && decide (g.cls = some c)).map fun g => (g.prior, p.pos)

/-- `get_phicross` of the `x`-th and `y`-th process of class `c` (gp_signals.py 404-409). -/
noncomputable def cross (orf : Nat → Pos → Pos → ℝ) (ps : List JPsr) (c x y : Nat) : Arr ℝ :=
  match (ofClass ps c)[x]?, (ofClass ps c)[y]? with
  | some u, some v => phicross u.1 (orf c u.2 v.2)
  | _, _ => .one 0 fun _ => 0

/-- The classes `get_phi` goes through (signal_base.py 649-669). -/
noncomputable def klasses (hash : Col ℝ → H) (orf : Nat → Pos → Pos → ℝ) (ps : List JPsr) : List (Klass ℝ) :=
  (PtaPhi.commonSignals (ps.map (psigs hash orf))).map fun kv => ⟨kv.2, cross orf ps kv.1⟩

/-- `LogLikelihood` of a `PTA` (signal_base.py 180-264).  Simplified as in `Collect.collect`. -/
noncomputable def likelihood (hash : Col ℝ → H) (svd : ∀ {n : Nat} (M : Matrix (Fin n) (Fin n) ℝ), Partition.Svd M)
    (method : Method) (orf : Nat → Pos → Pos → ℝ) (ps : List JPsr) : Except PyErr (Option ℝ) :=
  match ps.mapM fun p => Collect.collect hash (toPsr orf p) with
  | .error e => .error e
  | .ok qs => lnlike svd method qs (klasses hash orf ps)

end Verif.Joined
