import Verif.Model.Background

/-!
# Several common processes at once

`PTA` (`enterprise/signals/signal_base.py` 267-276, 383-403) of pulsars with any number of `FourierBasisCommonGP`
(`enterprise/signals/gp_signals.py` 414-463), each of its own class.
-/

namespace Verif.Background

open Verif Verif.Noise Verif.Combine Verif.Joined
open Verif.Orf (Pos)

/-- The processes of one pulsar of the classes number `c`, `c + 1`, ..., each with the time span of its class (signal_base.py
783-789; gp_signals.py 457-460).  A class is the key of `_commonsignals` (signal_base.py 389-398). -/
noncomputable def gsigs (seeded : Int → Bases.Rng) (toas : List ℝ) : List (Common × ℝ) → Nat → Bases.Rng → Except PyErr (List GSig × Bases.Rng)
  | [], _, rng => .ok ([], rng)
  | k :: t, c, rng =>
    match k.1.gsig seeded k.2 toas rng with
    | .error e => .error e
    | .ok (g, rng') =>
      match gsigs seeded toas t (c + 1) rng' with
      | .error e => .error e
      | .ok (l, rng'') => .ok ({ g with cls := some c } :: l, rng'')

/-- The pulsar with its common processes (signal_base.py 783-789). -/
noncomputable def Member.psrs (m : Member) (gs : List GSig) : JPsr where
  n := m.toas.length
  pos := m.pos
  res := m.res
  delays := m.delays
  noise := m.noise
  gps := m.before.map ownSig ++ (gs ++ m.after.map ownSig)
  logprior := m.logprior

/-- The pulsars of the array (signal_base.py 267-276); the random state goes from one to the next. -/
noncomputable def arrayOf (seeded : Int → Bases.Rng) (ks : List (Common × ℝ)) : List Member → Bases.Rng → Except PyErr (List JPsr)
  | [], _ => .ok []
  | m :: t, rng =>
    match gsigs seeded m.toas ks 0 rng with
    | .error e => .error e
    | .ok (gs, rng') =>
      match arrayOf seeded ks t rng' with
      | .error e => .error e
      | .ok l => .ok (m.psrs gs :: l)

end Verif.Background
