import Verif.Model.Ieee
import Verif.Model.Quantize

/-!
# Decisions on TOAs in floating-point arithmetic

Which TOAs form an epoch (`enterprise/signals/utils.py` 760-783), lie in a time window (`enterprise/pulsar.py` 138-143), in the first half
(`enterprise/signals/selections.py` 94-97) or in a DMX bin (`enterprise/signals/gp_signals.py` 626) is decided here with binary64 numbers,
operation by operation as in the code.
-/

namespace Verif.Ieee

open Verif Quantize

/-- Times in seconds from MJDs, pulsar.py 342-344, 501-503: `np.double(mjd) * 86400`. -/
noncomputable def seconds (A : Arith) (mjd : Fl) : Fl := mul A mjd (.fin 86400)

/-- The loop of `create_quantization_matrix`, utils.py 767-772, as in `Quantize.bucketLoop`. -/
noncomputable def bucketLoopF (A : Arith) (t : Nat → Fl) (dt : Fl) : Fl → List Nat → List Nat → List (Fl × List Nat)
  | ref, cur, [] => [(ref, cur)]
  | ref, cur, i :: rest =>
    if lt (sub A (t i) ref) dt then bucketLoopF A t dt ref (cur ++ [i]) rest
    else (ref, cur) :: bucketLoopF A t dt (t i) [i] rest

/-- The epochs of `create_quantization_matrix(toas, dt, nmin)`, utils.py 760-775 (`bucket_ind2`), for a result `isort` of `np.argsort`. -/
noncomputable def epochsF (A : Arith) (toas : List Fl) (isort : List Nat) (dt : Fl) (nmin : Nat) : Except PyErr (List (List Nat)) :=
  match isort with
  | [] => .error .indexError
  | i0 :: rest =>
    let t := fun i => toas.getD i .nan
    .ok (((bucketLoopF A t dt (t i0) [i0] rest).map Prod.snd).filter fun ind => decide (nmin ≤ ind.length))

/-- `create_quantization_matrix(toas, dt, nmin)[0]`, utils.py 777-779. -/
noncomputable def quantColsF (A : Arith) (toas : List Fl) (isort : List Nat) (dt : Fl) (nmin : Nat) : Except PyErr (List (List ℝ)) :=
  match epochsF A toas isort dt nmin with
  | .error e => .error e
  | .ok l => .ok (l.map (indicatorCol toas.length))

/-- The mask of `filter_data(start_time, end_time)` at one TOA, pulsar.py 143. -/
noncomputable def inWindow (A : Arith) (start stop toa : Fl) : Bool := le (mul A start (.fin 86400)) toa && le toa (mul A stop (.fin 86400))

/-- The midpoint of `cut_half`, selections.py 96, for the largest and the smallest TOA. -/
noncomputable def midpoint (A : Arith) (tmax tmin : Fl) : Fl := div A (add A tmax tmin) (.fin 2)

/-- The two masks of `cut_half` at one TOA, selections.py 97. -/
noncomputable def halves (A : Arith) (tmax tmin toa : Fl) : Bool × Bool := (le toa (midpoint A tmax tmin), lt (midpoint A tmax tmin) toa)

/-- The mask of a DMX bin at one TOA, gp_signals.py 626. -/
noncomputable def inBin (A : Arith) (r1 r2 stoa : Fl) : Bool := le r1 (div A stoa (.fin 86400)) && lt (div A stoa (.fin 86400)) r2

end Verif.Ieee
