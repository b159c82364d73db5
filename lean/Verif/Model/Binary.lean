import Mathlib.Analysis.SpecialFunctions.Pow.Real
import Mathlib.Analysis.SpecialFunctions.Trigonometric.Basic
import Mathlib.MeasureTheory.Integral.IntervalIntegral.Basic
import Verif.Model.Orf

/-!
# Gravitational waves of eccentric binaries

`enterprise/signals/utils.py` 358-483 (evolution) and 539-686 (waveform).  Numbers are exact reals.  The arguments that the
functions multiply in place (`mc *= const.Tsun`) are numbers or arrays; an array belongs to the caller and is changed.
Simplifications: an array has one element (numpy acts element by element), the other arguments are numbers, the model of the
waveform is of one TOA.
-/

namespace Verif.Binary

open Verif

/-- `const.c` (constants.py 18; scipy). -/
noncomputable def lightSpeed : ℝ := 299792458

/-- `const.Tsun` (constants.py 36-39). -/
noncomputable def tsun : ℝ := 1.327124400e20 / lightSpeed ^ 3

/-- `const.Mpc` (constants.py 28-32; scipy: the parsec is 648000/π astronomical units of 149597870700 m). -/
noncomputable def mpc : ℝ := 149597870700 * 648000 / Real.pi * 1e6

/-! ## Numbers and arrays -/

/-- The arrays of the caller. -/
abbrev Heap := Nat → ℝ

/-- An argument: a number, or an array by its place. -/
inductive Arg
  | num (x : ℝ)
  | arr (r : Nat)

/-- The value of an argument. -/
def Arg.val (h : Heap) : Arg → ℝ
  | .num x => x
  | .arr r => h r

/-- `a *= k`: a number is bound anew, an array is changed. -/
noncomputable def imul (h : Heap) (a : Arg) (k : ℝ) : Heap × Arg :=
  match a with
  | .num x => (h, .num (x * k))
  | .arr r => (Function.update h r (h r * k), .arr r)

/-! ## Evolution -/

/-- The result of `get_edot` (utils.py 370-372) for a chirp mass in seconds. -/
noncomputable def edot (F m e : ℝ) : ℝ :=
  -304 / (15 * m) * (2 * Real.pi * m * F) ^ (8 / 3 : ℝ) * e * (1 + 121 / 304 * e ^ 2) / ((1 - e ^ 2) ^ (5 / 2 : ℝ))

/-- The result of `get_Fdot` (utils.py 391-397). -/
noncomputable def fdot (F m e : ℝ) : ℝ :=
  48 / (5 * Real.pi * m ^ 2) * (2 * Real.pi * m * F) ^ (11 / 3 : ℝ) * (1 + 73 / 24 * e ^ 2 + 37 / 96 * e ^ 4) /
    ((1 - e ^ 2) ^ (7 / 2 : ℝ))

/-- The result of `get_gammadot` (utils.py 417-427). -/
noncomputable def gammadot (F mc q e : ℝ) : ℝ :=
  let m := (((1 + q) ^ 2) / q) ^ (3 / 5 : ℝ) * mc
  6 * Real.pi * F * (2 * Real.pi * F * m) ^ (2 / 3 : ℝ) / (1 - e ^ 2) *
    (1 + 0.25 * (2 * Real.pi * F * m) ^ (2 / 3 : ℝ) / (1 - e ^ 2) * (26 - 15 * e ^ 2))

/-- `get_edot` (utils.py 358-374). -/
noncomputable def getEdot (h : Heap) (F : ℝ) (mc : Arg) (e : ℝ) : Heap × ℝ :=
  let (h, mc) := imul h mc tsun
  (h, edot F (mc.val h) e)

/-- `get_Fdot` (utils.py 377-399). -/
noncomputable def getFdot (h : Heap) (F : ℝ) (mc : Arg) (e : ℝ) : Heap × ℝ :=
  let (h, mc) := imul h mc tsun
  (h, fdot F (mc.val h) e)

/-- `get_gammadot` (utils.py 402-429). -/
noncomputable def getGammadot (h : Heap) (F : ℝ) (mc : Arg) (q e : ℝ) : Heap × ℝ :=
  let (h, mc) := imul h mc tsun
  (h, gammadot F (mc.val h) q e)

/-- `get_coupled_constecc_eqns` (utils.py 432-453): the derivatives of frequency and phase. -/
noncomputable def constEccEqns (h : Heap) (F : ℝ) (mc : Arg) (e0 : ℝ) : Heap × (ℝ × ℝ) :=
  let (h, f) := getFdot h F mc e0
  (h, f, 2 * Real.pi * F)

/-- `get_coupled_ecc_eqns` (utils.py 456-483): the derivatives of frequency, eccentricity, periastron and phase. -/
noncomputable def eccEqns (h : Heap) (F e : ℝ) (mc : Arg) (q : ℝ) : Heap × (ℝ × ℝ × ℝ × ℝ) :=
  let (h, f) := getFdot h F mc e
  let (h, d) := getEdot h F mc e
  let (h, g) := getGammadot h F mc q e
  (h, f, d, g, 2 * Real.pi * F)

/-! ## Waveform -/

/-- `ss.jn` (scipy): the Bessel function of integer order, by Bessel's integral. -/
noncomputable def jn (n : Int) (x : ℝ) : ℝ := 1 / Real.pi * ∫ τ in (0 : ℝ)..Real.pi, Real.cos (n * τ - x * Real.sin τ)

/-- `amp` of `get_an` and `get_bn` (utils.py 558-561, 593-596). -/
noncomputable def ampN (n : Nat) (mc dl : ℝ) (h0 : Option ℝ) (F : ℝ) : ℝ :=
  h0.elim (n * mc ^ (5 / 3 : ℝ) * (2 * Real.pi * F) ^ (2 / 3 : ℝ) / dl) fun h => n * h / 2

/-- The result of `get_an` (utils.py 556-571), mass and distance in seconds. -/
noncomputable def an (n : Nat) (mc dl : ℝ) (h0 : Option ℝ) (F e : ℝ) : ℝ :=
  -ampN n mc dl h0 F * (jn (n - 2) (n * e) - 2 * e * jn (n - 1) (n * e) + (2 / n) * jn n (n * e) + 2 * e * jn (n + 1) (n * e) -
    jn (n + 2) (n * e))

/-- The result of `get_bn` (utils.py 591-600). -/
noncomputable def bn (n : Nat) (mc dl : ℝ) (h0 : Option ℝ) (F e : ℝ) : ℝ :=
  -ampN n mc dl h0 F * Real.sqrt (1 - e ^ 2) * (jn (n - 2) (n * e) - 2 * jn n (n * e) + jn (n + 2) (n * e))

/-- The result of `get_cn` (utils.py 620-629). -/
noncomputable def cn (n : Nat) (mc dl : ℝ) (h0 : Option ℝ) (F e : ℝ) : ℝ :=
  let omega := 2 * Real.pi * F
  let amp := h0.elim (2 * mc ^ (5 / 3 : ℝ) * omega ^ (2 / 3 : ℝ) / dl) id
  amp * jn n (n * e) / (n * omega)

/-- The first lines of `get_an`, `get_bn` and `get_cn` (utils.py 552-554, 587-589, 616-618): mass and distance in seconds. -/
noncomputable def toSeconds (h : Heap) (mc dl : Arg) : Heap × ℝ × ℝ :=
  let (h, mc) := imul h mc tsun
  let (h, dl) := imul h dl (mpc / lightSpeed)
  (h, mc.val h, dl.val h)

/-- The term of the harmonic `n` in `splus` and `scross` (utils.py 659-684). -/
noncomputable def harmonic (n : Nat) (a b c F t l0 gamma gammadot inc : ℝ) : ℝ × ℝ :=
  let omega := 2 * Real.pi * F
  let gt := gamma + gammadot * t
  let lt := l0 + omega * t
  let phase1 := n * lt
  let phase2 := gt
  let sinp1 := Real.sin phase1
  let cosp1 := Real.cos phase1
  let sinp2 := Real.sin (2 * phase2)
  let cosp2 := Real.cos (2 * phase2)
  let sinpp := sinp1 * cosp2 + cosp1 * sinp2
  let cospp := cosp1 * cosp2 - sinp1 * sinp2
  let sinpm := sinp1 * cosp2 - cosp1 * sinp2
  let cospm := cosp1 * cosp2 + sinp1 * sinp2
  let sp := sinpm / (n * omega - 2 * gammadot) + sinpp / (n * omega + 2 * gammadot)
  let sm := sinpm / (n * omega - 2 * gammadot) - sinpp / (n * omega + 2 * gammadot)
  let cp := cospm / (n * omega - 2 * gammadot) + cospp / (n * omega + 2 * gammadot)
  let cm := cospm / (n * omega - 2 * gammadot) - cospp / (n * omega + 2 * gammadot)
  (-0.5 * (1 + Real.cos inc ^ 2) * (a * sp - b * sm) + (1 - Real.cos inc ^ 2) * c * sinp1,
    Real.cos inc * (a * cm - b * cp))

/-- `calculate_splus_scross` (utils.py 632-686) for one TOA.  `np.arange(1, nmax)` are the harmonics; `np.tile` with a
negative count raises. -/
noncomputable def splusScross (h : Heap) (nmax : Nat) (mc dl : Arg) (h0 : Option ℝ) (F e t l0 gamma gammadot inc : ℝ) :
    Except PyErr (Heap × ℝ × ℝ) :=
  let n := List.range' 1 (nmax - 1)
  let (h, m1, d1) := toSeconds h mc dl
  let (h, m2, d2) := toSeconds h mc dl
  let (h, m3, d3) := toSeconds h mc dl
  if nmax = 0 then .error .valueError
  else
    let terms := n.map fun k => harmonic k (an k m1 d1 h0 F e) (bn k m2 d2 h0 F e) (cn k m3 d3 h0 F e) F t l0 gamma gammadot inc
    .ok (h, (terms.map Prod.fst).sum, (terms.map Prod.snd).sum)

/-- `bwm_delay` (utils.py 715-756) with `t0 *= const.day` on a number or an array. -/
noncomputable def bwm (h : Heap) (pattern : Option (Orf.Pos → ℝ → ℝ → ℝ × ℝ)) (toa : ℝ) (pos : Orf.Pos)
    (log10_h cos_gwtheta gwphi gwpol : ℝ) (t0 : Arg) : Heap × ℝ :=
  let (h', a) := imul h t0 86400
  (h', Orf.bwmDelay pattern toa pos log10_h cos_gwtheta gwphi gwpol (a.val h' / 86400))

end Verif.Binary
