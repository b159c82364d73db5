import Mathlib.Analysis.SpecialFunctions.Integrals.Basic
import Mathlib.Analysis.SpecialFunctions.Pow.Deriv
import Mathlib.Analysis.Calculus.MeanValue
import Mathlib.Analysis.Calculus.Deriv.Add
import Mathlib.Analysis.Real.Pi.Bounds
import Mathlib.Tactic.Linarith
import Mathlib.Tactic.FieldSimp
import Mathlib.Tactic.LinearCombination
import Mathlib.Tactic.Ring
import Verif.Lemmas.Kepler
import Verif.Model.Binary
import Verif.Props.Orf

/-!
# Eccentric binaries: C97, C98, C99
-/

namespace Verif.Binary

open Verif

theorem tsun_pos : 0 < tsun := by norm_num [tsun, lightSpeed]

theorem tsun_lt : tsun < 1 := by norm_num [tsun, lightSpeed]

/-! ## C97: arguments -/

/-- The mass enters the shrinking of the eccentricity with the power 5/3. -/
theorem edot_eq {F m : ℝ} (hF : 0 < F) (hm : 0 < m) (e : ℝ) :
    edot F m e = -(304 / 15 * (2 * Real.pi * F) ^ (8 / 3 : ℝ) * (e * (1 + 121 / 304 * e ^ 2) / (1 - e ^ 2) ^ (5 / 2 : ℝ))) * m ^ (5 / 3 : ℝ) := by
  have hp := Real.pi_pos
  have h1 : (2 * Real.pi * m * F) ^ (8 / 3 : ℝ) = (2 * Real.pi * F) ^ (8 / 3 : ℝ) * (m ^ (5 / 3 : ℝ) * m) := by
    rw [show 2 * Real.pi * m * F = 2 * Real.pi * F * m by ring, Real.mul_rpow (by positivity) hm.le,
      show (8 / 3 : ℝ) = 5 / 3 + 1 by norm_num, Real.rpow_add hm, Real.rpow_one]
  unfold edot
  rw [h1]
  field_simp

theorem edot_ne {F m m' e : ℝ} (hF : 0 < F) (hm' : 0 < m') (hm : m' < m) (he : 0 < e) (he1 : e < 1) : edot F m e ≠ edot F m' e := by
  have hp := Real.pi_pos
  rw [edot_eq hF (hm'.trans hm), edot_eq hF hm']
  have h1 : 0 < 1 - e ^ 2 := by nlinarith
  have h2 : 0 < 304 / 15 * (2 * Real.pi * F) ^ (8 / 3 : ℝ) * (e * (1 + 121 / 304 * e ^ 2) / (1 - e ^ 2) ^ (5 / 2 : ℝ)) := by positivity
  have h3 := Real.rpow_lt_rpow hm'.le hm (show (0 : ℝ) < 5 / 3 by norm_num)
  intro h
  have := mul_left_cancel₀ (neg_ne_zero.2 h2.ne') h
  linarith

theorem range'_sum {M : Type} [AddCommMonoid M] (f : Nat → M) (k : Nat) : ((List.range' 1 k).map f).sum = ∑ n ∈ Finset.Ico 1 (k + 1), f n := by
  rw [Finset.sum_Ico_eq_sum_range, List.range'_eq_map_range, List.map_map, Nat.add_sub_cancel]
  induction k with
  | zero => simp
  | succ k ih => rw [List.range_succ, List.map_append, List.sum_append, ih, Finset.sum_range_succ]; simp

theorem splusScross_num (h : Heap) (nmax : Nat) (hn : nmax ≠ 0) (m d : ℝ) (h0 : Option ℝ) (F e t l0 gamma gd inc : ℝ) :
    splusScross h nmax (.num m) (.num d) h0 F e t l0 gamma gd inc = .ok (h,
      ∑ k ∈ Finset.Ico 1 nmax, (harmonic k (an k (m * tsun) (d * (mpc / lightSpeed)) h0 F e) (bn k (m * tsun) (d * (mpc / lightSpeed)) h0 F e)
        (cn k (m * tsun) (d * (mpc / lightSpeed)) h0 F e) F t l0 gamma gd inc).1,
      ∑ k ∈ Finset.Ico 1 nmax, (harmonic k (an k (m * tsun) (d * (mpc / lightSpeed)) h0 F e) (bn k (m * tsun) (d * (mpc / lightSpeed)) h0 F e)
        (cn k (m * tsun) (d * (mpc / lightSpeed)) h0 F e) F t l0 gamma gd inc).2) := by
  have e1 : nmax - 1 + 1 = nmax := by omega
  simp only [splusScross, if_neg hn, toSeconds, imul, Arg.val, List.map_map, Function.comp_def, range'_sum, e1]

/-- C97: given numbers, the functions return the value of their formulas, which depends on nothing else, and change no array of
the caller.  Missing: arrays (`C97_false`, `C97_waveform_false`, `C97_evolution_false`, `C97_burst_false`). -/
theorem C97_partial (h : Heap) (F e m d q : ℝ) :
    getEdot h F (.num m) e = (h, edot F (m * tsun) e) ∧ getFdot h F (.num m) e = (h, fdot F (m * tsun) e) ∧
    getGammadot h F (.num m) q e = (h, gammadot F (m * tsun) q e) ∧
    constEccEqns h F (.num m) e = (h, fdot F (m * tsun) e, 2 * Real.pi * F) ∧
    eccEqns h F e (.num m) q = (h, fdot F (m * tsun) e, edot F (m * tsun) e, gammadot F (m * tsun) q e, 2 * Real.pi * F) ∧
    (∀ (nmax : Nat) (h0 : Option ℝ) (t l0 gamma gd inc : ℝ), nmax ≠ 0 → ∃ x,
      ∀ h, splusScross h nmax (.num m) (.num d) h0 F e t l0 gamma gd inc = .ok (h, x)) ∧
    ∀ pattern toa pos a b c g t0, bwm h pattern toa pos a b c g (.num t0) = (h, Orf.bwmDelay pattern toa pos a b c g t0) := by
  refine ⟨rfl, rfl, rfl, rfl, rfl, ?_, ?_⟩
  · intro nmax h0 t l0 gamma gd inc hn
    exact ⟨_, fun h => splusScross_num h nmax hn m d h0 F e t l0 gamma gd inc⟩
  · intro pattern toa pos a b c g t0
    simp only [bwm, imul, Arg.val]
    rw [mul_div_cancel_right₀ _ (by norm_num)]

/-- C97 fails for arrays: an array given for the mass is multiplied, so that a second call with the same array gives a
different value. -/
theorem C97_false (h : Heap) (r : Nat) (F e : ℝ) (hm : 0 < h r) (hF : 0 < F) (he : 0 < e) (he1 : e < 1) :
    (getEdot h F (.arr r) e).1 r = h r * tsun ∧ (getEdot h F (.arr r) e).1 r ≠ h r ∧
      (getEdot (getEdot h F (.arr r) e).1 F (.arr r) e).2 ≠ (getEdot h F (.arr r) e).2 := by
  have h1 : (getEdot h F (.arr r) e).1 r = h r * tsun := by simp [getEdot, imul]
  have h2 := tsun_pos
  have h3 := tsun_lt
  have h4 : h r * tsun < h r := by nlinarith
  refine ⟨h1, by rw [h1]; exact h4.ne, ?_⟩
  have e1 : (getEdot h F (.arr r) e).2 = edot F (h r * tsun) e := by simp [getEdot, imul, Arg.val]
  have e2 : (getEdot (getEdot h F (.arr r) e).1 F (.arr r) e).2 = edot F (h r * tsun * tsun) e := by simp [getEdot, imul, Arg.val]
  rw [e1, e2]
  have h5 : h r * tsun * tsun < h r * tsun := by nlinarith [mul_pos hm h2]
  exact (edot_ne hF (by positivity) h5 he he1).symm

/-- C97 fails for arrays inside one call: the right-hand side of the evolution equations takes the derivative of the
eccentricity for another mass than that of the frequency. -/
theorem C97_evolution_false (h : Heap) (r : Nat) (F e q : ℝ) (hm : 0 < h r) (hF : 0 < F) (he : 0 < e) (he1 : e < 1) :
    (eccEqns h F e (.arr r) q).2.1 = fdot F (h r * tsun) e ∧ (eccEqns h F e (.arr r) q).2.2.1 = edot F (h r * tsun * tsun) e ∧
      (eccEqns h F e (.arr r) q).2.2.1 ≠ (eccEqns h F e (.num (h r)) q).2.2.1 := by
  have e2 : (eccEqns h F e (.arr r) q).2.2.1 = edot F (h r * tsun * tsun) e := by
    simp [eccEqns, getEdot, getFdot, imul, Arg.val]
  refine ⟨by simp [eccEqns, getFdot, imul, Arg.val], e2, ?_⟩
  have e3 : (eccEqns h F e (.num (h r)) q).2.2.1 = edot F (h r * tsun) e := rfl
  rw [e2, e3]
  have h2 := tsun_pos
  have h3 := tsun_lt
  have h5 : h r * tsun * tsun < h r * tsun := by nlinarith [mul_pos hm h2]
  exact (edot_ne hF (by positivity) h5 he he1).symm

/-- C97 fails for arrays in the waveform: the three coefficients are computed for three different masses and distances, and
the arrays of the caller end up multiplied three times. -/
theorem C97_waveform_false (h : Heap) (r s : Nat) (hrs : r ≠ s) (nmax : Nat) (hn : nmax ≠ 0) (h0 : Option ℝ) (F e t l0 gamma gd inc : ℝ) :
    ∃ h' x, splusScross h nmax (.arr r) (.arr s) h0 F e t l0 gamma gd inc = .ok (h', x) ∧ h' r = h r * tsun ^ 3 ∧
      h' s = h s * (mpc / lightSpeed) ^ 3 ∧
      x.1 = ((List.range' 1 (nmax - 1)).map fun k =>
        (harmonic k (an k (h r * tsun) (h s * (mpc / lightSpeed)) h0 F e) (bn k (h r * tsun ^ 2) (h s * (mpc / lightSpeed) ^ 2) h0 F e)
          (cn k (h r * tsun ^ 3) (h s * (mpc / lightSpeed) ^ 3) h0 F e) F t l0 gamma gd inc).1).sum := by
  refine ⟨_, _, by simp only [splusScross, if_neg hn]; rfl, ?_, ?_, ?_⟩
  · simp [toSeconds, imul, hrs, hrs.symm]; ring
  · simp [toSeconds, imul, hrs, hrs.symm]; ring
  · simp only [toSeconds, imul, Arg.val, List.map_map, Function.comp_def]
    congr 1
    apply List.map_congr_left
    intro k _
    have q2 : h r * tsun ^ 2 = h r * tsun * tsun := by ring
    have q3 : h r * tsun ^ 3 = h r * tsun * tsun * tsun := by ring
    have p2 : h s * (mpc / lightSpeed) ^ 2 = h s * (mpc / lightSpeed) * (mpc / lightSpeed) := by ring
    have p3 : h s * (mpc / lightSpeed) ^ 3 = h s * (mpc / lightSpeed) * (mpc / lightSpeed) * (mpc / lightSpeed) := by ring
    rw [q2, q3, p2, p3]
    simp [hrs, hrs.symm]

/-- C97 fails for an array of burst times: the second call is for a burst 86400 times as late. -/
theorem C97_burst_false (h : Heap) (r : Nat) (hr : h r ≠ 0) (pattern : Option (Orf.Pos → ℝ → ℝ → ℝ × ℝ)) (toa : ℝ) (pos : Orf.Pos) (a b c g : ℝ) :
    (bwm h pattern toa pos a b c g (.arr r)).2 = Orf.bwmDelay pattern toa pos a b c g (h r) ∧
      (bwm h pattern toa pos a b c g (.arr r)).1 r ≠ h r ∧
      (bwm (bwm h pattern toa pos a b c g (.arr r)).1 pattern toa pos a b c g (.arr r)).2 =
        Orf.bwmDelay pattern toa pos a b c g (h r * 86400) := by
  have h1 : (bwm h pattern toa pos a b c g (.arr r)).1 = Function.update h r (h r * 86400) := rfl
  refine ⟨?_, ?_, ?_⟩
  · simp only [bwm, imul, Arg.val, Function.update_self]
    rw [mul_div_cancel_right₀ _ (by norm_num)]
  · rw [h1, Function.update_self]
    intro h2
    have : h r * 86399 = 0 := by linarith
    rcases mul_eq_zero.1 this with h3 | h3
    · exact hr h3
    · norm_num at h3
  · rw [h1]
    simp only [bwm, imul, Arg.val, Function.update_self]
    rw [mul_div_cancel_right₀ _ (by norm_num)]

/-- The hypotheses of `C97_false` can be met. -/
example : (getEdot (fun _ => 1e9) 1e-8 (.arr 0) 0.5).1 0 ≠ 1e9 :=
  (C97_false (fun _ => 1e9) 0 1e-8 0.5 (by norm_num) (by norm_num) (by norm_num) (by norm_num)).2.1

/-! ## C98: the waveform -/

/-- The strain of the harmonic `n` (Taylor et al. 2016, equation 22): mean anomaly `l`, angle of periastron `g`. -/
noncomputable def strain (n : Nat) (a b c l g inc : ℝ) : ℝ × ℝ :=
  (-(1 + Real.cos inc ^ 2) * (a * Real.cos (n * l) * Real.cos (2 * g) - b * Real.sin (n * l) * Real.sin (2 * g)) +
      (1 - Real.cos inc ^ 2) * c * Real.cos (n * l),
    2 * Real.cos inc * (b * Real.sin (n * l) * Real.cos (2 * g) + a * Real.cos (n * l) * Real.sin (2 * g)))

theorem hasDerivAt_phase (k a b t : ℝ) : HasDerivAt (fun t => k * (a + b * t)) (k * b) t := by
  have h := ((hasDerivAt_id t).const_mul b).const_add a |>.const_mul k
  simpa using h

theorem harmonic_deriv (n : Nat) (a b c F t l0 gamma gd inc : ℝ) (h1 : n * (2 * Real.pi * F) - 2 * gd ≠ 0) (h2 : n * (2 * Real.pi * F) + 2 * gd ≠ 0) :
    HasDerivAt (fun t => (harmonic n a b c F t l0 gamma gd inc).1)
      (strain n a b (c * (n * (2 * Real.pi * F))) (l0 + 2 * Real.pi * F * t) (gamma + gd * t) inc).1 t ∧
    HasDerivAt (fun t => (harmonic n a b c F t l0 gamma gd inc).2)
      (strain n a b (c * (n * (2 * Real.pi * F))) (l0 + 2 * Real.pi * F * t) (gamma + gd * t) inc).2 t := by
  set w := 2 * Real.pi * F with hw
  have p1 := hasDerivAt_phase (n : ℝ) l0 w t
  have p2 := hasDerivAt_phase 2 gamma gd t
  have s1 := p1.sin
  have c1 := p1.cos
  have s2 := p2.sin
  have c2 := p2.cos
  have spp := (s1.fun_mul c2).fun_add (c1.fun_mul s2)
  have cpp := (c1.fun_mul c2).fun_sub (s1.fun_mul s2)
  have spm := (s1.fun_mul c2).fun_sub (c1.fun_mul s2)
  have cpm := (c1.fun_mul c2).fun_add (s1.fun_mul s2)
  have sp := (spm.div_const (n * w - 2 * gd)).fun_add (spp.div_const (n * w + 2 * gd))
  have sm := (spm.div_const (n * w - 2 * gd)).fun_sub (spp.div_const (n * w + 2 * gd))
  have cp := (cpm.div_const (n * w - 2 * gd)).fun_add (cpp.div_const (n * w + 2 * gd))
  have cm := (cpm.div_const (n * w - 2 * gd)).fun_sub (cpp.div_const (n * w + 2 * gd))
  have r1 := (((sp.const_mul a).fun_sub (sm.const_mul b)).const_mul (-0.5 * (1 + Real.cos inc ^ 2))).fun_add (s1.const_mul ((1 - Real.cos inc ^ 2) * c))
  have r2 := ((cm.const_mul a).fun_sub (cp.const_mul b)).const_mul (Real.cos inc)
  constructor
  · refine r1.congr_deriv ?_
    simp only [strain]
    field_simp
    ring
  · refine r2.congr_deriv ?_
    simp only [strain]
    field_simp
    ring

/-- The coefficients of the three terms of the harmonic `n` (Taylor et al. 2016, equation 22), mass and distance in
seconds. -/
noncomputable def coefC (n : Nat) (mc dl : ℝ) (h0 : Option ℝ) (F e : ℝ) : ℝ :=
  h0.elim (2 * mc ^ (5 / 3 : ℝ) * (2 * Real.pi * F) ^ (2 / 3 : ℝ) / dl) id * jn n (n * e)

/-- C98: a megaparsec is a million times the distance at which an astronomical unit subtends a second of arc. -/
theorem C98_megaparsec : mpc * (Real.pi / 180 / 60 / 60) = 1000000 * 149597870700 := by
  unfold mpc
  field_simp
  norm_num

/-- C98: the residuals are the time integral of the gravitational-wave strain: their derivative is the sum of the strains of
the harmonics below `nmax`, as long as no harmonic is in resonance with the advance of periastron. -/
theorem C98_integral (h : Heap) (nmax : Nat) (hn : nmax ≠ 0) (m d : ℝ) (h0 : Option ℝ) (F e l0 gamma gd inc : ℝ) (hF : F ≠ 0)
    (hres : ∀ n : Nat, 1 ≤ n → n < nmax → n * (2 * Real.pi * F) - 2 * gd ≠ 0 ∧ n * (2 * Real.pi * F) + 2 * gd ≠ 0) :
    ∃ sp sc : ℝ → ℝ, (∀ t, splusScross h nmax (.num m) (.num d) h0 F e t l0 gamma gd inc = .ok (h, sp t, sc t)) ∧
      ∀ t, let str := fun n : Nat => (strain n (an n (m * tsun) (d * (mpc / lightSpeed)) h0 F e) (bn n (m * tsun) (d * (mpc / lightSpeed)) h0 F e)
          (coefC n (m * tsun) (d * (mpc / lightSpeed)) h0 F e) (l0 + 2 * Real.pi * F * t) (gamma + gd * t) inc)
        HasDerivAt sp (∑ n ∈ Finset.Ico 1 nmax, (str n).1) t ∧ HasDerivAt sc (∑ n ∈ Finset.Ico 1 nmax, (str n).2) t := by
  refine ⟨_, _, fun t => splusScross_num h nmax hn m d h0 F e t l0 gamma gd inc, ?_⟩
  intro t
  have hc : ∀ n : Nat, 1 ≤ n → cn n (m * tsun) (d * (mpc / lightSpeed)) h0 F e * (n * (2 * Real.pi * F)) =
      coefC n (m * tsun) (d * (mpc / lightSpeed)) h0 F e := by
    intro n hn1
    have : (n : ℝ) * (2 * Real.pi * F) ≠ 0 := by
      have : (n : ℝ) ≠ 0 := by exact_mod_cast (by omega : n ≠ 0)
      have := Real.pi_ne_zero
      positivity
    simp only [cn, coefC]
    exact div_mul_cancel₀ _ this
  constructor
  · apply HasDerivAt.fun_sum
    intro n hn'
    obtain ⟨h1, h2⟩ := Finset.mem_Ico.1 hn'
    beta_reduce
    rw [← hc n h1]
    exact (harmonic_deriv n _ _ _ F t l0 gamma gd inc (hres n h1 h2).1 (hres n h1 h2).2).1
  · apply HasDerivAt.fun_sum
    intro n hn'
    obtain ⟨h1, h2⟩ := Finset.mem_Ico.1 hn'
    beta_reduce
    rw [← hc n h1]
    exact (harmonic_deriv n _ _ _ F t l0 gamma gd inc (hres n h1 h2).1 (hres n h1 h2).2).2

theorem jn_zero (n : Int) : jn n 0 = if n = 0 then 1 else 0 := by
  unfold jn
  simp only [zero_mul, sub_zero]
  split_ifs with h
  · subst h
    simp [Real.pi_ne_zero]
  · have hn : (n : ℝ) ≠ 0 := by exact_mod_cast h
    rw [intervalIntegral.integral_comp_mul_left (fun x => Real.cos x) hn]
    simp [integral_cos, Real.sin_int_mul_pi]

/-- A circular binary has only the second harmonic. -/
theorem circular_coef (n : Nat) (hn : 1 ≤ n) (mc dl : ℝ) (h0 : Option ℝ) (F : ℝ) :
    an n mc dl h0 F 0 = (if n = 2 then -ampN 2 mc dl h0 F else 0) ∧ bn n mc dl h0 F 0 = (if n = 2 then -ampN 2 mc dl h0 F else 0) ∧
      cn n mc dl h0 F 0 = 0 := by
  have z1 : ((n : Int) = 0) = False := by simp; omega
  have z2 : ((n : Int) + 2 = 0) = False := by simp; omega
  have z3 : ((n : Int) - 2 = 0) = (n = 2) := by simp only [eq_iff_iff]; omega
  refine ⟨?_, ?_, ?_⟩
  · simp only [an, mul_zero, zero_mul, jn_zero, z1, z2, z3, if_false, add_zero, sub_zero]
    split_ifs with h
    · subst h; simp
    · simp
  · simp only [bn, mul_zero, jn_zero, z1, z2, z3, if_false, add_zero, sub_zero]
    split_ifs with h
    · subst h; simp
    · simp
  · simp only [cn, mul_zero, jn_zero, z1, if_false, zero_div]

/-- C98: a circular binary with a periastron that does not move radiates at twice its orbital frequency and nothing else, with
the known amplitudes; at least three has to be given as the number of harmonics. -/
theorem C98_circular (h : Heap) (nmax : Nat) (hn : 3 ≤ nmax) (m d : ℝ) (hd : 0 < d) (F t l0 gamma inc : ℝ) (hF : 0 < F) :
    let A := (m * tsun) ^ (5 / 3 : ℝ) / (d * (mpc / lightSpeed) * (2 * Real.pi * F) ^ (1 / 3 : ℝ))
    let Φ := l0 + 2 * Real.pi * F * t + gamma
    splusScross h nmax (.num m) (.num d) none F 0 t l0 gamma 0 inc =
      .ok (h, (1 + Real.cos inc ^ 2) * A * Real.sin (2 * Φ), 2 * Real.cos inc * A * Real.cos (2 * Φ)) := by
  intro A Φ
  have hp := Real.pi_pos
  rw [splusScross_num h nmax (by omega)]
  have hdl : 0 < d * (mpc / lightSpeed) := by
    have : 0 < mpc := by unfold mpc; positivity
    have : 0 < lightSpeed := by unfold lightSpeed; norm_num
    positivity
  have hw : 0 < 2 * Real.pi * F := by positivity
  have hA : ampN 2 (m * tsun) (d * (mpc / lightSpeed)) none F = 2 * A * (2 * Real.pi * F) := by
    simp only [ampN, Option.elim_none, A]
    have : (2 * Real.pi * F) ^ (2 / 3 : ℝ) * (2 * Real.pi * F) ^ (1 / 3 : ℝ) = 2 * Real.pi * F := by
      rw [← Real.rpow_add hw]; norm_num
    have h3 : (2 * Real.pi * F) ^ (1 / 3 : ℝ) ≠ 0 := by positivity
    push_cast
    generalize hX : (m * tsun) ^ (5 / 3 : ℝ) = X
    generalize hD : d * (mpc / lightSpeed) = D at hdl
    rw [eq_comm, mul_div_assoc', div_mul_eq_mul_div, div_eq_iff (mul_ne_zero hdl.ne' h3)]
    conv_lhs => rw [← this]
    field_simp
  have hmem : 2 ∈ Finset.Ico 1 nmax := by simp; omega
  have harm : ∀ k ∈ Finset.Ico 1 nmax, k ≠ 2 → harmonic k (an k (m * tsun) (d * (mpc / lightSpeed)) none F 0)
      (bn k (m * tsun) (d * (mpc / lightSpeed)) none F 0) (cn k (m * tsun) (d * (mpc / lightSpeed)) none F 0) F t l0 gamma 0 inc = (0, 0) := by
    intro k hk hk2
    obtain ⟨e1, e2, e3⟩ := circular_coef k (Finset.mem_Ico.1 hk).1 (m * tsun) (d * (mpc / lightSpeed)) none F
    rw [e1, e2, e3, if_neg hk2]
    simp [harmonic]
  rw [Finset.sum_eq_single_of_mem 2 hmem (fun k hk hk2 => by rw [harm k hk hk2]),
    Finset.sum_eq_single_of_mem 2 hmem (fun k hk hk2 => by rw [harm k hk hk2])]
  obtain ⟨e1, e2, e3⟩ := circular_coef 2 (by norm_num) (m * tsun) (d * (mpc / lightSpeed)) none F
  rw [e1, e2, e3, if_pos rfl, hA]
  have hs : Real.sin (2 * Φ) = Real.sin (2 * (l0 + 2 * Real.pi * F * t)) * Real.cos (2 * gamma) + Real.cos (2 * (l0 + 2 * Real.pi * F * t)) * Real.sin (2 * gamma) := by
    rw [← Real.sin_add]; congr 1; simp only [Φ]; ring
  have hc : Real.cos (2 * Φ) = Real.cos (2 * (l0 + 2 * Real.pi * F * t)) * Real.cos (2 * gamma) - Real.sin (2 * (l0 + 2 * Real.pi * F * t)) * Real.sin (2 * gamma) := by
    rw [← Real.cos_add]; congr 1; simp only [Φ]; ring
  rw [hs, hc]
  simp only [harmonic, Nat.cast_ofNat, zero_mul, add_zero, mul_zero, sub_zero]
  have hF' := hF.ne'
  have hp' := hp.ne'
  congr 2
  · refine Prod.ext ?_ ?_
    · simp only
      field_simp
      ring
    · simp only
      field_simp
      ring

/-- C98: a strain amplitude given as `h0` replaces `2 M^(5/3) ω^(2/3) / D` in all harmonics, at every eccentricity. -/
theorem C98_h0 (n : Nat) (mc dl F e : ℝ) :
    let h0 := 2 * mc ^ (5 / 3 : ℝ) * (2 * Real.pi * F) ^ (2 / 3 : ℝ) / dl
    an n mc dl (some h0) F e = an n mc dl none F e ∧ bn n mc dl (some h0) F e = bn n mc dl none F e ∧
      cn n mc dl (some h0) F e = cn n mc dl none F e := by
  intro h0
  have ha : ampN n mc dl (some h0) F = ampN n mc dl none F := by
    simp only [ampN, Option.elim_some, Option.elim_none, h0]; ring
  refine ⟨by simp only [an, ha], by simp only [bn, ha], by simp only [cn, Option.elim_some, Option.elim_none, id, h0]⟩

/-- The orbit in units of its semi-major axis, periastron on the first axis, for the eccentric anomaly `u`. -/
noncomputable def orbitX (e u : ℝ) : ℝ := Real.cos u - e
noncomputable def orbitY (e u : ℝ) : ℝ := Real.sqrt (1 - e ^ 2) * Real.sin u

/-- The coefficient of `cos (n l)` in the Fourier series of an even function of the mean anomaly. -/
noncomputable def cosCoef (n : Nat) (f : ℝ → ℝ) : ℝ := 2 / Real.pi * ∫ l in (0 : ℝ)..Real.pi, f l * Real.cos (n * l)

/-- The coefficient of `sin (n l)` in the Fourier series of an odd function of the mean anomaly. -/
noncomputable def sinCoef (n : Nat) (f : ℝ → ℝ) : ℝ := 2 / Real.pi * ∫ l in (0 : ℝ)..Real.pi, f l * Real.sin (n * l)

/-- C98: the amplitudes of the harmonics are those of the second derivative of the quadrupole of two masses on a Kepler
ellipse: where `E` solves Kepler's equation, the second derivative of the harmonic `n` of `x² - y²` has the amplitude
`-n² cosCoef n (x² - y²)` in units of the orbital frequency, and so on for `2 x y` and `x² + y²`; the common factor is half of
the strain amplitude `2 M^(5/3) w^(2/3) / D`, or of `h0`. -/
theorem C98_kepler (n : Nat) (hn : 1 ≤ n) (mc dl : ℝ) (h0 : Option ℝ) (F e : ℝ) (he : 0 ≤ e) (he1 : e < 1) (E : ℝ → ℝ)
    (hE : ∀ l, E l - e * Real.sin (E l) = l) :
    let A := h0.elim (2 * mc ^ (5 / 3 : ℝ) * (2 * Real.pi * F) ^ (2 / 3 : ℝ) / dl) id
    an n mc dl h0 F e = A / 4 * (-(n : ℝ) ^ 2 * cosCoef n fun l => orbitX e (E l) ^ 2 - orbitY e (E l) ^ 2) ∧
      bn n mc dl h0 F e = A / 4 * (-(n : ℝ) ^ 2 * sinCoef n fun l => 2 * (orbitX e (E l) * orbitY e (E l))) ∧
      coefC n mc dl h0 F e = A / 4 * (-(n : ℝ) ^ 2 * cosCoef n fun l => orbitX e (E l) ^ 2 + orbitY e (E l) ^ 2) := by
  intro A
  have hn0 : (n : ℝ) ≠ 0 := by exact_mod_cast (by omega : n ≠ 0)
  have ha : |e| < 1 := by rw [abs_of_nonneg he]; exact he1
  have h2 : e ^ 2 ≤ 1 := by nlinarith
  have hp := Real.pi_pos.ne'
  have hA : ampN n mc dl h0 F = n * A / 2 := by
    simp only [ampN, A]
    cases h0 with
    | none => simp only [Option.elim_none]; ring
    | some h => simp only [Option.elim_some, id]
  have s1 := kepler_subst ha hE (f := fun u => orbitX e u ^ 2 - orbitY e u ^ 2) (g := fun l => Real.cos (n * l))
    (by unfold orbitX orbitY; fun_prop) (by fun_prop)
  have s2 := kepler_subst ha hE (f := fun u => 2 * (orbitX e u * orbitY e u)) (g := fun l => Real.sin (n * l))
    (by unfold orbitX orbitY; fun_prop) (by fun_prop)
  have s3 := kepler_subst ha hE (f := fun u => orbitX e u ^ 2 + orbitY e u ^ 2) (g := fun l => Real.cos (n * l))
    (by unfold orbitX orbitY; fun_prop) (by fun_prop)
  have c1 := coef_plus (e := e) n hn h2
  have c2 := coef_cross (e := e) n hn
  have c3 := coef_trace (e := e) n hn h2
  rw [one_div_mul_eq_div, div_eq_iff hp] at c1 c2 c3
  refine ⟨?_, ?_, ?_⟩
  · rw [cosCoef, s1]
    simp only [orbitX, orbitY]
    rw [c1, an, hA]
    field_simp
    ring
  · rw [sinCoef, s2]
    simp only [orbitX, orbitY, mul_assoc (2 : ℝ)]
    rw [intervalIntegral.integral_const_mul, c2, bn, hA]
    field_simp
    ring
  · rw [cosCoef, s3]
    simp only [orbitX, orbitY]
    rw [c3, coefC]
    field_simp
    ring

/-- Kepler's equation can be solved, so that the hypothesis of `C98_kepler` can be met. -/
example : ∃ E : ℝ → ℝ, ∀ l, E l - 0.5 * Real.sin (E l) = l := kepler_exists 0.5

/-- C98 fails for the number of harmonics: asked for two harmonics the function computes one, and the waveform of a circular
binary, which consists of the second harmonic, comes out as zero. -/
theorem C98_count_false (h : Heap) (m d : ℝ) (h0 : Option ℝ) (F t l0 gamma gd inc : ℝ) :
    splusScross h 2 (.num m) (.num d) h0 F 0 t l0 gamma gd inc = .ok (h, 0, 0) := by
  rw [splusScross_num h 2 (by norm_num)]
  obtain ⟨e1, e2, e3⟩ := circular_coef 1 (by norm_num) (m * tsun) (d * (mpc / lightSpeed)) h0 F
  simp [e1, e2, e3, harmonic]

example : ∃ x, splusScross (fun _ => 0) 3 (.num 1e9) (.num 10) none 1e-8 0 0 0 0 0 0 = .ok (fun _ => 0, x) :=
  ⟨_, C98_circular (fun _ => 0) 3 (by norm_num) 1e9 10 (by norm_num) 1e-8 0 0 0 0 (by norm_num)⟩

/-- The hypothesis of `C98_integral` can be met. -/
example : ∀ n : Nat, 1 ≤ n → n < 10 → (n : ℝ) * (2 * Real.pi * 1) - 2 * 1 ≠ 0 ∧ (n : ℝ) * (2 * Real.pi * 1) + 2 * 1 ≠ 0 := by
  intro n h1 _
  have h3 := Real.pi_gt_three
  have h1' : (1 : ℝ) ≤ n := by exact_mod_cast h1
  constructor <;> nlinarith

/-! ## C99: evolution -/

/-- C99: for a bound orbit the frequency grows, the eccentricity shrinks and the periastron advances; a circular orbit stays
circular. -/
theorem C99_signs {F m q e : ℝ} (hF : 0 < F) (hm : 0 < m) (hq : 0 < q) (he : 0 ≤ e) (he1 : e < 1) :
    0 < fdot F m e ∧ edot F m e ≤ 0 ∧ (edot F m e = 0 ↔ e = 0) ∧ 0 < gammadot F m q e := by
  have hp := Real.pi_pos
  have h1 : 0 < 1 - e ^ 2 := by nlinarith
  have hK : 0 < 304 / 15 * (2 * Real.pi * F) ^ (8 / 3 : ℝ) * m ^ (5 / 3 : ℝ) * ((1 + 121 / 304 * e ^ 2) / (1 - e ^ 2) ^ (5 / 2 : ℝ)) := by positivity
  have hE : edot F m e = -(304 / 15 * (2 * Real.pi * F) ^ (8 / 3 : ℝ) * m ^ (5 / 3 : ℝ) * ((1 + 121 / 304 * e ^ 2) / (1 - e ^ 2) ^ (5 / 2 : ℝ))) * e := by
    rw [edot_eq hF hm]; ring
  refine ⟨by unfold fdot; positivity, ?_, ?_, ?_⟩
  · rw [hE]; nlinarith
  · rw [hE]
    constructor
    · intro h
      rcases mul_eq_zero.1 h with h | h
      · linarith
      · exact h
    · rintro rfl; ring
  · have h26 : 0 < 26 - 15 * e ^ 2 := by nlinarith
    simp only [gammadot]
    positivity

/-- The algebra behind the conserved quantity. -/
theorem rates {F m e : ℝ} (hF : 0 < F) (hm : 0 < m) (he : 0 < e) (he1 : e < 1) :
    2 / 3 * (fdot F m e / F) + edot F m e * (12 / 19 / e + 2 * e / (1 - e ^ 2) + 870 / 2299 * (121 / 304 * (2 * e)) / (1 + 121 / 304 * e ^ 2)) = 0 := by
  have hp := Real.pi_pos
  have h1 : 0 < 1 - e ^ 2 := by nlinarith
  have hx : 0 < 2 * Real.pi * m * F := by positivity
  have hf : fdot F m e = 96 / 5 * F / m * (2 * Real.pi * m * F) ^ (8 / 3 : ℝ) * (1 + 73 / 24 * e ^ 2 + 37 / 96 * e ^ 4) /
      ((1 - e ^ 2) * (1 - e ^ 2) ^ (5 / 2 : ℝ)) := by
    have e1 : (2 * Real.pi * m * F) ^ (11 / 3 : ℝ) = (2 * Real.pi * m * F) ^ (8 / 3 : ℝ) * (2 * Real.pi * m * F) := by
      rw [show (11 / 3 : ℝ) = 8 / 3 + 1 by norm_num, Real.rpow_add hx, Real.rpow_one]
    have e2 : (1 - e ^ 2) ^ (7 / 2 : ℝ) = (1 - e ^ 2) * (1 - e ^ 2) ^ (5 / 2 : ℝ) := by
      rw [show (7 / 2 : ℝ) = 1 + 5 / 2 by norm_num, Real.rpow_add h1, Real.rpow_one]
    unfold fdot
    rw [e1, e2]
    field_simp
    ring
  rw [hf]
  unfold edot
  generalize (2 * Real.pi * m * F) ^ (8 / 3 : ℝ) = X
  have hY : 0 < (1 - e ^ 2) ^ (5 / 2 : ℝ) := by positivity
  generalize (1 - e ^ 2) ^ (5 / 2 : ℝ) = Y at hY
  have h3 : (1 + 121 / 304 * e ^ 2) ≠ 0 := by positivity
  field_simp
  ring

/-- A function with derivative zero on an interval is constant there. -/
theorem const_of_zero {Q : ℝ → ℝ} {a b : ℝ} (hQ : ∀ t ∈ Set.Icc a b, HasDerivWithinAt Q 0 (Set.Icc a b) t) {s t : ℝ} (hs : s ∈ Set.Icc a b)
    (ht : t ∈ Set.Icc a b) : Q s = Q t := by
  have hc : ContinuousOn Q (Set.Icc a b) := fun t ht => (hQ t ht).continuousWithinAt
  have h := constant_of_has_deriv_right_zero hc fun x hx =>
    (hQ x (Set.Ico_subset_Icc_self hx)).mono_of_mem_nhdsWithin (Icc_mem_nhdsGE_of_mem hx)
  rw [h s hs, h t ht]

/-- C99: on every solution of the equations that `solve_coupled_ecc_solution` integrates, over any interval of time, the product
`F^(2/3) e^(12/19) / (1 - e^2) (1 + 121/304 e^2)^(870/2299)` is constant: Peters' relation between the size and the shape of a
shrinking orbit. -/
theorem C99_peters (h : Heap) (m q : ℝ) (hm : 0 < m) (F e : ℝ → ℝ) {a b : ℝ} (hF : ∀ t ∈ Set.Icc a b, 0 < F t)
    (he : ∀ t ∈ Set.Icc a b, 0 < e t ∧ e t < 1)
    (hdF : ∀ t ∈ Set.Icc a b, HasDerivWithinAt F (eccEqns h (F t) (e t) (.num m) q).2.1 (Set.Icc a b) t)
    (hde : ∀ t ∈ Set.Icc a b, HasDerivWithinAt e (eccEqns h (F t) (e t) (.num m) q).2.2.1 (Set.Icc a b) t) {s t : ℝ}
    (hs : s ∈ Set.Icc a b) (ht : t ∈ Set.Icc a b) :
    F s ^ (2 / 3 : ℝ) * e s ^ (12 / 19 : ℝ) / (1 - e s ^ 2) * (1 + 121 / 304 * e s ^ 2) ^ (870 / 2299 : ℝ) =
      F t ^ (2 / 3 : ℝ) * e t ^ (12 / 19 : ℝ) / (1 - e t ^ 2) * (1 + 121 / 304 * e t ^ 2) ^ (870 / 2299 : ℝ) := by
  have hM : 0 < m * tsun := mul_pos hm tsun_pos
  have h1 : ∀ t ∈ Set.Icc a b, 0 < 1 - e t ^ 2 := fun t ht => by nlinarith [he t ht]
  have h2 : ∀ t, 0 < 1 + 121 / 304 * e t ^ 2 := fun t => by positivity
  let Q : ℝ → ℝ := fun t => 2 / 3 * Real.log (F t) + 12 / 19 * Real.log (e t) - Real.log (1 - e t ^ 2) + 870 / 2299 * Real.log (1 + 121 / 304 * e t ^ 2)
  have hQ : ∀ t ∈ Set.Icc a b, HasDerivWithinAt Q 0 (Set.Icc a b) t := by
    intro t ht
    have dF : HasDerivWithinAt F (fdot (F t) (m * tsun) (e t)) (Set.Icc a b) t := hdF t ht
    have de : HasDerivWithinAt e (edot (F t) (m * tsun) (e t)) (Set.Icc a b) t := hde t ht
    have d2 := (de.fun_pow 2)
    have a1 := (dF.log (hF t ht).ne').const_mul (2 / 3)
    have a2 := (de.log (he t ht).1.ne').const_mul (12 / 19)
    have a3 := (d2.const_sub 1).log (h1 t ht).ne'
    have a4 := (((d2.const_mul (121 / 304)).const_add 1).log (h2 t).ne').const_mul (870 / 2299)
    refine (((a1.fun_add a2).fun_sub a3).fun_add a4).congr_deriv ?_
    rw [← rates (hF t ht) hM (he t ht).1 (he t ht).2]
    have := (he t ht).1.ne'
    have := (h1 t ht).ne'
    have := (h2 t).ne'
    push_cast
    simp only [pow_one]
    ring
  have hexp : ∀ t ∈ Set.Icc a b, Real.exp (Q t) = F t ^ (2 / 3 : ℝ) * e t ^ (12 / 19 : ℝ) / (1 - e t ^ 2) * (1 + 121 / 304 * e t ^ 2) ^ (870 / 2299 : ℝ) := by
    intro t ht
    rw [Real.rpow_def_of_pos (hF t ht), Real.rpow_def_of_pos (he t ht).1, Real.rpow_def_of_pos (h2 t)]
    simp only [Q]
    rw [Real.exp_add, Real.exp_sub, Real.exp_add, Real.exp_log (h1 t ht)]
    rw [show 2 / 3 * Real.log (F t) = Real.log (F t) * (2 / 3) by ring, show 12 / 19 * Real.log (e t) = Real.log (e t) * (12 / 19) by ring,
      show 870 / 2299 * Real.log (1 + 121 / 304 * e t ^ 2) = Real.log (1 + 121 / 304 * e t ^ 2) * (870 / 2299) by ring]
  rw [← hexp s hs, ← hexp t ht, const_of_zero hQ hs ht]

/-- C99: the formulas in terms of frequency, chirp mass and mass ratio are those of Peters (1964) and of Barack and Cutler (2004)
for two masses on an orbit with semi-major axis `a` (in seconds), related to the frequency by Kepler's third law. -/
theorem C99_orbit {m1 m2 a F e : ℝ} (h1 : 0 < m1) (h2 : 0 < m2) (ha : 0 < a) (hF : 0 < F) (he : 0 ≤ e) (he1 : e < 1)
    (hK : (2 * Real.pi * F) ^ 2 * a ^ 3 = m1 + m2) :
    let M := m1 + m2
    let mc := (m1 * m2) ^ (3 / 5 : ℝ) / M ^ (1 / 5 : ℝ)
    let adot := -(64 / 5) * (m1 * m2 * M) / (a ^ 3 * (1 - e ^ 2) ^ (7 / 2 : ℝ)) * (1 + 73 / 24 * e ^ 2 + 37 / 96 * e ^ 4)
    fdot F mc e = -(3 / 2) * F / a * adot ∧
      edot F mc e = -(304 / 15) * e * (m1 * m2 * M) / (a ^ 4 * (1 - e ^ 2) ^ (5 / 2 : ℝ)) * (1 + 121 / 304 * e ^ 2) ∧
      gammadot F mc (m2 / m1) e = F * (6 * Real.pi * (M / a) / (1 - e ^ 2)) * (1 + 1 / 4 * (M / a) / (1 - e ^ 2) * (26 - 15 * e ^ 2)) := by
  intro M mc adot
  have hp := Real.pi_pos
  have hM : 0 < M := by simp only [M]; positivity
  have hmc : 0 < mc := by simp only [mc]; positivity
  have hw : 0 < 2 * Real.pi * F := by positivity
  -- the powers of the masses
  have hmc5 : mc ^ (5 / 3 : ℝ) = m1 * m2 / M ^ (1 / 3 : ℝ) := by
    simp only [mc]
    rw [Real.div_rpow (by positivity) (by positivity), ← Real.rpow_mul (by positivity), ← Real.rpow_mul hM.le]
    norm_num
  have hMa : (2 * Real.pi * F * M) ^ (2 / 3 : ℝ) = M / a := by
    have e1 : (2 * Real.pi * F * M) ^ 2 = (M / a) ^ 3 := by
      have : (2 * Real.pi * F) ^ 2 = M / a ^ 3 := by rw [eq_div_iff (by positivity)]; exact hK
      rw [mul_pow, this]; field_simp
    rw [show (2 / 3 : ℝ) = (2 : ℕ) * (1 / 3 : ℝ) by norm_num, Real.rpow_mul (by positivity), Real.rpow_natCast, e1, ← Real.rpow_natCast,
      ← Real.rpow_mul (by positivity)]
    norm_num
  have hw8 : (2 * Real.pi * F) ^ (8 / 3 : ℝ) = M ^ (4 / 3 : ℝ) / a ^ 4 := by
    have e1 : (2 * Real.pi * F) ^ 2 = M / a ^ 3 := by rw [eq_div_iff (by positivity)]; exact hK
    rw [show (8 / 3 : ℝ) = (2 : ℕ) * (4 / 3 : ℝ) by norm_num, Real.rpow_mul hw.le, Real.rpow_natCast, e1, Real.div_rpow hM.le (by positivity)]
    congr 1
    rw [← Real.rpow_natCast a 3, ← Real.rpow_mul ha.le, ← Real.rpow_natCast a 4]
    norm_num
  have hM43 : M ^ (4 / 3 : ℝ) = M ^ (1 / 3 : ℝ) * M := by
    rw [show (4 / 3 : ℝ) = 1 / 3 + 1 by norm_num, Real.rpow_add hM, Real.rpow_one]
  have hM13 : 0 < M ^ (1 / 3 : ℝ) := by positivity
  have h1e : 0 < 1 - e ^ 2 := by nlinarith
  refine ⟨?_, ?_, ?_⟩
  · have hx : fdot F mc e = 96 / 5 * F * ((2 * Real.pi * F) ^ (8 / 3 : ℝ) * mc ^ (5 / 3 : ℝ)) * (1 + 73 / 24 * e ^ 2 + 37 / 96 * e ^ 4) / (1 - e ^ 2) ^ (7 / 2 : ℝ) := by
      have e1 : (2 * Real.pi * mc * F) ^ (11 / 3 : ℝ) = (2 * Real.pi * F) ^ (8 / 3 : ℝ) * (2 * Real.pi * F) * (mc ^ (5 / 3 : ℝ) * mc ^ 2) := by
        rw [show 2 * Real.pi * mc * F = 2 * Real.pi * F * mc by ring, Real.mul_rpow hw.le hmc.le, show (11 / 3 : ℝ) = 8 / 3 + 1 by norm_num,
          Real.rpow_add hw, Real.rpow_one, show (8 / 3 + 1 : ℝ) = 5 / 3 + (2 : ℕ) by norm_num, Real.rpow_add hmc, Real.rpow_natCast]
      unfold fdot
      rw [e1]
      field_simp
      ring
    rw [hx, hw8, hmc5, hM43]
    simp only [adot]
    field_simp
    ring
  · rw [edot_eq hF hmc, hw8, hmc5, hM43]
    field_simp
  · have hm : (((1 + m2 / m1) ^ 2) / (m2 / m1)) ^ (3 / 5 : ℝ) * mc = M := by
      have e1 : ((1 + m2 / m1) ^ 2) / (m2 / m1) = M ^ 2 / (m1 * m2) := by
        simp only [M]; field_simp
      rw [e1, Real.div_rpow (by positivity) (by positivity)]
      simp only [mc]
      have e2 : (M ^ 2) ^ (3 / 5 : ℝ) = M * M ^ (1 / 5 : ℝ) := by
        rw [← Real.rpow_natCast M 2, ← Real.rpow_mul hM.le, show ((2 : ℕ) : ℝ) * (3 / 5) = 1 + 1 / 5 by norm_num, Real.rpow_add hM, Real.rpow_one]
      rw [e2]
      have : 0 < (m1 * m2) ^ (3 / 5 : ℝ) := by positivity
      have : 0 < M ^ (1 / 5 : ℝ) := by positivity
      field_simp
    simp only [gammadot, hm, hMa]
    rw [show (0.25 : ℝ) = 1 / 4 by norm_num]
    ring

/-- The numbers of `C99_orbit` can be met. -/
example : ∃ m1 m2 a F : ℝ, 0 < m1 ∧ 0 < m2 ∧ 0 < a ∧ 0 < F ∧ (2 * Real.pi * F) ^ 2 * a ^ 3 = m1 + m2 := by
  have hp := Real.pi_pos
  refine ⟨1, 3, 1, 1 / Real.pi, by norm_num, by norm_num, by norm_num, by positivity, ?_⟩
  field_simp
  norm_num

/-- The numbers of `C99_signs` can be met. -/
example : edot 1e-8 1e4 0.5 < 0 := by
  obtain ⟨-, h2, h3, -⟩ := C99_signs (F := 1e-8) (m := 1e4) (q := 1) (e := 0.5) (by norm_num) (by norm_num) (by norm_num) (by norm_num) (by norm_num)
  refine lt_of_le_of_ne h2 fun h => ?_
  have := h3.1 h
  norm_num at this

/-- C98: no harmonics at all raise, since `numpy` cannot make the axis of harmonics. -/
theorem C98_none (h : Heap) (mc dl : Arg) (h0 : Option ℝ) (F e t l0 gamma gammadot inc : ℝ) :
    splusScross h 0 mc dl h0 F e t l0 gamma gammadot inc = .error .valueError := by
  simp [splusScross]

end Verif.Binary
