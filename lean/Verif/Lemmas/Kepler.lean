import Mathlib.Analysis.SpecialFunctions.Integrals.Basic
import Mathlib.MeasureTheory.Integral.IntervalIntegral.IntegrationByParts
import Mathlib.Topology.Order.MonotoneContinuity
import Mathlib.Topology.Order.IntermediateValue
import Mathlib.Topology.Algebra.Order.Field
import Mathlib.Analysis.Calculus.Deriv.MeanValue
import Mathlib.Tactic.Linarith
import Mathlib.Tactic.FieldSimp
import Mathlib.Tactic.LinearCombination
import Mathlib.Tactic.Ring
import Verif.Model.Binary

/-!
# Fourier coefficients of a Kepler orbit

The orbit with eccentricity `e` and eccentric anomaly `u` is `(cos u - e, sqrt (1 - e^2) sin u)`; the mean anomaly is
`u - e sin u`.
-/

namespace Verif.Binary

open Verif intervalIntegral

/-! ## Bessel functions -/

theorem jn_eq (n : Int) (x : ℝ) : ∫ τ in (0 : ℝ)..Real.pi, Real.cos (n * τ - x * Real.sin τ) = Real.pi * jn n x := by
  unfold jn
  field_simp

theorem int_cos (n : Int) (x : ℝ) (k : Nat) :
    ∫ τ in (0 : ℝ)..Real.pi, Real.cos (k * τ) * Real.cos (n * τ - x * Real.sin τ) = Real.pi / 2 * (jn (n - k) x + jn (n + k) x) := by
  have e : ∀ τ : ℝ, Real.cos (k * τ) * Real.cos (n * τ - x * Real.sin τ) =
      1 / 2 * (Real.cos (((n - k : Int) : ℝ) * τ - x * Real.sin τ) + Real.cos (((n + k : Int) : ℝ) * τ - x * Real.sin τ)) := by
    intro τ
    have e1 : ((n - k : Int) : ℝ) * τ - x * Real.sin τ = (n * τ - x * Real.sin τ) - k * τ := by push_cast; ring
    have e2 : ((n + k : Int) : ℝ) * τ - x * Real.sin τ = (n * τ - x * Real.sin τ) + k * τ := by push_cast; ring
    rw [e1, e2, Real.cos_sub (n * τ - x * Real.sin τ), Real.cos_add (n * τ - x * Real.sin τ)]; ring
  simp only [e]
  rw [integral_const_mul, integral_add (Continuous.intervalIntegrable (by fun_prop) _ _) (Continuous.intervalIntegrable (by fun_prop) _ _),
    jn_eq, jn_eq]
  ring

theorem int_sin (n : Int) (x : ℝ) (k : Nat) :
    ∫ τ in (0 : ℝ)..Real.pi, Real.sin (k * τ) * Real.sin (n * τ - x * Real.sin τ) = Real.pi / 2 * (jn (n - k) x - jn (n + k) x) := by
  have e : ∀ τ : ℝ, Real.sin (k * τ) * Real.sin (n * τ - x * Real.sin τ) =
      1 / 2 * (Real.cos (((n - k : Int) : ℝ) * τ - x * Real.sin τ) - Real.cos (((n + k : Int) : ℝ) * τ - x * Real.sin τ)) := by
    intro τ
    have e1 : ((n - k : Int) : ℝ) * τ - x * Real.sin τ = (n * τ - x * Real.sin τ) - k * τ := by push_cast; ring
    have e2 : ((n + k : Int) : ℝ) * τ - x * Real.sin τ = (n * τ - x * Real.sin τ) + k * τ := by push_cast; ring
    rw [e1, e2, Real.cos_sub (n * τ - x * Real.sin τ), Real.cos_add (n * τ - x * Real.sin τ)]; ring
  simp only [e]
  rw [integral_const_mul, integral_sub (Continuous.intervalIntegrable (by fun_prop) _ _) (Continuous.intervalIntegrable (by fun_prop) _ _),
    jn_eq, jn_eq]
  ring

/-- `(x / 2) (J_(n-1) + J_(n+1)) = n J_n`. -/
theorem jn_rec (n : Int) (x : ℝ) : x / 2 * (jn (n - 1) x + jn (n + 1) x) = n * jn n x := by
  have hd : ∀ τ ∈ Set.uIcc 0 Real.pi, HasDerivAt (fun τ => Real.sin (n * τ - x * Real.sin τ))
      (n * Real.cos (n * τ - x * Real.sin τ) - x * (Real.cos ((1 : Nat) * τ) * Real.cos (n * τ - x * Real.sin τ))) τ := by
    intro τ _
    have h1 : HasDerivAt (fun τ : ℝ => n * τ - x * Real.sin τ) (n - x * Real.cos τ) τ := by
      simpa using ((hasDerivAt_id τ).const_mul (n : ℝ)).fun_sub ((Real.hasDerivAt_sin τ).const_mul x)
    refine h1.sin.congr_deriv ?_
    push_cast
    rw [one_mul]
    ring
  have h := integral_eq_sub_of_hasDerivAt hd (Continuous.intervalIntegrable (by fun_prop) _ _)
  rw [integral_sub (Continuous.intervalIntegrable (by fun_prop) _ _) (Continuous.intervalIntegrable (by fun_prop) _ _),
    integral_const_mul, integral_const_mul, jn_eq, int_cos] at h
  simp only [Real.sin_pi, mul_zero, sub_zero, Real.sin_zero, Real.sin_int_mul_pi, Nat.cast_one] at h
  have hp := Real.pi_pos
  have : Real.pi * (n * jn n x - x / 2 * (jn (n - 1) x + jn (n + 1) x)) = 0 := by linarith
  rcases mul_eq_zero.1 this with h | h
  · linarith
  · linarith

/-! ## Integrals over the eccentric anomaly -/

variable {e : ℝ}

theorem hasDerivAt_mean (e u : ℝ) : HasDerivAt (fun u => u - e * Real.sin u) (1 - e * Real.cos u) u := by
  simpa using (hasDerivAt_id u).fun_sub ((Real.hasDerivAt_sin u).const_mul e)

theorem byParts_cos (n : Nat) (hn : 1 ≤ n) (e : ℝ) {f f' : ℝ → ℝ} (hf : ∀ u, HasDerivAt f (f' u) u) (hc : Continuous f') :
    ∫ u in (0 : ℝ)..Real.pi, f u * Real.cos (n * (u - e * Real.sin u)) * (1 - e * Real.cos u) =
      -(1 / n) * ∫ u in (0 : ℝ)..Real.pi, f' u * Real.sin (n * (u - e * Real.sin u)) := by
  have hn0 : (n : ℝ) ≠ 0 := by exact_mod_cast (by omega : n ≠ 0)
  have hfc : Continuous f := continuous_iff_continuousAt.2 fun u => (hf u).continuousAt
  have hv : ∀ u, HasDerivAt (fun u => Real.sin (n * (u - e * Real.sin u)) / n) (Real.cos (n * (u - e * Real.sin u)) * (1 - e * Real.cos u)) u := by
    intro u
    refine ((hasDerivAt_mean e u).const_mul (n : ℝ)).sin.div_const (n : ℝ) |>.congr_deriv ?_
    field_simp
  have h := integral_mul_deriv_eq_deriv_mul (a := 0) (b := Real.pi) (fun u _ => hf u) (fun u _ => hv u)
    (hc.intervalIntegrable _ _) (Continuous.intervalIntegrable (by fun_prop) _ _)
  simp only [← mul_assoc] at h
  rw [h]
  simp only [Real.sin_pi, mul_zero, sub_zero, Real.sin_zero, Real.sin_nat_mul_pi, zero_div, zero_sub]
  rw [← integral_const_mul, ← integral_neg]
  congr 1; ext u; ring

theorem byParts_sin (n : Nat) (hn : 1 ≤ n) (e : ℝ) {f f' : ℝ → ℝ} (hf : ∀ u, HasDerivAt f (f' u) u) (hc : Continuous f')
    (h0 : f 0 = 0) (hp : f Real.pi = 0) :
    ∫ u in (0 : ℝ)..Real.pi, f u * Real.sin (n * (u - e * Real.sin u)) * (1 - e * Real.cos u) =
      (1 / n) * ∫ u in (0 : ℝ)..Real.pi, f' u * Real.cos (n * (u - e * Real.sin u)) := by
  have hn0 : (n : ℝ) ≠ 0 := by exact_mod_cast (by omega : n ≠ 0)
  have hfc : Continuous f := continuous_iff_continuousAt.2 fun u => (hf u).continuousAt
  have hv : ∀ u, HasDerivAt (fun u => -Real.cos (n * (u - e * Real.sin u)) / n) (Real.sin (n * (u - e * Real.sin u)) * (1 - e * Real.cos u)) u := by
    intro u
    refine ((hasDerivAt_mean e u).const_mul (n : ℝ)).cos.fun_neg.div_const (n : ℝ) |>.congr_deriv ?_
    field_simp
  have h := integral_mul_deriv_eq_deriv_mul (a := 0) (b := Real.pi) (fun u _ => hf u) (fun u _ => hv u)
    (hc.intervalIntegrable _ _) (Continuous.intervalIntegrable (by fun_prop) _ _)
  simp only [← mul_assoc] at h
  rw [h, h0, hp]
  simp only [zero_mul, zero_sub, sub_zero]
  rw [← integral_const_mul, ← integral_neg]
  congr 1; ext u; ring

theorem arg_eq (n : Nat) (e u : ℝ) : (n : ℝ) * (u - e * Real.sin u) = ((n : Int) : ℝ) * u - (n * e) * Real.sin u := by
  push_cast; ring

theorem lin_sin (n : Nat) (a b : ℝ) : ∫ u in (0 : ℝ)..Real.pi, (a * Real.sin ((1 : Nat) * u) - b * Real.sin ((2 : Nat) * u)) *
    Real.sin (n * (u - e * Real.sin u)) = Real.pi / 2 * (a * (jn (n - 1) (n * e) - jn (n + 1) (n * e)) - b * (jn (n - 2) (n * e) - jn (n + 2) (n * e))) := by
  have h1 := int_sin n (n * e) 1
  have h2 := int_sin n (n * e) 2
  have e1 : ∀ u : ℝ, (a * Real.sin ((1 : Nat) * u) - b * Real.sin ((2 : Nat) * u)) * Real.sin (n * (u - e * Real.sin u)) =
      a * (Real.sin ((1 : Nat) * u) * Real.sin (((n : Int) : ℝ) * u - (n * e) * Real.sin u)) -
        b * (Real.sin ((2 : Nat) * u) * Real.sin (((n : Int) : ℝ) * u - (n * e) * Real.sin u)) := by
    intro u; rw [arg_eq]; ring
  simp only [e1]
  rw [integral_sub (Continuous.intervalIntegrable (by fun_prop) _ _) (Continuous.intervalIntegrable (by fun_prop) _ _),
    integral_const_mul, integral_const_mul, h1, h2]
  push_cast
  ring

theorem lin_cos (n : Nat) (a b : ℝ) : ∫ u in (0 : ℝ)..Real.pi, (a * Real.cos ((1 : Nat) * u) + b * Real.cos ((2 : Nat) * u)) *
    Real.cos (n * (u - e * Real.sin u)) = Real.pi / 2 * (a * (jn (n - 1) (n * e) + jn (n + 1) (n * e)) + b * (jn (n - 2) (n * e) + jn (n + 2) (n * e))) := by
  have h1 := int_cos n (n * e) 1
  have h2 := int_cos n (n * e) 2
  have e1 : ∀ u : ℝ, (a * Real.cos ((1 : Nat) * u) + b * Real.cos ((2 : Nat) * u)) * Real.cos (n * (u - e * Real.sin u)) =
      a * (Real.cos ((1 : Nat) * u) * Real.cos (((n : Int) : ℝ) * u - (n * e) * Real.sin u)) +
        b * (Real.cos ((2 : Nat) * u) * Real.cos (((n : Int) : ℝ) * u - (n * e) * Real.sin u)) := by
    intro u; rw [arg_eq]; ring
  simp only [e1]
  rw [integral_add (Continuous.intervalIntegrable (by fun_prop) _ _) (Continuous.intervalIntegrable (by fun_prop) _ _),
    integral_const_mul, integral_const_mul, h1, h2]
  push_cast
  ring

/-- `x² - y²`. -/
theorem coef_plus (n : Nat) (hn : 1 ≤ n) (he : e ^ 2 ≤ 1) :
    1 / Real.pi * ∫ u in (0 : ℝ)..Real.pi, ((Real.cos u - e) ^ 2 - (Real.sqrt (1 - e ^ 2) * Real.sin u) ^ 2) *
      Real.cos (n * (u - e * Real.sin u)) * (1 - e * Real.cos u) =
    1 / n * (jn (n - 2) (n * e) - 2 * e * jn (n - 1) (n * e) + (2 / n) * jn n (n * e) + 2 * e * jn (n + 1) (n * e) - jn (n + 2) (n * e)) := by
  have hn0 : (n : ℝ) ≠ 0 := by exact_mod_cast (by omega : n ≠ 0)
  have hp := Real.pi_pos.ne'
  have hs : Real.sqrt (1 - e ^ 2) ^ 2 = 1 - e ^ 2 := Real.sq_sqrt (by linarith)
  have hf : ∀ u, HasDerivAt (fun u => (Real.cos u - e) ^ 2 - (Real.sqrt (1 - e ^ 2) * Real.sin u) ^ 2)
      (2 * e * Real.sin ((1 : Nat) * u) - (2 - e ^ 2) * Real.sin ((2 : Nat) * u)) u := by
    intro u
    refine (((Real.hasDerivAt_cos u).sub_const e).fun_pow 2).fun_sub (((Real.hasDerivAt_sin u).const_mul (Real.sqrt (1 - e ^ 2))).fun_pow 2) |>.congr_deriv ?_
    push_cast
    rw [one_mul, Real.sin_two_mul]
    simp only [pow_one]
    linear_combination (-2 * Real.sin u * Real.cos u) * hs
  rw [byParts_cos n hn e hf (by fun_prop)]
  rw [lin_sin]
  have r0 := jn_rec n (n * e)
  have r1 := jn_rec (n - 1) (n * e)
  have r2 := jn_rec (n + 1) (n * e)
  rw [show (n : Int) - 1 - 1 = n - 2 by ring, show (n : Int) - 1 + 1 = n by ring] at r1
  rw [show (n : Int) + 1 - 1 = n by ring, show (n : Int) + 1 + 1 = n + 2 by ring] at r2
  push_cast at r0 r1 r2
  field_simp at r0 r1 r2 ⊢
  linear_combination 2 * r0 - e * (r1 - r2)

/-- `x y`. -/
theorem coef_cross (n : Nat) (hn : 1 ≤ n) :
    1 / Real.pi * ∫ u in (0 : ℝ)..Real.pi, ((Real.cos u - e) * (Real.sqrt (1 - e ^ 2) * Real.sin u)) *
      Real.sin (n * (u - e * Real.sin u)) * (1 - e * Real.cos u) =
    1 / (2 * n) * Real.sqrt (1 - e ^ 2) * (jn (n - 2) (n * e) - 2 * jn n (n * e) + jn (n + 2) (n * e)) := by
  have hn0 : (n : ℝ) ≠ 0 := by exact_mod_cast (by omega : n ≠ 0)
  have hp := Real.pi_pos.ne'
  have hf : ∀ u, HasDerivAt (fun u => (Real.cos u - e) * (Real.sqrt (1 - e ^ 2) * Real.sin u))
      (-(Real.sqrt (1 - e ^ 2) * e) * Real.cos ((1 : Nat) * u) + Real.sqrt (1 - e ^ 2) * Real.cos ((2 : Nat) * u)) u := by
    intro u
    refine ((Real.hasDerivAt_cos u).sub_const e).fun_mul ((Real.hasDerivAt_sin u).const_mul (Real.sqrt (1 - e ^ 2))) |>.congr_deriv ?_
    push_cast
    rw [one_mul, Real.cos_two_mul]
    linear_combination (-Real.sqrt (1 - e ^ 2)) * Real.sin_sq_add_cos_sq u
  rw [byParts_sin n hn e hf (by fun_prop) (by simp) (by simp), lin_cos]
  have r0 := jn_rec n (n * e)
  push_cast at r0
  field_simp at r0 ⊢
  linear_combination -Real.sqrt (1 - e ^ 2) * r0

/-- `x² + y²`. -/
theorem coef_trace (n : Nat) (hn : 1 ≤ n) (he : e ^ 2 ≤ 1) :
    1 / Real.pi * ∫ u in (0 : ℝ)..Real.pi, ((Real.cos u - e) ^ 2 + (Real.sqrt (1 - e ^ 2) * Real.sin u) ^ 2) *
      Real.cos (n * (u - e * Real.sin u)) * (1 - e * Real.cos u) = -(2 / n ^ 2) * jn n (n * e) := by
  have hn0 : (n : ℝ) ≠ 0 := by exact_mod_cast (by omega : n ≠ 0)
  have hp := Real.pi_pos.ne'
  have hs : Real.sqrt (1 - e ^ 2) ^ 2 = 1 - e ^ 2 := Real.sq_sqrt (by linarith)
  have hf : ∀ u, HasDerivAt (fun u => (Real.cos u - e) ^ 2 + (Real.sqrt (1 - e ^ 2) * Real.sin u) ^ 2)
      (2 * e * Real.sin ((1 : Nat) * u) - e ^ 2 * Real.sin ((2 : Nat) * u)) u := by
    intro u
    refine (((Real.hasDerivAt_cos u).sub_const e).fun_pow 2).fun_add (((Real.hasDerivAt_sin u).const_mul (Real.sqrt (1 - e ^ 2))).fun_pow 2) |>.congr_deriv ?_
    push_cast
    rw [one_mul, Real.sin_two_mul]
    simp only [pow_one]
    linear_combination (2 * Real.sin u * Real.cos u) * hs
  rw [byParts_cos n hn e hf (by fun_prop), lin_sin]
  have r0 := jn_rec n (n * e)
  have r1 := jn_rec (n - 1) (n * e)
  have r2 := jn_rec (n + 1) (n * e)
  rw [show (n : Int) - 1 - 1 = n - 2 by ring, show (n : Int) - 1 + 1 = n by ring] at r1
  rw [show (n : Int) + 1 - 1 = n by ring, show (n : Int) + 1 + 1 = n + 2 by ring] at r2
  push_cast at r0 r1 r2
  field_simp at r0 r1 r2 ⊢
  linear_combination e * (r1 - r2) - 2 * r0

/-! ## Kepler's equation -/

theorem mean_strictMono (he : |e| < 1) : StrictMono fun u => u - e * Real.sin u := by
  apply strictMono_of_deriv_pos
  intro u
  rw [(hasDerivAt_mean e u).deriv]
  have h1 : e * Real.cos u ≤ |e| := by
    calc e * Real.cos u ≤ |e * Real.cos u| := le_abs_self _
      _ = |e| * |Real.cos u| := abs_mul _ _
      _ ≤ |e| * 1 := by gcongr; exact Real.abs_cos_le_one u
      _ = |e| := mul_one _
  linarith

/-- Kepler's equation has a solution for every mean anomaly. -/
theorem kepler_exists (e : ℝ) : ∃ E : ℝ → ℝ, ∀ l, E l - e * Real.sin (E l) = l := by
  have hb : ∀ u, |e * Real.sin u| ≤ |e| := fun u => by
    rw [abs_mul]
    calc |e| * |Real.sin u| ≤ |e| * 1 := by gcongr; exact Real.abs_sin_le_one u
      _ = |e| := mul_one _
  have hs : Function.Surjective fun u => u - e * Real.sin u := by
    apply Continuous.surjective (by fun_prop)
    · apply Filter.tendsto_atTop_mono (f := fun u => u - |e|)
      · intro u; have := abs_le.1 (hb u); linarith
      · exact Filter.tendsto_atTop_add_const_right _ _ Filter.tendsto_id
    · apply Filter.tendsto_atBot_mono (f := fun u => u + |e|)
      · intro u; have := abs_le.1 (hb u); linarith
      · exact Filter.tendsto_atBot_add_const_right _ _ Filter.tendsto_id
  exact ⟨fun l => (hs l).choose, fun l => (hs l).choose_spec⟩

/-- From the mean to the eccentric anomaly under the integral. -/
theorem kepler_subst (he : |e| < 1) {E : ℝ → ℝ} (hE : ∀ l, E l - e * Real.sin (E l) = l) {f g : ℝ → ℝ} (hf : Continuous f)
    (hg : Continuous g) :
    ∫ l in (0 : ℝ)..Real.pi, f (E l) * g l = ∫ u in (0 : ℝ)..Real.pi, f u * g (u - e * Real.sin u) * (1 - e * Real.cos u) := by
  have hm := mean_strictMono he
  have hinv : ∀ u, E (u - e * Real.sin u) = u := fun u => hm.injective (hE _)
  have hEm : StrictMono E := by
    intro a b hab
    by_contra hc
    push Not at hc
    have := hm.monotone hc
    simp only [hE] at this
    linarith
  have hEc : Continuous E := hEm.monotone.continuous_of_surjective fun u => ⟨_, hinv u⟩
  have h := integral_comp_mul_deriv (a := 0) (b := Real.pi) (f := fun u => u - e * Real.sin u) (f' := fun u => 1 - e * Real.cos u)
    (g := fun l => f (E l) * g l) (fun u _ => hasDerivAt_mean e u) (by fun_prop) (by fun_prop)
  simp only [Function.comp_def, hinv, Real.sin_zero, Real.sin_pi, mul_zero, sub_zero] at h
  exact h.symm

end Verif.Binary
