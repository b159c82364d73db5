import Verif.Lemmas.SkyMeasure
import Verif.Lemmas.HdSeries
import Mathlib.Analysis.SpecialFunctions.Trigonometric.ArctanDeriv
import Mathlib.Analysis.SpecialFunctions.Trigonometric.Inverse

/-!
# The integral that gives the Hellings-Downs curve

Mathematics only: the average over the sky of the product of the responses of two detectors of which one is at the pole.
-/

namespace Verif.Sky

open MeasureTheory Real Set

theorem integral_inv_cos {a b : ℝ} (h : |b| < a) :
    (∫ φ in (0 : ℝ)..(2 * π), 1 / (a - b * cos φ)) = 2 * π / √(a ^ 2 - b ^ 2) := by
  have ha : 0 < a := (abs_nonneg b).trans_lt h
  have hb := abs_lt.1 h
  have hpos : 0 < a ^ 2 - b ^ 2 := by nlinarith
  set s := √(a ^ 2 - b ^ 2) with hs
  have hs0 : 0 < s := sqrt_pos.2 hpos
  have hs2 : s ^ 2 = a ^ 2 - b ^ 2 := sq_sqrt hpos.le
  have has : 0 < a + s := by linarith
  set β := b / (a + s) with hβ
  have hbβ : b = β * (a + s) := by rw [hβ]; field_simp
  have hβ1 : |β| < 1 := by
    rw [hβ, abs_div, abs_of_pos has, div_lt_one has]; linarith
  have hβ' := abs_lt.1 hβ1
  clear_value β
  have hq : (1 + β ^ 2) * (a + s) = 2 * a := by
    have : (a + s) * ((1 + β ^ 2) * (a + s)) = (a + s) * (2 * a) := by
      rw [show (a + s) * ((1 + β ^ 2) * (a + s)) = (a + s) ^ 2 + (β * (a + s)) ^ 2 by ring, ← hbβ]
      linear_combination hs2
    exact mul_left_cancel₀ has.ne' this
  have hD : ∀ φ : ℝ, 0 < 1 - β * cos φ := fun φ => by
    have h1 : |β * cos φ| ≤ |β| := by
      rw [abs_mul]; exact mul_le_of_le_one_right (abs_nonneg _) (abs_cos_le_one φ)
    have := (le_abs_self (β * cos φ)).trans h1
    linarith
  have hE : ∀ φ : ℝ, 0 < a - b * cos φ := fun φ => by
    have h1 : |b * cos φ| ≤ |b| := by
      rw [abs_mul]; exact mul_le_of_le_one_right (abs_nonneg _) (abs_cos_le_one φ)
    have := (le_abs_self (b * cos φ)).trans h1
    linarith
  have hder : ∀ φ ∈ uIcc (0 : ℝ) (2 * π),
      HasDerivAt (fun φ => φ / s + 2 / s * arctan (β * sin φ / (1 - β * cos φ))) (1 / (a - b * cos φ)) φ := by
    intro φ _
    have h1 : HasDerivAt (fun φ => β * sin φ) (β * cos φ) φ := (hasDerivAt_sin φ).const_mul β
    have h2 : HasDerivAt (fun φ => 1 - β * cos φ) (β * sin φ) φ := by
      have := ((hasDerivAt_cos φ).const_mul β).const_sub 1
      convert! this using 1; ring
    have h3 := ((h1.div h2 (hD φ).ne').arctan.const_mul (2 / s)).add ((hasDerivAt_id φ).div_const s)
    refine HasDerivAt.congr_deriv (h3.congr_of_eventuallyEq (Filter.Eventually.of_forall fun x => ?_)) ?_
    · simp only [Pi.add_apply, id_eq, Pi.div_apply]; ring
    · have e1 : 1 + (β * sin φ / (1 - β * cos φ)) ^ 2 = (1 + β ^ 2 - 2 * β * cos φ) / (1 - β * cos φ) ^ 2 := by
        field_simp [(hD φ).ne']
        linear_combination β ^ 2 * sin_sq_add_cos_sq φ
      have e2 : 1 + β ^ 2 - 2 * β * cos φ = 2 * (a - b * cos φ) / (a + s) := by
        field_simp
        linear_combination hq + (2 * cos φ) * hbβ
      have e3 : β * cos φ * (1 - β * cos φ) - β * sin φ * (β * sin φ) = β * cos φ - β ^ 2 := by
        linear_combination (-β ^ 2) * sin_sq_add_cos_sq φ
      have hD' := (hD φ).ne'
      have hE' := (hE φ).ne'
      simp only [Pi.div_apply]
      have e4 : ∀ x y D : ℝ, D ≠ 0 → 1 / (x / D ^ 2) * (y / D ^ 2) = y / x := fun x y D hD => by
        rw [one_div, inv_div, div_mul_div_comm, mul_comm (D ^ 2), mul_div_mul_right _ _ (pow_ne_zero 2 hD)]
      have e5 : β * cos φ - β ^ 2 = (s - (a - b * cos φ)) / (a + s) := by
        rw [eq_div_iff has.ne']
        linear_combination (-1) * hq - cos φ * hbβ
      rw [e1, e3, e4 _ _ _ hD', e2, e5]
      generalize a - b * cos φ = E at hE'
      have hsa := has.ne'
      rw [div_div_div_cancel_right₀ hsa]
      field_simp
      ring
  rw [intervalIntegral.integral_eq_sub_of_hasDerivAt hder]
  · simp
  · refine Continuous.intervalIntegrable ?_ _ _
    exact continuous_const.div (by fun_prop) fun φ => (hE φ).ne'

/-- The product of the responses to both polarisations of a wave, as a function of the cosines of the angles between the
two pulsars and between the source and each of them. -/
noncomputable def kern (c μ ν : ℝ) : ℝ := 1 / 4 * (2 * (c - μ * ν) ^ 2 - (1 - μ ^ 2) * (1 - ν ^ 2)) / ((1 - μ) * (1 - ν))

theorem integral_cos_full : (∫ φ in (0 : ℝ)..(2 * π), cos φ) = 0 := by simp

theorem inner {c s μ σ : ℝ} (hcs : c ^ 2 + s ^ 2 = 1) (hμσ : μ ^ 2 + σ ^ 2 = 1) (hne : μ ≠ c) (hμ : μ < 1) :
    (∫ φ in (0 : ℝ)..(2 * π), kern c μ (s * σ * cos φ + c * μ)) =
      2 * π * (1 / 2 * (|c - μ| + 2 * (c - μ) * μ + μ ^ 2 * (1 - c * μ)) / (1 - μ) - 1 / 4 * (1 + μ) * (1 + c * μ)) := by
  have h1 : 0 < 1 - c * μ := by
    rcases lt_or_eq_of_le (show c * μ ≤ 1 by nlinarith [sq_nonneg s, sq_nonneg σ, sq_nonneg (c - μ)]) with h | h
    · linarith
    · exfalso
      have : (c - μ) ^ 2 ≤ 0 := by nlinarith [sq_nonneg s, sq_nonneg σ]
      exact hne (by nlinarith [sq_nonneg (c - μ), pow_eq_zero_iff (two_ne_zero) |>.1 (le_antisymm this (sq_nonneg _))])
  have hsq : (1 - c * μ) ^ 2 - (s * σ) ^ 2 = (c - μ) ^ 2 := by
    linear_combination (-σ ^ 2) * hcs + (c ^ 2 - 1) * hμσ
  have hlt : |s * σ| < 1 - c * μ := by
    refine abs_lt_of_sq_lt_sq ?_ h1.le
    have : 0 < (c - μ) ^ 2 := by
      have : c - μ ≠ 0 := sub_ne_zero.2 (Ne.symm hne)
      positivity
    linarith
  have hI := integral_inv_cos hlt
  rw [hsq, sqrt_sq_eq_abs] at hI
  have hE : ∀ φ : ℝ, 0 < 1 - c * μ - s * σ * cos φ := fun φ => by
    have h1 : |s * σ * cos φ| ≤ |s * σ| := by
      rw [abs_mul]; exact mul_le_of_le_one_right (abs_nonneg _) (abs_cos_le_one φ)
    have := (le_abs_self (s * σ * cos φ)).trans h1
    linarith
  have hm : (1 - μ) ≠ 0 := by linarith
  have hpt : ∀ φ : ℝ, kern c μ (s * σ * cos φ + c * μ) =
      (1 / 2 * (c - μ) ^ 2 / (1 - μ)) * (1 / (1 - c * μ - s * σ * cos φ)) +
      ((1 / 2 * (2 * (c - μ) * μ + μ ^ 2 * (1 - c * μ)) / (1 - μ) - 1 / 4 * (1 + μ) * (1 + c * μ)) +
        (-(1 / 2 * μ ^ 2 / (1 - μ)) * (s * σ) - 1 / 4 * (1 + μ) * (s * σ)) * cos φ) := by
    intro φ
    have hE' := (hE φ).ne'
    unfold kern
    rw [show 1 - (s * σ * cos φ + c * μ) = 1 - c * μ - s * σ * cos φ by ring]
    field_simp
    ring
  simp only [hpt]
  have i1 : IntervalIntegrable (fun φ : ℝ => (1 / 2 * (c - μ) ^ 2 / (1 - μ)) * (1 / (1 - c * μ - s * σ * cos φ))) volume 0 (2 * π) := by
    refine Continuous.intervalIntegrable ?_ _ _
    exact continuous_const.mul (continuous_const.div (by fun_prop) fun φ => (hE φ).ne')
  rw [intervalIntegral.integral_add i1 (Continuous.intervalIntegrable (by fun_prop) _ _),
    intervalIntegral.integral_add (Continuous.intervalIntegrable (by fun_prop) _ _) (Continuous.intervalIntegrable (by fun_prop) _ _),
    intervalIntegral.integral_const_mul, intervalIntegral.integral_const_mul, hI, integral_cos_full,
    intervalIntegral.integral_const]
  have habs : |c - μ| ≠ 0 := abs_ne_zero.2 (sub_ne_zero.2 (Ne.symm hne))
  rw [← sq_abs (c - μ)]
  simp only [smul_eq_mul]
  field_simp
  ring

/-- The integral over the azimuth, as a function of the cosine of the polar angle. -/
noncomputable def ring1 (c μ : ℝ) : ℝ :=
  1 / 2 * (-c + (1 + c) * μ + c * μ ^ 2) - 1 / 4 * (1 + μ) * (1 + c * μ) + max (c - μ) 0 / (1 - μ)

theorem inner' {c s μ σ : ℝ} (hcs : c ^ 2 + s ^ 2 = 1) (hμσ : μ ^ 2 + σ ^ 2 = 1) (hne : μ ≠ c) (hμ : μ < 1) :
    (∫ φ in (0 : ℝ)..(2 * π), kern c μ (s * σ * cos φ + c * μ)) = 2 * π * ring1 c μ := by
  rw [inner hcs hμσ hne hμ, ring1]
  have hm : (1 - μ) ≠ 0 := by linarith
  congr 1
  rcases le_total c μ with h | h
  · rw [max_eq_right (by linarith), abs_of_nonpos (by linarith)]
    field_simp
    ring
  · rw [max_eq_left (by linarith), abs_of_nonneg (by linarith)]
    field_simp
    ring

theorem integral_poly (c : ℝ) : (∫ θ in (0 : ℝ)..π, (1 / 2 * (-c + (1 + c) * cos θ + c * cos θ ^ 2) -
    1 / 4 * (1 + cos θ) * (1 + c * cos θ)) * sin θ) = -(1 / 2) - 5 / 6 * c := by
  have hder : ∀ θ ∈ uIcc (0 : ℝ) π, HasDerivAt (fun θ => -(1 / 2 * (-c * cos θ + (1 + c) * cos θ ^ 2 / 2 + c * cos θ ^ 3 / 3) -
      1 / 4 * (cos θ + (1 + c) * cos θ ^ 2 / 2 + c * cos θ ^ 3 / 3)))
      ((1 / 2 * (-c + (1 + c) * cos θ + c * cos θ ^ 2) - 1 / 4 * (1 + cos θ) * (1 + c * cos θ)) * sin θ) θ := by
    intro θ _
    have h := hasDerivAt_cos θ
    have h2 := h.pow 2
    have h3 := h.pow 3
    have := ((((h.const_mul (-c)).add ((h2.const_mul (1 + c)).div_const 2)).add ((h3.const_mul c).div_const 3)).const_mul (1 / 2)).sub
      (((h.add ((h2.const_mul (1 + c)).div_const 2)).add ((h3.const_mul c).div_const 3)).const_mul (1 / 4))
    refine HasDerivAt.congr_deriv (this.neg.congr_of_eventuallyEq (Filter.Eventually.of_forall fun x => ?_)) ?_
    · simp
    · simp
      ring
  rw [intervalIntegral.integral_eq_sub_of_hasDerivAt hder (Continuous.intervalIntegrable (by fun_prop) _ _)]
  simp
  ring

theorem integral_log_lt {c : ℝ} (hc : c ∈ Ico (-1 : ℝ) 1) :
    IntervalIntegrable (fun θ => max (c - cos θ) 0 / (1 - cos θ) * sin θ) volume 0 π ∧
    (∫ θ in (0 : ℝ)..π, max (c - cos θ) 0 / (1 - cos θ) * sin θ) = c + 1 + (1 - c) * log ((1 - c) / 2) := by
  have ha0 : 0 ≤ arccos c := arccos_nonneg c
  have ha1 : arccos c ≤ π := arccos_le_pi c
  have hcos : cos (arccos c) = c := cos_arccos hc.1 hc.2.le
  have hle : ∀ θ, θ ∈ Icc 0 (arccos c) → c ≤ cos θ := fun θ h => by
    rw [← hcos]; exact cos_le_cos_of_nonneg_of_le_pi h.1 ha1 h.2
  have hge : ∀ θ, θ ∈ Icc (arccos c) π → cos θ ≤ c := fun θ h => by
    conv_rhs => rw [← hcos]
    exact cos_le_cos_of_nonneg_of_le_pi ha0 h.2 h.1
  have hlt : 0 < 1 - c := by linarith [hc.2]
  have e1 : (∫ θ in (0 : ℝ)..arccos c, max (c - cos θ) 0 / (1 - cos θ) * sin θ) = 0 := by
    rw [intervalIntegral.integral_congr (g := fun _ => (0 : ℝ))]
    · simp
    · intro θ h
      rw [uIcc_of_le ha0] at h
      have := hle θ h
      simp only
      rw [max_eq_right (by linarith), zero_div, zero_mul]
  have hder : ∀ θ ∈ uIcc (arccos c) π, HasDerivAt (fun θ => -(cos θ + (1 - c) * log (1 - cos θ)))
      (max (c - cos θ) 0 / (1 - cos θ) * sin θ) θ := by
    intro θ h
    rw [uIcc_of_le ha1] at h
    have h1 := hge θ h
    have h2 : 1 - cos θ ≠ 0 := by linarith
    have := (((hasDerivAt_cos θ).add ((((hasDerivAt_cos θ).const_sub 1).log h2).const_mul (1 - c)))).neg
    refine HasDerivAt.congr_deriv (this.congr_of_eventuallyEq (Filter.Eventually.of_forall fun x => ?_)) ?_
    · simp
    · rw [max_eq_left (by linarith)]
      field_simp
      ring
  have hcont : ContinuousOn (fun θ => max (c - cos θ) 0 / (1 - cos θ) * sin θ) (uIcc (arccos c) π) := by
    refine ContinuousOn.mul (ContinuousOn.div (by fun_prop) (by fun_prop) fun θ h => ?_) (by fun_prop)
    rw [uIcc_of_le ha1] at h
    have := hge θ h
    linarith
  have hi1 : IntervalIntegrable (fun θ => max (c - cos θ) 0 / (1 - cos θ) * sin θ) volume 0 (arccos c) := by
    refine IntervalIntegrable.congr_ae (f := fun _ => (0 : ℝ)) intervalIntegrable_const ?_
    refine (ae_restrict_iff' measurableSet_uIoc).2 (Filter.Eventually.of_forall fun θ h => ?_)
    rw [uIoc_of_le ha0] at h
    have := hle θ ⟨h.1.le, h.2⟩
    simp only
    rw [max_eq_right (by linarith), zero_div, zero_mul]
  refine ⟨hi1.trans hcont.intervalIntegrable, ?_⟩
  rw [← intervalIntegral.integral_add_adjacent_intervals hi1 hcont.intervalIntegrable, e1, zero_add,
    intervalIntegral.integral_eq_sub_of_hasDerivAt hder hcont.intervalIntegrable, cos_pi, hcos,
    log_div (by linarith) two_ne_zero]
  norm_num
  ring

theorem integral_log {c : ℝ} (hc : c ∈ Icc (-1 : ℝ) 1) :
    IntervalIntegrable (fun θ => max (c - cos θ) 0 / (1 - cos θ) * sin θ) volume 0 π ∧
    (∫ θ in (0 : ℝ)..π, max (c - cos θ) 0 / (1 - cos θ) * sin θ) = c + 1 + (1 - c) * log ((1 - c) / 2) := by
  rcases lt_or_eq_of_le hc.2 with h | h
  · exact integral_log_lt ⟨hc.1, h⟩
  · subst h
    have hae : ∀ θ ∈ uIoc (0 : ℝ) π, sin θ = max (1 - cos θ) 0 / (1 - cos θ) * sin θ := by
      intro θ hθ
      rw [uIoc_of_le pi_pos.le] at hθ
      have h1 : cos θ < 1 := by
        have := cos_lt_cos_of_nonneg_of_le_pi le_rfl hθ.2 hθ.1
        rwa [cos_zero] at this
      rw [max_eq_left (by linarith), div_self (by linarith), one_mul]
    refine ⟨?_, ?_⟩
    · refine IntervalIntegrable.congr_ae (f := fun θ => sin θ) (continuous_sin.intervalIntegrable _ _) ?_
      exact (ae_restrict_iff' measurableSet_uIoc).2 (Filter.Eventually.of_forall hae)
    · rw [← intervalIntegral.integral_congr_ae (f := fun θ => sin θ) (Filter.Eventually.of_forall hae)]
      simp

/-- The integral over the polar angle. -/
theorem outer {c : ℝ} (hc : c ∈ Icc (-1 : ℝ) 1) :
    (∫ θ in (0 : ℝ)..π, ring1 c (cos θ) * sin θ) = 1 / 2 + c / 6 + (1 - c) * log ((1 - c) / 2) := by
  obtain ⟨h1, h2⟩ := integral_log hc
  have : ∀ θ, ring1 c (cos θ) * sin θ = (1 / 2 * (-c + (1 + c) * cos θ + c * cos θ ^ 2) -
      1 / 4 * (1 + cos θ) * (1 + c * cos θ)) * sin θ + max (c - cos θ) 0 / (1 - cos θ) * sin θ := fun θ => by
    rw [ring1, add_mul]
  simp only [this]
  rw [intervalIntegral.integral_add (Continuous.intervalIntegrable (by fun_prop) _ _) h1, integral_poly, h2]
  ring

theorem full {c s : ℝ} (hcs : c ^ 2 + s ^ 2 = 1) :
    (∫ θ in (0 : ℝ)..π, (∫ φ in (0 : ℝ)..(2 * π), kern c (cos θ) (s * sin θ * cos φ + c * cos θ)) * sin θ) =
      2 * π * (1 / 2 + c / 6 + (1 - c) * log ((1 - c) / 2)) := by
  have hc : c ∈ Icc (-1 : ℝ) 1 := ⟨by nlinarith [sq_nonneg s], by nlinarith [sq_nonneg s]⟩
  rw [← outer hc, ← intervalIntegral.integral_const_mul]
  refine intervalIntegral.integral_congr_ae ?_
  have hne : ∀ᵐ θ : ℝ, θ ≠ arccos c := (measure_eq_zero_iff_ae_notMem.1 (measure_singleton (arccos c)))
  refine hne.mono fun θ hθ hm => ?_
  rw [uIoc_of_le pi_pos.le] at hm
  have h1 : cos θ < 1 := by
    have := cos_lt_cos_of_nonneg_of_le_pi le_rfl hm.2 hm.1
    rwa [cos_zero] at this
  rw [inner' hcs (by rw [add_comm]; exact sin_sq_add_cos_sq θ) ?_ h1, mul_assoc]
  intro e
  exact hθ (by rw [← e, arccos_cos hm.1.le hm.2])

end Verif.Sky
