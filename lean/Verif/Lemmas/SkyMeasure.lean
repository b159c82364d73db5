import Mathlib.Analysis.SpecialFunctions.PolarCoord
import Mathlib.MeasureTheory.Measure.Lebesgue.Basic
import Mathlib.MeasureTheory.Constructions.Pi
import Mathlib.MeasureTheory.Integral.IntervalIntegral.FundThmCalculus
import Mathlib.MeasureTheory.Integral.IntervalIntegral.Periodic
import Mathlib.LinearAlgebra.Matrix.DotProduct
import Mathlib.MeasureTheory.Integral.Prod
import Mathlib.Analysis.SpecialFunctions.Integrals.Basic

/-!
# The uniform measure on the sky

Spherical coordinates in three dimensions, and that the measure `sin θ dθ dφ` on the directions is invariant under
rotations.  Mathematics only: nothing here is about the code.
-/

namespace Verif.Sky

open MeasureTheory Real Set
open scoped ENNReal

/-- The direction with polar angle `θ` and azimuth `φ`. -/
noncomputable def dir (θ φ : ℝ) : Fin 3 → ℝ := ![sin θ * cos φ, sin θ * sin φ, cos θ]

theorem measurable_vec {α : Type} [MeasurableSpace α] {a b c : α → ℝ} (ha : Measurable a) (hb : Measurable b) (hc : Measurable c) :
    Measurable fun x => (![a x, b x, c x] : Fin 3 → ℝ) := by
  refine measurable_pi_lambda _ fun i => ?_
  match i with
  | 0 => exact ha
  | 1 => exact hb
  | 2 => exact hc

theorem measurable_dir : Measurable fun p : ℝ × ℝ => dir p.1 p.2 := by
  unfold dir
  exact measurable_vec (by fun_prop) (by fun_prop) (by fun_prop)

theorem lintegral_three (f : (Fin 3 → ℝ) → ℝ≥0∞) (hf : Measurable f) :
    ∫⁻ x, f x = ∫⁻ z : ℝ, ∫⁻ p : ℝ × ℝ, f ![p.1, p.2, z] := by
  have h1 := (volume_preserving_piFinSuccAbove (fun _ : Fin 3 => ℝ) 2).symm.lintegral_comp hf
  rw [← h1, Measure.volume_eq_prod, lintegral_prod]
  · refine lintegral_congr fun z => ?_
    have hm : Measurable fun y : Fin 2 → ℝ => f ((MeasurableEquiv.piFinSuccAbove (fun _ : Fin 3 => ℝ) 2).symm (z, y)) :=
      hf.comp ((MeasurableEquiv.measurable _).comp measurable_prodMk_left)
    rw [← (volume_preserving_finTwoArrow ℝ).symm.lintegral_comp hm]
    refine lintegral_congr fun p => ?_
    congr 1
    funext i
    match i with
    | 0 => rfl
    | 1 => rfl
    | 2 => rfl
  · exact (hf.comp (MeasurableEquiv.measurable _)).aemeasurable

theorem lintegral_polar (f : ℝ × ℝ → ℝ≥0∞) (hf : Measurable f) :
    ∫⁻ p, f p = ∫⁻ r in Ioi (0 : ℝ), ∫⁻ φ in Ioo (-π) π, ENNReal.ofReal r * f (r * cos φ, r * sin φ) := by
  rw [← lintegral_comp_polarCoord_symm, polarCoord_target, Measure.volume_eq_prod, ← Measure.prod_restrict, lintegral_prod]
  · rfl
  · refine Measurable.aemeasurable ?_
    have h : Measurable fun p : ℝ × ℝ => (p.1 * cos p.2, p.1 * sin p.2) := by fun_prop
    exact Measurable.mul (f := fun p : ℝ × ℝ => ENNReal.ofReal p.1) (by fun_prop) (hf.comp h)

/-- Spherical coordinates. -/
theorem lintegral_spherical (f : (Fin 3 → ℝ) → ℝ≥0∞) (hf : Measurable f) :
    ∫⁻ x, f x = ∫⁻ r in Ioi (0 : ℝ), ∫⁻ θ in Ioo (0 : ℝ) π, ∫⁻ φ in Ioo (-π) π,
      ENNReal.ofReal (r ^ 2 * sin θ) * f (r • dir θ φ) := by
  have hin : ∀ z : ℝ, Measurable fun p : ℝ × ℝ => f ![p.1, p.2, z] := fun z =>
    hf.comp (measurable_vec measurable_fst measurable_snd measurable_const)
  have hg : Measurable fun q : ℝ × ℝ => ∫⁻ φ in Ioo (-π) π, ENNReal.ofReal q.2 * f ![q.2 * cos φ, q.2 * sin φ, q.1] := by
    refine Measurable.lintegral_prod_right' (f := fun x : (ℝ × ℝ) × ℝ =>
      ENNReal.ofReal x.1.2 * f ![x.1.2 * cos x.2, x.1.2 * sin x.2, x.1.1]) ?_
    refine Measurable.mul (by fun_prop) (hf.comp (measurable_vec (by fun_prop) (by fun_prop) (by fun_prop)))
  set g : ℝ × ℝ → ℝ≥0∞ := fun q => ∫⁻ φ in Ioo (-π) π, ENNReal.ofReal q.2 * f ![q.2 * cos φ, q.2 * sin φ, q.1] with hgd
  have hS : MeasurableSet {q : ℝ × ℝ | 0 < q.2} := measurableSet_lt measurable_const measurable_snd
  have e1 : ∫⁻ x, f x = ∫⁻ q : ℝ × ℝ, ({q : ℝ × ℝ | 0 < q.2}).indicator g q := by
    rw [lintegral_three f hf, Measure.volume_eq_prod, lintegral_prod _ (hg.indicator hS).aemeasurable]
    refine lintegral_congr fun z => ?_
    rw [← Measure.volume_eq_prod, lintegral_polar _ (hin z), ← lintegral_indicator measurableSet_Ioi]
    rfl
  rw [e1, lintegral_polar _ (hg.indicator hS)]
  refine setLIntegral_congr_fun measurableSet_Ioi fun r hr => ?_
  have hr' : (0 : ℝ) < r := hr
  rw [← lintegral_indicator measurableSet_Ioo, ← lintegral_indicator measurableSet_Ioo]
  refine lintegral_congr fun θ => ?_
  by_cases h : θ ∈ Ioo (0 : ℝ) π
  · have hs := sin_pos_of_pos_of_lt_pi h.1 h.2
    rw [indicator_of_mem h, indicator_of_mem (show θ ∈ Ioo (-π) π from ⟨by linarith [h.1, pi_pos], h.2⟩),
      indicator_of_mem (show (r * cos θ, r * sin θ) ∈ {q : ℝ × ℝ | 0 < q.2} from mul_pos hr' hs), hgd]
    simp only
    rw [← lintegral_const_mul']
    · refine lintegral_congr fun φ => ?_
      rw [← mul_assoc, ← ENNReal.ofReal_mul hr'.le]
      congr 2
      · ring
      · funext i
        match i with
        | 0 => simp [dir]; ring
        | 1 => simp [dir]; ring
        | 2 => simp [dir]
    · exact ENNReal.ofReal_ne_top
  · rw [indicator_of_notMem h]
    by_cases h2 : θ ∈ Ioo (-π) π
    · rw [indicator_of_mem h2, indicator_of_notMem, mul_zero]
      intro h3
      have h3' : 0 < r * sin θ := h3
      have hs : 0 < sin θ := (mul_pos_iff_of_pos_left hr').1 h3'
      refine h ⟨?_, h2.2⟩
      by_contra h4
      exact absurd (sin_nonpos_of_nonpos_of_neg_pi_le (not_lt.1 h4) h2.1.le) (not_le.2 hs)
    · rw [indicator_of_notMem h2]

/-- The measure `sin θ dθ dφ` on the directions. -/
noncomputable def sky : Measure (Fin 3 → ℝ) :=
  (((volume.restrict (Ioo (0 : ℝ) π)).prod (volume.restrict (Ioo (-π) π))).withDensity
    fun p => ENNReal.ofReal (sin p.1)).map fun p => dir p.1 p.2

theorem lintegral_sky (f : (Fin 3 → ℝ) → ℝ≥0∞) (hf : Measurable f) :
    ∫⁻ w, f w ∂sky = ∫⁻ θ in Ioo (0 : ℝ) π, ∫⁻ φ in Ioo (-π) π, ENNReal.ofReal (sin θ) * f (dir θ φ) := by
  have h1 : Measurable fun p : ℝ × ℝ => ENNReal.ofReal (sin p.1) := by fun_prop
  have h2 : Measurable fun p : ℝ × ℝ => f (dir p.1 p.2) := hf.comp measurable_dir
  rw [sky, lintegral_map hf measurable_dir, lintegral_withDensity_eq_lintegral_mul _ h1 h2, lintegral_prod]
  · rfl
  · exact (h1.mul h2).aemeasurable

theorem dir_dot (θ φ : ℝ) : ∑ c, dir θ φ c * dir θ φ c = 1 := by
  simp only [dir, Fin.sum_univ_three, Matrix.cons_val_zero, Matrix.cons_val_one, Matrix.cons_val]
  linear_combination (sin θ ^ 2) * sin_sq_add_cos_sq φ + sin_sq_add_cos_sq θ

/-- The length of a vector. -/
noncomputable def len (x : Fin 3 → ℝ) : ℝ := √(∑ c, x c * x c)

theorem measurable_len : Measurable len := by
  unfold len
  exact (Finset.measurable_sum _ fun c _ => (measurable_pi_apply c).mul (measurable_pi_apply c)).sqrt

theorem len_smul_dir {r : ℝ} (hr : 0 < r) (θ φ : ℝ) : len (r • dir θ φ) = r := by
  have : ∑ c, (r • dir θ φ) c * (r • dir θ φ) c = r ^ 2 := by
    have h := dir_dot θ φ
    calc _ = r ^ 2 * ∑ c, dir θ φ c * dir θ φ c := by
            rw [Finset.mul_sum]; exact Finset.sum_congr rfl fun c _ => by simp only [Pi.smul_apply, smul_eq_mul]; ring
      _ = _ := by rw [h, mul_one]
  rw [len, this, sqrt_sq hr.le]

instance : IsFiniteMeasure sky := by
  refine ⟨?_⟩
  have h : sky univ = ∫⁻ w, 1 ∂sky := by rw [lintegral_one]
  rw [h, lintegral_sky _ measurable_const]
  calc ∫⁻ θ in Ioo (0 : ℝ) π, ∫⁻ φ in Ioo (-π) π, ENNReal.ofReal (sin θ) * 1
      ≤ ∫⁻ θ in Ioo (0 : ℝ) π, ∫⁻ φ in Ioo (-π) π, 1 := by
        refine lintegral_mono fun θ => lintegral_mono fun φ => ?_
        rw [mul_one]
        exact ENNReal.ofReal_le_one.2 (sin_le_one θ)
    _ < ⊤ := by
        simp only [lintegral_const, one_mul, Measure.restrict_apply MeasurableSet.univ, univ_inter, Real.volume_Ioo]
        exact ENNReal.mul_lt_top ENNReal.ofReal_lt_top ENNReal.ofReal_lt_top

/-- The solid cone over a set of directions, cut at length 1. -/
theorem sky_cone (s : Set (Fin 3 → ℝ)) (hs : MeasurableSet s) :
    volume {x : Fin 3 → ℝ | len x ≤ 1 ∧ (len x)⁻¹ • x ∈ s} = (∫⁻ r in Ioc (0 : ℝ) 1, ENNReal.ofReal (r ^ 2)) * sky s := by
  have hn : Measurable fun x : Fin 3 → ℝ => (len x)⁻¹ • x := measurable_len.inv.smul measurable_id
  have hm : MeasurableSet {x : Fin 3 → ℝ | len x ≤ 1 ∧ (len x)⁻¹ • x ∈ s} :=
    (measurableSet_le measurable_len measurable_const).inter (hn hs)
  rw [← lintegral_indicator_one hm, lintegral_spherical _ (measurable_one.indicator hm), ← lintegral_indicator_one hs,
    lintegral_sky _ (measurable_one.indicator hs)]
  rw [← lintegral_mul_const' _ _ ?_]
  · rw [← lintegral_indicator measurableSet_Ioi, ← lintegral_indicator measurableSet_Ioc]
    refine lintegral_congr fun r => ?_
    by_cases h0 : 0 < r
    · rw [indicator_of_mem (show r ∈ Ioi (0 : ℝ) from h0)]
      have hmem : ∀ θ φ : ℝ, r • dir θ φ ∈ {x : Fin 3 → ℝ | len x ≤ 1 ∧ (len x)⁻¹ • x ∈ s} ↔ r ≤ 1 ∧ dir θ φ ∈ s := by
        intro θ φ
        rw [Set.mem_ofPred_eq, len_smul_dir h0, smul_smul, inv_mul_cancel₀ h0.ne', one_smul]
      by_cases h1 : r ≤ 1
      · rw [indicator_of_mem (show r ∈ Ioc (0 : ℝ) 1 from ⟨h0, h1⟩), ← lintegral_const_mul' _ _ ENNReal.ofReal_ne_top]
        refine lintegral_congr fun θ => ?_
        rw [← lintegral_const_mul' _ _ ENNReal.ofReal_ne_top]
        refine lintegral_congr fun φ => ?_
        rw [ENNReal.ofReal_mul (by positivity), mul_assoc]
        congr 2
        by_cases hd : dir θ φ ∈ s
        · rw [indicator_of_mem hd, indicator_of_mem ((hmem θ φ).2 ⟨h1, hd⟩)]; rfl
        · rw [indicator_of_notMem hd, indicator_of_notMem fun h => hd ((hmem θ φ).1 h).2]
      · rw [indicator_of_notMem (show r ∉ Ioc (0 : ℝ) 1 from fun h => h1 h.2)]
        have hz : ∀ θ φ : ℝ, ENNReal.ofReal (r ^ 2 * sin θ) *
            ({x : Fin 3 → ℝ | len x ≤ 1 ∧ (len x)⁻¹ • x ∈ s}.indicator 1 (r • dir θ φ) : ℝ≥0∞) = 0 := fun θ φ => by
          rw [indicator_of_notMem fun h => h1 ((hmem θ φ).1 h).1, mul_zero]
        simp only [hz, lintegral_zero]
    · rw [indicator_of_notMem (show r ∉ Ioi (0 : ℝ) from h0), indicator_of_notMem (show r ∉ Ioc (0 : ℝ) 1 from fun h => h0 h.1)]
  · rw [← lintegral_sky _ (measurable_one.indicator hs), lintegral_indicator_one hs]
    exact measure_ne_top _ _

theorem radial : (∫⁻ r in Ioc (0 : ℝ) 1, ENNReal.ofReal (r ^ 2)) = ENNReal.ofReal (1 / 3) := by
  rw [← ofReal_integral_eq_lintegral_ofReal]
  · rw [← intervalIntegral.integral_of_le zero_le_one, integral_pow]
    norm_num
  · exact (continuous_pow 2).integrableOn_Ioc
  · exact Filter.Eventually.of_forall fun r => by positivity

theorem sky_eq (s : Set (Fin 3 → ℝ)) (hs : MeasurableSet s) :
    sky s = 3 * volume {x : Fin 3 → ℝ | len x ≤ 1 ∧ (len x)⁻¹ • x ∈ s} := by
  rw [sky_cone s hs, radial, ← mul_assoc]
  have : (3 : ℝ≥0∞) * ENNReal.ofReal (1 / 3) = 1 := by
    rw [show (3 : ℝ≥0∞) = ENNReal.ofReal 3 by norm_num, ← ENNReal.ofReal_mul (by norm_num)]
    norm_num
  rw [this, one_mul]

open Matrix in
theorem dot_orthogonal {M : Matrix (Fin 3) (Fin 3) ℝ} (hM : Mᵀ * M = 1) (x y : Fin 3 → ℝ) :
    ∑ c, (M *ᵥ x) c * (M *ᵥ y) c = ∑ c, x c * y c := by
  show (M *ᵥ x) ⬝ᵥ (M *ᵥ y) = x ⬝ᵥ y
  rw [Matrix.dotProduct_mulVec, Matrix.vecMul_mulVec, hM, Matrix.vecMul_one]

open Matrix in
/-- The measure is the same after a rotation. -/
theorem sky_rotate {M : Matrix (Fin 3) (Fin 3) ℝ} (hM : Mᵀ * M = 1) : sky.map (fun w => M *ᵥ w) = sky := by
  have hmeas : Measurable fun w : Fin 3 → ℝ => M *ᵥ w := (Matrix.toLin' M).continuous_of_finiteDimensional.measurable
  have hdet : |M.det| = 1 := by
    have h := congrArg Matrix.det hM
    rw [Matrix.det_mul, Matrix.det_transpose, Matrix.det_one] at h
    have h2 : M.det ^ 2 = 1 := by rw [sq]; exact h
    exact (pow_eq_one_iff_of_nonneg (abs_nonneg _) two_ne_zero).1 (by rw [sq_abs]; exact h2)
  have hlen : ∀ x, len (M *ᵥ x) = len x := fun x => by unfold len; rw [dot_orthogonal hM]
  have hvol : (volume : Measure (Fin 3 → ℝ)).map (fun w => M *ᵥ w) = volume := by
    have := Real.map_matrix_volume_pi_eq_smul_volume_pi (M := M) (by intro h; rw [h] at hdet; simp at hdet)
    rw [abs_inv, hdet] at this
    rw [show (fun w => M *ᵥ w) = ⇑(Matrix.toLin' M) from funext fun w => (Matrix.toLin'_apply M w).symm]
    simpa using this
  ext s hs
  rw [Measure.map_apply hmeas hs, sky_eq _ (hmeas hs), sky_eq _ hs]
  congr 1
  have hn : Measurable fun x : Fin 3 → ℝ => (len x)⁻¹ • x := measurable_len.inv.smul measurable_id
  have hm : MeasurableSet {x : Fin 3 → ℝ | len x ≤ 1 ∧ (len x)⁻¹ • x ∈ s} :=
    (measurableSet_le measurable_len measurable_const).inter (hn hs)
  conv_rhs => rw [← hvol, Measure.map_apply hmeas hm]
  congr 1
  ext x
  simp only [Set.mem_ofPred_eq, Set.mem_preimage, hlen, Matrix.mulVec_smul]

theorem dir_periodic (θ : ℝ) : Function.Periodic (dir θ) (2 * π) := fun φ => by
  simp only [dir, cos_add_two_pi, sin_add_two_pi]

/-- Integrals over the sky are iterated integrals. -/
theorem integral_sky (G : (Fin 3 → ℝ) → ℝ) (hG : Measurable G) {B : ℝ} (hB : ∀ θ φ, |G (dir θ φ)| ≤ B) :
    ∫ w, G w ∂sky = ∫ θ in (0 : ℝ)..π, (∫ φ in (0 : ℝ)..(2 * π), G (dir θ φ)) * sin θ := by
  have h1 : Measurable fun p : ℝ × ℝ => ENNReal.ofReal (sin p.1) := by fun_prop
  have h2 : Measurable fun p : ℝ × ℝ => G (dir p.1 p.2) := hG.comp measurable_dir
  rw [sky, integral_map measurable_dir.aemeasurable hG.aestronglyMeasurable,
    integral_withDensity_eq_integral_toReal_smul h1 (Filter.Eventually.of_forall fun p => ENNReal.ofReal_lt_top)]
  rw [integral_prod]
  · rw [intervalIntegral.integral_of_le pi_pos.le, ← integral_Ioc_eq_integral_Ioo]
    refine setIntegral_congr_fun measurableSet_Ioc fun θ hθ => ?_
    have hs : 0 ≤ sin θ := sin_nonneg_of_nonneg_of_le_pi hθ.1.le hθ.2
    simp only [ENNReal.toReal_ofReal hs, smul_eq_mul]
    rw [integral_const_mul, mul_comm]
    congr 1
    have hp : Function.Periodic (fun φ => G (dir θ φ)) (2 * π) := fun φ => by simp only [dir_periodic θ φ]
    have := hp.intervalIntegral_add_eq (-π) 0
    rw [zero_add, show -π + 2 * π = π by ring, intervalIntegral.integral_of_le (by linarith [pi_pos])] at this
    rw [← this, integral_Ioc_eq_integral_Ioo]
  · refine Integrable.of_bound (C := B) ?_ (Filter.Eventually.of_forall fun p => ?_)
    · exact (Measurable.smul h1.ennreal_toReal h2).aestronglyMeasurable
    · rw [norm_smul, Real.norm_eq_abs, Real.norm_eq_abs, abs_of_nonneg ENNReal.toReal_nonneg]
      have hB0 : 0 ≤ B := (abs_nonneg _).trans (hB 0 0)
      have h3 : (ENNReal.ofReal (sin p.1)).toReal ≤ 1 := by
        rw [ENNReal.toReal_ofReal']
        exact max_le (sin_le_one _) zero_le_one
      calc _ ≤ 1 * B := mul_le_mul h3 (hB _ _) (abs_nonneg _) zero_le_one
        _ = B := one_mul B

open Matrix in
/-- The average over the sky is the same after a rotation. -/
theorem integral_rotate {M : Matrix (Fin 3) (Fin 3) ℝ} (hM : Mᵀ * M = 1) (G : (Fin 3 → ℝ) → ℝ) (hG : Measurable G) :
    ∫ w, G (M *ᵥ w) ∂sky = ∫ w, G w ∂sky := by
  have hmeas : Measurable fun w : Fin 3 → ℝ => M *ᵥ w := (Matrix.toLin' M).continuous_of_finiteDimensional.measurable
  conv_rhs => rw [← sky_rotate hM, integral_map hmeas.aemeasurable hG.aestronglyMeasurable]

/-- There are coordinates in which one unit vector is the pole and the other has azimuth 0. -/
theorem exists_frame (p q : Fin 3 → ℝ) (hp : ∑ c, p c * p c = 1) (hq : ∑ c, q c * q c = 1) :
    ∃ M : Matrix (Fin 3) (Fin 3) ℝ, M.transpose * M = 1 ∧ M.mulVec p = ![0, 0, 1] ∧
      M.mulVec q = ![√(1 - (∑ c, p c * q c) ^ 2), 0, ∑ c, p c * q c] := by
  simp only [Fin.sum_univ_three] at hp hq ⊢
  obtain ⟨m, hm1, hm2, hm3⟩ : ∃ m : Fin 3 → ℝ, m 0 * m 0 + m 1 * m 1 + m 2 * m 2 = 1 ∧
      m 0 * p 0 + m 1 * p 1 + m 2 * p 2 = 0 ∧
      ∀ i, q i = (p 0 * q 0 + p 1 * q 1 + p 2 * q 2) * p i + √(1 - (p 0 * q 0 + p 1 * q 1 + p 2 * q 2) ^ 2) * m i := by
    set c := p 0 * q 0 + p 1 * q 1 + p 2 * q 2 with hc
    have key : (q 0 - c * p 0) ^ 2 + (q 1 - c * p 1) ^ 2 + (q 2 - c * p 2) ^ 2 = 1 - c ^ 2 := by
      linear_combination hq + c ^ 2 * hp + (2 * c) * hc
    have hnn : 0 ≤ 1 - c ^ 2 := by rw [← key]; positivity
    by_cases h : 1 - c ^ 2 = 0
    · have hz : ∀ i, q i - c * p i = 0 := by
        rw [h] at key
        intro i
        match i with
        | 0 => nlinarith [sq_nonneg (q 0 - c * p 0), sq_nonneg (q 1 - c * p 1), sq_nonneg (q 2 - c * p 2)]
        | 1 => nlinarith [sq_nonneg (q 0 - c * p 0), sq_nonneg (q 1 - c * p 1), sq_nonneg (q 2 - c * p 2)]
        | 2 => nlinarith [sq_nonneg (q 0 - c * p 0), sq_nonneg (q 1 - c * p 1), sq_nonneg (q 2 - c * p 2)]
      by_cases h0 : p 0 ^ 2 + p 1 ^ 2 = 0
      · have h00 : p 0 = 0 := by nlinarith [sq_nonneg (p 0), sq_nonneg (p 1)]
        refine ⟨![1, 0, 0], by simp, by simp [h00], fun i => ?_⟩
        rw [h, sqrt_zero, zero_mul, add_zero]
        linarith [hz i]
      · have hpos : 0 < p 0 ^ 2 + p 1 ^ 2 := lt_of_le_of_ne (by positivity) (Ne.symm h0)
        have hsq : √(p 0 ^ 2 + p 1 ^ 2) ^ 2 = p 0 ^ 2 + p 1 ^ 2 := sq_sqrt hpos.le
        have hne : √(p 0 ^ 2 + p 1 ^ 2) ≠ 0 := (sqrt_pos.2 hpos).ne'
        refine ⟨![-p 1 / √(p 0 ^ 2 + p 1 ^ 2), p 0 / √(p 0 ^ 2 + p 1 ^ 2), 0], ?_, ?_, fun i => ?_⟩
        · simp only [Matrix.cons_val_zero, Matrix.cons_val_one, Matrix.cons_val]
          field_simp
          linear_combination -hsq
        · simp only [Matrix.cons_val_zero, Matrix.cons_val_one, Matrix.cons_val]
          ring
        · rw [h, sqrt_zero, zero_mul, add_zero]
          linarith [hz i]
    · have hpos : 0 < 1 - c ^ 2 := lt_of_le_of_ne hnn (Ne.symm h)
      have hsq : √(1 - c ^ 2) ^ 2 = 1 - c ^ 2 := sq_sqrt hpos.le
      have hne : √(1 - c ^ 2) ≠ 0 := (sqrt_pos.2 hpos).ne'
      refine ⟨fun i => (q i - c * p i) / √(1 - c ^ 2), ?_, ?_, fun i => ?_⟩
      · field_simp
        linear_combination key - hsq
      · field_simp
        linear_combination -c * hp - hc
      · field_simp
        ring
  set c := p 0 * q 0 + p 1 * q 1 + p 2 * q 2 with hc
  set s := √(1 - c ^ 2)
  refine ⟨Matrix.of ![![m 0, m 1, m 2], ![p 1 * m 2 - p 2 * m 1, p 2 * m 0 - p 0 * m 2, p 0 * m 1 - p 1 * m 0],
    ![p 0, p 1, p 2]], ?_, ?_, ?_⟩
  · refine mul_eq_one_comm.1 ?_
    ext i j
    rw [Matrix.mul_apply, Fin.sum_univ_three]
    match i, j with
    | 0, 0 => simp; linear_combination hm1
    | 0, 1 => simp; ring
    | 0, 2 => simp; linear_combination hm2
    | 1, 0 => simp; ring
    | 1, 1 => simp; linear_combination (m 0 * m 0 + m 1 * m 1 + m 2 * m 2) * hp + hm1 - (m 0 * p 0 + m 1 * p 1 + m 2 * p 2) * hm2
    | 1, 2 => simp; ring
    | 2, 0 => simp; linear_combination hm2
    | 2, 1 => simp; ring
    | 2, 2 => simp; linear_combination hp
  · funext i
    match i with
    | 0 => simp [Matrix.mulVec, dotProduct, Fin.sum_univ_three]; linear_combination hm2
    | 1 => simp [Matrix.mulVec, dotProduct, Fin.sum_univ_three]; ring
    | 2 => simp [Matrix.mulVec, dotProduct, Fin.sum_univ_three]; linear_combination hp
  · funext i
    match i with
    | 0 =>
      simp only [Matrix.mulVec, dotProduct, Fin.sum_univ_three, Matrix.of_apply, Matrix.cons_val_zero, Matrix.cons_val_one, Matrix.cons_val]
      rw [hm3 0, hm3 1, hm3 2]; linear_combination c * hm2 + s * hm1
    | 1 =>
      simp only [Matrix.mulVec, dotProduct, Fin.sum_univ_three, Matrix.of_apply, Matrix.cons_val_zero, Matrix.cons_val_one, Matrix.cons_val]
      rw [hm3 0, hm3 1, hm3 2]; ring
    | 2 =>
      simp only [Matrix.mulVec, dotProduct, Fin.sum_univ_three, Matrix.of_apply, Matrix.cons_val_zero, Matrix.cons_val_one, Matrix.cons_val]
      rw [hm3 0, hm3 1, hm3 2]; linear_combination c * hp + s * hm2

end Verif.Sky
