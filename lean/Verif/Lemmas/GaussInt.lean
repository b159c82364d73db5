import Mathlib.Analysis.Matrix.Order
import Mathlib.Analysis.SpecialFunctions.Gaussian.GaussianIntegral
import Mathlib.MeasureTheory.Integral.Pi
import Mathlib.MeasureTheory.Measure.Lebesgue.Basic
import Verif.Lemmas.Gauss

/-!
# Gaussian integrals in any dimension
-/

namespace Verif.GaussInt

open MeasureTheory Matrix

variable {k : ℕ}

theorem quad_factor {B : Matrix (Fin k) (Fin k) ℝ} (x : Fin k → ℝ) :
    x ⬝ᵥ ((Bᵀ * B) *ᵥ x) = (B *ᵥ x) ⬝ᵥ (B *ᵥ x) := by
  rw [← mulVec_mulVec, dotProduct_mulVec, vecMul_transpose]

theorem exists_factor {P : Matrix (Fin k) (Fin k) ℝ} (hP : P.PosDef) :
    ∃ B : Matrix (Fin k) (Fin k) ℝ, P = Bᵀ * B ∧ B.det ≠ 0 ∧ P.det = B.det ^ 2 := by
  open scoped MatrixOrder in
  obtain ⟨B, hB⟩ := CStarAlgebra.nonneg_iff_eq_star_mul_self.mp hP.posSemidef.nonneg
  rw [star_eq_conjTranspose, conjTranspose_eq_transpose_of_trivial] at hB
  have hd : P.det = B.det ^ 2 := by rw [hB, det_mul, det_transpose, sq]
  refine ⟨B, hB, ?_, hd⟩
  intro h
  have := hP.det_pos
  rw [hd, h] at this
  simp at this

theorem std_integral : ∫ y : Fin k → ℝ, Real.exp (-(1 / 2) * (y ⬝ᵥ y)) = Real.sqrt ((2 * Real.pi) ^ k) := by
  have e : ∀ y : Fin k → ℝ, Real.exp (-(1 / 2) * (y ⬝ᵥ y)) = ∏ i, Real.exp (-(1 / 2) * y i ^ 2) := by
    intro y
    rw [← Real.exp_sum, ← Finset.mul_sum]
    congr 2
    simp only [dotProduct, sq]
  simp only [e]
  rw [integral_fintype_prod_volume_eq_prod (fun (_ : Fin k) (t : ℝ) => Real.exp (-(1 / 2) * t ^ 2))]
  simp only [integral_gaussian]
  rw [Finset.prod_const, Finset.card_univ, Fintype.card_fin]
  have h2 : Real.pi / (1 / 2) = 2 * Real.pi := by ring
  rw [h2]
  have hp : (0 : ℝ) ≤ 2 * Real.pi := by have := Real.pi_pos; positivity
  rw [← Real.sqrt_sq (pow_nonneg (Real.sqrt_nonneg (2 * Real.pi)) k), ← pow_mul, mul_comm k 2, pow_mul, Real.sq_sqrt hp]

theorem gauss_integral {P : Matrix (Fin k) (Fin k) ℝ} (hP : P.PosDef) :
    ∫ x : Fin k → ℝ, Real.exp (-(1 / 2) * (x ⬝ᵥ (P *ᵥ x))) = Real.sqrt ((2 * Real.pi) ^ k / P.det) := by
  obtain ⟨B, hB, hd, hdet⟩ := exists_factor hP
  have hmap := Real.map_matrix_volume_pi_eq_smul_volume_pi hd
  have hm : Measurable (toLin' B) := by
    have : Continuous (toLin' B) := LinearMap.continuous_of_finiteDimensional _
    exact this.measurable
  have hc : Continuous fun y : Fin k → ℝ => Real.exp (-(1 / 2) * (y ⬝ᵥ y)) := by fun_prop
  have h1 : ∫ y, Real.exp (-(1 / 2) * (y ⬝ᵥ y)) ∂(Measure.map (toLin' B) volume) =
      ∫ x : Fin k → ℝ, Real.exp (-(1 / 2) * (x ⬝ᵥ (P *ᵥ x))) := by
    rw [integral_map hm.aemeasurable hc.aestronglyMeasurable]
    congr 1
    funext x
    rw [toLin'_apply, hB, quad_factor]
  rw [← h1, hmap, integral_smul_measure, std_integral, hdet, Real.sqrt_div (by have := Real.pi_pos; positivity),
    Real.sqrt_sq_eq_abs, ENNReal.toReal_ofReal (abs_nonneg _), abs_inv, smul_eq_mul]
  ring

/-- Completing the square. -/
theorem shifted_integral {S : Matrix (Fin k) (Fin k) ℝ} (hS : S.PosDef) (u : Fin k → ℝ) :
    ∫ b : Fin k → ℝ, Real.exp (-(1 / 2) * (b ⬝ᵥ (S *ᵥ b)) + u ⬝ᵥ b) =
      Real.sqrt ((2 * Real.pi) ^ k / S.det) * Real.exp (1 / 2 * (u ⬝ᵥ (S⁻¹ *ᵥ u))) := by
  have hu : IsUnit S.det := Noise.det_unit hS
  have hsym : Sᵀ = S := by rw [← conjTranspose_eq_transpose_of_trivial]; exact hS.1
  have hSm : S *ᵥ (S⁻¹ *ᵥ u) = u := by rw [mulVec_mulVec, mul_nonsing_inv _ hu, one_mulVec]
  have e : ∀ b : Fin k → ℝ, Real.exp (-(1 / 2) * (b ⬝ᵥ (S *ᵥ b)) + u ⬝ᵥ b) =
      Real.exp (-(1 / 2) * ((b - S⁻¹ *ᵥ u) ⬝ᵥ (S *ᵥ (b - S⁻¹ *ᵥ u)))) * Real.exp (1 / 2 * (u ⬝ᵥ (S⁻¹ *ᵥ u))) := by
    intro b
    rw [← Real.exp_add]
    congr 1
    rw [mulVec_sub, hSm, sub_dotProduct, dotProduct_sub, dotProduct_sub]
    have h1 : (S⁻¹ *ᵥ u) ⬝ᵥ (S *ᵥ b) = u ⬝ᵥ b := by
      rw [dotProduct_mulVec, ← mulVec_transpose, hsym, hSm]
    rw [h1, dotProduct_comm b u, dotProduct_comm (S⁻¹ *ᵥ u) u]
    ring
  simp only [e]
  rw [integral_mul_const, integral_sub_right_eq_self (fun x => Real.exp (-(1 / 2) * (x ⬝ᵥ (S *ᵥ x)))) (S⁻¹ *ᵥ u),
    gauss_integral hS]

end Verif.GaussInt
