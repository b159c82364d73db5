import Verif.Lemmas.CholForm
import Mathlib.Analysis.Matrix.Order

/-!
# Matrices close to each other

The determinants and the inverses of two positive definite matrices with close quadratic forms.
-/

namespace Verif.CholReal

open Matrix

variable {m : Nat} {X Z : Matrix (Fin m) (Fin m) ℝ} {δ : ℝ}

theorem gen_move {k : Nat} (M : Matrix (Fin m) (Fin k) ℝ) (u : Fin m → ℝ) (v : Fin k → ℝ) : u ⬝ᵥ (M *ᵥ v) = (Mᵀ *ᵥ u) ⬝ᵥ v := by
  rw [dotProduct_mulVec, ← mulVec_transpose]

open scoped MatrixOrder in
theorem root_exists (hZ : Z.PosDef) : ∃ L : Matrix (Fin m) (Fin m) ℝ, Z = L * Lᵀ ∧ IsUnit L.det := by
  obtain ⟨B, hB⟩ := CStarAlgebra.nonneg_iff_eq_star_mul_self.mp hZ.posSemidef.nonneg
  have e : Z = Bᵀ * Bᵀᵀ := by rw [transpose_transpose, hB, Matrix.star_eq_conjTranspose, conjTranspose_eq_transpose_of_trivial]
  refine ⟨Bᵀ, e, isUnit_iff_ne_zero.2 fun h0 => ?_⟩
  have := hZ.det_pos
  rw [e, det_mul, h0, zero_mul] at this
  exact lt_irrefl _ this

theorem log_det_up (hX : X.PosDef) (hZ : Z.PosDef) (h : ∀ z, z ⬝ᵥ (X *ᵥ z) ≤ (1 + δ) * (z ⬝ᵥ (Z *ᵥ z))) : Real.log X.det ≤ Real.log Z.det + m * δ := by
  obtain ⟨L, rfl, hu⟩ := root_exists hZ
  refine det_up_unit hu hX fun z => ?_
  rw [← gram_form]
  exact h z

theorem form_pos (hZ : Z.PosDef) (z : Fin m → ℝ) : 0 ≤ z ⬝ᵥ (Z *ᵥ z) := by
  have := hZ.posSemidef.dotProduct_mulVec_nonneg z
  simpa using this

theorem log_det_near (hX : X.PosDef) (hZ : Z.PosDef) (h0 : 0 ≤ δ) (h1 : δ ≤ 1 / 2) (h : ∀ z, |z ⬝ᵥ (X *ᵥ z) - z ⬝ᵥ (Z *ᵥ z)| ≤ δ * (z ⬝ᵥ (Z *ᵥ z))) :
    |Real.log X.det - Real.log Z.det| ≤ 2 * m * δ := by
  have u1 := log_det_up hX hZ (δ := δ) fun z => by linarith [(abs_le.1 (h z)).2]
  have u2 := log_det_up hZ hX (δ := 2 * δ) fun z => by
    have h2 := (abs_le.1 (h z)).1
    have h3 := form_pos hZ z
    have h4 : (1 - δ) * (z ⬝ᵥ (Z *ᵥ z)) ≤ z ⬝ᵥ (X *ᵥ z) := by linarith
    have h5 := mul_le_mul_of_nonneg_left h4 (by linarith : 0 ≤ 1 + 2 * δ)
    have h6 : 0 ≤ δ * (1 - 2 * δ) * (z ⬝ᵥ (Z *ᵥ z)) := mul_nonneg (mul_nonneg h0 (by linarith)) h3
    linarith
  have h2 : 0 ≤ (m : ℝ) * δ := by positivity
  rw [abs_le]
  constructor <;> linarith

theorem solve_form (hZ : Z.PosDef) (b : Fin m → ℝ) : Z *ᵥ (Z⁻¹ *ᵥ b) = b := by
  rw [mulVec_mulVec, mul_nonsing_inv _ (isUnit_iff_ne_zero.2 hZ.det_pos.ne'), one_mulVec]

theorem symm_form (hZ : Z.PosDef) (u v : Fin m → ℝ) : u ⬝ᵥ (Z *ᵥ v) = v ⬝ᵥ (Z *ᵥ u) := by
  have e : Zᵀ = Z := by
    have := hZ.isHermitian
    rwa [IsHermitian, conjTranspose_eq_transpose_of_trivial] at this
  rw [dot_move, e, dotProduct_comm]

/-- The quadratic form of the inverse is a maximum. -/
theorem dual_le (hZ : Z.PosDef) (b u : Fin m → ℝ) : 2 * (b ⬝ᵥ u) - u ⬝ᵥ (Z *ᵥ u) ≤ b ⬝ᵥ (Z⁻¹ *ᵥ b) := by
  have h := form_pos hZ (u - Z⁻¹ *ᵥ b)
  have e1 := solve_form hZ b
  have e2 := symm_form hZ u (Z⁻¹ *ᵥ b)
  rw [e1] at e2
  rw [mulVec_sub, e1, dotProduct_sub, sub_dotProduct, sub_dotProduct, ← e2, dotProduct_comm u b, dotProduct_comm (Z⁻¹ *ᵥ b) b] at h
  linarith

theorem dual_eq (hZ : Z.PosDef) (b : Fin m → ℝ) : b ⬝ᵥ (Z⁻¹ *ᵥ b) = 2 * (b ⬝ᵥ (Z⁻¹ *ᵥ b)) - (Z⁻¹ *ᵥ b) ⬝ᵥ (Z *ᵥ (Z⁻¹ *ᵥ b)) := by
  rw [solve_form hZ, dotProduct_comm (Z⁻¹ *ᵥ b) b]
  ring

theorem inv_nonneg (hZ : Z.PosDef) (b : Fin m → ℝ) : 0 ≤ b ⬝ᵥ (Z⁻¹ *ᵥ b) := form_pos hZ.inv b

theorem inv_mono (hX : X.PosDef) (hZ : Z.PosDef) {c : ℝ} (hc : 0 < c) (h : ∀ z, c * (z ⬝ᵥ (Z *ᵥ z)) ≤ z ⬝ᵥ (X *ᵥ z)) (b : Fin m → ℝ) :
    c * (b ⬝ᵥ (X⁻¹ *ᵥ b)) ≤ b ⬝ᵥ (Z⁻¹ *ᵥ b) := by
  obtain ⟨u, hu⟩ : ∃ u, u = X⁻¹ *ᵥ b := ⟨_, rfl⟩
  have h1 := dual_le hZ b (c • u)
  have h2 := h u
  have h3 : u ⬝ᵥ (X *ᵥ u) = b ⬝ᵥ u := by rw [hu, solve_form hX, dotProduct_comm]
  rw [mulVec_smul, dotProduct_smul, smul_dotProduct, dotProduct_smul, smul_eq_mul, smul_eq_mul, smul_eq_mul] at h1
  rw [h3] at h2
  have h4 := mul_le_mul_of_nonneg_left h2 hc.le
  rw [← hu]
  linarith

theorem inv_near (hX : X.PosDef) (hZ : Z.PosDef) (h0 : 0 ≤ δ) (h1 : δ ≤ 1 / 2) (h : ∀ z, |z ⬝ᵥ (X *ᵥ z) - z ⬝ᵥ (Z *ᵥ z)| ≤ δ * (z ⬝ᵥ (Z *ᵥ z))) (b : Fin m → ℝ) :
    |b ⬝ᵥ (X⁻¹ *ᵥ b) - b ⬝ᵥ (Z⁻¹ *ᵥ b)| ≤ 2 * δ * (b ⬝ᵥ (Z⁻¹ *ᵥ b)) := by
  have u1 := inv_mono hX hZ (c := 1 - δ) (by linarith) (fun z => by linarith [(abs_le.1 (h z)).1]) b
  have u2 := inv_mono hZ hX (c := 1 - δ) (by linarith) (fun z => by
    have h2 := (abs_le.1 (h z)).2
    have h3 := form_pos hZ z
    have h4 := mul_le_mul_of_nonneg_left h2 (by linarith : 0 ≤ 1 - δ)
    have h5 : 0 ≤ δ * δ * (z ⬝ᵥ (Z *ᵥ z)) := mul_nonneg (mul_nonneg h0 h0) h3
    linarith) b
  have g1 := inv_nonneg hX b
  have g2 := inv_nonneg hZ b
  have g3 : 0 ≤ δ * (b ⬝ᵥ (Z⁻¹ *ᵥ b)) := mul_nonneg h0 g2
  have g4 := mul_le_mul_of_nonneg_left u1 (by linarith : 0 ≤ 1 + 2 * δ)
  have g5 : 0 ≤ δ * (1 - 2 * δ) * (b ⬝ᵥ (X⁻¹ *ᵥ b)) := mul_nonneg (mul_nonneg h0 (by linarith)) g1
  rw [abs_le]
  constructor <;> linarith

/-- Vectors that are small against `s`. -/
theorem inv_small (hZ : Z.PosDef) {s d : Fin m → ℝ} {μ κ R : ℝ} (hμ : 0 < μ) (hs : ∀ i, 0 < s i) (hm : ∀ z, μ * ∑ i, s i ^ 2 * z i ^ 2 ≤ z ⬝ᵥ (Z *ᵥ z)) (hd : ∀ i, |d i| ≤ κ * s i * R) :
    d ⬝ᵥ (Z⁻¹ *ᵥ d) ≤ m * κ ^ 2 * R ^ 2 / μ := by
  rw [dual_eq hZ]
  generalize Z⁻¹ *ᵥ d = u
  have h1 := hm u
  have h2 : ∀ i, 2 * (d i * u i) - μ * (s i ^ 2 * u i ^ 2) ≤ κ ^ 2 * R ^ 2 / μ := by
    intro i
    have h3 : d i ^ 2 ≤ (κ * s i * R) ^ 2 := by
      rw [← sq_abs]
      exact pow_le_pow_left₀ (abs_nonneg _) (hd i) 2
    rw [le_div_iff₀ hμ]
    have hsi := hs i
    have h4 : 0 ≤ (d i - μ * (s i ^ 2 * u i)) ^ 2 := sq_nonneg _
    have h5 : s i ^ 2 * ((2 * (d i * u i) - μ * (s i ^ 2 * u i ^ 2)) * μ) ≤ s i ^ 2 * (κ ^ 2 * R ^ 2) := by nlinarith
    exact le_of_mul_le_mul_left h5 (by positivity)
  have h3 := Finset.sum_le_card_nsmul Finset.univ _ _ fun i _ => h2 i
  rw [Finset.sum_sub_distrib, ← Finset.mul_sum, ← Finset.mul_sum, Finset.card_univ, Fintype.card_fin, nsmul_eq_mul] at h3
  have e : d ⬝ᵥ u = ∑ i, d i * u i := rfl
  have e2 : m * κ ^ 2 * R ^ 2 / μ = m * (κ ^ 2 * R ^ 2 / μ) := by ring
  rw [e, e2]
  linarith

theorem inv_shift (hZ : Z.PosDef) (b d : Fin m → ℝ) {t : ℝ} (ht : 0 < t) :
    |(b + d) ⬝ᵥ (Z⁻¹ *ᵥ (b + d)) - b ⬝ᵥ (Z⁻¹ *ᵥ b)| ≤ t * (b ⬝ᵥ (Z⁻¹ *ᵥ b)) + (1 + 1 / t) * (d ⬝ᵥ (Z⁻¹ *ᵥ d)) := by
  have e2 := symm_form hZ.inv d b
  have h1 := form_pos hZ.inv (t • b - d)
  have h2 := form_pos hZ.inv (t • b + d)
  have h3 := inv_nonneg hZ d
  simp only [mulVec_add, mulVec_sub, mulVec_smul, dotProduct_add, dotProduct_sub, dotProduct_smul, add_dotProduct, sub_dotProduct, smul_dotProduct, smul_eq_mul, e2] at h1 h2 ⊢
  generalize b ⬝ᵥ (Z⁻¹ *ᵥ b) = P at *
  generalize b ⬝ᵥ (Z⁻¹ *ᵥ d) = C at *
  generalize d ⬝ᵥ (Z⁻¹ *ᵥ d) = D at *
  have g1 : 2 * C ≤ t * P + 1 / t * D := by
    have : t * (2 * C) ≤ t * (t * P + 1 / t * D) := by
      have e : t * (t * P + 1 / t * D) = t * (t * P) + D := by field_simp
      rw [e]
      linarith
    exact le_of_mul_le_mul_left this ht
  have g2 : -(2 * C) ≤ t * P + 1 / t * D := by
    have : t * -(2 * C) ≤ t * (t * P + 1 / t * D) := by
      have e : t * (t * P + 1 / t * D) = t * (t * P) + D := by field_simp
      rw [e]
      linarith
    exact le_of_mul_le_mul_left this ht
  rw [abs_le]
  constructor <;> linarith

end Verif.CholReal
