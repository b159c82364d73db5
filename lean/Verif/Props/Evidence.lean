import Verif.Lemmas.GaussInt
import Verif.Model.Priors
import Verif.Props.Hier
import Verif.Props.LikelihoodJoint
import Verif.Spec.Gaussian

/-!
# The likelihood as an integral over the coefficients

C86 (covariance matrix), C87, and the posterior of the coefficients (C58).
-/

namespace Verif.Evidence

open Verif Verif.Spec Verif.GaussInt Verif.Noise Verif.Likelihood Verif.Joint MeasureTheory Matrix
open Verif.Kernel (Kern)
open Verif.PhiInv (toMatrix)
open Verif.PtaPhi (Klass entries getPhi)
open Verif.Partition (Svd)

variable {n k m : ℕ}

theorem two_pi_pos : (0 : ℝ) < 2 * Real.pi := by have := Real.pi_pos; positivity

theorem mvn_eq (C : Matrix (Fin n) (Fin n) ℝ) (x : Fin n → ℝ) :
    mvn C x = Real.exp (-(1 / 2) * (x ⬝ᵥ (C⁻¹ *ᵥ x))) / Real.sqrt ((2 * Real.pi) ^ n * C.det) := by
  rw [mvn, det_smul, Fintype.card_fin]

theorem mvn_pos {C : Matrix (Fin n) (Fin n) ℝ} (hC : C.PosDef) (x : Fin n → ℝ) : 0 < mvn C x := by
  rw [mvn_eq]
  have := two_pi_pos
  have := hC.det_pos
  positivity

/-- The density integrates to one. -/
theorem mvn_integral {C : Matrix (Fin n) (Fin n) ℝ} (hC : C.PosDef) : ∫ x, mvn C x = 1 := by
  have h1 := two_pi_pos
  have h2 := hC.det_pos
  simp only [mvn_eq]
  rw [integral_div, gauss_integral hC.inv, det_nonsing_inv, Ring.inverse_eq_inv', div_inv_eq_mul]
  exact div_self (Real.sqrt_pos.2 (by positivity)).ne'

/-- **C86**: with a positive definite covariance matrix `NormalPrior` is a probability density on vectors;
it raises exactly when the matrix is singular. -/
theorem C86_matrix (mu : Fin n → ℝ) {C : Matrix (Fin n) (Fin n) ℝ} (hC : C.PosDef) :
    ∃ f : (Fin n → ℝ) → ℝ, (∀ x, Priors.normalPriorMat x mu C = .ok (f x)) ∧ (∀ x, 0 < f x) ∧ ∫ x, f x = 1 ∧
      ∀ x, f x = mvn C (x - mu) := by
  refine ⟨fun x => mvn C (x - mu), ?_, fun x => mvn_pos hC _, ?_, fun _ => rfl⟩
  · intro x
    rw [Priors.normalPriorMat, if_neg hC.det_pos.ne']
    rfl
  · rw [integral_sub_right_eq_self (fun x => mvn C x) mu, mvn_integral hC]

/-- **C86**: a diagonal covariance matrix gives the product of the scalar densities. -/
theorem C86_diagonal (x mu s : Fin n → ℝ) (hs : ∀ i, 0 < s i) :
    ∃ p : Fin n → ℝ, (∀ i, Priors.normalPrior (.num (x i)) (.num (mu i)) (.num (s i)) = .ok (.num (p i))) ∧
      Priors.normalPriorMat x mu (diagonal fun i => s i ^ 2) = .ok (∏ i, p i) := by
  refine ⟨fun i => Real.exp (-(1 / 2) * (x i - mu i) ^ 2 / s i ^ 2) / Real.sqrt (2 * Real.pi * s i ^ 2),
    fun i => rfl, ?_⟩
  have hd : (diagonal fun i => s i ^ 2).det = ∏ i, s i ^ 2 := det_diagonal
  have hpos : 0 < ∏ i, s i ^ 2 := Finset.prod_pos fun i _ => pow_pos (hs i) 2
  have hC : (diagonal fun i => s i ^ 2 : Matrix (Fin n) (Fin n) ℝ).PosDef :=
    PosDef.diagonal fun i => pow_pos (hs i) 2
  rw [Priors.normalPriorMat, if_neg (by rw [hd]; exact hpos.ne')]
  show Except.ok (mvn (diagonal fun i => s i ^ 2) (x - mu)) = _
  rw [mvn_eq, hd, Finset.prod_div_distrib]
  congr 2
  · rw [← Real.exp_sum]
    congr 1
    have hinv : (diagonal fun i => s i ^ 2 : Matrix (Fin n) (Fin n) ℝ)⁻¹ = diagonal fun i => (s i ^ 2)⁻¹ := by
      apply inv_eq_right_inv
      rw [diagonal_mul_diagonal]
      rw [show (fun i => s i ^ 2 * (s i ^ 2)⁻¹) = fun _ => (1 : ℝ) from
        funext fun i => mul_inv_cancel₀ (pow_pos (hs i) 2).ne']
      exact diagonal_one
    rw [hinv, dotProduct, Finset.mul_sum]
    refine Finset.sum_congr rfl fun i _ => ?_
    rw [mulVec_diagonal, Pi.sub_apply]
    have := (hs i).ne'
    field_simp
  · rw [← Real.sqrt_prod _ fun i _ => ?_]
    · rw [Finset.prod_mul_distrib, Finset.prod_const, Finset.card_univ, Fintype.card_fin]
    · have := two_pi_pos; have := hs i; positivity

/-! ## One pulsar -/

variable {N : Matrix (Fin n) (Fin n) ℝ} {Φ : Matrix (Fin k) (Fin k) ℝ}

/-- The exponent of the joint density of residuals and coefficients. -/
theorem exponent (hN : N.PosDef) (T : Matrix (Fin n) (Fin k) ℝ) (Φi : Matrix (Fin k) (Fin k) ℝ) (r : Fin n → ℝ)
    (b : Fin k → ℝ) :
    (r - T *ᵥ b) ⬝ᵥ (N⁻¹ *ᵥ (r - T *ᵥ b)) + b ⬝ᵥ (Φi *ᵥ b) =
      r ⬝ᵥ (N⁻¹ *ᵥ r) - 2 * ((Tᵀ *ᵥ (N⁻¹ *ᵥ r)) ⬝ᵥ b) + b ⬝ᵥ ((Tᵀ * N⁻¹ * T + Φi) *ᵥ b) := by
  have hs := inv_symm N hN
  have e1 : r ⬝ᵥ (N⁻¹ *ᵥ (T *ᵥ b)) = (Tᵀ *ᵥ (N⁻¹ *ᵥ r)) ⬝ᵥ b := by
    rw [mulVec_transpose, ← dotProduct_mulVec, dotProduct_mulVec r, ← mulVec_transpose, hs]
  have e2 : (T *ᵥ b) ⬝ᵥ (N⁻¹ *ᵥ r) = (Tᵀ *ᵥ (N⁻¹ *ᵥ r)) ⬝ᵥ b := by
    rw [dotProduct_comm, mulVec_transpose, ← dotProduct_mulVec]
  have e3 : (T *ᵥ b) ⬝ᵥ (N⁻¹ *ᵥ (T *ᵥ b)) = b ⬝ᵥ ((Tᵀ * N⁻¹ * T) *ᵥ b) := by
    rw [dotProduct_comm, ← mulVec_mulVec, ← mulVec_mulVec, dotProduct_mulVec b, vecMul_transpose, dotProduct_comm]
  rw [mulVec_sub, sub_dotProduct, dotProduct_sub, dotProduct_sub, e1, e2, e3, add_mulVec, dotProduct_add]
  ring

/-- Marginalizing over the coefficients: the integral of the noise density of `r - T b` times the prior
density of `b` is the density of covariance `N + T Φ Tᵀ`. -/
theorem marginal (hN : N.PosDef) (hΦ : Φ.PosDef) (T : Matrix (Fin n) (Fin k) ℝ) (r : Fin n → ℝ) :
    ∫ b, mvn N (r - T *ᵥ b) * mvn Φ b = mvn (N + T * Φ * Tᵀ) r := by
  have hS := sig_posDef N⁻¹ hN.inv.posSemidef T hΦ
  have h1 := two_pi_pos
  have hn := hN.det_pos
  have hf := hΦ.det_pos
  have hs := hS.det_pos
  have hsym := inv_symm N hN
  have e : ∀ b : Fin k → ℝ, mvn N (r - T *ᵥ b) * mvn Φ b =
      Real.exp (-(1 / 2) * (r ⬝ᵥ (N⁻¹ *ᵥ r))) /
        (Real.sqrt ((2 * Real.pi) ^ n * N.det) * Real.sqrt ((2 * Real.pi) ^ k * Φ.det)) *
      Real.exp (-(1 / 2) * (b ⬝ᵥ (sig N⁻¹ T Φ *ᵥ b)) + (Tᵀ *ᵥ (N⁻¹ *ᵥ r)) ⬝ᵥ b) := by
    intro b
    rw [mvn_eq, mvn_eq, div_mul_div_comm, ← Real.exp_add, div_mul_eq_mul_div, ← Real.exp_add]
    congr 2
    have := exponent hN T Φ⁻¹ r b
    unfold sig
    linarith
  simp only [e]
  rw [integral_const_mul, shifted_integral hS]
  show _ = mvn (full N T Φ) r
  rw [mvn_eq, full_det hN hΦ T, full_inv hN hΦ T]
  have hq : r ⬝ᵥ ((N⁻¹ - N⁻¹ * T * (sig N⁻¹ T Φ)⁻¹ * Tᵀ * N⁻¹) *ᵥ r) =
      r ⬝ᵥ (N⁻¹ *ᵥ r) - (Tᵀ *ᵥ (N⁻¹ *ᵥ r)) ⬝ᵥ ((sig N⁻¹ T Φ)⁻¹ *ᵥ (Tᵀ *ᵥ (N⁻¹ *ᵥ r))) := by
    rw [sub_mulVec, dotProduct_sub]
    congr 1
    have : r ᵥ* (N⁻¹ * T) = Tᵀ *ᵥ (N⁻¹ *ᵥ r) := by
      rw [← vecMul_vecMul, ← mulVec_transpose, ← mulVec_transpose, hsym]
    rw [← this, ← dotProduct_mulVec]
    simp only [mulVec_mulVec, Matrix.mul_assoc]
    rw [this]
    simp only [mulVec_mulVec, Matrix.mul_assoc]
  rw [hq]
  have hsqrt : Real.sqrt ((2 * Real.pi) ^ n * (N.det * Φ.det * (sig N⁻¹ T Φ).det)) *
      Real.sqrt ((2 * Real.pi) ^ k / (sig N⁻¹ T Φ).det) =
      Real.sqrt ((2 * Real.pi) ^ n * N.det) * Real.sqrt ((2 * Real.pi) ^ k * Φ.det) := by
    rw [← Real.sqrt_mul (by positivity), ← Real.sqrt_mul (by positivity)]
    congr 1
    field_simp
  have hp1 : 0 < Real.sqrt ((2 * Real.pi) ^ n * (N.det * Φ.det * (sig N⁻¹ T Φ).det)) :=
    Real.sqrt_pos.2 (by positivity)
  have hp2 : 0 < Real.sqrt ((2 * Real.pi) ^ n * N.det) * Real.sqrt ((2 * Real.pi) ^ k * Φ.det) :=
    mul_pos (Real.sqrt_pos.2 (by positivity)) (Real.sqrt_pos.2 (by positivity))
  rw [mul_sub, sub_eq_add_neg, Real.exp_add, ← hsqrt]
  have hp3 : 0 < Real.sqrt ((2 * Real.pi) ^ k / (sig N⁻¹ T Φ).det) := Real.sqrt_pos.2 (by positivity)
  rw [show -(-(1 / 2) * ((Tᵀ *ᵥ (N⁻¹ *ᵥ r)) ⬝ᵥ ((sig N⁻¹ T Φ)⁻¹ *ᵥ (Tᵀ *ᵥ (N⁻¹ *ᵥ r))))) =
    1 / 2 * ((Tᵀ *ᵥ (N⁻¹ *ᵥ r)) ⬝ᵥ ((sig N⁻¹ T Φ)⁻¹ *ᵥ (Tᵀ *ᵥ (N⁻¹ *ᵥ r)))) by ring]
  field_simp

/-- Bayes' theorem: the posterior of the coefficients is Gaussian with mean `Σ⁻¹ Tᵀ N⁻¹ r` and covariance
`Σ⁻¹`, where `Σ = Tᵀ N⁻¹ T + Φ⁻¹`. -/
theorem bayes (hN : N.PosDef) (hΦ : Φ.PosDef) (T : Matrix (Fin n) (Fin k) ℝ) (r : Fin n → ℝ) (b : Fin k → ℝ) :
    mvn N (r - T *ᵥ b) * mvn Φ b / (∫ c, mvn N (r - T *ᵥ c) * mvn Φ c) =
      mvn (Tᵀ * N⁻¹ * T + Φ⁻¹)⁻¹ (b - (Tᵀ * N⁻¹ * T + Φ⁻¹)⁻¹ *ᵥ (Tᵀ *ᵥ (N⁻¹ *ᵥ r))) := by
  have hS : (Tᵀ * N⁻¹ * T + Φ⁻¹).PosDef := sig_posDef N⁻¹ hN.inv.posSemidef T hΦ
  generalize hSd : Tᵀ * N⁻¹ * T + Φ⁻¹ = S at hS
  have hu : IsUnit S.det := det_unit hS
  have h1 := two_pi_pos
  have hn := hN.det_pos
  have hf := hΦ.det_pos
  have hs := hS.det_pos
  generalize hud : Tᵀ *ᵥ (N⁻¹ *ᵥ r) = u
  have e : ∀ b : Fin k → ℝ, mvn N (r - T *ᵥ b) * mvn Φ b =
      Real.exp (-(1 / 2) * (r ⬝ᵥ (N⁻¹ *ᵥ r))) /
        (Real.sqrt ((2 * Real.pi) ^ n * N.det) * Real.sqrt ((2 * Real.pi) ^ k * Φ.det)) *
      Real.exp (-(1 / 2) * (b ⬝ᵥ (S *ᵥ b)) + u ⬝ᵥ b) := by
    intro b
    rw [mvn_eq, mvn_eq, div_mul_div_comm, ← Real.exp_add, div_mul_eq_mul_div, ← Real.exp_add]
    congr 2
    have := exponent hN T Φ⁻¹ r b
    rw [hSd, hud] at this
    linarith
  simp only [e]
  rw [integral_const_mul, shifted_integral hS]
  have hp2 : 0 < Real.sqrt ((2 * Real.pi) ^ n * N.det) * Real.sqrt ((2 * Real.pi) ^ k * Φ.det) :=
    mul_pos (Real.sqrt_pos.2 (by positivity)) (Real.sqrt_pos.2 (by positivity))
  have hc : Real.exp (-(1 / 2) * (r ⬝ᵥ (N⁻¹ *ᵥ r))) /
        (Real.sqrt ((2 * Real.pi) ^ n * N.det) * Real.sqrt ((2 * Real.pi) ^ k * Φ.det)) ≠ 0 :=
    (div_pos (Real.exp_pos _) hp2).ne'
  rw [mul_div_mul_left _ _ hc, mvn_eq, nonsing_inv_nonsing_inv S hu, det_nonsing_inv, Ring.inverse_eq_inv',
    ← div_eq_mul_inv, mul_comm (Real.sqrt _), ← div_div, ← Real.exp_sub]
  congr 2
  have hSm : S *ᵥ (S⁻¹ *ᵥ u) = u := by rw [mulVec_mulVec, mul_nonsing_inv _ hu, one_mulVec]
  have hsym : Sᵀ = S := by rw [← conjTranspose_eq_transpose_of_trivial]; exact hS.1
  have h1 : (S⁻¹ *ᵥ u) ⬝ᵥ (S *ᵥ b) = u ⬝ᵥ b := by
    rw [dotProduct_mulVec, ← mulVec_transpose, hsym, hSm]
  rw [mulVec_sub, hSm, sub_dotProduct, dotProduct_sub, dotProduct_sub, h1, dotProduct_comm b u,
    dotProduct_comm (S⁻¹ *ᵥ u) u]
  ring

/-- Integrating out the columns of `M` with a flat density gives the marginalized likelihood. -/
theorem flat {C : Matrix (Fin n) (Fin n) ℝ} {M : Matrix (Fin n) (Fin m) ℝ} (hC : C.PosDef)
    (hM : Function.Injective M.mulVec) (r : Fin n → ℝ) :
    Real.exp (margLog C M r) = Real.sqrt ((2 * Real.pi) ^ n) *
      ∫ ξ, mvn C (r - M *ᵥ ξ) / Real.sqrt ((2 * Real.pi * 10 ^ 40) ^ m) := by
  have hG := gram_posDef C M hC hM
  have h1 := two_pi_pos
  have hc := hC.det_pos
  have hg := hG.det_pos
  have hsym := inv_symm C hC
  have e : ∀ ξ : Fin m → ℝ, mvn C (r - M *ᵥ ξ) / Real.sqrt ((2 * Real.pi * 10 ^ 40) ^ m) =
      Real.exp (-(1 / 2) * (r ⬝ᵥ (C⁻¹ *ᵥ r))) / Real.sqrt ((2 * Real.pi) ^ n * C.det) /
        Real.sqrt ((2 * Real.pi * 10 ^ 40) ^ m) *
      Real.exp (-(1 / 2) * (ξ ⬝ᵥ ((Mᵀ * C⁻¹ * M) *ᵥ ξ)) + (Mᵀ *ᵥ (C⁻¹ *ᵥ r)) ⬝ᵥ ξ) := by
    intro ξ
    rw [mvn_eq, div_mul_eq_mul_div, div_mul_eq_mul_div, ← Real.exp_add]
    congr 3
    have := exponent hC M 0 r ξ
    rw [zero_mulVec, dotProduct_zero, add_zero, add_zero] at this
    linarith
  simp only [e]
  rw [integral_const_mul, shifted_integral hG]
  have hq : r ⬝ᵥ (projN C M *ᵥ r) =
      r ⬝ᵥ (C⁻¹ *ᵥ r) - (Mᵀ *ᵥ (C⁻¹ *ᵥ r)) ⬝ᵥ ((Mᵀ * C⁻¹ * M)⁻¹ *ᵥ (Mᵀ *ᵥ (C⁻¹ *ᵥ r))) := by
    rw [projN, sub_mulVec, dotProduct_sub]
    congr 1
    have : r ᵥ* (C⁻¹ * M) = Mᵀ *ᵥ (C⁻¹ *ᵥ r) := by
      rw [← vecMul_vecMul, ← mulVec_transpose, ← mulVec_transpose, hsym]
    rw [← this, ← dotProduct_mulVec]
    simp only [mulVec_mulVec, Matrix.mul_assoc]
    rw [this]
    simp only [mulVec_mulVec, Matrix.mul_assoc]
  generalize hQ : (Mᵀ *ᵥ (C⁻¹ *ᵥ r)) ⬝ᵥ ((Mᵀ * C⁻¹ * M)⁻¹ *ᵥ (Mᵀ *ᵥ (C⁻¹ *ᵥ r))) = Q at hq ⊢
  generalize hR : r ⬝ᵥ (C⁻¹ *ᵥ r) = R at hq ⊢
  have hexp : Real.exp (margLog C M r) = Real.exp (-(1 / 2) * R) * Real.exp (1 / 2 * Q) /
      (Real.sqrt C.det * Real.sqrt (Mᵀ * C⁻¹ * M).det * Real.sqrt ((10 ^ 40) ^ m)) := by
    rw [margLog, hq]
    have l1 : Real.sqrt C.det = Real.exp (1 / 2 * Real.log C.det) := by
      rw [Real.sqrt_eq_rpow, Real.rpow_def_of_pos hc, mul_comm]
    have l2 : Real.sqrt (Mᵀ * C⁻¹ * M).det = Real.exp (1 / 2 * Real.log (Mᵀ * C⁻¹ * M).det) := by
      rw [Real.sqrt_eq_rpow, Real.rpow_def_of_pos hg, mul_comm]
    have l3 : Real.sqrt ((10 ^ 40 : ℝ) ^ m) = Real.exp (1 / 2 * (m * Real.log (10 ^ 40))) := by
      rw [Real.sqrt_eq_rpow, Real.rpow_def_of_pos (by positivity), Real.log_pow, mul_comm]
    rw [l1, l2, l3, ← Real.exp_add, ← Real.exp_add, ← Real.exp_add, ← Real.exp_sub]
    congr 1
    ring
  rw [hexp, mul_pow (2 * Real.pi), Real.sqrt_mul (by positivity), Real.sqrt_mul (by positivity),
    Real.sqrt_div (by positivity)]
  have p1 : 0 < Real.sqrt ((2 * Real.pi) ^ n) := Real.sqrt_pos.2 (by positivity)
  have p2 : 0 < Real.sqrt ((2 * Real.pi) ^ m) := Real.sqrt_pos.2 (by positivity)
  have p3 : 0 < Real.sqrt C.det := Real.sqrt_pos.2 hc
  have p4 : 0 < Real.sqrt (Mᵀ * C⁻¹ * M).det := Real.sqrt_pos.2 hg
  have p5 : 0 < Real.sqrt ((10 ^ 40 : ℝ) ^ m) := Real.sqrt_pos.2 (by positivity)
  field_simp

/-- `normalLog` is the log of the density of mean `μ` and covariance `S⁻¹`. -/
theorem exp_normalLog {S : Matrix (Fin k) (Fin k) ℝ} (hS : S.PosDef) (μ c : Fin k → ℝ) :
    Real.exp (Coefficients.normalLog μ S c) = mvn S⁻¹ (c - μ) := by
  have h1 := two_pi_pos
  have hs := hS.det_pos
  rw [mvn_eq, nonsing_inv_nonsing_inv S (det_unit hS), det_nonsing_inv, Ring.inverse_eq_inv',
    Coefficients.normalLog, Real.sqrt_eq_rpow, Real.rpow_def_of_pos (by positivity),
    Real.log_mul (x := (2 * Real.pi) ^ k) (by positivity) (by positivity), Real.log_pow, Real.log_inv,
    ← Real.exp_sub]
  congr 1
  ring

/-- **C58**: the conditional density of the coefficients in C58 is a probability density. Integrating the
likelihood with explicit coefficients times their prior over all coefficients therefore gives the
marginalized likelihood. -/
theorem C58_normalised {d : ℕ} {C : Matrix (Fin n) (Fin n) ℝ} {M : Matrix (Fin n) (Fin m) ℝ}
    {φ : Matrix (Fin d) (Fin d) ℝ} (hC : C.PosDef) (hM : Function.Injective M.mulVec) (hφ : φ.PosDef)
    (F : Matrix (Fin n) (Fin d) ℝ) (r : Fin n → ℝ) :
    (∀ c, 0 < Real.exp (Coefficients.normalLog (Coefficients.postMean C M F φ r) (Coefficients.post C M F φ) c)) ∧
      ∫ c, Real.exp (Coefficients.normalLog (Coefficients.postMean C M F φ r) (Coefficients.post C M F φ) c) = 1 ∧
      ∀ L : ℝ, ∀ L' : (Fin d → ℝ) → ℝ, (∀ c, L' c = L +
        Coefficients.normalLog (Coefficients.postMean C M F φ r) (Coefficients.post C M F φ) c) →
        ∫ c, Real.exp (L' c) = Real.exp L := by
  have hS : (Coefficients.post C M F φ).PosDef := by
    have := sig_posDef (projN C M) (projN_posSemidef hC hM) F hφ
    rwa [sig, Matrix.mul_assoc] at this
  have h1 : ∫ c, Real.exp (Coefficients.normalLog (Coefficients.postMean C M F φ r) (Coefficients.post C M F φ) c) = 1 := by
    simp only [exp_normalLog hS]
    rw [integral_sub_right_eq_self (fun x => mvn (Coefficients.post C M F φ)⁻¹ x), mvn_integral hS.inv]
  refine ⟨fun c => Real.exp_pos _, h1, fun L L' h => ?_⟩
  simp only [h, Real.exp_add]
  rw [integral_const_mul, h1, mul_one]

/-- The evidence of one data set: the integral over the timing-model corrections `ξ`, with the flat
density of height `(2π 1e40)^(-1/2)` per column, and over the coefficients `b` with their Gaussian prior
of covariance `Φ`, of the noise density of what is left of the residuals. -/
noncomputable def evidence (N : Matrix (Fin n) (Fin n) ℝ) (M : Matrix (Fin n) (Fin m) ℝ)
    (T : Matrix (Fin n) (Fin k) ℝ) (Φ : Matrix (Fin k) (Fin k) ℝ) (r : Fin n → ℝ) : ℝ :=
  ∫ ξ, (∫ b, mvn N (r - M *ᵥ ξ - T *ᵥ b) * mvn Φ b) / Real.sqrt ((2 * Real.pi * 10 ^ 40) ^ m)

theorem exp_margLog {M : Matrix (Fin n) (Fin m) ℝ} (hN : N.PosDef) (hΦ : Φ.PosDef)
    (hM : Function.Injective M.mulVec) (T : Matrix (Fin n) (Fin k) ℝ) (r : Fin n → ℝ) :
    Real.exp (margLog (N + T * Φ * Tᵀ) M r) = Real.sqrt ((2 * Real.pi) ^ n) * evidence N M T Φ r := by
  refine (flat (C := N + T * Φ * Tᵀ) (full_posDef hN hΦ.posSemidef T) hM r).trans ?_
  rw [evidence]
  simp only [marginal hN hΦ T]

/-- **C87**: without common signals the exponential of the likelihood is, up to `(2π)^(n/2)` and the
priors of the signals, the product over the pulsars of the integrals over all timing-model corrections and
all Gaussian-process coefficients. -/
theorem C87 (svd : ∀ {n : Nat} (M : Matrix (Fin n) (Fin n) ℝ), Svd M) (method : Method)
    (hm : method ≠ .other) (qs : List Known) :
    ∃ l, lnlike svd method (qs.map Known.p) [] = .ok (some l) ∧
      Real.exp l = (qs.map fun q => Real.sqrt ((2 * Real.pi) ^ q.p.n) * evidence q.N q.M q.T q.Φ q.r).prod *
        Real.exp (priors qs) := by
  refine ⟨_, C84 svd method hm qs, ?_⟩
  rw [Real.exp_add, Real.exp_list_sum, List.map_map]
  congr 2
  apply List.map_congr_left
  intro q _
  exact exp_margLog q.hN q.pos q.hM q.T q.r

/-- **C87**: with common signals (method `sparse`, whatever the classes) it is one integral over the
corrections and coefficients of all pulsars together, with the joint prior covariance `get_phi` returns. -/
theorem C87_common (svd : ∀ {n : Nat} (M : Matrix (Fin n) (Fin n) ℝ), Svd M) (qs : List Known)
    (hb : ∀ q ∈ qs, q.p.basis ≠ none) (cs : List (Klass ℝ)) (h0 : cs ≠ []) (F : Nat → Nat → ℝ)
    (e : getPhi (phisOf qs) cs = .ok (.big (PtaPhi.total (phisOf qs)) F))
    (hF : (toMatrix (width qs) F).PosDef) :
    ∃ l, lnlike svd .sparse (qs.map Known.p) cs = .ok (some l) ∧
      Real.exp l = Real.sqrt ((2 * Real.pi) ^ (qs.map fun q => q.p.n).sum) *
        evidence (jm (fun q : Known => q.p.n) (fun q => q.p.n) (fun q => q.N) qs) (jointM qs)
          (jm (fun q : Known => q.p.n) Known.k (fun q => q.T) qs) (toMatrix (width qs) F) (jointR qs) *
        Real.exp (priors qs) := by
  refine ⟨_, C57_sparse svd qs hb cs h0 F e hF, ?_⟩
  rw [Real.exp_add]
  congr 1
  exact exp_margLog (jm_posDef _ qs fun q _ => q.hN) hF (jm_injective _ qs fun q _ => q.hM) _ _

/-! ## Cases meeting the hypotheses -/

example : (!![2, 1; 1, 5] : Matrix (Fin 2) (Fin 2) ℝ).PosDef := by
  refine PosDef.of_dotProduct_mulVec_pos (by ext i j; fin_cases i <;> fin_cases j <;> simp) fun x hx => ?_
  simp only [star_trivial, dotProduct, mulVec, Fin.sum_univ_two]
  simp
  have : x 0 ≠ 0 ∨ x 1 ≠ 0 := by
    by_contra h
    push Not at h
    exact hx (funext fun i => by fin_cases i <;> simp [h.1, h.2])
  rcases this with h | h
  · nlinarith [sq_nonneg (x 0 + x 1), sq_pos_of_ne_zero h, sq_nonneg (x 1)]
  · nlinarith [sq_nonneg (x 0 + x 1), sq_pos_of_ne_zero h, sq_nonneg (x 0)]

-- Two pulsars, the second with a marginalized timing model.
example (svd : ∀ {n : Nat} (M : Matrix (Fin n) (Fin n) ℝ), Svd M) :
    ∃ l, lnlike svd .partition ([sample 2 (by norm_num), sampleMarg].map Known.p) [] = .ok (some l) :=
  (C87 svd .partition (by simp) [sample 2 (by norm_num), sampleMarg]).imp fun _ h => h.1

-- Two pulsars with the common process of `sampleClass`.
example : let qs := [sample 2 (by norm_num), sample 5 (by norm_num)]
    (∀ q ∈ qs, q.p.basis ≠ none) ∧ [sampleClass 1] ≠ [] ∧
      ∃ F, getPhi (phisOf qs) [sampleClass 1] = .ok (.big (PtaPhi.total (phisOf qs)) F) ∧
        toMatrix 2 F = !![2, 1; 1, 5] := by
  refine ⟨by simp [sample, samplePsr], by simp, _, rfl, ?_⟩
  ext i j
  fin_cases i <;> fin_cases j <;>
    simp [toMatrix, sample, samplePsr, PtaPhi.slices, PtaPhi.blockDiag, Kernel.put2, Kernel.diagMat, Kern.size,
      entries]

end Verif.Evidence
