import Verif.Props.Marg

/-! Woodbury's identity and the determinant of `N + T Φ Tᵀ`, also with timing-model directions taken
out. -/

namespace Verif.Noise

open Matrix Filter Topology

section Core

variable {n k : Nat} {N : Matrix (Fin n) (Fin n) ℝ} {Φ : Matrix (Fin k) (Fin k) ℝ}

/-- `Tᵀ P T + Φ⁻¹`. -/
noncomputable def sig (P : Matrix (Fin n) (Fin n) ℝ) (T : Matrix (Fin n) (Fin k) ℝ)
    (Φ : Matrix (Fin k) (Fin k) ℝ) : Matrix (Fin k) (Fin k) ℝ := Tᵀ * P * T + Φ⁻¹

theorem posSemidef_congr (P : Matrix (Fin n) (Fin n) ℝ) (hP : P.PosSemidef)
    (T : Matrix (Fin n) (Fin k) ℝ) : (Tᵀ * P * T).PosSemidef := by
  have := hP.conjTranspose_mul_mul_same T
  rwa [conjTranspose_eq_transpose_of_trivial] at this

theorem sig_posDef (P : Matrix (Fin n) (Fin n) ℝ) (hP : P.PosSemidef) (T : Matrix (Fin n) (Fin k) ℝ)
    (hΦ : Φ.PosDef) : (sig P T Φ).PosDef := by
  unfold sig
  rw [add_comm]
  exact hΦ.inv.add_posSemidef (posSemidef_congr P hP T)

/-- The covariance `N + T Φ Tᵀ`. -/
def full (N : Matrix (Fin n) (Fin n) ℝ) (T : Matrix (Fin n) (Fin k) ℝ)
    (Φ : Matrix (Fin k) (Fin k) ℝ) : Matrix (Fin n) (Fin n) ℝ := N + T * Φ * Tᵀ

theorem full_posDef (hN : N.PosDef) (hΦ : Φ.PosSemidef) (T : Matrix (Fin n) (Fin k) ℝ) :
    (full N T Φ).PosDef := by
  unfold full
  have := hΦ.mul_mul_conjTranspose_same T
  rw [conjTranspose_eq_transpose_of_trivial] at this
  exact hN.add_posSemidef this

theorem det_unit {m : Nat} {A : Matrix (Fin m) (Fin m) ℝ} (h : A.PosDef) : IsUnit A.det :=
  isUnit_iff_ne_zero.2 h.det_pos.ne'

theorem full_inv (hN : N.PosDef) (hΦ : Φ.PosDef) (T : Matrix (Fin n) (Fin k) ℝ) :
    (full N T Φ)⁻¹ = N⁻¹ - N⁻¹ * T * (sig N⁻¹ T Φ)⁻¹ * Tᵀ * N⁻¹ := by
  have hS := sig_posDef N⁻¹ hN.inv.posSemidef T hΦ
  have h1 := mul_nonsing_inv _ (det_unit hS)
  have h2 := mul_nonsing_inv _ (det_unit hN)
  have h3 := mul_nonsing_inv _ (det_unit hΦ)
  have h4 := nonsing_inv_mul _ (det_unit hΦ)
  apply inv_eq_right_inv
  set S := (sig N⁻¹ T Φ)⁻¹ with hSd
  have e1 : Tᵀ * N⁻¹ * T * S = 1 - Φ⁻¹ * S := by
    unfold sig at h1
    rw [Matrix.add_mul] at h1
    rw [← h1]; abel
  unfold full
  rw [Matrix.add_mul, Matrix.mul_sub, h2]
  have e2 : N * (N⁻¹ * T * S * Tᵀ * N⁻¹) = T * S * Tᵀ * N⁻¹ := by
    simp only [← Matrix.mul_assoc]; rw [h2, Matrix.one_mul]
  have e3 : T * Φ * Tᵀ * (N⁻¹ - N⁻¹ * T * S * Tᵀ * N⁻¹) =
      T * Φ * Tᵀ * N⁻¹ - T * Φ * (Tᵀ * N⁻¹ * T * S) * (Tᵀ * N⁻¹) := by
    rw [Matrix.mul_sub]; simp only [Matrix.mul_assoc]
  have e4 : T * Φ * (Φ⁻¹ * S) = T * S := by
    rw [Matrix.mul_assoc, ← Matrix.mul_assoc Φ, h3, Matrix.one_mul]
  rw [e2, e3, e1, Matrix.mul_sub, Matrix.mul_one, e4, Matrix.sub_mul]
  simp only [Matrix.mul_assoc]
  abel

theorem full_det (hN : N.PosDef) (hΦ : Φ.PosDef) (T : Matrix (Fin n) (Fin k) ℝ) :
    (full N T Φ).det = N.det * Φ.det * (sig N⁻¹ T Φ).det := by
  unfold full
  rw [det_add_mul _ _ (det_unit hN), mul_assoc, ← det_mul]
  congr 1
  unfold sig
  rw [Matrix.mul_add, mul_nonsing_inv _ (det_unit hΦ), ← Matrix.mul_assoc, det_one_add_mul_comm,
    add_comm]

/-- The mean of the coefficients, in two forms. -/
theorem mean_eq (hN : N.PosDef) (hΦ : Φ.PosDef) (T : Matrix (Fin n) (Fin k) ℝ) :
    (sig N⁻¹ T Φ)⁻¹ * Tᵀ * N⁻¹ = Φ * Tᵀ * (full N T Φ)⁻¹ := by
  have hS := sig_posDef N⁻¹ hN.inv.posSemidef T hΦ
  have hC := full_posDef hN hΦ.posSemidef T
  have h1 := nonsing_inv_mul _ (det_unit hS)
  have h2 := mul_nonsing_inv _ (det_unit hC)
  have h3 := nonsing_inv_mul _ (det_unit hN)
  have h4 := nonsing_inv_mul _ (det_unit hΦ)
  have e : Tᵀ * N⁻¹ * full N T Φ = sig N⁻¹ T Φ * (Φ * Tᵀ) := by
    unfold full sig
    rw [Matrix.mul_add, Matrix.add_mul, Matrix.mul_assoc Tᵀ, h3, Matrix.mul_one,
      ← Matrix.mul_assoc Φ⁻¹, h4, Matrix.one_mul, add_comm]
    simp only [Matrix.mul_assoc]
  calc (sig N⁻¹ T Φ)⁻¹ * Tᵀ * N⁻¹
      = (sig N⁻¹ T Φ)⁻¹ * (Tᵀ * N⁻¹ * full N T Φ) * (full N T Φ)⁻¹ := by
        rw [Matrix.mul_assoc _ _ (full N T Φ)⁻¹, Matrix.mul_assoc _ (full N T Φ), h2,
          Matrix.mul_one, Matrix.mul_assoc]
    _ = Φ * Tᵀ * (full N T Φ)⁻¹ := by
        rw [e, ← Matrix.mul_assoc _ (sig N⁻¹ T Φ), h1, Matrix.one_mul]

/-- The covariance of the coefficients given the data, in two forms. -/
theorem cov_eq (hN : N.PosDef) (hΦ : Φ.PosDef) (T : Matrix (Fin n) (Fin k) ℝ) :
    (sig N⁻¹ T Φ)⁻¹ = Φ - Φ * Tᵀ * (full N T Φ)⁻¹ * T * Φ := by
  have hS := sig_posDef N⁻¹ hN.inv.posSemidef T hΦ
  have h1 := nonsing_inv_mul _ (det_unit hS)
  have h4 := nonsing_inv_mul _ (det_unit hΦ)
  rw [← mean_eq hN hΦ T]
  have e : sig N⁻¹ T Φ * Φ = Tᵀ * N⁻¹ * T * Φ + 1 := by
    unfold sig; rw [Matrix.add_mul, h4]
  calc (sig N⁻¹ T Φ)⁻¹ = (sig N⁻¹ T Φ)⁻¹ * (sig N⁻¹ T Φ * Φ - Tᵀ * N⁻¹ * T * Φ) := by
        rw [e, add_sub_cancel_left, Matrix.mul_one]
    _ = _ := by
        rw [Matrix.mul_sub, ← Matrix.mul_assoc, h1, Matrix.one_mul]
        simp only [Matrix.mul_assoc]

end Core

/-! ### With timing-model directions taken out -/

section Marg

variable {n k m : Nat} {N : Matrix (Fin n) (Fin n) ℝ} {Φ : Matrix (Fin k) (Fin k) ℝ}
  {M : Matrix (Fin n) (Fin m) ℝ}

theorem inv_tendsto {p : Nat} {f : ℝ → Matrix (Fin p) (Fin p) ℝ} {A : Matrix (Fin p) (Fin p) ℝ}
    (hf : Tendsto f atTop (𝓝 A)) (hA : A.det ≠ 0) : Tendsto (fun s => (f s)⁻¹) atTop (𝓝 A⁻¹) := by
  have hdet := (continuous_id.matrix_det.tendsto A).comp hf
  have hadj := (continuous_id.matrix_adjugate.tendsto A).comp hf
  have := (hdet.inv₀ hA).smul hadj
  rw [Matrix.inv_def A, Ring.inverse_eq_inv']
  refine this.congr fun s => ?_
  rw [Matrix.inv_def (f s), Ring.inverse_eq_inv']; rfl

theorem gram_tendsto (N : Matrix (Fin n) (Fin n) ℝ) (M : Matrix (Fin n) (Fin m) ℝ) :
    Tendsto (fun s : ℝ => Mᵀ * N⁻¹ * M + s⁻¹ • (1 : Matrix (Fin m) (Fin m) ℝ)) atTop
      (𝓝 (Mᵀ * N⁻¹ * M)) := by
  have : Tendsto (fun s : ℝ => Mᵀ * N⁻¹ * M + s⁻¹ • (1 : Matrix (Fin m) (Fin m) ℝ)) atTop
      (𝓝 (Mᵀ * N⁻¹ * M + (0 : ℝ) • (1 : Matrix (Fin m) (Fin m) ℝ))) :=
    tendsto_const_nhds.add (tendsto_inv_atTop_zero.smul_const _)
  rwa [zero_smul, add_zero] at this

theorem wide_tendsto (hN : N.PosDef) (hM : Function.Injective M.mulVec) :
    Tendsto (fun s => (wideN N M s)⁻¹) atTop (𝓝 (projN N M)) := by
  have hG := gram_posDef N M hN hM
  have hinv := inv_tendsto (gram_tendsto N M) hG.det_pos.ne'
  have hc : Continuous fun A : Matrix (Fin m) (Fin m) ℝ =>
      N⁻¹ - N⁻¹ * M * A * Mᵀ * N⁻¹ := by fun_prop
  have := (hc.tendsto (Mᵀ * N⁻¹ * M)⁻¹).comp hinv
  refine this.congr' ?_
  filter_upwards [eventually_gt_atTop (0 : ℝ)] with s hs
  rw [(wideN_inv hN hM s hs).1]; rfl

theorem wideN_posDef (hN : N.PosDef) (M : Matrix (Fin n) (Fin m) ℝ) (s : ℝ) (hs : 0 < s) :
    (wideN N M s).PosDef := by
  unfold wideN
  have := posSemidef_self_mul_conjTranspose M
  rw [conjTranspose_eq_transpose_of_trivial] at this
  exact hN.add_posSemidef (this.smul hs.le)

theorem projN_posSemidef (hN : N.PosDef) (hM : Function.Injective M.mulVec) :
    (projN N M).PosSemidef := by
  refine PosSemidef.of_dotProduct_mulVec_nonneg ?_ fun x => ?_
  · rw [IsHermitian, conjTranspose_eq_transpose_of_trivial]; exact projN_symm N M hN hM
  · have hc : Continuous fun A : Matrix (Fin n) (Fin n) ℝ => star x ⬝ᵥ (A *ᵥ x) := by fun_prop
    have := (hc.tendsto (projN N M)).comp (wide_tendsto hN hM)
    refine ge_of_tendsto this ?_
    filter_upwards [eventually_gt_atTop (0 : ℝ)] with s hs
    exact (wideN_posDef hN M s hs).inv.posSemidef.dotProduct_mulVec_nonneg x

theorem wide_full (T : Matrix (Fin n) (Fin k) ℝ) (s : ℝ) :
    full (wideN N M s) T Φ = wideN (full N T Φ) M s := by
  unfold full wideN; abel

theorem full_proj (hN : N.PosDef) (hΦ : Φ.PosDef) (hM : Function.Injective M.mulVec)
    (T : Matrix (Fin n) (Fin k) ℝ) :
    projN (full N T Φ) M = projN N M -
      projN N M * T * (sig (projN N M) T Φ)⁻¹ * Tᵀ * projN N M := by
  have hC := full_posDef hN hΦ.posSemidef T
  have hW := wide_tendsto hN hM
  have hS := sig_posDef (projN N M) (projN_posSemidef hN hM) T hΦ
  have hsig : Tendsto (fun s => sig (wideN N M s)⁻¹ T Φ) atTop (𝓝 (sig (projN N M) T Φ)) := by
    have hc : Continuous fun A : Matrix (Fin n) (Fin n) ℝ => sig A T Φ := by
      unfold sig; fun_prop
    exact (hc.tendsto _).comp hW
  have hsi := inv_tendsto hsig hS.det_pos.ne'
  have hc : Continuous fun q : Matrix (Fin n) (Fin n) ℝ × Matrix (Fin k) (Fin k) ℝ =>
      q.1 - q.1 * T * q.2 * Tᵀ * q.1 := by fun_prop
  have h1 := (hc.tendsto (projN N M, (sig (projN N M) T Φ)⁻¹)).comp (hW.prodMk_nhds hsi)
  refine tendsto_nhds_unique (wide_tendsto hC hM) (h1.congr' ?_)
  filter_upwards [eventually_gt_atTop (0 : ℝ)] with s hs
  rw [← wide_full, full_inv (wideN_posDef hN M s hs) hΦ T]; rfl

theorem full_proj_det (hN : N.PosDef) (hΦ : Φ.PosDef) (hM : Function.Injective M.mulVec)
    (T : Matrix (Fin n) (Fin k) ℝ) :
    (full N T Φ).det * (Mᵀ * (full N T Φ)⁻¹ * M).det =
      N.det * (Mᵀ * N⁻¹ * M).det * Φ.det * (sig (projN N M) T Φ).det := by
  have hC := full_posDef hN hΦ.posSemidef T
  have hW := wide_tendsto hN hM
  have hsig : Tendsto (fun s => (sig (wideN N M s)⁻¹ T Φ).det) atTop
      (𝓝 (sig (projN N M) T Φ).det) := by
    have hc : Continuous fun A : Matrix (Fin n) (Fin n) ℝ => (sig A T Φ).det := by
      unfold sig; fun_prop
    exact (hc.tendsto _).comp hW
  have hd : ∀ A : Matrix (Fin n) (Fin n) ℝ, Tendsto
      (fun s : ℝ => (Mᵀ * A⁻¹ * M + s⁻¹ • (1 : Matrix (Fin m) (Fin m) ℝ)).det) atTop
      (𝓝 (Mᵀ * A⁻¹ * M).det) := fun A =>
    (continuous_id.matrix_det.tendsto (Mᵀ * A⁻¹ * M)).comp (gram_tendsto A M)
  have h1 := (tendsto_const_nhds (x := (full N T Φ).det)).mul (hd (full N T Φ))
  have h2 := (((tendsto_const_nhds (x := N.det)).mul (hd N)).mul
    (tendsto_const_nhds (x := Φ.det))).mul hsig
  refine tendsto_nhds_unique h1 (h2.congr' ?_)
  filter_upwards [eventually_gt_atTop (0 : ℝ)] with s hs
  have e := full_det (wideN_posDef hN M s hs) hΦ T
  rw [wide_full, (wideN_inv hC hM s hs).2, (wideN_inv hN hM s hs).2] at e
  have hp : s ^ m ≠ 0 := (pow_pos hs m).ne'
  apply mul_left_cancel₀ hp
  linarith

end Marg

end Verif.Noise
