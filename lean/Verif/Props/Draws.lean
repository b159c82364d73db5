import Verif.Props.Hier

/-!
Conditional means and draws of coefficients (C58, C85).
-/

namespace Verif.Coefficients

open Verif Verif.Noise Verif.Joint Verif.Likelihood Matrix
open Verif.Kernel (Kern)
open Verif.PhiInv (toMatrix)
open Verif.PtaPhi (entries Klass)
open Verif.Partition (Svd kernInv)

/-! ## The mean -/

section Mean

variable {n m k d : Nat} {N : Matrix (Fin n) (Fin n) ℝ} {M : Matrix (Fin n) (Fin m) ℝ} {Φ : Matrix (Fin k) (Fin k) ℝ}

/-- The mean of the coefficients in terms of the full covariance. -/
theorem mean_full (hN : N.PosDef) (hM : Function.Injective M.mulVec) (hΦ : Φ.PosDef) (T : Matrix (Fin n) (Fin k) ℝ) :
    (Tᵀ * (projN N M * T) + Φ⁻¹)⁻¹ * (Tᵀ * projN N M) = Φ * (Tᵀ * projN (N + T * Φ * Tᵀ) M) := by
  have hS := sig_posDef (projN N M) (projN_posSemidef hN hM) T hΦ
  have hsig : Tᵀ * (projN N M * T) + Φ⁻¹ = sig (projN N M) T Φ := by rw [sig, Matrix.mul_assoc]
  have hp : projN (N + T * Φ * Tᵀ) M = projN N M - projN N M * T * (sig (projN N M) T Φ)⁻¹ * Tᵀ * projN N M :=
    full_proj hN hΦ hM T
  rw [hsig, hp]
  have h1 : Tᵀ * projN N M * T = sig (projN N M) T Φ - Φ⁻¹ := by rw [sig]; abel
  have h2 : Tᵀ * (projN N M - projN N M * T * (sig (projN N M) T Φ)⁻¹ * Tᵀ * projN N M) =
      Φ⁻¹ * ((sig (projN N M) T Φ)⁻¹ * (Tᵀ * projN N M)) := by
    have : Tᵀ * (projN N M * T * (sig (projN N M) T Φ)⁻¹ * Tᵀ * projN N M) =
        (Tᵀ * projN N M * T) * ((sig (projN N M) T Φ)⁻¹ * (Tᵀ * projN N M)) := by
      simp only [Matrix.mul_assoc]
    rw [Matrix.mul_sub, this, h1, Matrix.sub_mul, ← Matrix.mul_assoc (sig (projN N M) T Φ),
      mul_nonsing_inv _ (det_unit hS), Matrix.one_mul]
    abel
  rw [h2, ← Matrix.mul_assoc Φ, mul_nonsing_inv _ (det_unit hΦ), Matrix.one_mul]

/-- C58: where the process of basis `F` and prior `φ` occupies the columns `e` of the big basis, uncorrelated
with the others, the entries `e` of the mean of all the coefficients, `Σ⁻¹ Tᵀ N⁻¹ r` as
`ConditionalGP._make_conditional` computes it, are the mean of the conditional Gaussian in C58. -/
theorem C58_mean (hN : N.PosDef) (hM : Function.Injective M.mulVec) (hΦ : Φ.PosDef) (T : Matrix (Fin n) (Fin k) ℝ)
    (C' : Matrix (Fin n) (Fin n) ℝ) (hC' : C'.PosDef) (φ : Matrix (Fin d) (Fin d) ℝ) (hφ : φ.PosDef) (F : Matrix (Fin n) (Fin d) ℝ) (e : Fin d → Fin k)
    (he : Function.Injective e) (hF : ∀ i j, F i j = T i (e j)) (hφe : ∀ i j, φ i j = Φ (e i) (e j))
    (h0 : ∀ i j, j ∉ Set.range e → Φ (e i) j = 0) (hcov : N + T * Φ * Tᵀ = C' + F * φ * Fᵀ) (r : Fin n → ℝ) (i : Fin d) :
    ((Tᵀ * (projN N M * T) + Φ⁻¹)⁻¹ *ᵥ (Tᵀ *ᵥ (projN N M *ᵥ r))) (e i) = postMean C' M F φ r i := by
  have h1 : (Tᵀ * (projN N M * T) + Φ⁻¹)⁻¹ *ᵥ (Tᵀ *ᵥ (projN N M *ᵥ r)) =
      Φ *ᵥ (Tᵀ *ᵥ (projN (N + T * Φ * Tᵀ) M *ᵥ r)) := by
    rw [mulVec_mulVec, mulVec_mulVec, Matrix.mul_assoc, mean_full hN hM hΦ T, mulVec_mulVec, mulVec_mulVec,
      Matrix.mul_assoc _ _ (projN _ _)]
  have h2 : postMean C' M F φ r = φ *ᵥ (Fᵀ *ᵥ (projN (C' + F * φ * Fᵀ) M *ᵥ r)) := by
    unfold postMean post
    rw [mulVec_mulVec, mulVec_mulVec, Matrix.mul_assoc, mean_full hC' hM hφ F, mulVec_mulVec, mulVec_mulVec,
      Matrix.mul_assoc _ _ (projN _ _)]
  rw [h1, h2, hcov]
  generalize projN (C' + F * φ * Fᵀ) M *ᵥ r = y
  have hFy : ∀ j, (Fᵀ *ᵥ y) j = (Tᵀ *ᵥ y) (e j) := by
    intro j
    simp only [mulVec, dotProduct, transpose_apply, hF]
  simp only [mulVec, dotProduct] at hFy ⊢
  have hsum : ∑ x : Fin d, φ i x * ∑ i, Fᵀ x i * y i = ∑ x : Fin d, Φ (e i) (e x) * ∑ i, Tᵀ (e x) i * y i :=
    Finset.sum_congr rfl fun x _ => by rw [hφe, hFy x]
  rw [hsum]
  symm
  rw [← Finset.sum_image (s := Finset.univ) (g := e) (f := fun j => Φ (e i) j * ∑ i, Tᵀ j i * y i) (fun a _ b _ h => he h)]
  apply Finset.sum_subset (Finset.subset_univ _)
  intro j _ hj
  rw [h0 i j (by
    rintro ⟨x, rfl⟩
    exact hj (Finset.mem_image.2 ⟨x, Finset.mem_univ _, rfl⟩)), zero_mul]

/-- Two TOAs with unit noise, a process on each of variance 2 and 3; the mean of the first is that given the second as noise. -/
example (r : Fin 2 → ℝ) : let T : Matrix (Fin 2) (Fin 2) ℝ := 1
    let Φ : Matrix (Fin 2) (Fin 2) ℝ := diagonal ![2, 3]
    ((Tᵀ * (projN 1 (0 : Matrix (Fin 2) (Fin 0) ℝ) * T) + Φ⁻¹)⁻¹ *ᵥ (Tᵀ *ᵥ (projN 1 (0 : Matrix (Fin 2) (Fin 0) ℝ) *ᵥ r))) 0 =
      postMean (diagonal ![1, 4]) (0 : Matrix (Fin 2) (Fin 0) ℝ) (of ![![1], ![0]]) (diagonal ![2]) r 0 := by
  have hp : ∀ {n : Nat} (v : Fin n → ℝ), (∀ i, 0 < v i) → (diagonal v).PosDef := fun v h => posDef_diagonal_iff.2 h
  refine C58_mean (e := ![0]) PosDef.one (fun a b _ => Subsingleton.elim a b) (hp _ ?_) _ _ (hp _ ?_) _ (hp _ ?_) _ ?_ ?_ ?_ ?_ ?_ r 0
  · intro i; fin_cases i <;> norm_num
  · intro i; fin_cases i <;> norm_num
  · intro i; fin_cases i; norm_num
  · exact fun a b _ => Subsingleton.elim a b
  · intro i j
    obtain rfl : j = 0 := Subsingleton.elim _ _
    show _ = (1 : Matrix (Fin 2) (Fin 2) ℝ) i 0
    match i with
    | 0 => simp
    | 1 => simp
  · intro i j; fin_cases i; fin_cases j; simp
  · intro i j hj
    fin_cases i
    have : (0 : Fin 2) ≠ j := fun h => hj ⟨0, h⟩
    simp [diagonal_apply_ne _ this]
  · ext i j
    fin_cases i <;> fin_cases j <;> simp [Matrix.mul_apply, diagonal_apply, vecMul, dotProduct] <;> norm_num

end Mean

/-! ## The singular value decomposition of a positive definite matrix -/

theorem sqrt_unique {d : Nat} {A B : Matrix (Fin d) (Fin d) ℝ} (hA : A.PosDef) (hB : B.PosSemidef)
    (h : A * A = B * B) : A = B := by
  have hAs : Aᵀ = A := by
    have := hA.isHermitian
    rwa [IsHermitian, conjTranspose_eq_transpose_of_trivial] at this
  have hBs : Bᵀ = B := by
    have := hB.isHermitian
    rwa [IsHermitian, conjTranspose_eq_transpose_of_trivial] at this
  have hD : (A - B)ᵀ = A - B := by rw [transpose_sub, hAs, hBs]
  have e : (A - B) * A + B * (A - B) = 0 := by
    rw [Matrix.sub_mul, Matrix.mul_sub, h]; abel
  have htr : ((A - B) * A * (A - B)).trace + ((A - B) * B * (A - B)).trace = 0 := by
    have h1 : ((A - B) * A * (A - B)).trace = ((A - B) * ((A - B) * A)).trace := by
      rw [trace_mul_comm, ← Matrix.mul_assoc]
    rw [h1, Matrix.mul_assoc (A - B) B, ← trace_add, ← Matrix.mul_add, e, Matrix.mul_zero, trace_zero]
  have hP1 := hA.posSemidef.conjTranspose_mul_mul_same (A - B)
  have hP2 := hB.conjTranspose_mul_mul_same (A - B)
  rw [conjTranspose_eq_transpose_of_trivial, hD] at hP1 hP2
  have ht1 := hP1.trace_nonneg
  have ht2 := hP2.trace_nonneg
  have hz : ((A - B) * A * (A - B)).trace = 0 := by linarith
  have hdiag : ∀ i, ((A - B) * A * (A - B)) i i = 0 := by
    intro i
    have := (Finset.sum_eq_zero_iff_of_nonneg fun j _ => hP1.diag_nonneg (i := j)).1 hz i (Finset.mem_univ i)
    exact this
  have hcol : ∀ i, (A - B) *ᵥ Pi.single i 1 = 0 := by
    intro i
    by_contra hne
    have hp := hA.dotProduct_mulVec_pos hne
    rw [star_trivial] at hp
    have : ((A - B) *ᵥ Pi.single i 1) ⬝ᵥ (A *ᵥ ((A - B) *ᵥ Pi.single i 1)) = ((A - B) * A * (A - B)) i i := by
      have h1 : ∀ y : Fin d → ℝ, ((A - B) *ᵥ Pi.single i 1) ⬝ᵥ y = ((A - B) *ᵥ y) i := by
        intro y
        rw [← vecMul_transpose, hD, ← dotProduct_mulVec, single_dotProduct, one_mul]
      rw [h1, mulVec_mulVec, mulVec_mulVec]
      simp
    rw [this, hdiag i] at hp
    exact lt_irrefl _ hp
  have : A - B = 0 := by
    ext i j
    have := congrFun (hcol j) i
    simpa [mulVec_single_one] using this
  exact sub_eq_zero.1 this

variable {d : Nat} {S : Matrix (Fin d) (Fin d) ℝ}

/-- For a positive definite matrix the two factors agree. -/
theorem svd_symm (hS : S.PosDef) (c : Svd S) : S = c.u * diagonal c.s * c.uᵀ := by
  apply sqrt_unique hS
  · have h := (PosSemidef.diagonal (R := ℝ) (d := c.s) fun i => c.hs i).mul_mul_conjTranspose_same c.u
    rwa [conjTranspose_eq_transpose_of_trivial] at h
  · have hSs : Sᵀ = S := by
      have := hS.isHermitian
      rwa [IsHermitian, conjTranspose_eq_transpose_of_trivial] at this
    have h1 : S * S = S * Sᵀ := by rw [hSs]
    have h2 : S * Sᵀ = c.u * diagonal c.s * (c.v * c.vᵀ) * diagonal c.s * c.uᵀ := by
      conv_lhs => rw [c.prod]
      simp only [transpose_mul, diagonal_transpose, Matrix.mul_assoc]
    rw [h1, h2, c.hv, Matrix.mul_one]
    have h3 : c.u * diagonal c.s * c.uᵀ * (c.u * diagonal c.s * c.uᵀ) =
        c.u * diagonal c.s * (c.uᵀ * c.u) * diagonal c.s * c.uᵀ := by simp only [Matrix.mul_assoc]
    rw [h3, c.hu, Matrix.mul_one]

theorem svd_pos (hS : S.PosDef) (c : Svd S) (i : Fin d) : 0 < c.s i := by
  refine lt_of_le_of_ne (c.hs i) fun h => ?_
  have hdet : S.det = 0 := by
    rw [c.prod, det_mul, det_mul, det_diagonal, Finset.prod_eq_zero (Finset.mem_univ i) h.symm]
    ring
  exact hS.det_pos.ne' hdet

theorem svd_inv (hS : S.PosDef) (c : Svd S) : S⁻¹ = c.u * diagonal (fun i => 1 / c.s i) * c.uᵀ := by
  have hu' : c.u * c.uᵀ = 1 := mul_eq_one_comm.1 c.hu
  apply inv_eq_right_inv
  refine (congrArg (fun X => X * (c.u * diagonal (fun i => 1 / c.s i) * c.uᵀ)) (svd_symm hS c)).trans ?_
  show c.u * diagonal c.s * c.uᵀ * (c.u * diagonal (fun i => 1 / c.s i) * c.uᵀ) = 1
  have h3 : c.u * diagonal c.s * c.uᵀ * (c.u * diagonal (fun i => 1 / c.s i) * c.uᵀ) =
      c.u * (diagonal c.s * (c.uᵀ * c.u) * diagonal fun i => 1 / c.s i) * c.uᵀ := by simp only [Matrix.mul_assoc]
  rw [h3, c.hu, Matrix.mul_one, diagonal_mul_diagonal]
  have : (diagonal fun i => c.s i * (1 / c.s i)) = (1 : Matrix (Fin d) (Fin d) ℝ) := by
    rw [← diagonal_one]
    congr 1
    funext i
    simp [(svd_pos hS c i).ne']
  rw [this, Matrix.mul_one, hu']

/-- The mean from the singular value decomposition solves the system. -/
theorem svdMean_eq (hS : S.PosDef) (c : Svd S) (b : Fin d → ℝ) : svdMean c b = S⁻¹ *ᵥ b := by
  rw [svd_inv hS c, svdMean, ← mulVec_mulVec, ← mulVec_mulVec]
  congr 1
  funext i
  rw [mulVec_diagonal]
  ring

/-! ## Draws -/

/-- Specification: applied to independent standard normal deviates, `f` gives a Gaussian vector of covariance `Q`:
`f` is a linear map whose matrix `B` has `B Bᵀ = Q`. -/
def HasCov (f : (Fin d → ℝ) → Fin d → ℝ) (Q : Matrix (Fin d) (Fin d) ℝ) : Prop :=
  ∃ B : Matrix (Fin d) (Fin d) ℝ, (∀ z, f z = B *ᵥ z) ∧ B * Bᵀ = Q

theorem inv_factor {L : Matrix (Fin d) (Fin d) ℝ} : Lᵀ⁻¹ * Lᵀ⁻¹ᵀ = (L * Lᵀ)⁻¹ := by
  rw [transpose_nonsing_inv, transpose_transpose, Matrix.mul_inv_rev]

/-- C85: the dense draws of `ConditionalGP` have the covariance of the conditional Gaussian. -/
theorem C85_dense (hS : S.PosDef) (c : DenseChol S) : HasCov c.draw S⁻¹ :=
  ⟨c.Lᵀ⁻¹, fun _ => rfl, by rw [inv_factor, ← c.spec hS]⟩

/-- C85: so do its sparse draws. -/
theorem C85_sparse (hS : S.PosDef) (c : SparseChol S) : HasCov c.draw S⁻¹ := by
  refine ⟨c.Lᵀ⁻¹.submatrix c.perm.symm id, fun z => ?_, ?_⟩
  · funext i; rfl
  · rw [transpose_submatrix, ← submatrix_mul _ _ _ id _ Function.bijective_id, inv_factor, ← c.spec hS,
      inv_submatrix_equiv, submatrix_submatrix]
    simp

/-- C85: so do the draws of `get_coefficients` from the singular value decomposition. -/
theorem C85_svd (hS : S.PosDef) (c : Svd S) : HasCov (svdDraw c) S⁻¹ := by
  refine ⟨_, fun _ => rfl, ?_⟩
  rw [svd_inv hS c]
  have : (of fun i j => c.u i j * Real.sqrt (1 / c.s j)) = c.u * diagonal fun j => Real.sqrt (1 / c.s j) := by
    ext i j; rw [mul_diagonal, of_apply]
  rw [this, transpose_mul, diagonal_transpose]
  have h3 : (c.u * diagonal fun j => Real.sqrt (1 / c.s j)) * ((diagonal fun j => Real.sqrt (1 / c.s j)) * c.uᵀ) =
      c.u * ((diagonal fun j => Real.sqrt (1 / c.s j)) * diagonal fun j => Real.sqrt (1 / c.s j)) * c.uᵀ := by
    simp only [Matrix.mul_assoc]
  rw [h3, diagonal_mul_diagonal]
  congr 3
  funext j
  exact Real.mul_self_sqrt (by have := svd_pos hS c j; positivity)

/-- The covariance determines whether a linear map is right. -/
theorem hasCov_iff (B : Matrix (Fin d) (Fin d) ℝ) (Q : Matrix (Fin d) (Fin d) ℝ) :
    HasCov (fun z => B *ᵥ z) Q ↔ B * Bᵀ = Q := by
  constructor
  · rintro ⟨B', h, e⟩
    have : B = B' := by
      ext i j
      have := congrFun (h (Pi.single j 1)) i
      simpa [mulVec_single_one] using this
    rw [this, e]
  · exact fun h => ⟨B, fun _ => rfl, h⟩

/-- Coefficient precisions 1 and 4, and a factorization that pivots the second to the front. -/
noncomputable def pivoted : SparseChol (diagonal ![1, 4] : Matrix (Fin 2) (Fin 2) ℝ) where
  perm := Equiv.swap 0 1
  L := diagonal ![2, 1]
  spec _ := by
    ext i j
    fin_cases i <;> fin_cases j <;> simp <;> norm_num

/-- C85 fails for the draws of `get_coefficients(common_sparse=True)`, which leave the permutation out: here the
variances 1 and 1/4 come out exchanged. -/
theorem C85_common_sparse_false : (diagonal ![1, 4] : Matrix (Fin 2) (Fin 2) ℝ).PosDef ∧
    HasCov pivoted.drawL (diagonal ![1 / 4, 1]) ∧ ¬ HasCov pivoted.drawL (diagonal ![1, 4] : Matrix (Fin 2) (Fin 2) ℝ)⁻¹ := by
  have hL : (diagonal ![(2 : ℝ), 1])⁻¹ = diagonal ![1 / 2, 1] := by
    apply inv_eq_right_inv
    ext i j
    fin_cases i <;> fin_cases j <;> simp [diagonal_mul]
  have hS : (diagonal ![(1 : ℝ), 4])⁻¹ = diagonal ![1, 1 / 4] := by
    apply inv_eq_right_inv
    ext i j
    fin_cases i <;> fin_cases j <;> simp [diagonal_mul]
  have hcov : HasCov pivoted.drawL (diagonal ![1 / 4, 1]) := by
    have : pivoted.drawL = fun z => (diagonal ![(1 / 2 : ℝ), 1])ᵀ *ᵥ z := by
      funext z
      show ((diagonal ![(2 : ℝ), 1])⁻¹)ᵀ *ᵥ z = _
      rw [hL]
    rw [this, hasCov_iff, diagonal_transpose, diagonal_transpose, diagonal_mul_diagonal]
    congr 1
    funext i
    fin_cases i <;> norm_num
  refine ⟨PosDef.diagonal fun i => by fin_cases i <;> norm_num, hcov, ?_⟩
  rw [hS]
  intro h
  have : pivoted.drawL = fun z => pivoted.L⁻¹ᵀ *ᵥ z := rfl
  rw [this, hasCov_iff] at h hcov
  rw [hcov] at h
  have := congrFun (congrFun h 0) 0
  norm_num at this

/-- C85: what `common_sparse=True` needs: the factorization did not permute. -/
theorem C85_common_sparse_partial (hS : S.PosDef) (c : SparseChol S) (hp : c.perm = 1) : HasCov c.drawL S⁻¹ := by
  refine ⟨_, fun _ => rfl, ?_⟩
  have := c.spec hS
  rw [hp] at this
  have e : S = c.L * c.Lᵀ := by rw [← this]; rfl
  rw [transpose_transpose, transpose_nonsing_inv, ← Matrix.mul_inv_rev, ← e]

/-- What a draw of the fallback of `get_coefficients` adds to the conditional mean, for deviates `z`. -/
noncomputable def fallbackDraw (S : Matrix (Fin d) (Fin d) ℝ) (c : Svd S⁻¹) (b : Fin d → ℝ) (z : Fin d → ℝ) : Fin d → ℝ :=
  fallbackCoef S c b (some fun i => if h : i < d then z ⟨i, h⟩ else 0) - S⁻¹ *ᵥ b

/-- C85 fails for the fallback of `get_coefficients` when the singular value decomposition of `Sigma` does not converge: the
draws have the covariance `Sigma` instead of its inverse.  (The mean is right.) -/
theorem C85_fallback_false (hS : S.PosDef) (hne : S ≠ S⁻¹) (c : Svd S⁻¹) (b : Fin d → ℝ) :
    fallbackCoef S c b none = S⁻¹ *ᵥ b ∧ HasCov (fallbackDraw S c b) S ∧ ¬ HasCov (fallbackDraw S c b) S⁻¹ := by
  have hf : fallbackDraw S c b = svdDraw c := by
    funext z
    simp [fallbackDraw, fallbackCoef]
  have h := C85_svd hS.inv c
  rw [nonsing_inv_nonsing_inv _ hS.det_pos.ne'.isUnit] at h
  refine ⟨by simp [fallbackCoef], hf ▸ h, ?_⟩
  rw [hf]
  intro h'
  have e : svdDraw c = fun z => (of fun i j => c.u i j * Real.sqrt (1 / c.s j)) *ᵥ z := rfl
  rw [e, hasCov_iff] at h h'
  exact hne (h.symm.trans h')

/-- Coefficient precision 4: the draws have the variance 4 instead of 1/4. -/
example : (diagonal fun _ : Fin 1 => (4 : ℝ)).PosDef ∧ (diagonal fun _ : Fin 1 => (4 : ℝ)) ≠ (diagonal fun _ : Fin 1 => (4 : ℝ))⁻¹ ∧
    Nonempty (Svd (diagonal fun _ : Fin 1 => (4 : ℝ))⁻¹) := by
  have hinv : (diagonal fun _ : Fin 1 => (4 : ℝ))⁻¹ = diagonal fun _ => 1 / 4 := by
    apply inv_eq_right_inv
    rw [diagonal_mul_diagonal, ← diagonal_one]
    congr 1
    funext i
    norm_num
  refine ⟨PosDef.diagonal fun _ => by norm_num, ?_, ⟨1, fun _ => 1 / 4, 1, by simp, by simp, fun _ => by norm_num, ?_⟩⟩
  · rw [hinv]
    intro h
    have := congrFun (congrFun h 0) 0
    norm_num at this
  · rw [hinv]; simp

end Verif.Coefficients
