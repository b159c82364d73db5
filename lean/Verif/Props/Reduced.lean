import Verif.Props.Truth
import Mathlib.Data.Matrix.ColumnRowPartitioned
import Mathlib.LinearAlgebra.Matrix.SchurComplement
import Mathlib.Analysis.InnerProductSpace.PiL2
import Mathlib.Analysis.InnerProductSpace.Projection.FiniteDimensional

/-!
# The likelihood with marginalized timing models and the reduced data

C135: marginalizing over a timing model is to keep of the data only what no timing model can change: the likelihood is that of the residuals projected by any matrix that annihilates the columns.
-/

namespace Verif.Reduced

open Verif Verif.Likelihood Verif.Noise Verif.Combine Verif.Joined Verif.Standard Verif.Background Verif.StdArray Verif.Limit Verif.Truth Matrix
open MeasureTheory (Integrable)
open Verif.Orf (Pos orfMatrix)
open Verif.Partition (Svd)

variable {n m k : Nat}

/-- The columns of `G` are orthonormal, orthogonal to those of `M`, and there are as many as possible. -/
structure Annihilates (M : Matrix (Fin n) (Fin m) ℝ) (G : Matrix (Fin n) (Fin k) ℝ) : Prop where
  orth : Mᵀ * G = 0
  unit : Gᵀ * G = 1
  dim : m + k = n

theorem exists_annihilator {M : Matrix (Fin n) (Fin m) ℝ} (hM : Function.Injective M.mulVec) :
    ∃ (k : Nat) (G : Matrix (Fin n) (Fin k) ℝ), Annihilates M G := by
  let f : (Fin m → ℝ) →ₗ[ℝ] EuclideanSpace ℝ (Fin n) := (WithLp.linearEquiv 2 ℝ (Fin n → ℝ)).symm.toLinearMap ∘ₗ M.mulVecLin
  have hf : Function.Injective f := (WithLp.linearEquiv 2 ℝ (Fin n → ℝ)).symm.injective.comp hM
  let b := stdOrthonormalBasis ℝ f.rangeᗮ
  have hin : ∀ x y : EuclideanSpace ℝ (Fin n), inner ℝ x y = ∑ i, y i * x i := by
    intro x y
    rw [EuclideanSpace.inner_eq_star_dotProduct]
    simp [dotProduct]
  refine ⟨Module.finrank ℝ f.rangeᗮ, of fun i j => (b j : EuclideanSpace ℝ (Fin n)) i, ?_, ?_, ?_⟩
  · ext i j
    rw [mul_apply, Matrix.zero_apply]
    have h1 : f (Pi.single i 1) ∈ f.range := LinearMap.mem_range_self f _
    have h2 := (b j).2 _ h1
    rw [hin] at h2
    refine Eq.trans (Finset.sum_congr rfl fun r _ => ?_) h2
    have : (f (Pi.single i 1)) r = M r i := by
      show (M *ᵥ Pi.single i 1) r = _
      simp
    rw [this, transpose_apply, of_apply, mul_comm]
  · ext i j
    rw [mul_apply, one_apply]
    have h1 := orthonormal_iff_ite.1 b.orthonormal i j
    rw [Submodule.coe_inner, hin] at h1
    rw [← h1]
    refine Finset.sum_congr rfl fun r _ => ?_
    rw [transpose_apply, of_apply, of_apply, mul_comm]
  · have h1 := f.range.finrank_add_finrank_orthogonal
    rw [LinearMap.finrank_range_of_inj hf] at h1
    simpa using h1

section algebra

variable {M : Matrix (Fin n) (Fin m) ℝ} {G : Matrix (Fin n) (Fin k) ℝ} {C : Matrix (Fin n) (Fin n) ℝ}

theorem gram_unit (hM : Function.Injective M.mulVec) : (Mᵀ * M).PosDef := by
  have := PosDef.one.conjTranspose_mul_mul_same hM
  rwa [conjTranspose_eq_transpose_of_trivial, Matrix.mul_one] at this

/-- All columns together as a square matrix. -/
noncomputable def both (M : Matrix (Fin n) (Fin m) ℝ) (G : Matrix (Fin n) (Fin k) ℝ) (h : m + k = n) : Matrix (Fin n) (Fin n) ℝ :=
  (fromCols M G).submatrix id (finSumFinEquiv.trans (finCongr h)).symm

theorem both_mul (h : m + k = n) (A : Matrix (Fin n) (Fin n) ℝ) :
    (both M G h)ᵀ * A * both M G h = (fromBlocks (Mᵀ * A * M) (Mᵀ * A * G) (Gᵀ * A * M) (Gᵀ * A * G)).submatrix
      (finSumFinEquiv.trans (finCongr h)).symm (finSumFinEquiv.trans (finCongr h)).symm := by
  rw [← fromRows_mul_fromCols, ← fromRows_mul, ← transpose_fromCols]
  rfl

theorem both_gram (hG : Annihilates M G) : (both M G hG.dim)ᵀ * both M G hG.dim = (fromBlocks (Mᵀ * M) 0 0 1).submatrix
      (finSumFinEquiv.trans (finCongr hG.dim)).symm (finSumFinEquiv.trans (finCongr hG.dim)).symm := by
  have h1 := both_mul (M := M) (G := G) hG.dim 1
  have h2 : Gᵀ * M = 0 := by rw [← transpose_transpose (Gᵀ * M), transpose_mul, transpose_transpose, hG.orth, transpose_zero]
  simpa only [Matrix.mul_one, hG.orth, hG.unit, h2] using h1

theorem both_det (hG : Annihilates M G) : (both M G hG.dim).det ^ 2 = (Mᵀ * M).det := by
  have := congrArg det (both_gram hG)
  rwa [det_mul, det_transpose, ← sq, det_submatrix_equiv_self, det_fromBlocks_zero₂₁, det_one, mul_one] at this

/-- What `M` and `G` describe is everything. -/
theorem complete (hM : Function.Injective M.mulVec) (hG : Annihilates M G) : M * (Mᵀ * M)⁻¹ * Mᵀ + G * Gᵀ = 1 := by
  have hMM := gram_unit hM
  have hu := Noise.det_unit hMM
  have hB : IsUnit (both M G hG.dim).det := by
    refine isUnit_iff_ne_zero.2 fun h => ?_
    have := both_det hG
    rw [h] at this
    exact hMM.det_pos.ne' (by simpa using this.symm)
  -- `X = M (MᵀM)⁻¹ Mᵀ + G Gᵀ` fixes `M` and `G`
  have hGM : Gᵀ * M = 0 := by rw [← transpose_transpose (Gᵀ * M), transpose_mul, transpose_transpose, hG.orth, transpose_zero]
  set X := M * (Mᵀ * M)⁻¹ * Mᵀ + G * Gᵀ with hX
  have h1 : X * M = M := by
    rw [hX, Matrix.add_mul, Matrix.mul_assoc, Matrix.mul_assoc, nonsing_inv_mul _ hu, Matrix.mul_one, Matrix.mul_assoc, hGM, Matrix.mul_zero, add_zero]
  have h2 : X * G = G := by
    rw [hX, Matrix.add_mul, Matrix.mul_assoc, hG.orth, Matrix.mul_zero, zero_add, Matrix.mul_assoc, hG.unit, Matrix.mul_one]
  have h3 : X * both M G hG.dim = both M G hG.dim := by
    have : X * fromCols M G = fromCols M G := by rw [mul_fromCols, h1, h2]
    unfold both
    rw [← this]
    ext i j
    rw [submatrix_apply, this]
    exact congrFun (congrFun this _) _
  have h4 := congrArg (· * (both M G hG.dim)⁻¹) h3
  simpa only [Matrix.mul_assoc, mul_nonsing_inv _ hB, Matrix.mul_one] using h4

theorem reduced_posDef (hC : C.PosDef) (hG : Annihilates M G) : (Gᵀ * C * G).PosDef := by
  have hi : Function.Injective G.mulVec := by
    intro x y h
    have := congrArg (Gᵀ *ᵥ ·) h
    simpa only [mulVec_mulVec, hG.unit, one_mulVec] using this
  have := hC.conjTranspose_mul_mul_same hi
  rwa [conjTranspose_eq_transpose_of_trivial] at this

/-- The projected inverse is the inverse of the covariance of the reduced data. -/
theorem projN_reduced (hC : C.PosDef) (hM : Function.Injective M.mulVec) (hG : Annihilates M G) :
    projN C M = G * (Gᵀ * C * G)⁻¹ * Gᵀ := by
  have hc := complete hM hG
  have hGG : G * Gᵀ = 1 - M * (Mᵀ * M)⁻¹ * Mᵀ := by rw [← hc]; abel
  have h1 : projN C M * (G * Gᵀ) = projN C M := by
    rw [hGG, Matrix.mul_sub, Matrix.mul_one, Matrix.mul_assoc M, ← Matrix.mul_assoc, projN_mul C M hC hM, Matrix.zero_mul, sub_zero]
  have h2 : (G * Gᵀ) * projN C M = projN C M := by
    rw [hGG, Matrix.sub_mul, Matrix.one_mul, Matrix.mul_assoc _ Mᵀ, mul_projN C M hC hM, Matrix.mul_zero, sub_zero]
  have h3 : projN C M * C * G = G := by
    unfold projN
    rw [Matrix.sub_mul, Matrix.sub_mul, nonsing_inv_mul _ (Noise.det_unit hC), Matrix.one_mul, Matrix.mul_assoc _ C⁻¹ C,
      nonsing_inv_mul _ (Noise.det_unit hC), Matrix.mul_one, Matrix.mul_assoc _ Mᵀ, hG.orth, Matrix.mul_zero, sub_zero]
  have h4 : (Gᵀ * projN C M * G) * (Gᵀ * C * G) = 1 := by
    calc (Gᵀ * projN C M * G) * (Gᵀ * C * G) = Gᵀ * (projN C M * (G * Gᵀ)) * C * G := by simp only [Matrix.mul_assoc]
      _ = Gᵀ * (projN C M * C * G) := by rw [h1]; simp only [Matrix.mul_assoc]
      _ = 1 := by rw [h3, hG.unit]
  rw [inv_eq_left_inv h4]
  calc projN C M = (G * Gᵀ) * projN C M * (G * Gᵀ) := by rw [h2, h1]
    _ = _ := by simp only [Matrix.mul_assoc]

theorem det_reduced (hC : C.PosDef) (hM : Function.Injective M.mulVec) (hG : Annihilates M G) :
    C.det * (Mᵀ * C⁻¹ * M).det = (Gᵀ * C * G).det * (Mᵀ * M).det := by
  have hu := Noise.det_unit hC
  have hR := reduced_posDef hC hG
  have hS := gram_posDef C M hC hM
  have hMM := gram_unit hM
  have h1 := congrArg det (both_mul (M := M) (G := G) hG.dim C)
  have : Invertible (Gᵀ * C * G) := invertibleOfIsUnitDet _ (Noise.det_unit hR)
  rw [det_mul, det_mul, det_transpose, det_submatrix_equiv_self, det_fromBlocks₂₂, invOf_eq_nonsing_inv] at h1
  have h2 : C * projN C M * C = C - M * (Mᵀ * C⁻¹ * M)⁻¹ * Mᵀ := by
    unfold projN
    rw [Matrix.mul_sub, mul_nonsing_inv _ hu, Matrix.sub_mul, Matrix.one_mul]
    congr 1
    calc C * (C⁻¹ * M * (Mᵀ * C⁻¹ * M)⁻¹ * Mᵀ * C⁻¹) * C = (C * C⁻¹) * M * (Mᵀ * C⁻¹ * M)⁻¹ * Mᵀ * (C⁻¹ * C) := by
          simp only [Matrix.mul_assoc]
      _ = _ := by rw [mul_nonsing_inv _ hu, nonsing_inv_mul _ hu, Matrix.mul_one, Matrix.one_mul]
  have h3 : Mᵀ * C * M - Mᵀ * C * G * (Gᵀ * C * G)⁻¹ * (Gᵀ * C * M) = (Mᵀ * M) * (Mᵀ * C⁻¹ * M)⁻¹ * (Mᵀ * M) := by
    calc Mᵀ * C * M - Mᵀ * C * G * (Gᵀ * C * G)⁻¹ * (Gᵀ * C * M) = Mᵀ * C * M - Mᵀ * (C * (G * (Gᵀ * C * G)⁻¹ * Gᵀ) * C) * M := by
          simp only [Matrix.mul_assoc]
      _ = _ := by
          rw [← projN_reduced hC hM hG, h2, Matrix.mul_sub, Matrix.sub_mul, sub_sub_cancel]
          simp only [Matrix.mul_assoc]
  rw [h3, det_mul, det_mul, det_nonsing_inv, Ring.inverse_eq_inv'] at h1
  have hb := both_det hG
  have h5 : C.det * (Mᵀ * M).det = (Gᵀ * C * G).det * ((Mᵀ * M).det * (Mᵀ * C⁻¹ * M).det⁻¹ * (Mᵀ * M).det) := by
    rw [← h1, ← hb]
    ring
  have e1 := hMM.det_pos.ne'
  have e2 := hS.det_pos.ne'
  field_simp at h5
  linear_combination h5

/-- The marginalized log-likelihood is that of the reduced data, up to a constant that only the columns determine. -/
theorem margLog_reduced (hC : C.PosDef) (hM : Function.Injective M.mulVec) (hG : Annihilates M G) (r : Fin n → ℝ) :
    margLog C M r = gaussLog (Gᵀ * C * G) (Gᵀ *ᵥ r) - 1 / 2 * (Real.log (Mᵀ * M).det + m * Real.log (10 ^ 40)) := by
  have h1 : Real.log C.det + Real.log (Mᵀ * C⁻¹ * M).det = Real.log (Gᵀ * C * G).det + Real.log (Mᵀ * M).det := by
    rw [← Real.log_mul hC.det_pos.ne' (gram_posDef C M hC hM).det_pos.ne', det_reduced hC hM hG,
      Real.log_mul (reduced_posDef hC hG).det_pos.ne' (gram_unit hM).det_pos.ne']
  have h2 : r ⬝ᵥ (projN C M *ᵥ r) = (Gᵀ *ᵥ r) ⬝ᵥ ((Gᵀ * C * G)⁻¹ *ᵥ (Gᵀ *ᵥ r)) := by
    rw [projN_reduced hC hM hG, ← mulVec_mulVec, ← mulVec_mulVec, dotProduct_mulVec, ← mulVec_transpose]
  rw [margLog, gaussLog, h2]
  linear_combination -(1 / 2) * h1

end algebra

/-! ## Arrays of pulsars -/

/-- A model of an array: the usual common processes with overlaps that are positive definite, and pulsars with the usual signals; timing models
may be marginalized over or not. -/
structure Fit (method : Method) (seeded : Int → Bases.Rng) (orf : Nat → Pos → Pos → ℝ) (ks : List Plaw) (ds : List (Std × Labels)) : Prop where
  usual : ∀ k ∈ ks, k.Usual
  suits : Suits method ks
  some : ks ≠ [] ∨ ∀ d ∈ ds, d.1.procs ≠ [] ∨ d.1.marg = false
  ok : ∀ d ∈ ds, d.1.Ok seeded d.2
  orf : ∀ c, c < ks.length → (orfMatrix (orf c) fun u : Fin ds.length => (ds[u]).1.pos).PosDef
  distinct : ∀ k ∈ ks, k.combine = true → ∀ d ∈ ds, DistinctAt k.args.nmodes k.T d.1.toas

/-- The constant: it depends on the marginalized columns only. -/
noncomputable def offset (M : Matrix (Fin n) (Fin m) ℝ) : ℝ := 1 / 2 * (Real.log (Mᵀ * M).det + m * Real.log (10 ^ 40))

/-- `M` is the matrix of the marginalized columns, with the sizes given. -/
structure IsColumns (ds : List (Std × Labels)) (M : Matrix (Fin n) (Fin m) ℝ) : Prop where
  rows : size ds = n
  cols : (ds.map fun d => d.1.wide).sum = m
  entry : ∀ i j, StdArray.columns ds i j = M (Fin.cast rows i) (Fin.cast cols j)

/-- C135: for any `G` whose orthonormal columns are those directions that no marginalized timing-model column has a part in, the log-likelihood of
any residuals is the Gaussian one of `Gᵀ (residuals - delays)` with the covariance `Gᵀ C G`, up to a constant set by the columns. -/
theorem C135_reduced {H : Type} [DecidableEq H] (hash : Col ℝ → H) (hh : Function.Injective hash)
    (svd : ∀ {n : Nat} (M : Matrix (Fin n) (Fin n) ℝ), Svd M) {method : Method} (argsort : List ℝ → List Nat)
    (hsort : ∀ l, Quantize.IsArgsort l (argsort l)) {seeded : Int → Bases.Rng} {orf : Nat → Pos → Pos → ℝ} {ks : List Plaw}
    {ds : List (Std × Labels)} (h : Fit method seeded orf ks ds) {M : Matrix (Fin n) (Fin m) ℝ} (hM : IsColumns ds M) :
    Function.Injective M.mulVec ∧
    ∃ same : Nat → Nat → Nat → Bool, (∀ a d, ds[a]? = some d → Epoch d.1.toas d.1.dt d.1.emasks (same a)) ∧
      ∃ C : Matrix (Fin n) (Fin n) ℝ, C.PosDef ∧ IsCov orf ks ds same (C.submatrix (Fin.cast hM.rows) (Fin.cast hM.rows)) ∧
        ∀ (y : Fin n → ℝ) (rng : Bases.Rng), ∃ ps, pta argsort seeded (ks.map Plaw.common) ((give ds (out y)).map Prod.fst) rng = .ok ps ∧
          ∀ (k : Nat) (G : Matrix (Fin n) (Fin k) ℝ), Annihilates M G →
            likelihood hash svd method orf ps =
              .ok (some (gaussLog (Gᵀ * C * G) (Gᵀ *ᵥ (y - fun r : Fin n => delaysOf ds r)) - offset M)) := by
  obtain ⟨rfl, rfl, hM⟩ := hM
  obtain rfl : StdArray.columns ds = M := by
    ext i j
    exact hM i j
  have hinj := Wide.columns_injective h.ok
  obtain ⟨same, h1, C, h2, h3, h4⟩ := Truth.data hash hh svd method argsort hsort seeded orf ks h.usual h.suits ds h.some h.ok h.orf h.distinct
  refine ⟨hinj, same, h1, C, h2, h3, fun y rng => ?_⟩
  obtain ⟨ps, h5, h6⟩ := h4 y rng
  refine ⟨ps, h5, fun k G hG => ?_⟩
  rw [h6, margLog_reduced h2 hinj hG, offset]

theorem exp_offset (a b : ℝ) : Real.exp (a - b) = Real.exp (-b) * Real.exp a := by
  rw [← Real.exp_add]
  congr 1
  ring

/-- C135: the integral over the reduced data depends on the columns only, and, for data drawn from one model, no other model of the same TOAs with
the same marginalized columns has a larger expected log-likelihood; it is as large only if covariance and delays agree apart from what the
timing models absorb. -/
theorem C135_truth {H : Type} [DecidableEq H] (hash : Col ℝ → H) (hh : Function.Injective hash)
    (svd : ∀ {n : Nat} (M : Matrix (Fin n) (Fin n) ℝ), Svd M) {method method' : Method} (argsort : List ℝ → List Nat)
    (hsort : ∀ l, Quantize.IsArgsort l (argsort l)) {seeded : Int → Bases.Rng} {orf orf' : Nat → Pos → Pos → ℝ} {ks ks' : List Plaw}
    {ds ds' : List (Std × Labels)} (h : Fit method seeded orf ks ds) (h' : Fit method' seeded orf' ks' ds')
    {M : Matrix (Fin n) (Fin m) ℝ} (hM : IsColumns ds M) (hM' : IsColumns ds' M)
    {G : Matrix (Fin n) (Fin k) ℝ} (hG : Annihilates M G) :
    ∃ (same same' : Nat → Nat → Nat → Bool) (C C' : Matrix (Fin n) (Fin n) ℝ) (L L' : (Fin k → ℝ) → ℝ),
      (∀ a d, ds[a]? = some d → Epoch d.1.toas d.1.dt d.1.emasks (same a)) ∧
      (∀ a d, ds'[a]? = some d → Epoch d.1.toas d.1.dt d.1.emasks (same' a)) ∧
      IsCov orf ks ds same (C.submatrix (Fin.cast hM.rows) (Fin.cast hM.rows)) ∧
      IsCov orf' ks' ds' same' (C'.submatrix (Fin.cast hM'.rows) (Fin.cast hM'.rows)) ∧
      (∀ (y : Fin n → ℝ) (rng : Bases.Rng), ∃ ps, pta argsort seeded (ks.map Plaw.common) ((give ds (out y)).map Prod.fst) rng = .ok ps ∧
        likelihood hash svd method orf ps = .ok (some (L (Gᵀ *ᵥ y)))) ∧
      (∀ (y : Fin n → ℝ) (rng : Bases.Rng), ∃ ps, pta argsort seeded (ks'.map Plaw.common) ((give ds' (out y)).map Prod.fst) rng = .ok ps ∧
        likelihood hash svd method' orf' ps = .ok (some (L' (Gᵀ *ᵥ y)))) ∧
      Integrable (fun z => Real.exp (L z)) ∧ ∫ z, Real.exp (L z) = Real.exp (-offset M) * Real.sqrt ((2 * Real.pi) ^ k) ∧
      Integrable (fun z => Real.exp (L z) * L z) ∧ Integrable (fun z => Real.exp (L z) * L' z) ∧
      ∫ z, Real.exp (L z) * L' z ≤ ∫ z, Real.exp (L z) * L z ∧
      (∫ z, Real.exp (L z) * L' z = ∫ z, Real.exp (L z) * L z ↔
        Gᵀ * C * G = Gᵀ * C' * G ∧ (Gᵀ *ᵥ fun r : Fin n => delaysOf ds r) = Gᵀ *ᵥ fun r : Fin n => delaysOf ds' r) := by
  obtain ⟨-, same, h1, C, h2, h3, h4⟩ := C135_reduced hash hh svd argsort hsort h hM
  obtain ⟨-, same', h1', C', h2', h3', h4'⟩ := C135_reduced hash hh svd argsort hsort h' hM'
  have hR := reduced_posDef h2 hG
  have hR' := reduced_posDef h2' hG
  generalize hD : (Gᵀ *ᵥ fun r : Fin n => delaysOf ds r) = D
  generalize hD' : (Gᵀ *ᵥ fun r : Fin n => delaysOf ds' r) = D'
  have i1 := density hR D
  have i2 := density hR' D'
  have i3 := mean_integrable hR hR D D
  have i4 := mean_integrable hR hR' D D'
  have j1 : Integrable fun z => Real.exp (gaussLog (Gᵀ * C * G) (z - D) - offset M) := by
    simp only [exp_offset]
    exact i1.1.const_mul _
  have j2 : Integrable fun z => Real.exp (gaussLog (Gᵀ * C' * G) (z - D') - offset M) := by
    simp only [exp_offset]
    exact i2.1.const_mul _
  have v1 : ∫ z, Real.exp (gaussLog (Gᵀ * C * G) (z - D) - offset M) = Real.exp (-offset M) * Real.sqrt ((2 * Real.pi) ^ k) := by
    simp only [exp_offset]
    rw [MeasureTheory.integral_const_mul, i1.2]
  have v2 : ∫ z, Real.exp (gaussLog (Gᵀ * C' * G) (z - D') - offset M) = Real.exp (-offset M) * Real.sqrt ((2 * Real.pi) ^ k) := by
    simp only [exp_offset]
    rw [MeasureTheory.integral_const_mul, i2.2]
  have e : ∀ a b c : ℝ, Real.exp (a - c) * (b - c) = Real.exp (-c) * (Real.exp a * b) - c * Real.exp (-c) * Real.exp a := by
    intro a b c
    rw [exp_offset]
    ring
  have j3 : Integrable fun z => Real.exp (gaussLog (Gᵀ * C * G) (z - D) - offset M) * (gaussLog (Gᵀ * C * G) (z - D) - offset M) := by
    simp only [e]
    exact (i3.const_mul _).sub (i1.1.const_mul _)
  have j4 : Integrable fun z => Real.exp (gaussLog (Gᵀ * C * G) (z - D) - offset M) * (gaussLog (Gᵀ * C' * G) (z - D') - offset M) := by
    simp only [e]
    exact (i4.const_mul _).sub (i1.1.const_mul _)
  have hg := gibbs ((gauss_continuous (Gᵀ * C * G) D).sub continuous_const) ((gauss_continuous (Gᵀ * C' * G) D').sub continuous_const) j1 j2
    (v1.trans v2.symm) j3 j4
  refine ⟨same, same', C, C', fun z => gaussLog (Gᵀ * C * G) (z - D) - offset M, fun z => gaussLog (Gᵀ * C' * G) (z - D') - offset M,
    h1, h1', h3, h3', fun y rng => ?_, fun y rng => ?_, j1, v1, j3, j4, hg.1, fun he => ?_, fun ⟨e1, e2⟩ => ?_⟩
  · obtain ⟨ps, h5, h6⟩ := h4 y rng
    exact ⟨ps, h5, by rw [h6 k G hG, mulVec_sub, hD]⟩
  · obtain ⟨ps, h5, h6⟩ := h4' y rng
    exact ⟨ps, h5, by rw [h6 k G hG, mulVec_sub, hD']⟩
  · refine identify hR hR' D D' fun y => ?_
    have : gaussLog (Gᵀ * C' * G) (y - D') - offset M = gaussLog (Gᵀ * C * G) (y - D) - offset M := congrFun (hg.2 he) y
    linarith
  · rw [e1, e2]

/-- A background of unknown amplitude in a pulsar with ECORR, a process and a marginalized timing model. -/
theorem ex_fit (seeded : Int → Bases.Rng) (A : ℝ) :
    Fit .cliques seeded (fun _ _ _ => 1) [⟨{ nmodes := 1 }, true, A, 13 / 3, 4⟩] [(StdArray.exA, StdArray.exL)] where
  usual := (Truth.ex_fit seeded A).usual
  suits := .inr (.inr ⟨by simp, by simp⟩)
  some := .inl (by simp)
  ok := fun d hd => by
    obtain rfl := List.mem_singleton.1 hd
    exact (ex_ok seeded).1
  orf := fun c _ => by
    have : (orfMatrix (fun _ _ => 1) fun u : Fin [(StdArray.exA, StdArray.exL)].length => ([(StdArray.exA, StdArray.exL)][u]).1.pos) = 1 := by
      ext i j
      obtain rfl : i = j := Subsingleton.elim (α := Fin 1) i j
      rw [Matrix.one_apply_eq]
      rfl
    rw [this]
    exact PosDef.one
  distinct := fun k hk _ d hd => by
    obtain rfl : k = ⟨{ nmodes := 1 }, true, A, 13 / 3, 4⟩ := by simpa using hk
    obtain rfl := List.mem_singleton.1 hd
    exact one_distinct

example {H : Type} [DecidableEq H] (hash : Col ℝ → H) (hh : Function.Injective hash) (svd : ∀ {n : Nat} (M : Matrix (Fin n) (Fin n) ℝ), Svd M)
    (argsort : List ℝ → List Nat) (hsort : ∀ l, Quantize.IsArgsort l (argsort l)) (seeded : Int → Bases.Rng) :
    ∃ (k : Nat) (G : Matrix (Fin 2) (Fin k) ℝ) (L L' : (Fin k → ℝ) → ℝ),
      (∀ (y : Fin 2 → ℝ) (rng : Bases.Rng), ∃ ps, pta argsort seeded [(⟨{ nmodes := 1 }, true, -14, 13 / 3, 4⟩ : Plaw).common]
        [{ StdArray.exA with res := fun i => out y i }] rng = .ok ps ∧
        likelihood hash svd .cliques (fun _ _ _ => 1) ps = .ok (some (L (Gᵀ *ᵥ y)))) ∧
      (∀ (y : Fin 2 → ℝ) (rng : Bases.Rng), ∃ ps, pta argsort seeded [(⟨{ nmodes := 1 }, true, -15, 13 / 3, 4⟩ : Plaw).common]
        [{ StdArray.exA with res := fun i => out y i }] rng = .ok ps ∧
        likelihood hash svd .cliques (fun _ _ _ => 1) ps = .ok (some (L' (Gᵀ *ᵥ y)))) ∧
      ∫ z, Real.exp (L z) * L' z ≤ ∫ z, Real.exp (L z) * L z := by
  have hM : IsColumns [(StdArray.exA, StdArray.exL)] (StdArray.columns [(StdArray.exA, StdArray.exL)]) := ⟨rfl, rfl, fun _ _ => rfl⟩
  obtain ⟨k, G, hG⟩ := exists_annihilator (Wide.columns_injective (ex_fit seeded 0).ok)
  obtain ⟨_, _, _, _, L, L', -, -, -, -, h1, h2, -, -, -, -, h3, -⟩ :=
    C135_truth hash hh svd argsort hsort (ex_fit seeded (-14)) (ex_fit seeded (-15)) hM hM hG
  exact ⟨k, G, L, L', h1, h2, h3⟩

end Verif.Reduced
