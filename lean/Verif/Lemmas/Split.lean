import Verif.Props.Truth
import Mathlib.LinearAlgebra.Matrix.SchurComplement

/-!
# Gaussians in two parts

A Gaussian of two groups of variables is the marginal one of the first group times the conditional one of the second.
-/

namespace Verif.Split

open Verif Verif.Likelihood Matrix
open MeasureTheory (Integrable)

variable {N m k : Nat}

/-- The covariance of the first group. -/
def first (C : Matrix (Fin N) (Fin N) ℝ) (e : Fin m ⊕ Fin k ≃ Fin N) : Matrix (Fin m) (Fin m) ℝ := Matrix.of fun i j => C (e (.inl i)) (e (.inl j))

/-- The covariance of the first group with the second. -/
def mixed (C : Matrix (Fin N) (Fin N) ℝ) (e : Fin m ⊕ Fin k ≃ Fin N) : Matrix (Fin m) (Fin k) ℝ := Matrix.of fun i j => C (e (.inl i)) (e (.inr j))

/-- The covariance of the second group. -/
def second (C : Matrix (Fin N) (Fin N) ℝ) (e : Fin m ⊕ Fin k ≃ Fin N) : Matrix (Fin k) (Fin k) ℝ := Matrix.of fun i j => C (e (.inr i)) (e (.inr j))

/-- The covariance of the second group when the first is known. -/
noncomputable def left (C : Matrix (Fin N) (Fin N) ℝ) (e : Fin m ⊕ Fin k ≃ Fin N) : Matrix (Fin k) (Fin k) ℝ :=
  second C e - (mixed C e)ᵀ * (first C e)⁻¹ * mixed C e

/-- The mean of the second group when the first is known. -/
noncomputable def guess (C : Matrix (Fin N) (Fin N) ℝ) (e : Fin m ⊕ Fin k ≃ Fin N) (x : Fin m → ℝ) : Fin k → ℝ :=
  (mixed C e)ᵀ *ᵥ ((first C e)⁻¹ *ᵥ x)

/-- The values of both groups together. -/
def join (e : Fin m ⊕ Fin k ≃ Fin N) (y : Fin m → ℝ) (z : Fin k → ℝ) : Fin N → ℝ := fun r => Sum.elim y z (e.symm r)

theorem blocks {C : Matrix (Fin N) (Fin N) ℝ} (hC : C.IsHermitian) (e : Fin m ⊕ Fin k ≃ Fin N) :
    C.submatrix e e = fromBlocks (first C e) (mixed C e) (mixed C e)ᵀ (second C e) := by
  have hs : ∀ i j, C i j = C j i := fun i j => by simpa using (hC.apply i j).symm
  ext i j
  rcases i with i | i <;> rcases j with j | j <;> simp [first, mixed, second, fromBlocks]
  exact hs _ _

theorem first_pos {C : Matrix (Fin N) (Fin N) ℝ} (hC : C.PosDef) (e : Fin m ⊕ Fin k ≃ Fin N) : (first C e).PosDef :=
  hC.submatrix (e := fun i => e (.inl i)) (fun i j h => by simpa using h)

theorem first_symm {C : Matrix (Fin N) (Fin N) ℝ} (hC : C.PosDef) (e : Fin m ⊕ Fin k ≃ Fin N) : ((first C e)⁻¹)ᵀ = (first C e)⁻¹ := by
  simpa [conjTranspose_eq_transpose_of_trivial] using (first_pos hC e).inv.isHermitian.eq

theorem left_pos {C : Matrix (Fin N) (Fin N) ℝ} (hC : C.PosDef) (e : Fin m ⊕ Fin k ≃ Fin N) : (left C e).PosDef := by
  have hA := first_pos hC e
  have hu := Noise.det_unit hA
  have hb := blocks hC.isHermitian e
  have hP : (C.submatrix e e).PosDef := hC.submatrix e.injective
  have hD : (second C e).IsHermitian := (hC.submatrix (e := fun i => e (.inr i)) (fun i j h => by simpa using h)).isHermitian
  have hh : (left C e).IsHermitian := by
    rw [IsHermitian, conjTranspose_eq_transpose_of_trivial, left, transpose_sub, transpose_mul, transpose_mul, transpose_transpose,
      first_symm hC e, ← Matrix.mul_assoc]
    congr 1
  refine PosDef.of_dotProduct_mulVec_pos hh fun z hz => ?_
  have := invertibleOfIsUnitDet _ hu
  have hne : (Sum.elim (-((first C e)⁻¹ * mixed C e) *ᵥ z) z) ≠ 0 := by
    intro h
    exact hz (funext fun i => by simpa using congrFun h (.inr i))
  have h1 := hP.dotProduct_mulVec_pos hne
  rw [hb] at h1
  have h2 := Matrix.schur_complement_eq₁₁ (mixed C e) (second C e) (-((first C e)⁻¹ * mixed C e) *ᵥ z) z hA.isHermitian
  rw [dotProduct_mulVec, ← conjTranspose_eq_transpose_of_trivial, h2] at h1
  rw [dotProduct_mulVec]
  simpa [neg_mulVec, left, conjTranspose_eq_transpose_of_trivial] using h1

theorem det_split {C : Matrix (Fin N) (Fin N) ℝ} (hC : C.PosDef) (e : Fin m ⊕ Fin k ≃ Fin N) : C.det = (first C e).det * (left C e).det := by
  have := invertibleOfIsUnitDet _ (Noise.det_unit (first_pos hC e))
  rw [← det_submatrix_equiv_self e C, blocks hC.isHermitian e, det_fromBlocks₁₁, invOf_eq_nonsing_inv]
  rfl

theorem quad_split {C : Matrix (Fin N) (Fin N) ℝ} (hC : C.PosDef) (e : Fin m ⊕ Fin k ≃ Fin N) (y : Fin m → ℝ) (z : Fin k → ℝ) :
    join e y z ⬝ᵥ (C⁻¹ *ᵥ join e y z) = y ⬝ᵥ ((first C e)⁻¹ *ᵥ y) + (z - guess C e y) ⬝ᵥ ((left C e)⁻¹ *ᵥ (z - guess C e y)) := by
  set w := C⁻¹ *ᵥ join e y z with hw
  have hCw : C *ᵥ w = join e y z := by rw [hw, mulVec_mulVec, mul_nonsing_inv _ (Noise.det_unit hC), one_mulVec]
  set w1 : Fin m → ℝ := fun i => w (e (.inl i)) with hw1
  set w2 : Fin k → ℝ := fun i => w (e (.inr i)) with hw2
  have key : fromBlocks (first C e) (mixed C e) (mixed C e)ᵀ (second C e) *ᵥ (w ∘ e) = Sum.elim y z := by
    rw [← blocks hC.isHermitian e]
    have := submatrix_mulVec_equiv C (w ∘ e) e e
    rw [this]
    have h2 : (w ∘ e) ∘ e.symm = w := by ext r; simp
    rw [h2, hCw]
    ext r
    simp [join]
  rw [fromBlocks_mulVec] at key
  have hy : first C e *ᵥ w1 + mixed C e *ᵥ w2 = y := by
    ext i
    exact congrFun key (.inl i)
  have hz : (mixed C e)ᵀ *ᵥ w1 + second C e *ᵥ w2 = z := by
    ext i
    exact congrFun key (.inr i)
  have hu := Noise.det_unit (first_pos hC e)
  have e1 : (first C e)⁻¹ *ᵥ y = w1 + (first C e)⁻¹ *ᵥ (mixed C e *ᵥ w2) := by
    rw [← hy, mulVec_add, mulVec_mulVec, nonsing_inv_mul _ hu, one_mulVec]
  have e2 : z - guess C e y = left C e *ᵥ w2 := by
    rw [guess, e1, ← hz, mulVec_add, left, sub_mulVec, mulVec_mulVec, mulVec_mulVec, Matrix.mul_assoc]
    abel
  have e3 : (left C e)⁻¹ *ᵥ (z - guess C e y) = w2 := by
    rw [e2, mulVec_mulVec, nonsing_inv_mul _ (Noise.det_unit (left_pos hC e)), one_mulVec]
  have e4 : join e y z ⬝ᵥ w = y ⬝ᵥ w1 + z ⬝ᵥ w2 := by
    rw [dotProduct, ← e.sum_comp, Fintype.sum_sum_type]
    simp [join, dotProduct, hw1, hw2]
  have e5 : y ⬝ᵥ ((first C e)⁻¹ *ᵥ (mixed C e *ᵥ w2)) = guess C e y ⬝ᵥ w2 := by
    rw [guess, dotProduct_mulVec, dotProduct_mulVec, mulVec_transpose, ← first_symm hC e, mulVec_transpose, first_symm hC e]
  rw [e4, e3, e1, dotProduct_add, e5, sub_dotProduct]
  ring

/-- The joint log density is the one of the first group plus the one of the second given the first. -/
theorem gauss_split {C : Matrix (Fin N) (Fin N) ℝ} (hC : C.PosDef) (e : Fin m ⊕ Fin k ≃ Fin N) (y : Fin m → ℝ) (z : Fin k → ℝ) :
    gaussLog C (join e y z) = gaussLog (first C e) y + gaussLog (left C e) (z - guess C e y) := by
  unfold gaussLog
  rw [quad_split hC, det_split hC e, Real.log_mul (first_pos hC e).det_pos.ne' (left_pos hC e).det_pos.ne']
  ring

theorem join_sub (e : Fin m ⊕ Fin k ≃ Fin N) (y : Fin m → ℝ) (z : Fin k → ℝ) (D : Fin N → ℝ) :
    join e y z - D = join e (y - fun i => D (e (.inl i))) (z - fun i => D (e (.inr i))) := by
  ext r
  obtain ⟨i, rfl⟩ := e.surjective r
  rcases i with i | i <;> simp [join]

/-- The integral over the second group is the density of the first. -/
theorem gauss_marginal {C : Matrix (Fin N) (Fin N) ℝ} (hC : C.PosDef) (e : Fin m ⊕ Fin k ≃ Fin N) (D : Fin N → ℝ) (y : Fin m → ℝ) :
    Integrable (fun z : Fin k → ℝ => Real.exp (gaussLog C (join e y z - D))) ∧
      ∫ z : Fin k → ℝ, Real.exp (gaussLog C (join e y z - D)) =
        Real.sqrt ((2 * Real.pi) ^ k) * Real.exp (gaussLog (first C e) (y - fun i => D (e (.inl i)))) := by
  have h := Truth.density (left_pos hC e) ((fun i => D (e (.inr i))) + guess C e (y - fun i => D (e (.inl i))))
  have e1 : ∀ z : Fin k → ℝ, Real.exp (gaussLog C (join e y z - D)) = Real.exp (gaussLog (first C e) (y - fun i => D (e (.inl i)))) *
      Real.exp (gaussLog (left C e) (z - ((fun i => D (e (.inr i))) + guess C e (y - fun i => D (e (.inl i)))))) := by
    intro z
    rw [join_sub, gauss_split hC, Real.exp_add, sub_sub]
  simp only [e1]
  exact ⟨h.1.const_mul _, by rw [MeasureTheory.integral_const_mul, h.2, mul_comm]⟩

/-! ## With columns that are marginalized over -/

variable {m' : Nat}

/-- The rows of the first group. -/
def rows1 (e : Fin m ⊕ Fin k ≃ Fin N) (M : Matrix (Fin N) (Fin m') ℝ) : Matrix (Fin m) (Fin m') ℝ := Matrix.of fun i c => M (e (.inl i)) c

/-- The rows of the second group without what is predicted from the first. -/
noncomputable def tilt (C : Matrix (Fin N) (Fin N) ℝ) (e : Fin m ⊕ Fin k ≃ Fin N) (M : Matrix (Fin N) (Fin m') ℝ) : Matrix (Fin k) (Fin m') ℝ :=
  (Matrix.of fun i c => M (e (.inr i)) c) - (mixed C e)ᵀ * (first C e)⁻¹ * rows1 e M

/-- The coefficients of the columns fitted to the first group. -/
noncomputable def fitted (C : Matrix (Fin N) (Fin N) ℝ) (e : Fin m ⊕ Fin k ≃ Fin N) (M : Matrix (Fin N) (Fin m') ℝ) (x : Fin m → ℝ) : Fin m' → ℝ :=
  ((rows1 e M)ᵀ * (first C e)⁻¹ * rows1 e M)⁻¹ *ᵥ ((rows1 e M)ᵀ *ᵥ ((first C e)⁻¹ *ᵥ x))

/-- The covariance of the second group when the first is known and the columns were fitted to it. -/
noncomputable def leftM (C : Matrix (Fin N) (Fin N) ℝ) (e : Fin m ⊕ Fin k ≃ Fin N) (M : Matrix (Fin N) (Fin m') ℝ) : Matrix (Fin k) (Fin k) ℝ :=
  left C e + tilt C e M * ((rows1 e M)ᵀ * (first C e)⁻¹ * rows1 e M)⁻¹ * (tilt C e M)ᵀ

theorem dot_symm {n : Nat} {S : Matrix (Fin n) (Fin n) ℝ} (hS : Sᵀ = S) (x y : Fin n → ℝ) : x ⬝ᵥ (S *ᵥ y) = y ⬝ᵥ (S *ᵥ x) := by
  rw [dotProduct_mulVec, ← mulVec_transpose, hS, dotProduct_comm]

/-- Both sides of the inverse of the covariance. -/
theorem pair_split {C : Matrix (Fin N) (Fin N) ℝ} (hC : C.PosDef) (e : Fin m ⊕ Fin k ≃ Fin N) (y y' : Fin m → ℝ) (z z' : Fin k → ℝ) :
    join e y z ⬝ᵥ (C⁻¹ *ᵥ join e y' z') = y ⬝ᵥ ((first C e)⁻¹ *ᵥ y') + (z - guess C e y) ⬝ᵥ ((left C e)⁻¹ *ᵥ (z' - guess C e y')) := by
  have hj : join e (y + y') (z + z') = join e y z + join e y' z' := by
    ext r
    obtain ⟨i, rfl⟩ := e.surjective r
    rcases i with i | i <;> simp [join]
  have hg : guess C e (y + y') = guess C e y + guess C e y' := by simp [guess, mulVec_add]
  have h := quad_split hC e (y + y') (z + z')
  have h1 := quad_split hC e y z
  have h2 := quad_split hC e y' z'
  have hz : z + z' - guess C e (y + y') = (z - guess C e y) + (z' - guess C e y') := by rw [hg]; abel
  rw [hj, hz] at h
  have s1 := dot_symm (Noise.inv_symm _ hC) (join e y' z') (join e y z)
  have s2 := dot_symm (first_symm hC e) y' y
  have s3 := dot_symm (Noise.inv_symm _ (left_pos hC e)) (z' - guess C e y') (z - guess C e y)
  simp only [mulVec_add, add_dotProduct, dotProduct_add] at h
  linarith

theorem col_join (e : Fin m ⊕ Fin k ≃ Fin N) (M : Matrix (Fin N) (Fin m') ℝ) (c : Fin m') :
    (fun r => M r c) = join e (fun i => rows1 e M i c) fun i => M (e (.inr i)) c := by
  ext r
  obtain ⟨i, rfl⟩ := e.surjective r
  rcases i with i | i <;> simp [join, rows1]

theorem col_tilt (C : Matrix (Fin N) (Fin N) ℝ) (e : Fin m ⊕ Fin k ≃ Fin N) (M : Matrix (Fin N) (Fin m') ℝ) (c : Fin m') :
    (fun i => M (e (.inr i)) c) - guess C e (fun i => rows1 e M i c) = fun i => tilt C e M i c := by
  ext i
  have : guess C e (fun i => rows1 e M i c) i = ((mixed C e)ᵀ * (first C e)⁻¹ * rows1 e M) i c := by
    rw [guess, mulVec_mulVec]
    rfl
  simp [tilt, this]

theorem entry_of {n p q : Nat} (A : Matrix (Fin n) (Fin p) ℝ) (S : Matrix (Fin n) (Fin n) ℝ) (B : Matrix (Fin n) (Fin q) ℝ) (c : Fin p) (d : Fin q) :
    (Aᵀ * S * B) c d = (fun i => A i c) ⬝ᵥ (S *ᵥ fun i => B i d) := by
  rw [Matrix.mul_assoc]
  rfl

/-- The information on the columns is what the first group has and what the second adds. -/
theorem gram_split {C : Matrix (Fin N) (Fin N) ℝ} (hC : C.PosDef) (e : Fin m ⊕ Fin k ≃ Fin N) (M : Matrix (Fin N) (Fin m') ℝ) :
    Mᵀ * C⁻¹ * M = (rows1 e M)ᵀ * (first C e)⁻¹ * rows1 e M + (tilt C e M)ᵀ * (left C e)⁻¹ * tilt C e M := by
  ext c d
  rw [Matrix.add_apply, entry_of, entry_of, entry_of, col_join e M c, col_join e M d, pair_split hC, col_tilt, col_tilt]

theorem score_split {C : Matrix (Fin N) (Fin N) ℝ} (hC : C.PosDef) (e : Fin m ⊕ Fin k ≃ Fin N) (M : Matrix (Fin N) (Fin m') ℝ) (y : Fin m → ℝ)
    (z : Fin k → ℝ) : Mᵀ *ᵥ (C⁻¹ *ᵥ join e y z) =
      (rows1 e M)ᵀ *ᵥ ((first C e)⁻¹ *ᵥ y) + (tilt C e M)ᵀ *ᵥ ((left C e)⁻¹ *ᵥ (z - guess C e y)) := by
  ext c
  have h := pair_split hC e (fun i => rows1 e M i c) y (fun i => M (e (.inr i)) c) z
  rw [← col_join, col_tilt] at h
  exact h

theorem quad_proj {n p : Nat} {C : Matrix (Fin n) (Fin n) ℝ} (hC : C.PosDef) (M : Matrix (Fin n) (Fin p) ℝ) (A : Matrix (Fin p) (Fin p) ℝ) (r : Fin n → ℝ) :
    r ⬝ᵥ ((C⁻¹ - C⁻¹ * M * A * Mᵀ * C⁻¹) *ᵥ r) = r ⬝ᵥ (C⁻¹ *ᵥ r) - (Mᵀ *ᵥ (C⁻¹ *ᵥ r)) ⬝ᵥ (A *ᵥ (Mᵀ *ᵥ (C⁻¹ *ᵥ r))) := by
  rw [sub_mulVec, dotProduct_sub]
  congr 1
  rw [Matrix.mul_assoc, Matrix.mul_assoc, Matrix.mul_assoc, ← mulVec_mulVec, ← mulVec_mulVec, dotProduct_mulVec, ← mulVec_transpose, Noise.inv_symm _ hC,
    dotProduct_mulVec, ← mulVec_transpose]
  simp only [mulVec_mulVec, Matrix.mul_assoc]

section Marginal

variable {C : Matrix (Fin N) (Fin N) ℝ} {e : Fin m ⊕ Fin k ≃ Fin N} {M : Matrix (Fin N) (Fin m') ℝ}

theorem inj_of (h : Function.Injective (rows1 e M).mulVec) : Function.Injective M.mulVec := by
  intro x y hxy
  refine h ?_
  ext i
  exact congrFun hxy (e (.inl i))

theorem leftM_eq : leftM C e M = Noise.full (left C e) (tilt C e M) ((rows1 e M)ᵀ * (first C e)⁻¹ * rows1 e M)⁻¹ := rfl

theorem leftM_pos (hC : C.PosDef) (hM : Function.Injective (rows1 e M).mulVec) : (leftM C e M).PosDef := by
  rw [leftM_eq]
  exact Noise.full_posDef (left_pos hC e) (Noise.gram_posDef _ _ (first_pos hC e) hM).inv.posSemidef _

/-- The marginalized log density is the one of the first group plus the one of the second given the first. -/
theorem marg_split (hC : C.PosDef) (hM : Function.Injective (rows1 e M).mulVec) (y : Fin m → ℝ) (z : Fin k → ℝ) :
    margLog C M (join e y z) = margLog (first C e) (rows1 e M) y +
      gaussLog (leftM C e M) (z - (guess C e y + tilt C e M *ᵥ fitted C e M y)) := by
  have hA := first_pos hC e
  have hS := left_pos hC e
  have hQ1 := Noise.gram_posDef _ _ hA hM
  have hQ := Noise.gram_posDef _ _ hC (inj_of hM)
  set Q1 := (rows1 e M)ᵀ * (first C e)⁻¹ * rows1 e M with hQ1d
  set b1 := (rows1 e M)ᵀ *ᵥ ((first C e)⁻¹ *ᵥ y) with hb1
  have hsig : Noise.sig (left C e)⁻¹ (tilt C e M) Q1⁻¹ = Mᵀ * C⁻¹ * M := by
    rw [Noise.sig, gram_split hC e M, nonsing_inv_nonsing_inv _ (Noise.det_unit hQ1), add_comm]
  have hε : fitted C e M y = Q1⁻¹ *ᵥ b1 := rfl
  set ε := fitted C e M y
  have hQε : Q1 *ᵥ ε = b1 := by rw [hε, mulVec_mulVec, mul_nonsing_inv _ (Noise.det_unit hQ1), one_mulVec]
  have hdet : Real.log (leftM C e M).det = Real.log (left C e).det - Real.log Q1.det + Real.log (Mᵀ * C⁻¹ * M).det := by
    rw [leftM_eq, Noise.full_det hS hQ1.inv, hsig, Real.log_mul (mul_pos hS.det_pos hQ1.inv.det_pos).ne' hQ.det_pos.ne',
      Real.log_mul hS.det_pos.ne' hQ1.inv.det_pos.ne', det_nonsing_inv, Ring.inverse_eq_inv', Real.log_inv]
    ring
  unfold margLog gaussLog Noise.projN
  rw [hdet, quad_proj hC, quad_proj hA, leftM_eq, Noise.full_inv hS hQ1.inv, hsig, quad_proj hS, quad_split hC, score_split hC,
    det_split hC e, Real.log_mul hA.det_pos.ne' hS.det_pos.ne', ← sub_sub]
  set zt := z - guess C e y
  set Q := Mᵀ * C⁻¹ * M with hQd
  set Mt := tilt C e M
  set S := left C e
  set b2 := Mtᵀ *ᵥ (S⁻¹ *ᵥ zt) with hb2
  have hQs : Q = Q1 + Mtᵀ * S⁻¹ * Mt := gram_split hC e M
  have hc : Mtᵀ *ᵥ (S⁻¹ *ᵥ (zt - Mt *ᵥ ε)) = (b1 + b2) - Q *ᵥ ε := by
    rw [mulVec_sub, mulVec_sub, ← hb2, hQs, add_mulVec, hQε]
    simp only [mulVec_mulVec, Matrix.mul_assoc]
    abel
  have hQi := Noise.det_unit hQ
  have hquad : (b1 + b2 - Q *ᵥ ε) ⬝ᵥ (Q⁻¹ *ᵥ (b1 + b2 - Q *ᵥ ε)) =
      (b1 + b2) ⬝ᵥ (Q⁻¹ *ᵥ (b1 + b2)) - 2 * ((b1 + b2) ⬝ᵥ ε) + ε ⬝ᵥ (Q *ᵥ ε) := by
    have h1 : Q⁻¹ *ᵥ (Q *ᵥ ε) = ε := by rw [mulVec_mulVec, nonsing_inv_mul _ hQi, one_mulVec]
    have h2 := dot_symm (Noise.inv_symm _ hQ) (Q *ᵥ ε) (b1 + b2)
    rw [mulVec_sub, h1, sub_dotProduct, dotProduct_sub, dotProduct_sub, h2, h1, dotProduct_comm (Q *ᵥ ε) ε]
    ring
  have hw : (zt - Mt *ᵥ ε) ⬝ᵥ (S⁻¹ *ᵥ (zt - Mt *ᵥ ε)) = zt ⬝ᵥ (S⁻¹ *ᵥ zt) - 2 * (b2 ⬝ᵥ ε) + ε ⬝ᵥ (Q *ᵥ ε) - b1 ⬝ᵥ ε := by
    have h1 : (Mt *ᵥ ε) ⬝ᵥ (S⁻¹ *ᵥ zt) = b2 ⬝ᵥ ε := by
      rw [dotProduct_comm, dotProduct_mulVec, ← mulVec_transpose]
    have h2 := dot_symm (Noise.inv_symm _ hS) zt (Mt *ᵥ ε)
    have h3 : (Mt *ᵥ ε) ⬝ᵥ (S⁻¹ *ᵥ (Mt *ᵥ ε)) = ε ⬝ᵥ ((Mtᵀ * S⁻¹ * Mt) *ᵥ ε) := by
      rw [dotProduct_comm, dotProduct_mulVec, ← mulVec_transpose, dotProduct_comm]
      simp only [mulVec_mulVec, Matrix.mul_assoc]
    have h4 : ε ⬝ᵥ (Q *ᵥ ε) = ε ⬝ᵥ b1 + ε ⬝ᵥ ((Mtᵀ * S⁻¹ * Mt) *ᵥ ε) := by rw [hQs, add_mulVec, dotProduct_add, hQε]
    rw [mulVec_sub, sub_dotProduct, dotProduct_sub, dotProduct_sub, h2, h1, h3, h4, dotProduct_comm b1 ε]
    ring
  have hb : b1 ⬝ᵥ (Q1⁻¹ *ᵥ b1) = b1 ⬝ᵥ ε := by rw [hε]
  rw [hc, hquad, hw, hb, add_dotProduct b1 b2 ε]
  ring

/-- The integral over the second group of the marginalized density is the marginalized density of the first. -/
theorem marg_marginal (hC : C.PosDef) (hM : Function.Injective (rows1 e M).mulVec) (D : Fin N → ℝ) (y : Fin m → ℝ) :
    Integrable (fun z : Fin k → ℝ => Real.exp (margLog C M (join e y z - D))) ∧
      ∫ z : Fin k → ℝ, Real.exp (margLog C M (join e y z - D)) =
        Real.sqrt ((2 * Real.pi) ^ k) * Real.exp (margLog (first C e) (rows1 e M) (y - fun i => D (e (.inl i)))) := by
  set y' := y - fun i => D (e (.inl i))
  have h := Truth.density (leftM_pos hC hM) ((fun i => D (e (.inr i))) + (guess C e y' + tilt C e M *ᵥ fitted C e M y'))
  have e1 : ∀ z : Fin k → ℝ, Real.exp (margLog C M (join e y z - D)) = Real.exp (margLog (first C e) (rows1 e M) y') *
      Real.exp (gaussLog (leftM C e M) (z - ((fun i => D (e (.inr i))) + (guess C e y' + tilt C e M *ᵥ fitted C e M y')))) := by
    intro z
    rw [join_sub, marg_split hC hM, Real.exp_add, sub_sub]
  simp only [e1]
  exact ⟨h.1.const_mul _, by rw [MeasureTheory.integral_const_mul, h.2, mul_comm]⟩

end Marginal

end Verif.Split
