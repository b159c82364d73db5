import Mathlib.Analysis.Matrix.Spectrum
import Mathlib.Analysis.Matrix.Order
import Mathlib.Analysis.Matrix.PosDef
import Mathlib.Algebra.Order.Star.Real
import Mathlib.Analysis.InnerProductSpace.PiL2
import Mathlib.Data.List.Sort
import Verif.Model.Coefficients
import Verif.Model.Interp
import Verif.Model.Quantize

/-!
# The libraries can exist

Many theorems take results of numpy, scipy and sksparse as arguments with the properties that define them: an order of sorting, singular
value decompositions, Cholesky factors.  Here is a proof that there are results with these properties for all inputs, so that no theorem
is about nothing.
-/

namespace Verif.Library

open Matrix Verif

/-- There is an argsort of every list. -/
theorem argsort_exists {K : Type} [Field K] [LinearOrder K] : ∃ argsort : List K → List Nat, ∀ l, Quantize.IsArgsort l (argsort l) := by
  classical
  refine ⟨fun l => (List.range l.length).insertionSort fun i j => l.getD i 0 ≤ l.getD j 0, fun l => ⟨List.perm_insertionSort _ _, ?_⟩⟩
  have : Std.Total fun i j : Nat => l.getD i 0 ≤ l.getD j 0 := ⟨fun _ _ => le_total _ _⟩
  have : IsTrans Nat fun i j : Nat => l.getD i 0 ≤ l.getD j 0 := ⟨fun _ _ _ => le_trans⟩
  exact List.pairwise_map.2 (List.pairwise_insertionSort _ _)

/-- A singular value decomposition of a matrix with at least as many rows as columns. -/
theorem svd_tall {n m : Nat} (h : m ≤ n) (M : Matrix (Fin n) (Fin m) ℝ) : ∃ (u : Matrix (Fin n) (Fin m) ℝ) (s : Fin m → ℝ) (v : Matrix (Fin m) (Fin m) ℝ),
    uᵀ * u = 1 ∧ v * vᵀ = 1 ∧ vᵀ * v = 1 ∧ (∀ i, 0 ≤ s i) ∧ M = u * diagonal s * v := by
  have hA : (Mᵀ * M).IsHermitian := by
    have := Matrix.isHermitian_conjTranspose_mul_self M
    rwa [conjTranspose_eq_transpose_of_trivial] at this
  have hpsd : (Mᵀ * M).PosSemidef := by
    have := Matrix.posSemidef_conjTranspose_mul_self M
    rwa [conjTranspose_eq_transpose_of_trivial] at this
  set U : Matrix (Fin m) (Fin m) ℝ := (hA.eigenvectorUnitary : Matrix (Fin m) (Fin m) ℝ) with hU
  set ev := hA.eigenvalues with hev
  have hev0 : ∀ i, 0 ≤ ev i := hpsd.eigenvalues_nonneg
  have hUU : Uᵀ * U = 1 := by
    have := Unitary.coe_star_mul_self hA.eigenvectorUnitary
    rwa [Matrix.star_eq_conjTranspose, conjTranspose_eq_transpose_of_trivial] at this
  have hUU' : U * Uᵀ = 1 := mul_eq_one_comm.1 hUU
  have hdiag : Uᵀ * (Mᵀ * M) * U = diagonal ev := by
    have := hA.conjStarAlgAut_star_eigenvectorUnitary
    rw [Unitary.conjStarAlgAut_star_apply, Matrix.star_eq_conjTranspose, conjTranspose_eq_transpose_of_trivial] at this
    exact this
  set W := M * U with hW
  have hWW : Wᵀ * W = diagonal ev := by
    rw [← hdiag, hW, transpose_mul]
    simp only [Matrix.mul_assoc]
  have hdot : ∀ i j, ∑ k, W k i * W k j = if i = j then ev i else 0 := by
    intro i j
    have := congrFun (congrFun hWW i) j
    rw [mul_apply, diagonal_apply] at this
    exact this
  -- normalised columns
  let w : Fin n → EuclideanSpace ℝ (Fin n) := fun a => if ha : a.val < m then (WithLp.toLp 2 fun k => W k ⟨a, ha⟩ / Real.sqrt (ev ⟨a, ha⟩)) else 0
  let S : Set (Fin n) := {a | ∃ ha : a.val < m, 0 < ev ⟨a, ha⟩}
  have hon : Orthonormal ℝ (S.domRestrict w) := by
    rw [orthonormal_iff_ite]
    rintro ⟨a, ha, hpa⟩ ⟨b, hb, hpb⟩
    have e1 : inner ℝ (w a) (w b) = if (⟨a, ha⟩ : Fin m) = ⟨b, hb⟩ then (1 : ℝ) else 0 := by
      simp only [w, dif_pos ha, dif_pos hb]
      rw [EuclideanSpace.inner_eq_star_dotProduct]
      simp only [dotProduct, star_trivial, Pi.star_apply]
      have : ∑ x, W x ⟨b, hb⟩ / Real.sqrt (ev ⟨b, hb⟩) * (W x ⟨a, ha⟩ / Real.sqrt (ev ⟨a, ha⟩)) =
          (∑ x, W x ⟨a, ha⟩ * W x ⟨b, hb⟩) / (Real.sqrt (ev ⟨a, ha⟩) * Real.sqrt (ev ⟨b, hb⟩)) := by
        rw [Finset.sum_div]
        refine Finset.sum_congr rfl fun x _ => ?_
        ring
      refine this.trans ?_
      rw [hdot]
      by_cases hab : (⟨a, ha⟩ : Fin m) = ⟨b, hb⟩
      · rw [if_pos hab, if_pos hab, ← hab, Real.mul_self_sqrt hpa.le, div_self hpa.ne']
      · rw [if_neg hab, if_neg hab, zero_div]
    show inner ℝ (w a) (w b) = _
    rw [e1]
    refine if_congr ?_ rfl rfl
    simp [Fin.ext_iff]
  obtain ⟨b, hb⟩ := hon.exists_orthonormalBasis_extension_of_card_eq (by simp)
  let u : Matrix (Fin n) (Fin m) ℝ := Matrix.of fun k i => (b (Fin.castLE h i)) k
  have huu : uᵀ * u = 1 := by
    ext i j
    rw [mul_apply]
    have := orthonormal_iff_ite.1 b.orthonormal (Fin.castLE h i) (Fin.castLE h j)
    rw [EuclideanSpace.inner_eq_star_dotProduct] at this
    simp only [dotProduct, star_trivial, Pi.star_apply] at this
    rw [one_apply]
    refine Eq.trans ?_ (this.trans ?_)
    · refine Finset.sum_congr rfl fun k _ => ?_
      simp only [u, transpose_apply, of_apply]
      exact mul_comm _ _
    · refine if_congr ?_ rfl rfl
      simp [Fin.ext_iff]
  have hWu : W = u * diagonal fun i => Real.sqrt (ev i) := by
    ext k i
    rw [mul_diagonal]
    simp only [u, of_apply]
    rcases (hev0 i).lt_or_eq with hp | hz
    · have hi : Fin.castLE h i ∈ S := ⟨i.2, hp⟩
      rw [hb _ hi]
      have : (Fin.castLE h i).val < m := i.2
      simp only [w, dif_pos this]
      have e : (⟨(Fin.castLE h i).val, this⟩ : Fin m) = i := by ext; rfl
      have hs : Real.sqrt (ev i) ≠ 0 := (Real.sqrt_pos.2 hp).ne'
      show W k i = W k ⟨(Fin.castLE h i).val, this⟩ / Real.sqrt (ev ⟨(Fin.castLE h i).val, this⟩) * Real.sqrt (ev i)
      rw [e, div_mul_cancel₀ _ hs]
    · have h0 := hdot i i
      rw [if_pos rfl, ← hz] at h0
      have hk := (Finset.sum_eq_zero_iff_of_nonneg fun k _ => mul_self_nonneg (W k i)).1 h0 k (Finset.mem_univ k)
      rw [← hz, Real.sqrt_zero, mul_zero]
      exact mul_self_eq_zero.1 hk
  refine ⟨u, fun i => Real.sqrt (ev i), Uᵀ, huu, by rw [transpose_transpose]; exact hUU, by rw [transpose_transpose]; exact hUU', fun i => Real.sqrt_nonneg _, ?_⟩
  rw [← hWu, hW, Matrix.mul_assoc, hUU', Matrix.mul_one]

/-- `np.linalg.svd` of square matrices. -/
theorem svd_exists : Nonempty (∀ {n : Nat} (M : Matrix (Fin n) (Fin n) ℝ), Partition.Svd M) := by
  refine ⟨fun {n} M => Classical.choice ?_⟩
  obtain ⟨u, s, v, h1, h2, -, h3, h4⟩ := svd_tall le_rfl M
  exact ⟨⟨u, s, v, h1, h2, h3, h4⟩⟩

theorem thin_of {n m k : Nat} (M : Matrix (Fin n) (Fin m) ℝ) (hk : k = min n m) (u : Matrix (Fin n) (Fin k) ℝ) (s : Fin k → ℝ)
    (v : Matrix (Fin k) (Fin m) ℝ) (h1 : uᵀ * u = 1) (h2 : v * vᵀ = 1) (h3 : ∀ i, 0 ≤ s i) (h4 : M = u * diagonal s * v) :
    Nonempty (Interp.ThinSvd M) := by
  subst hk
  exact ⟨⟨u, s, v, h1, h2, h3, h4⟩⟩

/-- `np.linalg.svd(M, full_matrices=False)`. -/
theorem thin_exists : Nonempty (∀ {n m : Nat} (M : Matrix (Fin n) (Fin m) ℝ), Interp.ThinSvd M) := by
  refine ⟨fun {n m} M => Classical.choice ?_⟩
  rcases le_total m n with h | h
  · obtain ⟨u, s, v, h1, h2, -, h3, h4⟩ := svd_tall h M
    exact thin_of M (min_eq_right h).symm u s v h1 h2 h3 h4
  · obtain ⟨u, s, v, h1, h2, h2', h3, h4⟩ := svd_tall h Mᵀ
    refine thin_of M (min_eq_left h).symm vᵀ s uᵀ (by rw [transpose_transpose]; exact h2) (by rw [transpose_transpose]; exact h1) h3 ?_
    have := congrArg transpose h4
    rw [transpose_transpose, transpose_mul, transpose_mul, diagonal_transpose, ← Matrix.mul_assoc] at this
    exact this

open scoped MatrixOrder in
/-- Cholesky factors: `scipy.linalg.cholesky` and `sksparse.cholmod.cholesky`. -/
theorem chol_exists {d : Nat} (S : Matrix (Fin d) (Fin d) ℝ) : ∃ L : Matrix (Fin d) (Fin d) ℝ, S.PosDef → S = L * Lᵀ := by
  by_cases hS : S.PosDef
  · obtain ⟨B, hB⟩ := CStarAlgebra.nonneg_iff_eq_star_mul_self.mp hS.posSemidef.nonneg
    exact ⟨Bᵀ, fun _ => by rw [transpose_transpose, hB, Matrix.star_eq_conjTranspose, conjTranspose_eq_transpose_of_trivial]⟩
  · exact ⟨0, fun h => absurd h hS⟩

/-- All of them together. -/
theorem lib_exists : Nonempty Coefficients.Lib := by
  obtain ⟨svd⟩ := svd_exists
  refine ⟨⟨svd, fun {n} M => Classical.choice ?_, fun {n} M => Classical.choice ?_⟩⟩
  · obtain ⟨L, hL⟩ := chol_exists M
    exact ⟨⟨Equiv.refl _, L, fun h => by simpa using hL h⟩⟩
  · obtain ⟨L, hL⟩ := chol_exists M
    exact ⟨⟨L, hL⟩⟩

end Verif.Library
