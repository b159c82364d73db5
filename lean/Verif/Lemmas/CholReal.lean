import Verif.Props.Wide
import Mathlib.Algebra.Order.Star.Real
import Mathlib.LinearAlgebra.Matrix.Block
import Mathlib.Algebra.Order.Chebyshev

/-!
# Triangular factors with errors

Lemmas about real matrices for `Verif.Props.IeeeChol`.
-/

namespace Verif.CholReal

open Matrix

variable {m : Nat}

theorem cs (f g : Fin m → ℝ) : ∑ k, |f k * g k| ≤ Real.sqrt (∑ k, f k ^ 2) * Real.sqrt (∑ k, g k ^ 2) := by
  rw [← Real.sqrt_mul (Finset.sum_nonneg fun _ _ => sq_nonneg _)]
  refine Real.le_sqrt_of_sq_le ?_
  have := Finset.sum_mul_sq_le_sq_mul_sq Finset.univ (fun k => |f k|) (fun k => |g k|)
  simpa only [abs_mul, sq_abs] using this

theorem sum_sq_le (f : Fin m → ℝ) : (∑ k, f k) ^ 2 ≤ m * ∑ k, f k ^ 2 := by
  have := sq_sum_le_card_mul_sum_sq (s := (Finset.univ : Finset (Fin m))) (f := f)
  simpa using this

/-- A lower triangular matrix with a positive diagonal. -/
structure Low (L : Matrix (Fin m) (Fin m) ℝ) : Prop where
  zero : ∀ i j, i < j → L i j = 0
  pos : ∀ i, 0 < L i i

theorem Low.det {L : Matrix (Fin m) (Fin m) ℝ} (h : Low L) : L.det = ∏ i, L i i := by
  refine det_of_isLowerTriangular L ?_
  intro i j hij
  exact h.zero i j hij

theorem Low.det_pos {L : Matrix (Fin m) (Fin m) ℝ} (h : Low L) : 0 < L.det := by
  rw [h.det]
  exact Finset.prod_pos fun i _ => h.pos i

theorem Low.unit {L : Matrix (Fin m) (Fin m) ℝ} (h : Low L) : IsUnit L.det := isUnit_iff_ne_zero.2 h.det_pos.ne'

/-- Quadratic forms as sums. -/
theorem form_eq (M : Matrix (Fin m) (Fin m) ℝ) (z : Fin m → ℝ) : z ⬝ᵥ (M *ᵥ z) = ∑ i, ∑ j, M i j * (z i * z j) := by
  simp only [dotProduct, mulVec, Finset.mul_sum]
  exact Finset.sum_congr rfl fun i _ => Finset.sum_congr rfl fun j _ => by ring

theorem gram_form (L : Matrix (Fin m) (Fin m) ℝ) (z : Fin m → ℝ) : z ⬝ᵥ ((L * Lᵀ) *ᵥ z) = ∑ k, (Lᵀ *ᵥ z) k ^ 2 := by
  rw [← mulVec_mulVec, dotProduct_mulVec, ← mulVec_transpose]
  simp only [dotProduct, sq]

/-- Entries of a matrix that are small against `s i * s j`. -/
theorem form_small {E : Matrix (Fin m) (Fin m) ℝ} {s : Fin m → ℝ} {θ : ℝ} (hs : ∀ i, 0 ≤ s i) (hθ : 0 ≤ θ) (h : ∀ i j, |E i j| ≤ θ * (s i * s j)) (z : Fin m → ℝ) :
    |z ⬝ᵥ (E *ᵥ z)| ≤ θ * m * ∑ i, s i ^ 2 * z i ^ 2 := by
  rw [form_eq]
  have h1 : |∑ i, ∑ j, E i j * (z i * z j)| ≤ ∑ i, ∑ j, θ * ((s i * |z i|) * (s j * |z j|)) := by
    refine (Finset.abs_sum_le_sum_abs _ _).trans (Finset.sum_le_sum fun i _ => (Finset.abs_sum_le_sum_abs _ _).trans (Finset.sum_le_sum fun j _ => ?_))
    rw [abs_mul, abs_mul]
    calc |E i j| * (|z i| * |z j|) ≤ θ * (s i * s j) * (|z i| * |z j|) := mul_le_mul_of_nonneg_right (h i j) (by positivity)
      _ = _ := by ring
  have h2 : ∑ i, ∑ j, θ * ((s i * |z i|) * (s j * |z j|)) = θ * (∑ i, s i * |z i|) ^ 2 := by
    rw [sq, Finset.sum_mul_sum, Finset.mul_sum]
    exact Finset.sum_congr rfl fun i _ => by rw [Finset.mul_sum]
  have h3 := sum_sq_le fun i => s i * |z i|
  have h4 : ∀ i, (s i * |z i|) ^ 2 = s i ^ 2 * z i ^ 2 := fun i => by rw [mul_pow, sq_abs]
  simp only [h4] at h3
  rw [h2] at h1
  refine h1.trans ?_
  rw [mul_assoc]
  exact mul_le_mul_of_nonneg_left h3 hθ

/-- Errors relative to the products of the factor are errors relative to the diagonal. -/
theorem scaled {L X : Matrix (Fin m) (Fin m) ℝ} {s : Fin m → ℝ} {κ w : ℝ} (hs : ∀ i, 0 < s i) (hX : ∀ i, X i i = s i ^ 2) (hκ0 : 0 ≤ κ) (hκ : 100 * κ ≤ 1)
    (hw0 : 0 ≤ w) (hw : ∀ i j, 2 * w ≤ κ * (s i * s j)) (h : ∀ i j, |(L * Lᵀ) i j - X i j| ≤ 3 * κ * (∑ k, |L i k * L j k|) + 2 * w) :
    (∀ i, ∑ k, L i k ^ 2 ≤ 2 * s i ^ 2) ∧ ∀ i j, |(L * Lᵀ) i j - X i j| ≤ 7 * κ * (s i * s j) := by
  have hg : ∀ i, ∑ k, L i k ^ 2 ≤ 2 * s i ^ 2 := by
    intro i
    have h1 := h i i
    have e1 : (L * Lᵀ) i i = ∑ k, L i k ^ 2 := by
      simp only [mul_apply, transpose_apply, sq]
    have e2 : ∑ k, |L i k * L i k| = ∑ k, L i k ^ 2 := Finset.sum_congr rfl fun k _ => by
      rw [← sq, abs_of_nonneg (sq_nonneg _)]
    rw [e1, e2, hX] at h1
    have h2 := hw i i
    obtain ⟨G, hG⟩ : ∃ G, G = ∑ k, L i k ^ 2 := ⟨_, rfl⟩
    have hG0 : 0 ≤ G := by rw [hG]; exact Finset.sum_nonneg fun _ _ => sq_nonneg _
    rw [← hG] at h1 ⊢
    have h3 := (abs_le.1 h1).2
    have h4 : κ * G ≤ 1 / 100 * G := mul_le_mul_of_nonneg_right (by linarith) hG0
    have h5 : κ * (s i * s i) ≤ 1 / 100 * (s i * s i) := mul_le_mul_of_nonneg_right (by linarith) (mul_self_nonneg _)
    have h6 := mul_self_nonneg (s i)
    nlinarith
  refine ⟨hg, fun i j => (h i j).trans ?_⟩
  have hr : ∀ i, Real.sqrt (∑ k, L i k ^ 2) ≤ Real.sqrt 2 * s i := fun i => by
    refine Real.sqrt_le_iff.2 ⟨mul_nonneg (Real.sqrt_nonneg _) (hs i).le, ?_⟩
    rw [mul_pow, Real.sq_sqrt (by norm_num)]
    exact hg i
  have h1 := cs (L i) (L j)
  have h2 : Real.sqrt (∑ k, L i k ^ 2) * Real.sqrt (∑ k, L j k ^ 2) ≤ 2 * (s i * s j) := by
    refine (mul_le_mul (hr i) (hr j) (Real.sqrt_nonneg _) (mul_nonneg (Real.sqrt_nonneg _) (hs i).le)).trans (le_of_eq ?_)
    rw [show Real.sqrt 2 * s i * (Real.sqrt 2 * s j) = Real.sqrt 2 * Real.sqrt 2 * (s i * s j) by ring, Real.mul_self_sqrt (by norm_num)]
  have h3 := mul_le_mul_of_nonneg_left (h1.trans h2) (by positivity : 0 ≤ 3 * κ)
  have h4 := hw i j
  linarith

theorem mean_end {μ t Y : ℝ} (h0 : 0 < μ) (h1 : μ ≤ 1) (ht : 0 ≤ t) (h : Y ≤ (1 - μ) * t + μ / 8 * Y + μ / 8 * t) : Y ≤ (1 - μ / 2) * t := by
  have hp : 0 < 1 - μ / 8 := by linarith
  refine le_of_mul_le_mul_left ?_ hp
  have : 0 ≤ μ * t := by positivity
  have : 0 ≤ μ * (μ * t) := by positivity
  linarith

/-- The solution of a triangular system with errors: no longer than the matrix allows. -/
theorem energy {L X : Matrix (Fin m) (Fin m) ℝ} (hL : Low L) {s : Fin m → ℝ} {κ w w' μ t : ℝ} (hs : ∀ i, 0 < s i) (hκ0 : 0 ≤ κ) (hw0 : 0 ≤ w') (hw : ∀ i, 2 * w ≤ w' * s i)
    (hg : ∀ i, ∑ k, L i k ^ 2 ≤ 2 * s i ^ 2) (h : ∀ i j, |(L * Lᵀ) i j - X i j| ≤ 7 * κ * (s i * s j)) {x y : Fin m → ℝ}
    (hy : ∀ j, |(∑ k, L j k * y k) - x j| ≤ 3 * κ * (∑ k, |L j k * y k|) + 2 * w) (hμ0 : 0 < μ) (hμ1 : μ ≤ 1) (h1 : 14 * κ * m ≤ μ) (h2 : 800 * m * κ ^ 2 ≤ μ ^ 2)
    (h3 : 32 * m * w' ^ 2 ≤ μ ^ 2 * t) (hQ : ∀ z : Fin m → ℝ, μ * ((∑ i, s i ^ 2 * z i ^ 2) + t) ≤ z ⬝ᵥ (X *ᵥ z) + 2 * (x ⬝ᵥ z) + t) :
    ∑ k, y k ^ 2 ≤ (1 - μ / 2) * t := by
  have hu : IsUnit (Lᵀ).det := by rw [det_transpose]; exact hL.unit
  obtain ⟨z, hz⟩ : ∃ z, Lᵀ *ᵥ z = -y := ⟨(Lᵀ)⁻¹ *ᵥ (-y), by rw [mulVec_mulVec, mul_nonsing_inv _ hu, one_mulVec]⟩
  obtain ⟨Y, hY⟩ : ∃ Y, Y = ∑ k, y k ^ 2 := ⟨_, rfl⟩
  obtain ⟨Z, hZ⟩ : ∃ Z, Z = ∑ i, s i ^ 2 * z i ^ 2 := ⟨_, rfl⟩
  have hY0 : 0 ≤ Y := by rw [hY]; exact Finset.sum_nonneg fun _ _ => sq_nonneg _
  have hZ0 : 0 ≤ Z := by rw [hZ]; exact Finset.sum_nonneg fun _ _ => by positivity
  have f1 := hQ z
  -- The form.
  have f2 : z ⬝ᵥ (X *ᵥ z) ≤ Y + 7 * κ * m * Z := by
    have e1 := form_small (E := L * Lᵀ - X) (fun i => (hs i).le) (by positivity : 0 ≤ 7 * κ) (fun i j => by rw [Matrix.sub_apply]; exact h i j) z
    rw [sub_mulVec, dotProduct_sub, gram_form, hz, ← hZ] at e1
    have e2 : ∑ k, (-y) k ^ 2 = Y := by rw [hY]; simp
    rw [e2] at e1
    linarith [(abs_le.1 e1).1]
  -- The product.
  obtain ⟨e, he⟩ : ∃ e : Fin m → ℝ, e = L *ᵥ y - x := ⟨_, rfl⟩
  obtain ⟨ε, hε⟩ : ∃ ε, ε = 5 * κ * Real.sqrt Y + w' := ⟨_, rfl⟩
  have hε0 : 0 ≤ ε := by rw [hε]; positivity
  have he1 : ∀ j, |e j| ≤ s j * ε := by
    intro j
    have e1 := hy j
    have e2 := cs (L j) y
    have e3 : Real.sqrt (∑ k, L j k ^ 2) ≤ 3 / 2 * s j := by
      refine Real.sqrt_le_iff.2 ⟨by linarith [hs j], (hg j).trans ?_⟩
      nlinarith [sq_nonneg (s j)]
    have e4 : ∑ k, |L j k * y k| ≤ 3 / 2 * s j * Real.sqrt Y := by
      rw [hY]
      exact e2.trans (mul_le_mul_of_nonneg_right e3 (Real.sqrt_nonneg _))
    have e5 : e j = (∑ k, L j k * y k) - x j := by rw [he]; rfl
    rw [e5, hε]
    have e6 := mul_le_mul_of_nonneg_left e4 (by positivity : 0 ≤ 3 * κ)
    have e7 := hw j
    have e8 : 0 ≤ κ * (s j * Real.sqrt Y) := mul_nonneg hκ0 (mul_nonneg (hs j).le (Real.sqrt_nonneg _))
    nlinarith
  have f3 : x ⬝ᵥ z = -Y - e ⬝ᵥ z := by
    have e1 : (L *ᵥ y) ⬝ᵥ z = -Y := by
      rw [dotProduct_comm, dotProduct_mulVec, ← mulVec_transpose, hz, neg_dotProduct, hY]
      simp only [dotProduct, sq]
    rw [he, sub_dotProduct, e1]
    ring
  obtain ⟨σ, hσ⟩ : ∃ σ, σ = ∑ i, s i * |z i| := ⟨_, rfl⟩
  have f4 : |e ⬝ᵥ z| ≤ ε * σ := by
    rw [hσ, Finset.mul_sum]
    refine (Finset.abs_sum_le_sum_abs _ _).trans (Finset.sum_le_sum fun j _ => ?_)
    rw [abs_mul]
    calc |e j| * |z j| ≤ s j * ε * |z j| := mul_le_mul_of_nonneg_right (he1 j) (abs_nonneg _)
      _ = _ := by ring
  have f5 : σ ^ 2 ≤ m * Z := by
    rw [hσ, hZ]
    have := sum_sq_le fun i => s i * |z i|
    simpa only [mul_pow, sq_abs] using this
  rw [← hZ, f3] at f1
  have f6 : μ * Z + μ * t ≤ 7 * κ * m * Z - Y + 2 * (ε * σ) + t := by
    have := (abs_le.1 f4).1
    linarith
  -- The mean.
  have hm0 : (0 : ℝ) ≤ m := Nat.cast_nonneg _
  have f7 : 2 * μ * (ε * σ) ≤ μ ^ 2 / 2 * Z + 2 * m * ε ^ 2 := by
    rcases eq_or_lt_of_le hm0 with h0 | h0
    · have : σ ^ 2 ≤ 0 := by rw [← h0, zero_mul] at f5; exact f5
      have : σ = 0 := by nlinarith [sq_nonneg σ]
      rw [this]
      have : 0 ≤ μ ^ 2 / 2 * Z + 2 * m * ε ^ 2 := by positivity
      linarith
    · have g1 := sq_nonneg (μ * σ - 2 * m * ε)
      have g2 : μ ^ 2 * σ ^ 2 ≤ μ ^ 2 * (m * Z) := mul_le_mul_of_nonneg_left f5 (sq_nonneg _)
      have g3 : 4 * m * (μ * (ε * σ)) ≤ m * (μ ^ 2 * Z + 4 * m * ε ^ 2) := by nlinarith
      have g4 : 4 * (μ * (ε * σ)) ≤ μ ^ 2 * Z + 4 * m * ε ^ 2 := by
        refine le_of_mul_le_mul_left ?_ h0
        linarith
      linarith
  have f8 : 2 * m * ε ^ 2 ≤ μ ^ 2 / 8 * Y + μ ^ 2 / 8 * t := by
    have g1 : ε ^ 2 ≤ 50 * κ ^ 2 * Y + 2 * w' ^ 2 := by
      rw [hε]
      have := Real.sq_sqrt hY0
      nlinarith [sq_nonneg (5 * κ * Real.sqrt Y - w')]
    have g2 := mul_le_mul_of_nonneg_left g1 (by positivity : (0 : ℝ) ≤ 2 * m)
    have g3 := mul_le_mul_of_nonneg_right h2 hY0
    linarith
  have f9 : μ * Y ≤ μ * (1 - μ) * t + (μ ^ 2 / 8 * Y + μ ^ 2 / 8 * t) := by
    have g1 := mul_le_mul_of_nonneg_left f6 hμ0.le
    have g2 : μ * (7 * κ * m * Z) ≤ μ * (μ / 2 * Z) := mul_le_mul_of_nonneg_left (mul_le_mul_of_nonneg_right (by linarith) hZ0) hμ0.le
    linarith
  have f10 : Y ≤ (1 - μ) * t + μ / 8 * Y + μ / 8 * t := by
    refine le_of_mul_le_mul_left ?_ hμ0
    linarith
  rw [← hY]
  have ht : 0 ≤ t := by
    have : 0 ≤ μ ^ 2 * t := le_trans (by positivity) h3
    exact nonneg_of_mul_nonneg_right this (by positivity)
  exact mean_end hμ0 hμ1 ht f10

end Verif.CholReal
