import Verif.Lemmas.CholNear
import Verif.Props.IeeeCholLike

/-!
# The likelihood with Gaussian processes, from the data

C151: the matrices `TNT` and `TNr` of the likelihood, computed in binary64 from the basis, the variances and the residuals, are accurate enough for the likelihood.
-/

namespace Verif.Ieee

open Verif Matrix

variable (A : Arith) (L : Lib)

/-! ## Specification -/

/-- The data of one pulsar: basis, variances, residuals, inverse variances of the coefficients and their log-determinant. -/
structure Obs where
  n : Nat
  M : Nat
  T : Matrix (Fin M) (Fin n) ℝ
  ν : Fin M → ℝ
  r : Fin M → ℝ
  w : Fin n → ℝ
  l : ℝ

namespace Obs

variable (o : Obs)

/-- `Sigma`, in exact arithmetic. -/
noncomputable def Z : Matrix (Fin o.n) (Fin o.n) ℝ := o.Tᵀ * diagonal (fun k => (o.ν k)⁻¹) * o.T + diagonal o.w

/-- `TNr`, in exact arithmetic. -/
noncomputable def β : Fin o.n → ℝ := o.Tᵀ *ᵥ (diagonal (fun k => (o.ν k)⁻¹) *ᵥ o.r)

/-- The square of the weighted residuals. -/
noncomputable def ρ : ℝ := ∑ k, o.r k ^ 2 / o.ν k

/-- The term of the pulsar in the log-likelihood. -/
noncomputable def term : ℝ := 1 / 2 * (o.β ⬝ᵥ (o.Z⁻¹ *ᵥ o.β) - Real.log o.Z.det - o.l)

end Obs

/-- Data of usual size: no more than `N` coefficients and `K` TOAs, and `Sigma` has the relative distance `μ` from singular matrices. -/
structure UsualObs (N K : Nat) (μ : ℝ) (o : Obs) : Prop where
  pos : 0 < o.n
  le : o.n ≤ N
  toas : o.M ≤ K
  νlow : ∀ k, (2 : ℝ) ^ (-200 : ℤ) ≤ o.ν k
  T : ∀ k i, |o.T k i| ≤ (2 : ℝ) ^ (200 : ℤ)
  r : ∀ k, |o.r k| ≤ (2 : ℝ) ^ (200 : ℤ)
  w : ∀ i, 0 ≤ o.w i
  low : ∀ i, (2 : ℝ) ^ (-300 : ℤ) ≤ o.Z i i
  high : ∀ i, o.Z i i ≤ (2 : ℝ) ^ (300 : ℤ)
  ρ : o.ρ ≤ (2 : ℝ) ^ (190 : ℤ)
  l : |o.l| ≤ (2 : ℝ) ^ (900 : ℤ)
  margin : (o.Z - μ • diagonal o.Z.diag).PosSemidef

/-- The numbers of the likelihood are computed from these data. -/
def FromObs (p : Gp) (o : Obs) : Prop :=
  ∃ cols phiinv, (∀ i : Fin o.n, cols i = List.ofFn fun k => .fin (o.T k i)) ∧ (∀ i : Fin o.n, phiinv i = .fin (o.w i)) ∧
    IsGp A o.n cols (List.ofFn fun k => .fin (o.ν k)) (List.ofFn fun k => .fin (o.r k)) phiinv (.fin o.l) p

/-! ## Products -/

/-- Too small to matter. -/
noncomputable def dust : ℝ := (2 : ℝ) ^ (-800 : ℤ)

theorem dust_pos : 0 < dust := by unfold dust; positivity

theorem quot_acc {x y v : ℝ} (hx : |x| ≤ (2 : ℝ) ^ (200 : ℤ)) (hy : |y| ≤ (2 : ℝ) ^ (200 : ℤ)) (hv : (2 : ℝ) ^ (-200 : ℤ) ≤ v) :
    Times 1 0 (.fin x, div A (.fin y) (.fin v)) (x * y / v, |x * y / v| + dust) ∧ |x * y / v| ≤ (2 : ℝ) ^ (600 : ℤ) := by
  have hv0 : 0 < v := lt_of_lt_of_le (by positivity) hv
  have hyv : |y / v| ≤ (2 : ℝ) ^ (400 : ℤ) := by
    rw [abs_div, abs_of_pos hv0, div_le_iff₀ hv0]
    refine hy.trans ?_
    have : (2 : ℝ) ^ (200 : ℤ) = (2 : ℝ) ^ (400 : ℤ) * (2 : ℝ) ^ (-200 : ℤ) := by
      rw [← zpow_add₀ (by norm_num)]
      congr 1
    rw [this]
    exact mul_le_mul_of_nonneg_left hv (by positivity)
  have e1 : div A (.fin y) (.fin v) = .fin (A.rnd (y / v)) := by
    have : div A (.fin y) (.fin v) = A.round (y / v) := by simp only [div, hv0.ne', if_false]
    rw [this, round_fin A (hyv.trans (zpow_le_zpow_right₀ (by norm_num) (by norm_num)))]
  constructor
  · refine ⟨x, _, by rw [e1], ?_, ?_⟩
    · have h1 := rnd_err A (y / v)
      have e2 : x * A.rnd (y / v) - x * y / v = x * (A.rnd (y / v) - y / v) := by ring
      show |x * A.rnd (y / v) - x * y / v| ≤ 1 * eps * (|x * y / v| + dust) + 0 * tiny
      rw [e2, abs_mul]
      have h2 := mul_le_mul_of_nonneg_left h1 (abs_nonneg x)
      have h3 : |x| * tiny ≤ eps * dust := by
        refine (mul_le_mul_of_nonneg_right hx tiny_pos.le).trans ?_
        rw [tiny, eps, dust, ← zpow_add₀ (by norm_num), ← zpow_add₀ (by norm_num)]
        exact zpow_le_zpow_right₀ (by norm_num) (by norm_num)
      have e3 : |x * y / v| = |x| * |y / v| := by rw [mul_div_assoc, abs_mul]
      have h4 : 0 ≤ eps * (|x| * |y / v|) := by have := eps_pos; positivity
      rw [e3]
      linarith
    · show |x * y / v| ≤ |x * y / v| + dust
      have := dust_pos
      linarith
  · rw [mul_div_assoc, abs_mul]
    refine (mul_le_mul hx hyv (abs_nonneg _) (by positivity)).trans ?_
    rw [← zpow_add₀ (by norm_num)]
    exact zpow_le_zpow_right₀ (by norm_num) (by norm_num)

theorem zip_quot {M : Nat} (x y v : Fin M → ℝ) :
    (List.ofFn fun k => Fl.fin (x k)).zip (List.zipWith (div A) (List.ofFn fun k => .fin (y k)) (List.ofFn fun k => .fin (v k))) =
      (List.finRange M).map fun k => (.fin (x k), div A (.fin (y k)) (.fin (v k))) := by
  refine List.ext_getElem (by simp) fun i h1 h2 => ?_
  simp

/-- The sum of the products. -/
theorem dot_data {M : Nat} (hM : M ≤ 2 ^ 30) {x y v : Fin M → ℝ} (hx : ∀ k, |x k| ≤ (2 : ℝ) ^ (200 : ℤ)) (hy : ∀ k, |y k| ≤ (2 : ℝ) ^ (200 : ℤ)) (hv : ∀ k, (2 : ℝ) ^ (-200 : ℤ) ≤ v k)
    {a : Fl} (h : IsDot A ((List.ofFn fun k => Fl.fin (x k)).zip (List.zipWith (div A) (List.ofFn fun k => .fin (y k)) (List.ofFn fun k => .fin (v k)))) a) :
    ∃ u, a = .fin u ∧ Acc (1 + M) (M * 4) ((∑ k, |x k * y k / v k|) + M * dust) u (∑ k, x k * y k / v k) ∧ (∑ k, |x k * y k / v k|) + M * dust ≤ (2 : ℝ) ^ (640 : ℤ) := by
  rw [zip_quot] at h
  have hM' : (M : ℝ) ≤ 1073741824 := by exact_mod_cast hM
  have hs : List.Forall₂ (Times 1 0) ((List.finRange M).map fun k => (Fl.fin (x k), div A (.fin (y k)) (.fin (v k))))
      ((List.finRange M).map fun k => (x k * y k / v k, |x k * y k / v k| + dust)) := by
    rw [List.forall₂_map_left_iff, List.forall₂_map_right_iff, List.forall₂_same]
    exact fun k _ => (quot_acc A (hx k) (hy k) (hv k)).1
  have hl : ((List.finRange M).map fun k => (x k * y k / v k, |x k * y k / v k| + dust)).length = M := by simp
  have ht : total ((List.finRange M).map fun k => (x k * y k / v k, |x k * y k / v k| + dust)) = (∑ k, x k * y k / v k, (∑ k, |x k * y k / v k|) + M * dust) := by
    have e : (∑ k, |x k * y k / v k|) + M * dust = ∑ k, (|x k * y k / v k| + dust) := by
      rw [Finset.sum_add_distrib, Finset.sum_const, Finset.card_univ, Fintype.card_fin, nsmul_eq_mul]
    rw [e, total, List.map_map, List.map_map, Fin.sum_univ_def, Fin.sum_univ_def]
    rfl
  have hW : (∑ k, |x k * y k / v k|) + M * dust ≤ (2 : ℝ) ^ (640 : ℤ) := by
    have h1 := Finset.sum_le_card_nsmul Finset.univ (fun k => |x k * y k / v k|) ((2 : ℝ) ^ (600 : ℤ)) fun k _ => (quot_acc A (hx k) (hy k) (hv k)).2
    rw [Finset.card_univ, Fintype.card_fin, nsmul_eq_mul] at h1
    have h2 : dust ≤ (2 : ℝ) ^ (600 : ℤ) := zpow_le_zpow_right₀ (by norm_num) (by norm_num)
    have h3 := mul_le_mul_of_nonneg_left h2 (Nat.cast_nonneg M : (0 : ℝ) ≤ M)
    have h4 : (2 : ℝ) ^ (640 : ℤ) = 2 ^ 40 * (2 : ℝ) ^ (600 : ℤ) := by
      rw [show ((2 : ℝ) ^ 40) = (2 : ℝ) ^ (40 : ℤ) by norm_num, ← zpow_add₀ (by norm_num)]
      congr 1
    rw [h4]
    have h5 : (0 : ℝ) < (2 : ℝ) ^ (600 : ℤ) := by positivity
    have h6 := mul_le_mul_of_nonneg_right hM' h5.le
    clear h4 h2
    generalize (2 : ℝ) ^ (600 : ℤ) = V at *
    norm_num
    linarith
  obtain ⟨u, e, acc⟩ := dot_acc A zero_le_one le_rfl hs (by rw [hl]; norm_num; linarith) (by rw [hl]; norm_num; linarith)
    (by rw [ht]; exact hW.trans (zpow_le_zpow_right₀ (by norm_num) (by norm_num))) h
  rw [ht, hl] at acc
  refine ⟨u, e, ?_, hW⟩
  simpa using acc

/-! ## The exact numbers -/

namespace Obs

variable (o : Obs)

/-- `TNT` in exact arithmetic. -/
theorem Z_apply (i j : Fin o.n) : o.Z i j = (∑ k, o.T k i * o.T k j / o.ν k) + if i = j then o.w i else 0 := by
  rw [Z, Matrix.add_apply, diagonal_apply, mul_apply]
  congr 1
  refine Finset.sum_congr rfl fun k _ => ?_
  rw [mul_diagonal, transpose_apply]
  ring

theorem β_apply (i : Fin o.n) : o.β i = ∑ k, o.T k i * o.r k / o.ν k := by
  rw [β, mulVec, dotProduct]
  refine Finset.sum_congr rfl fun k _ => ?_
  rw [mulVec_diagonal, transpose_apply]
  ring

theorem Z_symm (i j : Fin o.n) : o.Z i j = o.Z j i := by
  rw [Z_apply, Z_apply]
  congr 1
  · exact Finset.sum_congr rfl fun k _ => by ring
  · by_cases h : i = j
    · rw [h]
    · rw [if_neg h, if_neg (Ne.symm h)]

/-- Products of weighted numbers. -/
theorem cauchy {M : Nat} {v : Fin M → ℝ} (hv : ∀ k, 0 < v k) (x y : Fin M → ℝ) : ∑ k, |x k * y k / v k| ≤ Real.sqrt (∑ k, x k * x k / v k) * Real.sqrt (∑ k, y k * y k / v k) := by
  have h := CholReal.cs (fun k => x k / Real.sqrt (v k)) fun k => y k / Real.sqrt (v k)
  have e : ∀ k, Real.sqrt (v k) * Real.sqrt (v k) = v k := fun k => Real.mul_self_sqrt (hv k).le
  have e1 : ∀ a b : Fin M → ℝ, ∀ k, a k / Real.sqrt (v k) * (b k / Real.sqrt (v k)) = a k * b k / v k := fun a b k => by rw [div_mul_div_comm, e]
  simp only [sq, e1] at h
  exact h

/-- The quadratic form is a projection of the residuals. -/
theorem quad_le (hν : ∀ k, 0 < o.ν k) (hw : ∀ i, 0 ≤ o.w i) (hZ : o.Z.PosDef) : o.β ⬝ᵥ (o.Z⁻¹ *ᵥ o.β) ≤ o.ρ := by
  rw [CholReal.dual_eq hZ]
  generalize o.Z⁻¹ *ᵥ o.β = u
  obtain ⟨f, hf⟩ : ∃ f, f = o.T *ᵥ u := ⟨_, rfl⟩
  have e1 : o.β ⬝ᵥ u = ∑ k, f k * o.r k / o.ν k := by
    rw [dotProduct_comm, β, CholReal.gen_move, transpose_transpose, ← hf]
    refine Finset.sum_congr rfl fun k _ => ?_
    rw [mulVec_diagonal]
    ring
  have e2 : u ⬝ᵥ (o.Z *ᵥ u) = (∑ k, f k ^ 2 / o.ν k) + ∑ i, o.w i * u i ^ 2 := by
    rw [Z, add_mulVec, dotProduct_add]
    congr 1
    · rw [← mulVec_mulVec, ← mulVec_mulVec, CholReal.gen_move, transpose_transpose, ← hf]
      refine Finset.sum_congr rfl fun k _ => ?_
      rw [mulVec_diagonal]
      ring
    · refine Finset.sum_congr rfl fun k _ => ?_
      rw [mulVec_diagonal]
      ring
  have h1 : 0 ≤ ∑ i, o.w i * u i ^ 2 := Finset.sum_nonneg fun i _ => mul_nonneg (hw i) (sq_nonneg _)
  have h2 : ∑ k, (2 * (f k * o.r k / o.ν k) - f k ^ 2 / o.ν k) ≤ o.ρ := by
    refine Finset.sum_le_sum fun k _ => ?_
    have : o.r k ^ 2 / o.ν k - (2 * (f k * o.r k / o.ν k) - f k ^ 2 / o.ν k) = (o.r k - f k) ^ 2 / o.ν k := by ring
    have h3 : 0 ≤ (o.r k - f k) ^ 2 / o.ν k := div_nonneg (sq_nonneg _) (hν k).le
    linarith
  rw [Finset.sum_sub_distrib, ← Finset.mul_sum] at h2
  rw [e1, e2]
  linarith

end Obs

/-! ## The computed numbers -/

namespace UsualObs

variable {N K : Nat} {μ : ℝ} {o : Obs} (U : UsualObs N K μ o)
include U

theorem νpos (k : Fin o.M) : 0 < o.ν k := lt_of_lt_of_le (by positivity) (U.νlow k)

theorem Zpos (i : Fin o.n) : 0 < o.Z i i := lt_of_lt_of_le (by positivity) (U.low i)

theorem root_low (i : Fin o.n) : (2 : ℝ) ^ (-150 : ℤ) ≤ Real.sqrt (o.Z i i) := by
  refine Real.le_sqrt_of_sq_le ?_
  refine le_trans (le_of_eq ?_) (U.low i)
  rw [← zpow_natCast, ← _root_.zpow_mul]
  congr 1

theorem root_high (i : Fin o.n) : Real.sqrt (o.Z i i) ≤ (2 : ℝ) ^ (150 : ℤ) := by
  rw [Real.sqrt_le_left (by positivity)]
  refine (U.high i).trans (le_of_eq ?_)
  rw [← zpow_natCast, ← _root_.zpow_mul]
  congr 1

/-- The diagonal of `TNT`. -/
theorem diag_le (i : Fin o.n) : Real.sqrt (∑ k, o.T k i * o.T k i / o.ν k) ≤ Real.sqrt (o.Z i i) := by
  refine Real.sqrt_le_sqrt ?_
  rw [Obs.Z_apply, if_pos rfl]
  have := U.w i
  linarith

theorem entry_bound (i j : Fin o.n) : (∑ k, |o.T k i * o.T k j / o.ν k|) + (if i = j then o.w i else 0) ≤ Real.sqrt (o.Z i i) * Real.sqrt (o.Z j j) := by
  by_cases h : i = j
  · subst h
    rw [if_pos rfl, Real.mul_self_sqrt (U.Zpos i).le, Obs.Z_apply, if_pos rfl]
    refine add_le_add (le_of_eq ?_) le_rfl
    refine Finset.sum_congr rfl fun k _ => ?_
    exact abs_of_nonneg (div_nonneg (mul_self_nonneg _) (U.νpos k).le)
  · rw [if_neg h, add_zero]
    exact (Obs.cauchy U.νpos _ _).trans (mul_le_mul (U.diag_le i) (U.diag_le j) (Real.sqrt_nonneg _) (Real.sqrt_nonneg _))

theorem ρ_nonneg : 0 ≤ o.ρ := Finset.sum_nonneg fun k _ => div_nonneg (sq_nonneg _) (U.νpos k).le

theorem vec_bound (i : Fin o.n) : ∑ k, |o.T k i * o.r k / o.ν k| ≤ Real.sqrt (o.Z i i) * Real.sqrt o.ρ := by
  have h := Obs.cauchy U.νpos (fun k => o.T k i) o.r
  have e : ∑ k, o.r k * o.r k / o.ν k = o.ρ := Finset.sum_congr rfl fun k _ => by rw [sq]
  rw [e] at h
  exact h.trans (mul_le_mul_of_nonneg_right (U.diag_le i) (Real.sqrt_nonneg _))

end UsualObs

/-- The dust is small against the unit `V`. -/
theorem dust_le {M : Nat} (hM : M ≤ 2 ^ 30) {V : ℝ} (hV : (2 : ℝ) ^ (-450 : ℤ) ≤ V) : (2 + M) * eps * (M * dust) + (M * 4 + 2) * tiny ≤ eps * V := by
  have hM' : (M : ℝ) ≤ 1073741824 := by exact_mod_cast hM
  have h0 : (0 : ℝ) ≤ M := Nat.cast_nonneg M
  have he := eps_pos
  have ht : tiny ≤ eps * (2 : ℝ) ^ (-1000 : ℤ) := by
    rw [tiny, eps, ← zpow_add₀ (by norm_num)]
    exact zpow_le_zpow_right₀ (by norm_num) (by norm_num)
  have hd : (2 : ℝ) ^ (-1000 : ℤ) ≤ dust := zpow_le_zpow_right₀ (by norm_num) (by norm_num)
  have ht' : tiny ≤ eps * dust := ht.trans (mul_le_mul_of_nonneg_left hd he.le)
  have hp : 0 < eps * dust := mul_pos he dust_pos
  have h1 : (2 + M) * eps * (M * dust) + (M * 4 + 2) * tiny ≤ 2 ^ 70 * (eps * dust) := by
    have a1 : (2 + (M : ℝ)) * M ≤ 2 ^ 69 := by
      have : (2 + (M : ℝ)) * M ≤ (2 + 1073741824) * 1073741824 := mul_le_mul (by linarith) hM' h0 (by norm_num)
      norm_num at this ⊢
      linarith
    have a2 := mul_le_mul_of_nonneg_right a1 hp.le
    have a3 := mul_le_mul_of_nonneg_left ht' (by linarith : 0 ≤ (M : ℝ) * 4 + 2)
    have a4 : ((M : ℝ) * 4 + 2) * (eps * dust) ≤ 2 ^ 69 * (eps * dust) := by
      refine mul_le_mul_of_nonneg_right ?_ hp.le
      norm_num
      linarith
    have e : (2 + (M : ℝ)) * eps * (M * dust) = (2 + M) * M * (eps * dust) := by ring
    rw [e]
    have e2 : (2 : ℝ) ^ 70 * (eps * dust) = 2 ^ 69 * (eps * dust) + 2 ^ 69 * (eps * dust) := by ring
    rw [e2]
    exact add_le_add a2 (a3.trans a4)
  refine h1.trans ?_
  have h2 : (2 : ℝ) ^ 70 * dust ≤ (2 : ℝ) ^ (-450 : ℤ) := by
    rw [dust, show ((2 : ℝ) ^ 70) = (2 : ℝ) ^ (70 : ℤ) by norm_cast, ← zpow_add₀ (by norm_num)]
    exact zpow_le_zpow_right₀ (by norm_num) (by norm_num)
  have h3 := mul_le_mul_of_nonneg_left (h2.trans hV) he.le
  have e : (2 : ℝ) ^ 70 * (eps * dust) = eps * (2 ^ 70 * dust) := by ring
  rw [e]
  exact h3

/-- An entry of `Sigma`. -/
theorem sigma_entry {N K : Nat} {μ : ℝ} {o : Obs} (U : UsualObs N K μ o) (hK : K ≤ 2 ^ 30) {cols : Nat → List Fl} {phiinv : Nat → Fl} {tnt : Nat → Nat → Fl}
    (hc : ∀ i : Fin o.n, cols i = List.ofFn fun k => .fin (o.T k i)) (hp : ∀ i : Fin o.n, phiinv i = .fin (o.w i)) (ht : IsTNT A cols (List.ofFn fun k => .fin (o.ν k)) tnt) (i j : Fin o.n) :
    ∃ x, sigmaF A tnt phiinv i j = .fin x ∧ |x - o.Z i j| ≤ (K + 3) * eps * (Real.sqrt (o.Z i i) * Real.sqrt (o.Z j j)) := by
  have hM : o.M ≤ 2 ^ 30 := U.toas.trans hK
  have hM' : (o.M : ℝ) ≤ 1073741824 := by exact_mod_cast hM
  have hMK : (o.M : ℝ) ≤ K := by exact_mod_cast U.toas
  have h0 : (0 : ℝ) ≤ o.M := Nat.cast_nonneg _
  have he := eps_pos
  have h := ht i j
  rw [hc, hc] at h
  obtain ⟨u, e, acc, hW⟩ := dot_data A hM (fun k => U.T k i) (fun k => U.T k j) U.νlow h
  obtain ⟨w', hw'⟩ : ∃ w', w' = if i = j then o.w i else 0 := ⟨_, rfl⟩
  have hw0 : 0 ≤ w' := by
    rw [hw']
    split
    · exact U.w i
    · exact le_rfl
  have hb := U.entry_bound i j
  rw [← hw'] at hb
  have hr : Real.sqrt (o.Z i i) * Real.sqrt (o.Z j j) ≤ (2 : ℝ) ^ (300 : ℤ) := by
    refine (mul_le_mul (U.root_high i) (U.root_high j) (Real.sqrt_nonneg _) (by positivity)).trans (le_of_eq ?_)
    rw [← zpow_add₀ (by norm_num)]
    congr 1
  have hl : (2 : ℝ) ^ (-450 : ℤ) ≤ Real.sqrt (o.Z i i) * Real.sqrt (o.Z j j) := by
    refine le_trans ?_ (mul_le_mul (U.root_low i) (U.root_low j) (by positivity) (Real.sqrt_nonneg _))
    rw [← zpow_add₀ (by norm_num)]
    exact zpow_le_zpow_right₀ (by norm_num) (by norm_num)
  have hs : 0 ≤ ∑ k, |o.T k i * o.T k j / o.ν k| := Finset.sum_nonneg fun _ _ => abs_nonneg _
  have a1 := acc.add' (V := w') (y := w') (Y := w') (n := 0) ⟨by
    rw [sub_self, abs_zero, zero_mul, add_zero]
    positivity, (abs_of_nonneg hw0).le⟩
  have hd : o.M * dust ≤ (2 : ℝ) ^ (640 : ℤ) := by
    refine le_trans ?_ hW
    linarith
  have hW2 : (∑ k, |o.T k i * o.T k j / o.ν k|) + o.M * dust + w' ≤ (2 : ℝ) ^ (990 : ℤ) := by
    have b1 : (∑ k, |o.T k i * o.T k j / o.ν k|) + w' ≤ (2 : ℝ) ^ (989 : ℤ) := hb.trans (hr.trans (zpow_le_zpow_right₀ (by norm_num) (by norm_num)))
    have b2 : o.M * dust ≤ (2 : ℝ) ^ (989 : ℤ) := hd.trans (zpow_le_zpow_right₀ (by norm_num) (by norm_num))
    have h6 : (2 : ℝ) ^ (990 : ℤ) = 2 ^ (989 : ℤ) + (2 : ℝ) ^ (989 : ℤ) := by
      rw [← two_mul, ← zpow_one_add₀ (by norm_num)]
      congr 1
    rw [h6, add_right_comm]
    exact add_le_add b1 b2
  obtain ⟨x, ex, a2⟩ := a1.round A (by norm_num; linarith) (by linarith) (by norm_num; linarith) hW2
  refine ⟨x, ?_, ?_⟩
  · have e2 : (if (i : ℕ) = j then phiinv i else .fin 0) = .fin w' := by
      rw [hw']
      by_cases hij : i = j
      · rw [if_pos hij, if_pos (congrArg _ hij), hp]
      · rw [if_neg hij, if_neg (fun h => hij (Fin.ext h))]
    rw [sigmaF, e, e2]
    exact ex
  · have a3 := a2.err
    rw [hw', ← Obs.Z_apply] at a3
    rw [← hw'] at a3
    refine a3.trans ?_
    have hd := dust_le hM hl
    have b1 := mul_le_mul_of_nonneg_left hb (by positivity : 0 ≤ (2 + (o.M : ℝ)) * eps)
    have b2 : (3 + (o.M : ℝ)) * eps * (Real.sqrt (o.Z i i) * Real.sqrt (o.Z j j)) ≤ (K + 3) * eps * (Real.sqrt (o.Z i i) * Real.sqrt (o.Z j j)) := by
      refine mul_le_mul_of_nonneg_right (mul_le_mul_of_nonneg_right ?_ he.le) (by positivity)
      linarith
    refine le_trans ?_ b2
    linarith

/-- An entry of `TNr`. -/
theorem tnr_entry {N K : Nat} {μ : ℝ} {o : Obs} (U : UsualObs N K μ o) (hK : K ≤ 2 ^ 30) {cols : Nat → List Fl} {tnr : Nat → Fl}
    (hc : ∀ i : Fin o.n, cols i = List.ofFn fun k => .fin (o.T k i)) (ht : IsTNr A cols (List.ofFn fun k => .fin (o.ν k)) (List.ofFn fun k => .fin (o.r k)) tnr) (i : Fin o.n) :
    ∃ b, tnr i = .fin b ∧ |b - o.β i| ≤ (K + 3) * eps * Real.sqrt (o.Z i i) * (Real.sqrt o.ρ + (2 : ℝ) ^ (-300 : ℤ)) := by
  have hM : o.M ≤ 2 ^ 30 := U.toas.trans hK
  have hMK : (o.M : ℝ) ≤ K := by exact_mod_cast U.toas
  have h0 : (0 : ℝ) ≤ o.M := Nat.cast_nonneg _
  have he := eps_pos
  have h := ht i
  rw [hc] at h
  obtain ⟨b, e, acc, -⟩ := dot_data A hM (fun k => U.T k i) U.r U.νlow h
  refine ⟨b, e, ?_⟩
  have a3 := acc.err
  rw [← Obs.β_apply] at a3
  refine a3.trans ?_
  have hb := U.vec_bound i
  have hl : (2 : ℝ) ^ (-450 : ℤ) ≤ Real.sqrt (o.Z i i) * (2 : ℝ) ^ (-300 : ℤ) := by
    refine le_trans (le_of_eq ?_) (mul_le_mul_of_nonneg_right (U.root_low i) (by positivity))
    rw [← zpow_add₀ (by norm_num)]
    congr 1
  have hd := dust_le hM hl
  have hVp : (0 : ℝ) < (2 : ℝ) ^ (-300 : ℤ) := by positivity
  clear hl
  generalize (2 : ℝ) ^ (-300 : ℤ) = V at *
  have b1 := mul_le_mul_of_nonneg_left hb (by positivity : 0 ≤ (1 + (o.M : ℝ)) * eps)
  have b2 : (3 + (o.M : ℝ)) * eps * Real.sqrt (o.Z i i) * (Real.sqrt o.ρ + V) ≤ (K + 3) * eps * Real.sqrt (o.Z i i) * (Real.sqrt o.ρ + V) := by
    refine mul_le_mul_of_nonneg_right (mul_le_mul_of_nonneg_right (mul_le_mul_of_nonneg_right ?_ he.le) (by positivity)) (by positivity)
    linarith
  refine le_trans ?_ b2
  have b3 : 0 ≤ eps * (o.M * dust) := by have := dust_pos; positivity
  have b4 : 0 ≤ eps * (Real.sqrt (o.Z i i) * Real.sqrt o.ρ) := by positivity
  have ht := tiny_pos
  have b5 : 0 ≤ eps * (Real.sqrt (o.Z i i) * V) := by positivity
  have b6 := mul_nonneg h0 b5
  linarith

/-! ## The term of a pulsar -/

theorem margin_form {n : Nat} {Z : Matrix (Fin n) (Fin n) ℝ} {μ : ℝ} (h : (Z - μ • diagonal Z.diag).PosSemidef) (hZ : ∀ i, 0 < Z i i) (z : Fin n → ℝ) :
    μ * ∑ i, Real.sqrt (Z i i) ^ 2 * z i ^ 2 ≤ z ⬝ᵥ (Z *ᵥ z) := by
  have h1 := margin_sub h (e := id) Function.injective_id z
  rw [CholReal.form_eq]
  simp only [id] at h1
  refine le_trans (le_of_eq ?_) h1
  congr 1
  exact Finset.sum_congr rfl fun i _ => by rw [Real.sq_sqrt (hZ i).le]

theorem margin_one {n : Nat} {Z : Matrix (Fin n) (Fin n) ℝ} {μ : ℝ} (h : (Z - μ • diagonal Z.diag).PosSemidef) (hZ : ∀ i, 0 < Z i i) (i : Fin n) : μ ≤ 1 := by
  have h1 := margin_sub h (m := 1) (e := fun _ => i) (fun a b _ => Subsingleton.elim a b) fun _ => 1
  simp only [Finset.univ_unique, Finset.sum_singleton, one_pow, mul_one] at h1
  have := hZ i
  nlinarith

theorem margin_def {n : Nat} {Z : Matrix (Fin n) (Fin n) ℝ} {μ : ℝ} (h : (Z - μ • diagonal Z.diag).PosSemidef) (hZ : ∀ i, 0 < Z i i) (hμ : 0 < μ) : Z.PosDef := by
  have h1 : (μ • diagonal Z.diag).PosDef := (PosDef.diagonal fun i => hZ i).smul hμ
  have h2 := PosDef.posSemidef_add h h1
  rwa [sub_add_cancel] at h2

/-- A matrix close to one with a margin. -/
theorem margin_near {n : Nat} {X Z : Matrix (Fin n) (Fin n) ℝ} {μ κ : ℝ} (h : (Z - μ • diagonal Z.diag).PosSemidef) (hZ : ∀ i, 0 < Z i i) (hμ : 0 < μ) (hX : ∀ i j, X i j = X j i)
    (hκ0 : 0 ≤ κ) (hκ : 100 * (κ * n) ≤ μ) (hκ1 : 100 * κ ≤ 1) (he : ∀ i j, |X i j - Z i j| ≤ κ * (Real.sqrt (Z i i) * Real.sqrt (Z j j))) :
    (∀ z, |z ⬝ᵥ (X *ᵥ z) - z ⬝ᵥ (Z *ᵥ z)| ≤ κ * n / μ * (z ⬝ᵥ (Z *ᵥ z))) ∧ (X - (μ / 2) • diagonal X.diag).PosSemidef := by
  have h1 : ∀ z, |z ⬝ᵥ (X *ᵥ z) - z ⬝ᵥ (Z *ᵥ z)| ≤ κ * n * ∑ i, Real.sqrt (Z i i) ^ 2 * z i ^ 2 := by
    intro z
    have := CholReal.form_small (E := X - Z) (s := fun i => Real.sqrt (Z i i)) (fun i => Real.sqrt_nonneg _) hκ0 (fun i j => he i j) z
    rwa [sub_mulVec, dotProduct_sub] at this
  have hs0 : ∀ z : Fin n → ℝ, 0 ≤ ∑ i, Real.sqrt (Z i i) ^ 2 * z i ^ 2 := fun z => Finset.sum_nonneg fun i _ => by positivity
  constructor
  · intro z
    refine (h1 z).trans ?_
    have h2 := margin_form h hZ z
    have e : κ * n / μ * (z ⬝ᵥ (Z *ᵥ z)) = κ * n * ((z ⬝ᵥ (Z *ᵥ z)) / μ) := by ring
    rw [e]
    refine mul_le_mul_of_nonneg_left ?_ (by positivity)
    rw [le_div_iff₀ hμ]
    linarith
  · refine PosSemidef.of_dotProduct_mulVec_nonneg ?_ fun z => ?_
    · ext i j
      rw [conjTranspose_apply, star_trivial, Matrix.sub_apply, Matrix.sub_apply, Matrix.smul_apply, Matrix.smul_apply, diagonal_apply, diagonal_apply, hX j i]
      by_cases hij : i = j
      · subst hij
        rfl
      · rw [if_neg hij, if_neg (Ne.symm hij)]
    · rw [star_trivial, sub_mulVec, dotProduct_sub, smul_mulVec, dotProduct_smul, smul_eq_mul]
      have e : z ⬝ᵥ (diagonal X.diag *ᵥ z) = ∑ i, X i i * z i ^ 2 := by
        refine Finset.sum_congr rfl fun i _ => ?_
        rw [mulVec_diagonal, Matrix.diag_apply]
        ring
      rw [e]
      have h2 : ∑ i, X i i * z i ^ 2 ≤ 101 / 100 * ∑ i, Real.sqrt (Z i i) ^ 2 * z i ^ 2 := by
        rw [Finset.mul_sum]
        refine Finset.sum_le_sum fun i _ => ?_
        rw [← mul_assoc]
        refine mul_le_mul_of_nonneg_right ?_ (sq_nonneg _)
        have h3 := (abs_le.1 (he i i)).2
        rw [Real.mul_self_sqrt (hZ i).le] at h3
        rw [Real.sq_sqrt (hZ i).le]
        have h4 := mul_le_mul_of_nonneg_right hκ1 (hZ i).le
        linarith
      have h3 := (abs_le.1 (h1 z)).1
      have h4 := margin_form h hZ z
      have h5 := mul_le_mul_of_nonneg_left h2 (by linarith : 0 ≤ μ / 2)
      have h6 := mul_le_mul_of_nonneg_right hκ (hs0 z)
      have h7 := mul_nonneg hμ.le (hs0 z)
      linarith

/-- The vector and the matrix together. -/
theorem quad_shift {n : Nat} {X Z : Matrix (Fin n) (Fin n) ℝ} {μ κ R P : ℝ} {b β : Fin n → ℝ} (hn : 0 < n) (hX : X.PosDef) (hZ : Z.PosDef) (hμ : 0 < μ) (hμ1 : μ ≤ 1) (hκ0 : 0 < κ)
    (hκ : 100 * (κ * n) ≤ μ) (hZ0 : ∀ i, 0 < Z i i) (hm : ∀ z, μ * ∑ i, Real.sqrt (Z i i) ^ 2 * z i ^ 2 ≤ z ⬝ᵥ (Z *ᵥ z))
    (hf : ∀ z, |z ⬝ᵥ (X *ᵥ z) - z ⬝ᵥ (Z *ᵥ z)| ≤ κ * n / μ * (z ⬝ᵥ (Z *ᵥ z))) (hb : ∀ i, |b i - β i| ≤ κ * Real.sqrt (Z i i) * R) (hP : β ⬝ᵥ (Z⁻¹ *ᵥ β) ≤ P) (hR : R ^ 2 ≤ P + 1) (hR2 : P ≤ R ^ 2) :
    |b ⬝ᵥ (X⁻¹ *ᵥ b) - β ⬝ᵥ (Z⁻¹ *ᵥ β)| ≤ 6 * (κ * n / μ) * (P + 1) ∧ b ⬝ᵥ (X⁻¹ *ᵥ b) ≤ 2 * (P + 1) ∧ |Real.log X.det - Real.log Z.det| ≤ 2 * n * (κ * n / μ) := by
  have n1 : (1 : ℝ) ≤ n := by exact_mod_cast hn
  obtain ⟨t, ht⟩ : ∃ t, t = κ * n / μ := ⟨_, rfl⟩
  rw [← ht] at hf ⊢
  have t0 : 0 < t := by rw [ht]; positivity
  have t1 : t ≤ 1 / 100 := by
    rw [ht, div_le_iff₀ hμ]
    linarith
  have hκt : κ ≤ t := by
    rw [ht, le_div_iff₀ hμ]
    nlinarith
  have h1 := CholReal.inv_shift hZ β (b - β) t0
  rw [add_sub_cancel] at h1
  have h2 := CholReal.inv_small (d := b - β) hZ hμ (fun i => Real.sqrt_pos.2 (hZ0 i)) hm hb
  have h3 := CholReal.inv_near hX hZ t0.le (by linarith) hf b
  have h4 := CholReal.log_det_near hX hZ t0.le (by linarith) hf
  have h5 := CholReal.inv_nonneg hZ β
  have h6 := CholReal.inv_nonneg hZ b
  have e1 : n * κ ^ 2 * R ^ 2 / μ = t * κ * R ^ 2 := by rw [ht]; ring
  rw [e1] at h2
  refine ⟨?_, ?_, by linarith⟩
  all_goals
    clear hf hm h4
    generalize b ⬝ᵥ (X⁻¹ *ᵥ b) = QX at *
    generalize b ⬝ᵥ (Z⁻¹ *ᵥ b) = QZ at *
    generalize β ⬝ᵥ (Z⁻¹ *ᵥ β) = Q at *
    generalize (b - β) ⬝ᵥ (Z⁻¹ *ᵥ (b - β)) = D at *
    have g1 : (1 + 1 / t) * D ≤ (1 + 1 / t) * (t * κ * R ^ 2) := mul_le_mul_of_nonneg_left h2 (by positivity)
    have e2 : (1 + 1 / t) * (t * κ * R ^ 2) = t * κ * R ^ 2 + κ * R ^ 2 := by field_simp
    have r0 : 0 ≤ R ^ 2 := sq_nonneg R
    have g2 := mul_le_mul_of_nonneg_right hκt r0
    have g3 := mul_le_mul_of_nonneg_left g2 t0.le
    have g4 : t * (t * R ^ 2) ≤ t * (1 / 100 * R ^ 2) := mul_le_mul_of_nonneg_left (mul_le_mul_of_nonneg_right t1 r0) t0.le
    have g5 : t * Q ≤ t * R ^ 2 := mul_le_mul_of_nonneg_left (hP.trans hR2) t0.le
    have g6 : |QZ - Q| ≤ 3 * t * R ^ 2 := by linarith [mul_nonneg t0.le r0]
    have g7 : QZ ≤ 2 * R ^ 2 := by
      have := (abs_le.1 g6).2
      have := mul_le_mul_of_nonneg_right t1 r0
      linarith
    have g8 : QZ ≤ 6 / 5 * R ^ 2 := by
      have := (abs_le.1 g6).2
      have := mul_le_mul_of_nonneg_right t1 r0
      linarith
    have g9 := mul_le_mul_of_nonneg_left g8 t0.le
    have g10 := mul_le_mul_of_nonneg_left hR t0.le
    have g11 := mul_le_mul_of_nonneg_right t1 r0
    obtain ⟨u1, u2⟩ := abs_le.1 g6
    obtain ⟨u3, u4⟩ := abs_le.1 h3
  · rw [abs_le]
    constructor <;> linarith
  · linarith

theorem gives_of {N K : Nat} {μ : ℝ} {o : Obs} (U : UsualObs N K μ o) (hN : N ≤ 2 ^ 30) (hK : K ≤ 2 ^ 30) (hκ : 100 * ((K + 3) * eps * N) ≤ μ) (hμ : 2 ^ 18 * N ^ 2 * eps ≤ μ) {p : Gp}
    (hc : FromObs A p o) :
    ∃ d, Gives N (μ / 2) p d ∧ |d.term - o.term| ≤ (K + 3) * eps * N / μ * (3 * (o.ρ + 1) + o.n) ∧ d.size ≤ 2 * (o.ρ + 1) + 750 * o.n + |o.l| := by
  obtain ⟨cols, phiinv, hcols, hphi, hpn, htnr, ⟨tnt, htnt, hsig⟩, hld⟩ := hc
  have he := eps_pos
  have h0 := U.pos
  have n1 : (1 : ℝ) ≤ o.n := by exact_mod_cast h0
  have nN : (o.n : ℝ) ≤ N := by exact_mod_cast U.le
  have hK' : (K : ℝ) ≤ 1073741824 := by exact_mod_cast hK
  have hK0 : (0 : ℝ) ≤ K := Nat.cast_nonneg K
  obtain ⟨κ, hκe⟩ : ∃ κ, κ = (K + 3) * eps := ⟨_, rfl⟩
  have κ0 : 0 < κ := by rw [hκe]; positivity
  rw [← hκe] at hκ ⊢
  have hκn : 100 * (κ * o.n) ≤ μ := by
    have := mul_le_mul_of_nonneg_left nN κ0.le
    linarith
  have μ0 : 0 < μ := lt_of_lt_of_le (by positivity) hκn
  have μ1 : μ ≤ 1 := margin_one U.margin U.Zpos ⟨0, h0⟩
  have κ1 : 100 * κ ≤ 1 := by
    have := mul_le_mul_of_nonneg_left n1 κ0.le
    linarith
  choose x hx hxe using fun i j => sigma_entry A U hK hcols hphi htnt i j
  choose b hb hbe using fun i => tnr_entry A U hK hcols htnr i
  rw [← hκe] at hxe hbe
  obtain ⟨X, hX⟩ : ∃ X : Matrix (Fin o.n) (Fin o.n) ℝ, ∀ i j, X i j = if j ≤ i then x i j else x j i := ⟨fun i j => if j ≤ i then x i j else x j i, fun _ _ => rfl⟩
  have Xsymm : ∀ i j, X i j = X j i := by
    intro i j
    rw [hX, hX]
    rcases lt_trichotomy i j with h | h | h
    · rw [if_neg (not_le.2 h), if_pos h.le]
    · rw [h]
    · rw [if_pos h.le, if_neg (not_le.2 h)]
  have Xerr : ∀ i j, |X i j - o.Z i j| ≤ κ * (Real.sqrt (o.Z i i) * Real.sqrt (o.Z j j)) := by
    intro i j
    rw [hX]
    split
    · exact hxe i j
    · rw [o.Z_symm, mul_comm (Real.sqrt (o.Z i i))]
      exact hxe j i
  obtain ⟨hf, hm⟩ := margin_near U.margin U.Zpos μ0 Xsymm κ0.le hκn κ1 Xerr
  have diagX : ∀ i, 99 / 100 * o.Z i i ≤ X i i ∧ X i i ≤ 101 / 100 * o.Z i i := by
    intro i
    have h1 := Xerr i i
    rw [Real.mul_self_sqrt (U.Zpos i).le] at h1
    have h2 := mul_le_mul_of_nonneg_right κ1 (U.Zpos i).le
    obtain ⟨h3, h4⟩ := abs_le.1 h1
    constructor <;> linarith
  have hS : IsSigma o.n p.sigma X := by
    refine ⟨fun i j hij => ?_, Xsymm, fun i => ?_, fun i => ?_, fun i j => ?_⟩
    · rw [hsig, hx, hX, if_pos hij]
    · have h1 := U.low i
      have h2 : (2 : ℝ) ^ (-400 : ℤ) ≤ 99 / 100 * (2 : ℝ) ^ (-300 : ℤ) := by
        have e : (2 : ℝ) ^ (-400 : ℤ) = (2 : ℝ) ^ (-100 : ℤ) * (2 : ℝ) ^ (-300 : ℤ) := by
          rw [← zpow_add₀ (by norm_num)]
          congr 1
        rw [e]
        refine mul_le_mul_of_nonneg_right ?_ (by positivity)
        exact le_trans (zpow_le_zpow_right₀ (by norm_num) (by norm_num) : (2 : ℝ) ^ (-100 : ℤ) ≤ (2 : ℝ) ^ (-1 : ℤ)) (by norm_num)
      exact h2.trans ((mul_le_mul_of_nonneg_left h1 (by norm_num)).trans (diagX i).1)
    · have h1 := U.high i
      have h2 : 101 / 100 * (2 : ℝ) ^ (300 : ℤ) ≤ (2 : ℝ) ^ (400 : ℤ) := by
        have e : (2 : ℝ) ^ (400 : ℤ) = (2 : ℝ) ^ (100 : ℤ) * (2 : ℝ) ^ (300 : ℤ) := by
          rw [← zpow_add₀ (by norm_num)]
          congr 1
        rw [e]
        refine mul_le_mul_of_nonneg_right ?_ (by positivity)
        exact le_trans (by norm_num) (zpow_le_zpow_right₀ (by norm_num) (by norm_num) : (2 : ℝ) ^ (1 : ℤ) ≤ (2 : ℝ) ^ (100 : ℤ))
      exact (diagX i).2.trans ((mul_le_mul_of_nonneg_left h1 (by norm_num)).trans h2)
    · have h1 := Xerr i j
      have h2 : |o.Z i j| ≤ Real.sqrt (o.Z i i) * Real.sqrt (o.Z j j) := by
        refine le_trans ?_ (U.entry_bound i j)
        rw [Obs.Z_apply]
        refine (abs_add_le _ _).trans (add_le_add (Finset.abs_sum_le_sum_abs _ _) (le_of_eq (abs_of_nonneg ?_)))
        split
        · exact U.w i
        · exact le_rfl
      have h3 : |X i j| ≤ |X i j - o.Z i j| + |o.Z i j| := by simpa using abs_add_le (X i j - o.Z i j) (o.Z i j)
      have h4 : 0 ≤ Real.sqrt (o.Z i i) * Real.sqrt (o.Z j j) := by positivity
      have h5 := mul_le_mul_of_nonneg_right κ1 h4
      have h6 : |X i j| ≤ 2 * (Real.sqrt (o.Z i i) * Real.sqrt (o.Z j j)) := by linarith
      refine h6.trans ?_
      refine (mul_le_mul_of_nonneg_left (mul_le_mul (U.root_high i) (U.root_high j) (Real.sqrt_nonneg _) (by positivity)) (by norm_num)).trans ?_
      rw [← zpow_add₀ (by norm_num), ← zpow_one_add₀ (by norm_num)]
      exact zpow_le_zpow_right₀ (by norm_num) (by norm_num)
  have hμ' : 256 * o.n ^ 2 * eps ≤ μ / 2 := by
    have g0 : (o.n : ℝ) ^ 2 ≤ N ^ 2 := pow_le_pow_left₀ (Nat.cast_nonneg _) nN 2
    have g1 := mul_le_mul_of_nonneg_right g0 he.le
    have g2 : 0 ≤ (N : ℝ) ^ 2 * eps := by positivity
    linarith
  have hn : o.n ≤ 2 ^ 30 := U.le.trans hN
  have hXpos := pos_def hn h0 hS hμ' hm
  have hZpos := margin_def U.margin U.Zpos μ0
  have ρ0 := U.ρ_nonneg
  have hR0 : (0 : ℝ) < (2 : ℝ) ^ (-300 : ℤ) := by positivity
  have hR2 : o.ρ ≤ (Real.sqrt o.ρ + (2 : ℝ) ^ (-300 : ℤ)) ^ 2 := by
    have h1 := Real.sq_sqrt ρ0
    have h2 := Real.sqrt_nonneg o.ρ
    nlinarith
  have hr : Real.sqrt o.ρ ≤ (2 : ℝ) ^ (95 : ℤ) := by
    rw [Real.sqrt_le_left (by positivity)]
    refine U.ρ.trans (le_of_eq ?_)
    rw [← zpow_natCast, ← _root_.zpow_mul]
    congr 1
  have hR : (Real.sqrt o.ρ + (2 : ℝ) ^ (-300 : ℤ)) ^ 2 ≤ o.ρ + 1 := by
    have h1 := Real.sq_sqrt ρ0
    have h3 : Real.sqrt o.ρ * (2 : ℝ) ^ (-300 : ℤ) ≤ 1 / 4 := by
      refine (mul_le_mul_of_nonneg_right hr hR0.le).trans ?_
      rw [← zpow_add₀ (by norm_num)]
      exact le_trans (zpow_le_zpow_right₀ (by norm_num) (by norm_num) : (2 : ℝ) ^ (95 + -300 : ℤ) ≤ (2 : ℝ) ^ (-2 : ℤ)) (by norm_num)
    have h4 : (2 : ℝ) ^ (-300 : ℤ) ≤ 1 / 4 := le_trans (zpow_le_zpow_right₀ (by norm_num) (by norm_num) : (2 : ℝ) ^ (-300 : ℤ) ≤ (2 : ℝ) ^ (-2 : ℤ)) (by norm_num)
    clear hr hR2 hbe
    generalize (2 : ℝ) ^ (-300 : ℤ) = V at *
    nlinarith
  obtain ⟨q1, q2, q3⟩ := quad_shift h0 hXpos hZpos μ0 μ1 κ0 hκn U.Zpos (margin_form U.margin U.Zpos) hf hbe (o.quad_le U.νpos U.w hZpos) hR hR2
  refine ⟨⟨o.n, X, b, o.l⟩, ⟨hpn, h0, U.le, fun i hi j hj => ?_, hS, hm, hb, fun i => ?_, hld, U.l⟩, ?_, ?_⟩
  · rw [hsig, hx ⟨i, hi⟩ ⟨j, hj⟩]
    trivial
  · have h1 : |o.β i| ≤ Real.sqrt (o.Z i i) * Real.sqrt o.ρ := by
      rw [Obs.β_apply]
      exact (Finset.abs_sum_le_sum_abs _ _).trans (U.vec_bound i)
    have h2 : |b i| ≤ |b i - o.β i| + |o.β i| := by simpa using abs_add_le (b i - o.β i) (o.β i)
    have h3 : Real.sqrt (o.Z i i) ≤ 2 * Real.sqrt (X i i) := by
      refine Real.sqrt_le_left (by positivity) |>.2 ?_
      rw [mul_pow, Real.sq_sqrt (by have := (diagX i).1; have := U.Zpos i; linarith)]
      have := (diagX i).1
      have := U.Zpos i
      linarith
    have h4 : Real.sqrt o.ρ + (2 : ℝ) ^ (-300 : ℤ) ≤ (2 : ℝ) ^ (96 : ℤ) := by
      have e : (2 : ℝ) ^ (96 : ℤ) = 2 ^ (95 : ℤ) + (2 : ℝ) ^ (95 : ℤ) := by
        rw [← two_mul, ← zpow_one_add₀ (by norm_num)]
        congr 1
      rw [e]
      exact add_le_add hr (zpow_le_zpow_right₀ (by norm_num) (by norm_num))
    have h5 : |b i| ≤ 2 * (Real.sqrt (o.Z i i) * (2 : ℝ) ^ (96 : ℤ)) := by
      have a1 := mul_le_mul_of_nonneg_left h4 (Real.sqrt_nonneg (o.Z i i))
      have a2 : κ * Real.sqrt (o.Z i i) * (Real.sqrt o.ρ + (2 : ℝ) ^ (-300 : ℤ)) ≤ 1 * (Real.sqrt (o.Z i i) * (2 : ℝ) ^ (96 : ℤ)) := by
        rw [mul_assoc]
        exact mul_le_mul (by linarith) a1 (by positivity) zero_le_one
      have a3 : Real.sqrt (o.Z i i) * Real.sqrt o.ρ ≤ Real.sqrt (o.Z i i) * (2 : ℝ) ^ (96 : ℤ) :=
        le_trans (mul_le_mul_of_nonneg_left (le_add_of_nonneg_right hR0.le) (Real.sqrt_nonneg _)) a1
      refine h2.trans ((add_le_add ((hbe i).trans a2) (h1.trans a3)).trans (le_of_eq ?_))
      ring
    refine h5.trans ?_
    have h6 : (2 : ℝ) ^ (100 : ℤ) = 16 * (2 : ℝ) ^ (96 : ℤ) := by
      rw [show (16 : ℝ) = (2 : ℝ) ^ (4 : ℤ) by norm_num, ← zpow_add₀ (by norm_num)]
      congr 1
    show 2 * (Real.sqrt (o.Z i i) * (2 : ℝ) ^ (96 : ℤ)) ≤ (2 : ℝ) ^ (100 : ℤ) * Real.sqrt (X i i)
    rw [h6]
    have hp : (0 : ℝ) < (2 : ℝ) ^ (96 : ℤ) := by positivity
    have h7 := mul_le_mul_of_nonneg_right h3 hp.le
    have h8 : 0 ≤ Real.sqrt (X i i) * (2 : ℝ) ^ (96 : ℤ) := by positivity
    clear h6 h4 h5
    generalize (2 : ℝ) ^ (96 : ℤ) = V at *
    linarith
  · have ht : κ * o.n / μ ≤ κ * N / μ := div_le_div_of_nonneg_right (mul_le_mul_of_nonneg_left nN κ0.le) μ0.le
    have e : RealGp.term ⟨o.n, X, b, o.l⟩ - o.term = 1 / 2 * ((b ⬝ᵥ (X⁻¹ *ᵥ b) - o.β ⬝ᵥ (o.Z⁻¹ *ᵥ o.β)) - (Real.log X.det - Real.log o.Z.det)) := by
      unfold RealGp.term Obs.term
      ring
    rw [e, abs_mul, abs_of_pos (by norm_num : (0 : ℝ) < 1 / 2)]
    have h1 := abs_sub (b ⬝ᵥ (X⁻¹ *ᵥ b) - o.β ⬝ᵥ (o.Z⁻¹ *ᵥ o.β)) (Real.log X.det - Real.log o.Z.det)
    have h2 := mul_le_mul_of_nonneg_right ht (by linarith : 0 ≤ 3 * (o.ρ + 1) + o.n)
    linarith
  · show b ⬝ᵥ (X⁻¹ *ᵥ b) + 750 * o.n + |o.l| ≤ _
    linarith

/-! ## The likelihood -/

/-- The size of the numbers in the term of a pulsar. -/
noncomputable def Obs.size (o : Obs) : ℝ := o.ρ + 1 + 375 * o.n + 1 / 2 * |o.l|

/-- The exact numbers of all pulsars. -/
theorem gives_all {N K : Nat} {μ : ℝ} (hN : N ≤ 2 ^ 30) (hK : K ≤ 2 ^ 30) (hκ : 100 * ((K + 3) * eps * N) ≤ μ) (hμ : 2 ^ 18 * N ^ 2 * eps ≤ μ) {ps : List Gp} {os : List Obs}
    (h : List.Forall₂ (fun p o => UsualObs N K μ o ∧ FromObs A p o) ps os) :
    ∃ ds, List.Forall₂ (Gives N (μ / 2)) ps ds ∧ |(ds.map RealGp.term).sum - (os.map Obs.term).sum| ≤ 3 * ((K + 3) * eps * N / μ) * (os.map Obs.size).sum ∧
      1 / 2 * (ds.map RealGp.size).sum ≤ (os.map Obs.size).sum := by
  induction h with
  | nil => exact ⟨[], .nil, by simp, by simp⟩
  | @cons p o ps os hp hs ih =>
    obtain ⟨ds, h1, h2, h3⟩ := ih
    obtain ⟨d, g1, g2, g3⟩ := gives_of A hp.1 hN hK hκ hμ hp.2
    refine ⟨d :: ds, .cons g1 h1, ?_, ?_⟩
    · rw [List.map_cons, List.map_cons, List.map_cons, List.sum_cons, List.sum_cons, List.sum_cons, add_sub_add_comm]
      refine (abs_add_le _ _).trans ?_
      have he := eps_pos
      have hμ0 : 0 ≤ μ := le_trans (by positivity) hμ
      have t0 : 0 ≤ (K + 3) * eps * N / μ := by positivity
      have n0 : (0 : ℝ) ≤ o.n := Nat.cast_nonneg _
      have l0 := abs_nonneg o.l
      have : 3 * (o.ρ + 1) + o.n ≤ 3 * o.size := by
        unfold Obs.size
        linarith
      have := mul_le_mul_of_nonneg_left this t0
      linarith
    · rw [List.map_cons, List.map_cons, List.sum_cons, List.sum_cons]
      unfold Obs.size at h3 ⊢
      linarith

/-- C151: the log-likelihood with Gaussian processes, computed from the basis, the variances, the residuals and the inverse variances of the coefficients.  It is a finite number, close to the one
for exact arithmetic. -/
theorem C151_likelihood (hL : GoodLog L) {N K : Nat} {μ : ℝ} (hN : N ≤ 2 ^ 30) (hK : K ≤ 2 ^ 30) (hκ : 100 * ((K + 3) * (2 : ℝ) ^ (-51 : ℤ) * N) ≤ μ)
    (hμ : 2 ^ 18 * N ^ 2 * (2 : ℝ) ^ (-51 : ℤ) ≤ μ) {ps : List Gp} {os : List Obs} (hs : List.Forall₂ (fun p o => UsualObs N K μ o ∧ FromObs A p o) ps os) (hlen : ps.length ≤ 2 ^ 20)
    {ll : ℝ} (hll : |ll| ≤ (2 : ℝ) ^ (900 : ℤ)) {r : Except PyErr Fl} (h : IsGpLoop A L (.fin ll) ps r) :
    ∃ v, r = .ok (.fin v) ∧ |v - (ll + (os.map Obs.term).sum)| ≤
      ((2620 * N ^ 2 + 3 * (K + 3) * N) / μ + 3 + ps.length) * (2 : ℝ) ^ (-51 : ℤ) * (|ll| + (os.map Obs.size).sum) + (2 : ℝ) ^ (-1000 : ℤ) := by
  obtain ⟨ds, h1, h2, h3⟩ := gives_all A hN hK hκ hμ hs
  obtain ⟨v, e, hv⟩ := C150_likelihood A L hL hN (μ := μ / 2) (by
    show 2 ^ 17 * (N : ℝ) ^ 2 * eps ≤ μ / 2
    have : 2 ^ 18 * (N : ℝ) ^ 2 * eps ≤ μ := hμ
    linarith) h1 hlen hll h
  refine ⟨v, e, ?_⟩
  have hμ0 : 0 ≤ μ := le_trans (by positivity) hμ
  have e1 : 1310 * ((N : ℝ) ^ 2 / (μ / 2)) = 2620 * (N ^ 2 / μ) := by
    rw [div_div_eq_mul_div]
    ring
  have e2 : (2620 * (N : ℝ) ^ 2 + 3 * (K + 3) * N) / μ = 2620 * (N ^ 2 / μ) + 3 * ((K + 3) * N / μ) := by ring
  rw [e1] at hv
  rw [e2]
  have k0 : 0 ≤ 2620 * ((N : ℝ) ^ 2 / μ) + 3 + ps.length := by positivity
  have t0 : 0 ≤ ((K : ℝ) + 3) * N / μ := by positivity
  obtain ⟨B, hB⟩ : ∃ B, B = (os.map Obs.size).sum := ⟨_, rfl⟩
  obtain ⟨E, hE⟩ : ∃ E, E = (ds.map RealGp.size).sum := ⟨_, rfl⟩
  obtain ⟨a, ha⟩ : ∃ a, a = (ds.map RealGp.term).sum := ⟨_, rfl⟩
  obtain ⟨c, hc⟩ : ∃ c, c = (os.map Obs.term).sum := ⟨_, rfl⟩
  rw [← hB, ← ha, ← hc] at h2
  rw [← hB, ← hE] at h3
  rw [← ha, ← hE] at hv
  rw [← hB, ← hc]
  have hp : (0 : ℝ) < (2 : ℝ) ^ (-51 : ℤ) := by positivity
  have e3 : (K + 3) * eps * N / μ = (K + 3) * N / μ * (2 : ℝ) ^ (-51 : ℤ) := by
    unfold eps
    ring
  rw [e3] at h2
  have h4 := mul_le_mul_of_nonneg_left (add_le_add (le_refl |ll|) h3) (mul_nonneg k0 hp.le)
  have h5 : |v - (ll + c)| ≤ |v - (ll + a)| + |a - c| := by
    have := abs_add_le (v - (ll + a)) (a - c)
    rwa [show v - (ll + a) + (a - c) = v - (ll + c) by ring] at this
  have h6 := mul_nonneg (mul_nonneg t0 hp.le) (abs_nonneg ll)
  clear e2 e1 hκ hμ hll e3
  generalize (2 : ℝ) ^ (-51 : ℤ) = ε at *
  generalize (2 : ℝ) ^ (-1000 : ℤ) = V at *
  linarith

/-! ## Examples -/

/-- Two TOAs with variances 2 and residuals 3 and 1, and two coefficients with equal columns. -/
noncomputable def exObs : Obs := ⟨2, 2, Matrix.of fun _ _ => 1, fun _ => 2, ![3, 1], fun _ => 1, 0⟩

theorem exObs_Z : exObs.Z = exX := by
  ext i j
  change Fin 2 at i j
  refine (Obs.Z_apply exObs i j).trans ?_
  show ∑ k : Fin 2, (1 : ℝ) * 1 / 2 + (if i = j then (1 : ℝ) else 0) = exX i j
  fin_cases i <;> fin_cases j <;> norm_num [exX, Fin.sum_univ_two]

theorem ex_usual : UsualObs 2 2 (1 / 2) exObs := by
  have b : ∀ {e : ℤ} {x : ℝ}, 2 ≤ e → x ≤ 4 → x ≤ (2 : ℝ) ^ e := fun h hx =>
    hx.trans ((by norm_num : (4 : ℝ) ≤ (2 : ℝ) ^ (2 : ℤ)).trans (zpow_le_zpow_right₀ (by norm_num) h))
  have c : ∀ {e : ℤ} {x : ℝ}, e ≤ 0 → 1 ≤ x → (2 : ℝ) ^ e ≤ x := fun h hx => (zpow_le_one_of_nonpos₀ (by norm_num) h).trans hx
  refine ⟨by show 0 < 2; norm_num, le_rfl, le_rfl, fun k => c (by norm_num) ?_, fun k i => b (by norm_num) ?_, fun k => b (by norm_num) ?_, fun i => ?_, fun i => c (by norm_num) ?_,
    fun i => b (by norm_num) ?_, (?_ : exObs.ρ ≤ 2 ^ (3 : ℤ)).trans (zpow_le_zpow_right₀ (by norm_num) (by norm_num)), b (by norm_num) ?_, ?_⟩
  · show (1 : ℝ) ≤ 2
    norm_num
  · show |(1 : ℝ)| ≤ 4
    norm_num
  · change Fin 2 at k
    show |(![3, 1] : Fin 2 → ℝ) k| ≤ 4
    fin_cases k <;> norm_num
  · show (0 : ℝ) ≤ 1
    norm_num
  · rw [exObs_Z]
    change Fin 2 at i
    fin_cases i <;> norm_num [exX]
  · rw [exObs_Z]
    change Fin 2 at i
    fin_cases i <;> norm_num [exX]
  · show ∑ k : Fin 2, (![3, 1] : Fin 2 → ℝ) k ^ 2 / 2 ≤ _
    norm_num [Fin.sum_univ_two]
  · show |(0 : ℝ)| ≤ 4
    norm_num
  · rw [exObs_Z]
    exact ex_margin

/-- The numbers of the likelihood exist. -/
theorem exists_from_obs (o : Obs) : ∃ p, FromObs A p o := by
  classical
  set cols : Nat → List Fl := fun i => if h : i < o.n then List.ofFn fun k => .fin (o.T k ⟨i, h⟩) else []
  set phiinv : Nat → Fl := fun i => if h : i < o.n then .fin (o.w ⟨i, h⟩) else .nan
  choose tnr h1 using fun i => exists_dot A ((cols i).zip (List.zipWith (div A) (List.ofFn fun k => .fin (o.r k)) (List.ofFn fun k => .fin (o.ν k))))
  choose tnt h2 using fun i j => exists_dot A ((cols i).zip (List.zipWith (div A) (cols j) (List.ofFn fun k => .fin (o.ν k))))
  exact ⟨⟨o.n, tnr, sigmaF A tnt phiinv, .fin o.l⟩, cols, phiinv, fun i => by simp [cols], fun i => by simp [phiinv], rfl, h1, ⟨tnt, h2, rfl⟩, rfl⟩

/-- C151 for two such pulsars: the numbers and the outcome exist, and each outcome is within `2^-25` of the exact likelihood. -/
example (hL : GoodLog L) : (∃ p r, FromObs A p exObs ∧ IsGpLoop A L (.fin (-10)) [p, p] r) ∧ ∀ p r, FromObs A p exObs → IsGpLoop A L (.fin (-10)) [p, p] r → ∃ v, r = .ok (.fin v) ∧
      |v - (-10 + (exObs.term + exObs.term))| ≤ (2 : ℝ) ^ (-25 : ℤ) := by
  constructor
  · obtain ⟨p, hp⟩ := exists_from_obs A exObs
    obtain ⟨r, hr⟩ := exists_gp_loop A L (.fin (-10)) [p, p]
    exact ⟨p, r, hp, hr⟩
  · intro p r hp hr
    have h10 : |(-10 : ℝ)| ≤ (2 : ℝ) ^ (900 : ℤ) :=
      le_trans (by norm_num) (zpow_le_zpow_right₀ (by norm_num) (by norm_num) : (2 : ℝ) ^ (4 : ℤ) ≤ (2 : ℝ) ^ (900 : ℤ))
    obtain ⟨v, e, hv⟩ := C151_likelihood A L hL (N := 2) (K := 2) (μ := 1 / 2) (by norm_num) (by norm_num) (by norm_num) (by norm_num) (.cons ⟨ex_usual, hp⟩ (.cons ⟨ex_usual, hp⟩ .nil))
      (by norm_num) h10 hr
    refine ⟨v, e, ?_⟩
    have e1 : ([exObs, exObs].map Obs.term).sum = exObs.term + exObs.term := by simp
    have e2 : ([exObs, exObs].map Obs.size).sum = 1512 := by
      have : exObs.size = 756 := by
        show ∑ k : Fin 2, (![3, 1] : Fin 2 → ℝ) k ^ 2 / 2 + 1 + 375 * ((2 : ℕ) : ℝ) + 1 / 2 * |(0 : ℝ)| = 756
        norm_num [Fin.sum_univ_two]
      simp [this]
      norm_num
    rw [e1, e2] at hv
    refine hv.trans ?_
    have h1 : (2 : ℝ) ^ (-1000 : ℤ) ≤ (2 : ℝ) ^ (-30 : ℤ) := zpow_le_zpow_right₀ (by norm_num) (by norm_num)
    refine (add_le_add_right h1 _).trans ?_
    rw [List.length_cons, List.length_singleton]
    norm_num

end Verif.Ieee
