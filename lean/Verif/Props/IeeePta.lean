import Verif.Lemmas.Gauss
import Verif.Props.IeeeData

/-!
# The likelihood of the covariance, in floating point

C152: `LogLikelihood.__call__` in binary64, against the Gaussian log-likelihood of the residuals with covariance `N + T φ Tᵀ`.
-/

namespace Verif.Ieee

open Verif Matrix

variable (A : Arith) (L : Lib)

/-! ## Specification -/

/-- A pulsar: basis, variances of the TOAs, residuals and variances of the coefficients.  Without processes `n` is zero. -/
structure GpPsr where
  n : Nat
  M : Nat
  T : Matrix (Fin M) (Fin n) ℝ
  ν : Fin M → ℝ
  r : Fin M → ℝ
  φ : Fin n → ℝ

namespace GpPsr

variable (o : GpPsr)

/-- The covariance of the residuals. -/
noncomputable def cov : Matrix (Fin o.M) (Fin o.M) ℝ := diagonal o.ν + o.T * diagonal o.φ * o.Tᵀ

/-- The Gaussian log-likelihood of the residuals, up to the constant `-M/2 log 2π`. -/
noncomputable def like : ℝ := -(1 / 2) * (o.r ⬝ᵥ (o.cov⁻¹ *ᵥ o.r) + Real.log o.cov.det)

/-- The inverse covariance of the coefficients given the data. -/
noncomputable def prec : Matrix (Fin o.n) (Fin o.n) ℝ := o.Tᵀ * diagonal (fun k => (o.ν k)⁻¹) * o.T + diagonal fun i => (o.φ i)⁻¹

/-- The square of the weighted residuals. -/
noncomputable def ρ : ℝ := ∑ k, o.r k ^ 2 / o.ν k

/-- The size of the terms of the likelihood. -/
noncomputable def size : ℝ := o.ρ + 2 + (∑ k, (1 + |Real.log (o.ν k)|)) + ∑ i, (376 + |Real.log (o.φ i)|)

/-- The floating-point numbers of the pulsar. -/
noncomputable def fl : PsrF where
  n := o.n
  cols i := if h : i < o.n then List.ofFn fun k => .fin (o.T k ⟨i, h⟩) else []
  ndiag := List.ofFn fun k => .fin (o.ν k)
  res := List.ofFn fun k => .fin (o.r k)
  phi i := if h : i < o.n then .fin (o.φ ⟨i, h⟩) else .fin 1

end GpPsr

/-- A pulsar of usual size, with no more than `N` coefficients and `K` TOAs; the inverse covariance of the coefficients has the relative distance `μ` from singular matrices. -/
structure UsualPsr (N K : Nat) (μ : ℝ) (o : GpPsr) : Prop where
  le : o.n ≤ N
  toas : o.M ≤ K
  νlow : ∀ k, (2 : ℝ) ^ (-200 : ℤ) ≤ o.ν k
  νhigh : ∀ k, o.ν k ≤ (2 : ℝ) ^ (200 : ℤ)
  φlow : ∀ i, (2 : ℝ) ^ (-299 : ℤ) ≤ o.φ i
  φhigh : ∀ i, o.φ i ≤ (2 : ℝ) ^ (800 : ℤ)
  T : ∀ k i, |o.T k i| ≤ (2 : ℝ) ^ (200 : ℤ)
  r : ∀ k, |o.r k| ≤ (2 : ℝ) ^ (200 : ℤ)
  low : ∀ i, (2 : ℝ) ^ (-299 : ℤ) ≤ o.prec i i
  high : ∀ i, o.prec i i ≤ (2 : ℝ) ^ (299 : ℤ)
  ρ : o.ρ ≤ (2 : ℝ) ^ (190 : ℤ)
  margin : (o.prec - μ • diagonal o.prec.diag).PosSemidef

/-! ## Matrices -/

/-- The pulsar with other variances. -/
def GpPsr.with (o : GpPsr) (ν : Fin o.M → ℝ) (φ : Fin o.n → ℝ) : GpPsr := ⟨o.n, o.M, o.T, ν, o.r, φ⟩

/-- The data of the pulsar, with a log-determinant. -/
noncomputable def GpPsr.obs (o : GpPsr) (l : ℝ) : Obs := ⟨o.n, o.M, o.T, o.ν, o.r, fun i => (o.φ i)⁻¹, l⟩

namespace GpPsr

variable {o : GpPsr}

theorem diag_inv {m : Nat} {d : Fin m → ℝ} (h : ∀ i, 0 < d i) : (diagonal d)⁻¹ = diagonal fun i => (d i)⁻¹ := by
  refine inv_eq_right_inv ?_
  rw [diagonal_mul_diagonal, ← diagonal_one]
  congr 1
  funext i
  exact mul_inv_cancel₀ (h i).ne'

theorem log_prod {m : Nat} {d : Fin m → ℝ} (h : ∀ i, 0 < d i) : Real.log (diagonal d).det = ∑ i, Real.log (d i) := by
  rw [det_diagonal, Real.log_prod fun i _ => (h i).ne']

theorem cov_pos (hν : ∀ k, 0 < o.ν k) (hφ : ∀ i, 0 < o.φ i) : o.cov.PosDef :=
  Noise.full_posDef (.diagonal hν) (PosDef.diagonal hφ).posSemidef o.T

/-- Woodbury's identity and the determinant. -/
theorem woodbury (hν : ∀ k, 0 < o.ν k) (hφ : ∀ i, 0 < o.φ i) (l : ℝ) :
    o.like = -(1 / 2) * (o.ρ + ∑ k, Real.log (o.ν k)) + (o.obs l).term + 1 / 2 * (l - ∑ i, Real.log (o.φ i)) := by
  have hN : (diagonal o.ν).PosDef := .diagonal hν
  have hΦ : (diagonal o.φ).PosDef := .diagonal hφ
  have eZ : Noise.sig (diagonal o.ν)⁻¹ o.T (diagonal o.φ) = (o.obs l).Z := by
    rw [Noise.sig, diag_inv hν, diag_inv hφ]
    rfl
  have h1 := Noise.full_inv hN hΦ o.T
  have h2 := Noise.full_det hN hΦ o.T
  have hZ := Noise.sig_posDef (diagonal o.ν)⁻¹ hN.inv.posSemidef o.T hΦ
  rw [eZ] at h1 h2 hZ
  have e1 : Real.log o.cov.det = (∑ k, Real.log (o.ν k)) + (∑ i, Real.log (o.φ i)) + Real.log (o.obs l).Z.det := by
    refine (congrArg Real.log h2).trans ?_
    have h3 := Real.log_mul (mul_ne_zero hN.det_pos.ne' hΦ.det_pos.ne') hZ.det_pos.ne'
    refine h3.trans ?_
    rw [Real.log_mul hN.det_pos.ne' hΦ.det_pos.ne', log_prod hν, log_prod hφ]
    rfl
  have eβ : (o.obs l).β = o.Tᵀ *ᵥ ((diagonal o.ν)⁻¹ *ᵥ o.r) := by
    rw [diag_inv hν]
    rfl
  have e2 : o.r ⬝ᵥ (o.cov⁻¹ *ᵥ o.r) = o.ρ - (o.obs l).β ⬝ᵥ ((o.obs l).Z⁻¹ *ᵥ (o.obs l).β) := by
    have e3 : o.cov⁻¹ = _ := h1
    have e4 : o.r ⬝ᵥ ((diagonal o.ν)⁻¹ *ᵥ o.r) = o.ρ := by
      rw [diag_inv hν, GpPsr.ρ, dotProduct]
      refine Finset.sum_congr rfl fun k _ => ?_
      rw [mulVec_diagonal]
      ring
    have e5 : ((diagonal o.ν)⁻¹)ᵀ = (diagonal o.ν)⁻¹ := by rw [diag_inv hν, diagonal_transpose]
    rw [e3, sub_mulVec, dotProduct_sub, e4, eβ]
    congr 1
    rw [← mulVec_mulVec, ← mulVec_mulVec, ← mulVec_mulVec, ← mulVec_mulVec, CholReal.gen_move, e5, CholReal.gen_move]
    rfl
  rw [like, e1, e2]
  show _ = -(1 / 2) * (o.ρ + ∑ k, Real.log (o.ν k)) + 1 / 2 * ((o.obs l).β ⬝ᵥ ((o.obs l).Z⁻¹ *ᵥ (o.obs l).β) - Real.log (o.obs l).Z.det - l) + _
  ring

theorem cov_form (z : Fin o.M → ℝ) : z ⬝ᵥ (o.cov *ᵥ z) = (∑ k, o.ν k * z k ^ 2) + ∑ i, o.φ i * (o.Tᵀ *ᵥ z) i ^ 2 := by
  rw [cov, add_mulVec, dotProduct_add]
  congr 1
  · rw [dotProduct]
    refine Finset.sum_congr rfl fun k _ => ?_
    rw [mulVec_diagonal]
    ring
  · rw [← mulVec_mulVec, ← mulVec_mulVec, CholReal.gen_move, dotProduct]
    refine Finset.sum_congr rfl fun k _ => ?_
    rw [mulVec_diagonal]
    ring

/-- The residuals weigh less than without processes. -/
theorem quad_le (hν : ∀ k, 0 < o.ν k) (hφ : ∀ i, 0 < o.φ i) : o.r ⬝ᵥ (o.cov⁻¹ *ᵥ o.r) ≤ o.ρ := by
  have h := CholReal.inv_mono (cov_pos hν hφ) (PosDef.diagonal hν) (c := 1) one_pos (fun z => ?_) o.r
  · rw [one_mul] at h
    refine h.trans (le_of_eq ?_)
    rw [diag_inv hν, GpPsr.ρ, dotProduct]
    refine Finset.sum_congr rfl fun k _ => ?_
    rw [mulVec_diagonal]
    ring
  · rw [one_mul, cov_form]
    have h2 : 0 ≤ ∑ i, o.φ i * (o.Tᵀ *ᵥ z) i ^ 2 := Finset.sum_nonneg fun i _ => mul_nonneg (hφ i).le (sq_nonneg _)
    have h3 : z ⬝ᵥ (diagonal o.ν *ᵥ z) = ∑ k, o.ν k * z k ^ 2 := by
      rw [dotProduct]
      refine Finset.sum_congr rfl fun k _ => ?_
      rw [mulVec_diagonal]
      ring
    linarith

/-- Small relative changes of the variances. -/
theorem like_near (hν : ∀ k, 0 < o.ν k) (hφ : ∀ i, 0 < o.φ i) {δ : ℝ} (h0 : 0 ≤ δ) (h1 : δ ≤ 1 / 2) {ν' : Fin o.M → ℝ} {φ' : Fin o.n → ℝ} (dν : ∀ k, |ν' k - o.ν k| ≤ δ * o.ν k)
    (dφ : ∀ i, |φ' i - o.φ i| ≤ δ * o.φ i) : |(o.with ν' φ').like - o.like| ≤ δ * (o.ρ + o.M) := by
  have hν' : ∀ k, 0 < (o.with ν' φ').ν k := fun k => by
    have := (abs_le.1 (dν k)).1
    show 0 < ν' k
    nlinarith [hν k]
  have hφ' : ∀ i, 0 < (o.with ν' φ').φ i := fun k => by
    have := (abs_le.1 (dφ k)).1
    show 0 < φ' k
    nlinarith [hφ k]
  have hC := cov_pos hν hφ
  obtain ⟨C', hCe⟩ : ∃ C' : Matrix (Fin o.M) (Fin o.M) ℝ, C' = (o.with ν' φ').cov := ⟨_, rfl⟩
  have hC' : C'.PosDef := hCe ▸ cov_pos hν' hφ'
  have hf : ∀ z : Fin o.M → ℝ, |z ⬝ᵥ (C' *ᵥ z) - z ⬝ᵥ (o.cov *ᵥ z)| ≤ δ * (z ⬝ᵥ (o.cov *ᵥ z)) := by
    intro z
    have e1 : z ⬝ᵥ (C' *ᵥ z) = (∑ k, ν' k * z k ^ 2) + ∑ i, φ' i * (o.Tᵀ *ᵥ z) i ^ 2 := by
      rw [hCe]
      exact cov_form (o := o.with ν' φ') z
    rw [e1, cov_form, add_sub_add_comm, ← Finset.sum_sub_distrib, ← Finset.sum_sub_distrib, mul_add, Finset.mul_sum, Finset.mul_sum]
    refine (abs_add_le _ _).trans (add_le_add ?_ ?_)
    · refine (Finset.abs_sum_le_sum_abs _ _).trans (Finset.sum_le_sum fun k _ => ?_)
      rw [← sub_mul, abs_mul, abs_of_nonneg (sq_nonneg (z k)), ← mul_assoc]
      exact mul_le_mul_of_nonneg_right (dν k) (sq_nonneg _)
    · refine (Finset.abs_sum_le_sum_abs _ _).trans (Finset.sum_le_sum fun k _ => ?_)
      rw [← sub_mul, abs_mul, abs_of_nonneg (sq_nonneg ((o.Tᵀ *ᵥ z) k)), ← mul_assoc]
      exact mul_le_mul_of_nonneg_right (dφ k) (sq_nonneg _)
  have a1 := CholReal.inv_near hC' hC h0 h1 hf o.r
  have a2 := CholReal.log_det_near hC' hC h0 h1 hf
  have a3 := quad_le hν hφ
  have a4 := mul_le_mul_of_nonneg_left a3 h0
  have e : (o.with ν' φ').like - o.like = -(1 / 2) * ((o.r ⬝ᵥ (C'⁻¹ *ᵥ o.r) - o.r ⬝ᵥ (o.cov⁻¹ *ᵥ o.r)) + (Real.log C'.det - Real.log o.cov.det)) := by
    have e2 : (o.with ν' φ').like = -(1 / 2) * (o.r ⬝ᵥ (C'⁻¹ *ᵥ o.r) + Real.log C'.det) := by
      rw [hCe]
      rfl
    rw [e2, like]
    ring
  rw [e, abs_mul, show |(-(1 / 2) : ℝ)| = 1 / 2 by norm_num]
  have a5 := (abs_add_le _ _).trans (add_le_add a1 a2)
  linarith

end GpPsr

/-! ## White noise -/

theorem Acc.wide {k m W W' x X : ℝ} (h : Acc k m W x X) (hk : 0 ≤ k) (hW : W ≤ W') : Acc k m W' x X :=
  ⟨h.err.trans (add_le_add (mul_le_mul_of_nonneg_left hW (mul_nonneg hk eps_pos.le)) le_rfl), h.size.trans hW⟩

theorem log_two_pow {x : ℝ} {a b : ℤ} (ha : (2 : ℝ) ^ (-a) ≤ x) (hb : x ≤ (2 : ℝ) ^ b) (h0 : a ≤ b) (h1 : b ≤ 900) (hb0 : 0 ≤ b) : 0 < x ∧ |Real.log x| ≤ 649 := by
  have hx : 0 < x := lt_of_lt_of_le (by positivity) ha
  refine ⟨hx, ?_⟩
  have h2 := Real.log_le_log (by positivity) ha
  have h3 := Real.log_le_log hx hb
  rw [Real.log_zpow] at h2 h3
  have l1 := Real.log_two_gt_d9
  have l2 := Real.log_two_lt_d9
  have c1 : (b : ℝ) ≤ 900 := by exact_mod_cast h1
  have c2 : (a : ℝ) ≤ b := by exact_mod_cast h0
  have c3 : (0 : ℝ) ≤ b := by exact_mod_cast hb0
  push_cast at h2
  have d1 : (b : ℝ) * Real.log 2 ≤ 900 * 0.72 := mul_le_mul c1 (by linarith) (by linarith) (by norm_num)
  have d2 : (a : ℝ) * Real.log 2 ≤ b * Real.log 2 := mul_le_mul_of_nonneg_right c2 (by linarith)
  exact abs_le.2 ⟨by linarith, by linarith⟩

variable {N K : Nat} {μ : ℝ} {o : GpPsr}

theorem UsualPsr.νpos (U : UsualPsr N K μ o) (k : Fin o.M) : 0 < o.ν k := lt_of_lt_of_le (by positivity) (U.νlow k)

theorem UsualPsr.φpos (U : UsualPsr N K μ o) (i : Fin o.n) : 0 < o.φ i := lt_of_lt_of_le (by positivity) (U.φlow i)

theorem UsualPsr.νlog (U : UsualPsr N K μ o) (k : Fin o.M) : |Real.log (o.ν k)| ≤ 649 := (log_two_pow (U.νlow k) (U.νhigh k) le_rfl (by norm_num) (by norm_num)).2

theorem UsualPsr.φlog (U : UsualPsr N K μ o) (i : Fin o.n) : |Real.log (o.φ i)| ≤ 649 := (log_two_pow (U.φlow i) (U.φhigh i) (by norm_num) (by norm_num) (by norm_num)).2

theorem sum_ofFn {M : Nat} (f g : Fin M → ℝ) : total ((List.finRange M).map fun k => (f k, g k)) = (∑ k, f k, ∑ k, g k) := by
  rw [total, List.map_map, List.map_map, Fin.sum_univ_def, Fin.sum_univ_def]
  rfl

/-- A sum of logarithms. -/
theorem logs_acc (hL : GoodLog L) {M : Nat} (hM : M ≤ 2 ^ 30) {d : Fin M → ℝ} (h0 : ∀ k, 0 < d k) (h1 : ∀ k, |Real.log (d k)| ≤ 649) {v : Fl}
    (h : IsSum A ((List.finRange M).map fun k => npLog L (.fin (d k))) v) : Stands (1 + M) (M * 2) v (∑ k, Real.log (d k), ∑ k, (1 + |Real.log (d k)|)) := by
  have hM' : (M : ℝ) ≤ 1073741824 := by exact_mod_cast hM
  have hs : List.Forall₂ (Stands 1 0) ((List.finRange M).map fun k => npLog L (.fin (d k))) ((List.finRange M).map fun k => (Real.log (d k), 1 + |Real.log (d k)|)) := by
    rw [List.forall₂_map_left_iff, List.forall₂_map_right_iff, List.forall₂_same]
    refine fun k _ => ⟨L.log (d k), by simp only [npLog, h0 k, if_true], ?_, ?_⟩
    · have := hL (d k) (h0 k) ((h1 k).trans (by norm_num))
      simp only
      linarith
    · simp only
      linarith [abs_nonneg (Real.log (d k))]
  have hl : ((List.finRange M).map fun k => (Real.log (d k), 1 + |Real.log (d k)|)).length = M := by simp
  have ht := sum_ofFn (fun k => Real.log (d k)) fun k => 1 + |Real.log (d k)|
  have hW : ∑ k, (1 + |Real.log (d k)|) ≤ (2 : ℝ) ^ (990 : ℤ) := by
    have : ∑ k, (1 + |Real.log (d k)|) ≤ ∑ _k : Fin M, (650 : ℝ) := Finset.sum_le_sum fun k _ => by linarith [h1 k]
    rw [Finset.sum_const, Finset.card_univ, Fintype.card_fin, nsmul_eq_mul] at this
    refine this.trans ?_
    have e : (2 : ℝ) ^ (50 : ℤ) ≤ (2 : ℝ) ^ (990 : ℤ) := zpow_le_zpow_right₀ (by norm_num) (by norm_num)
    refine le_trans ?_ e
    norm_num
    linarith
  have := sum_acc A (by norm_num) le_rfl hs (by rw [hl]; norm_num; linarith) (by rw [hl]; norm_num; linarith) (by rw [ht]; exact hW) h
  rw [hl, ht, zero_add] at this
  exact this

namespace GpPsr

/-- The numbers of the white noise, and bounds of their size. -/
noncomputable def white (o : GpPsr) : List (ℝ × ℝ) := [(o.ρ, o.ρ + 1), (∑ k, Real.log (o.ν k), ∑ k, (1 + |Real.log (o.ν k)|))]

noncomputable def whiteTerm (o : GpPsr) : ℝ := -(1 / 2) * (o.ρ + ∑ k, Real.log (o.ν k))

end GpPsr

theorem UsualPsr.size (U : UsualPsr N K μ o) : 0 ≤ o.ρ ∧ o.ρ + 1 + ∑ k, (1 + |Real.log (o.ν k)|) ≤ o.size ∧ o.size ≤ (2 : ℝ) ^ (190 : ℤ) + 2 + 650 * K + 1025 * N := by
  have h0 : 0 ≤ o.ρ := Finset.sum_nonneg fun k _ => div_nonneg (sq_nonneg _) (U.νpos k).le
  have h1 : 0 ≤ ∑ i, (376 + |Real.log (o.φ i)|) := Finset.sum_nonneg fun i _ => by positivity
  have h2 : ∑ i, (376 + |Real.log (o.φ i)|) ≤ 1025 * N := by
    have : ∑ i, (376 + |Real.log (o.φ i)|) ≤ ∑ _i : Fin o.n, (1025 : ℝ) := Finset.sum_le_sum fun k _ => by linarith [U.φlog k]
    rw [Finset.sum_const, Finset.card_univ, Fintype.card_fin, nsmul_eq_mul] at this
    have hn : (o.n : ℝ) ≤ N := by exact_mod_cast U.le
    linarith
  have h3 : ∑ k, (1 + |Real.log (o.ν k)|) ≤ 650 * K := by
    have : ∑ k, (1 + |Real.log (o.ν k)|) ≤ ∑ _k : Fin o.M, (650 : ℝ) := Finset.sum_le_sum fun k _ => by linarith [U.νlog k]
    rw [Finset.sum_const, Finset.card_univ, Fintype.card_fin, nsmul_eq_mul] at this
    have hn : (o.M : ℝ) ≤ K := by exact_mod_cast U.toas
    linarith
  have h4 := U.ρ
  refine ⟨h0, ?_, ?_⟩
  · unfold GpPsr.size
    linarith
  · unfold GpPsr.size
    generalize (2 : ℝ) ^ (190 : ℤ) = P at *
    linarith

theorem chi_psr (hL : GoodLog L) (hK : K ≤ 2 ^ 22) (U : UsualPsr N K μ o) {q ld : Fl} (h : IsChi A L (o.fl.res.zip o.fl.ndiag) q ld) :
    List.Forall₂ (Stands (1 + K) (K * 4)) [q, ld] o.white := by
  obtain ⟨h1, h2⟩ := h
  have hM : o.M ≤ 2 ^ 30 := U.toas.trans (hK.trans (by norm_num))
  have hMK : (o.M : ℝ) ≤ K := by exact_mod_cast U.toas
  have hK' : (K : ℝ) ≤ 4194304 := by exact_mod_cast hK
  have e1 : (o.fl.res.zip o.fl.ndiag).map (fun p => (p.1, div A p.1 p.2)) =
      (List.ofFn fun k => Fl.fin (o.r k)).zip (List.zipWith (div A) (List.ofFn fun k => .fin (o.r k)) (List.ofFn fun k => .fin (o.ν k))) := by
    refine List.ext_getElem (by simp [GpPsr.fl]) fun i h1 h2 => ?_
    simp [GpPsr.fl]
  have e2 : (o.fl.res.zip o.fl.ndiag).map (fun p => npLog L p.2) = (List.finRange o.M).map fun k => npLog L (.fin (o.ν k)) := by
    refine List.ext_getElem (by simp [GpPsr.fl]) fun i h1 h2 => ?_
    simp [GpPsr.fl]
  rw [e1] at h1
  rw [e2] at h2
  obtain ⟨u, rfl, hu, -⟩ := dot_data A hM U.r U.r U.νlow h1
  have e3 : ∑ k, o.r k * o.r k / o.ν k = o.ρ := Finset.sum_congr rfl fun k _ => by rw [sq]
  have e4 : ∑ k, |o.r k * o.r k / o.ν k| = o.ρ := by
    rw [← e3]
    exact Finset.sum_congr rfl fun k _ => abs_of_nonneg (div_nonneg (mul_self_nonneg _) (U.νpos k).le)
  rw [e3, e4] at hu
  have hd : (o.M : ℝ) * dust ≤ 1 := by
    have : dust ≤ (2 : ℝ) ^ (-30 : ℤ) := zpow_le_zpow_right₀ (by norm_num) (by norm_num)
    have h30 : (2 : ℝ) ^ (-30 : ℤ) = 1 / 1073741824 := by norm_num
    rw [h30] at this
    have := mul_le_mul hMK this dust_pos.le (Nat.cast_nonneg K)
    linarith
  refine .cons ⟨u, rfl, (hu.wide (by positivity) (by linarith)).mono (by linarith) (by linarith)⟩ (.cons ?_ .nil)
  obtain ⟨x, e, hx⟩ := logs_acc A L hL hM U.νpos U.νlog h2
  exact ⟨x, e, hx.mono (by linarith) (by linarith)⟩

theorem parts_psr (hL : GoodLog L) (hK : K ≤ 2 ^ 22) {os : List GpPsr} (hs : ∀ o ∈ os, UsualPsr N K μ o) {qs : List (Fl × Fl)}
    (h : List.Forall₂ (fun p q => IsChi A L p q.1 q.2) (os.map fun o => o.fl.res.zip o.fl.ndiag) qs) :
    List.Forall₂ (Stands (1 + K) (K * 4)) (qs.flatMap fun q => [q.1, q.2]) (os.flatMap GpPsr.white) ∧ -(1 / 2) * (total (os.flatMap GpPsr.white)).1 = (os.map GpPsr.whiteTerm).sum ∧
      (total (os.flatMap GpPsr.white)).2 ≤ (os.map GpPsr.size).sum ∧ (os.flatMap GpPsr.white).length = 2 * os.length := by
  induction os generalizing qs with
  | nil =>
    cases h
    simp [total]
  | cons o os ih =>
    cases h with
    | @cons _ q _ qs h1 h2 =>
      obtain ⟨i1, i2, i3, i4⟩ := ih (fun o' h' => hs o' (by simp [h'])) h2
      have U := hs o (by simp)
      have c := chi_psr A L hL hK U h1
      simp only [List.flatMap_cons, total_append, List.map_cons, List.sum_cons, List.length_append, List.length_cons]
      refine ⟨List.rel_append c i1, ?_, ?_, ?_⟩
      · rw [mul_add, i2]
        congr 1
        simp [GpPsr.white, GpPsr.whiteTerm, total]
      · have : (total o.white).2 = o.ρ + 1 + ∑ k, (1 + |Real.log (o.ν k)|) := by simp [GpPsr.white, total]
        rw [this]
        linarith [U.size.2.1]
      · rw [i4, GpPsr.white]
        simp only [List.length_cons, List.length_nil]
        omega

theorem size_pow (hK : K ≤ 2 ^ 22) (hN : N ≤ 2 ^ 30) {os : List GpPsr} (hs : ∀ o ∈ os, UsualPsr N K μ o) (hP : os.length ≤ 2 ^ 15) : (os.map GpPsr.size).sum ≤ (2 : ℝ) ^ (300 : ℤ) := by
  have hK' : (K : ℝ) ≤ 4194304 := by exact_mod_cast hK
  have hN' : (N : ℝ) ≤ 1073741824 := by exact_mod_cast hN
  have hP' : (os.length : ℝ) ≤ 32768 := by exact_mod_cast hP
  have h1 : (os.map GpPsr.size).sum ≤ os.length * (2 : ℝ) ^ (200 : ℤ) := sum_le_len fun o ho => by
    have h2 := (hs o ho).size.2.2
    have e : (2 : ℝ) ^ (200 : ℤ) = 1024 * (2 : ℝ) ^ (190 : ℤ) := by
      rw [show (1024 : ℝ) = (2 : ℝ) ^ (10 : ℤ) by norm_num, ← zpow_add₀ (by norm_num)]
      norm_num
    have e2 : (2 : ℝ) ^ (45 : ℤ) ≤ (2 : ℝ) ^ (190 : ℤ) := zpow_le_zpow_right₀ (by norm_num) (by norm_num)
    have e3 : (2 : ℝ) ^ (45 : ℤ) = 35184372088832 := by norm_num
    rw [e3] at e2
    rw [e]
    clear e e3
    generalize (2 : ℝ) ^ (190 : ℤ) = P at *
    linarith
  refine h1.trans ?_
  have e : (2 : ℝ) ^ (300 : ℤ) = (2 : ℝ) ^ (100 : ℤ) * (2 : ℝ) ^ (200 : ℤ) := by
    rw [← zpow_add₀ (by norm_num)]
    norm_num
  rw [e]
  refine mul_le_mul_of_nonneg_right (hP'.trans ?_) (by positivity)
  have e2 : (2 : ℝ) ^ (15 : ℤ) ≤ (2 : ℝ) ^ (100 : ℤ) := zpow_le_zpow_right₀ (by norm_num) (by norm_num)
  refine le_trans ?_ e2
  norm_num

/-- The part of the white noise. -/
theorem white_psr (hL : GoodLog L) (hK : K ≤ 2 ^ 22) (hN : N ≤ 2 ^ 30) {os : List GpPsr} (hs : ∀ o ∈ os, UsualPsr N K μ o) (hP : os.length ≤ 2 ^ 15) {v : Fl}
    (h : IsLnlike A L (os.map fun o => o.fl.res.zip o.fl.ndiag) v) :
    ∃ z, v = .fin z ∧ |z - (os.map GpPsr.whiteTerm).sum| ≤ (K + 2 * os.length + 4) * eps * ((os.map GpPsr.size).sum / 2) + (2 : ℝ) ^ (-1000 : ℤ) ∧
      |(os.map GpPsr.whiteTerm).sum| ≤ (os.map GpPsr.size).sum / 2 := by
  obtain ⟨qs, hq, s, hq', rfl⟩ := h
  obtain ⟨i1, i2, i3, i5⟩ := parts_psr A L hL hK hs hq
  have hK' : (K : ℝ) ≤ 4194304 := by exact_mod_cast hK
  have hK0 : (0 : ℝ) ≤ K := Nat.cast_nonneg _
  have hP' : (os.length : ℝ) ≤ 32768 := by exact_mod_cast hP
  have hP0 : (0 : ℝ) ≤ os.length := Nat.cast_nonneg _
  have hW' : (os.map GpPsr.size).sum ≤ (2 : ℝ) ^ (990 : ℤ) := (size_pow hK hN hs hP).trans (zpow_le_zpow_right₀ (by norm_num) (by norm_num))
  have hl : (((os.flatMap GpPsr.white).length : ℕ) : ℝ) = 2 * os.length := by
    rw [i5]
    push_cast
    rfl
  have hm : 2 * (os.length : ℝ) * (K * 4 + 2) ≤ 2 ^ 49 := by
    have h2 := mul_le_mul (by linarith : 2 * (os.length : ℝ) ≤ 2 ^ 16) (by linarith : (K : ℝ) * 4 + 2 ≤ 2 ^ 33) (by positivity) (by norm_num)
    exact h2.trans (by norm_num)
  obtain ⟨x, rfl, hx⟩ := sum_acc A (by positivity) (by positivity) i1 (by rw [hl]; linarith) (by rw [hl]; linarith) (i3.trans hW') hq'
  obtain ⟨m, hm'⟩ : ∃ m : ℝ, m = 2 * (os.length : ℝ) * (K * 4 + 2) := ⟨_, rfl⟩
  have hm0 : 0 ≤ m := by rw [hm']; positivity
  rw [hl, ← hm'] at hx
  rw [← hm'] at hm
  replace hx := hx.wide (by positivity) i3
  have ht := tiny_pos
  have hh : Acc (1 + K + 2 * os.length) m ((os.map GpPsr.size).sum / 2) (-(1 / 2) * x) (os.map GpPsr.whiteTerm).sum := by
    rw [← i2]
    have h1 : |(-(1 / 2) : ℝ)| = 1 / 2 := by norm_num
    constructor
    · rw [← mul_sub, abs_mul]
      have h2 := mul_nonneg hm0 ht.le
      rw [h1]
      linarith [hx.err]
    · rw [abs_mul]
      rw [h1]
      linarith [hx.size]
  have hW2 : (os.map GpPsr.size).sum / 2 ≤ (2 : ℝ) ^ (990 : ℤ) := le_trans (by linarith [hx.nonneg]) hW'
  obtain ⟨y, ey, hy⟩ := hh.round A (by linarith) hm0 (by linarith) hW2
  obtain ⟨w, ew, hw⟩ := hy.round A (by linarith) (by linarith) (by linarith) hW2
  obtain ⟨z, ez, hz⟩ := hw.round A (by linarith) (by linarith) (by linarith) hW2
  refine ⟨z, ?_, ?_, hz.size⟩
  · simp only [mul, ey, add, zero_add, ew, add_zero, ez]
  · have e4 : (m + 2 + 2 + 2) * tiny ≤ (2 : ℝ) ^ (-1000 : ℤ) := by
      have e5 : tiny = (2 : ℝ) ^ (-1074 : ℤ) := by
        unfold tiny
        norm_num
      have e6 : (2 : ℝ) ^ (-1000 : ℤ) = 2 ^ 74 * (2 : ℝ) ^ (-1074 : ℤ) := by
        rw [← zpow_natCast, ← zpow_add₀ (by norm_num)]
        norm_num
      rw [e6, ← e5]
      exact mul_le_mul_of_nonneg_right (by linarith) ht.le
    have h1 := hz.err
    have e7 : (1 + (K : ℝ) + 2 * os.length + 1 + 1 + 1) = K + 2 * os.length + 4 := by ring
    rw [e7] at h1
    linarith

/-! ## Processes -/

/-- The reciprocal of a variance. -/
theorem recip {x : ℝ} (h1 : (2 : ℝ) ^ (-299 : ℤ) ≤ x) (h2 : x ≤ (2 : ℝ) ^ (800 : ℤ)) :
    ∃ w, div A (.fin 1) (.fin x) = .fin w ∧ 0 < w ∧ |w - x⁻¹| ≤ eps * x⁻¹ ∧ |w⁻¹ - x| ≤ eps * x ∧ |Real.log w⁻¹ - Real.log x| ≤ eps := by
  have hx : 0 < x := lt_of_lt_of_le (by positivity) h1
  have hb : |1 / x| ≤ (2 : ℝ) ^ (1000 : ℤ) := by
    rw [abs_of_pos (by positivity), div_le_iff₀ hx]
    have e : (1 : ℝ) = (2 : ℝ) ^ (299 : ℤ) * (2 : ℝ) ^ (-299 : ℤ) := by
      rw [← zpow_add₀ (by norm_num)]
      norm_num
    rw [e]
    exact mul_le_mul (zpow_le_zpow_right₀ (by norm_num) (by norm_num)) h1 (by positivity) (by positivity)
  have ed : div A (.fin 1) (.fin x) = .fin (A.rnd (1 / x)) := by
    have : div A (.fin 1) (.fin x) = A.round (1 / x) := by simp only [div, hx.ne', if_false]
    rw [this, round_fin A hb]
  have he := eps_pos
  have he1 : eps ≤ 1 / 1000 := by unfold eps; norm_num
  have hi : 0 < x⁻¹ := by positivity
  have ht : tiny ≤ eps / 4 * x⁻¹ := by
    rw [← div_eq_mul_inv, le_div_iff₀ hx]
    refine (mul_le_mul_of_nonneg_left h2 tiny_pos.le).trans ?_
    have e : eps / 4 = (2 : ℝ) ^ (-53 : ℤ) := by unfold eps; norm_num
    rw [e, tiny, ← zpow_add₀ (by norm_num)]
    exact zpow_le_zpow_right₀ (by norm_num) (by norm_num)
  have hr := rnd_err A (1 / x)
  rw [one_div, abs_of_pos hi] at hr
  rw [one_div] at ed
  obtain ⟨w, hw⟩ : ∃ w, w = A.rnd x⁻¹ := ⟨_, rfl⟩
  rw [← hw] at ed hr
  have h3 : |w - x⁻¹| ≤ 3 / 4 * eps * x⁻¹ := by linarith
  have h4 := abs_le.1 h3
  have hw0 : 0 < w := by nlinarith
  have hwx : |w * x - 1| ≤ 3 / 4 * eps := by
    have e : w * x - 1 = (w - x⁻¹) * x := by
      rw [sub_mul, inv_mul_cancel₀ hx.ne']
    rw [e, abs_mul, abs_of_pos hx]
    have := mul_le_mul_of_nonneg_right h3 hx.le
    rwa [mul_assoc (3 / 4 * eps), inv_mul_cancel₀ hx.ne', mul_one] at this
  have h5 := abs_le.1 hwx
  have hwi : 0 < w⁻¹ := by positivity
  have e2 : w⁻¹ - x = -((w * x - 1) * w⁻¹) := by
    field_simp
    ring
  have h6 : |w⁻¹ - x| ≤ 3 / 4 * eps * w⁻¹ := by
    rw [e2, abs_neg, abs_mul, abs_of_pos hwi]
    exact mul_le_mul_of_nonneg_right hwx hwi.le
  have h7 : w⁻¹ ≤ 4 / 3 * x := by
    have := (abs_le.1 h6).2
    nlinarith
  refine ⟨w, ed, hw0, by nlinarith, ?_, ?_⟩
  · have := mul_le_mul_of_nonneg_left h7 (by positivity : 0 ≤ 3 / 4 * eps)
    linarith
  · have l1 : Real.log w⁻¹ - Real.log x = -Real.log (w * x) := by
      rw [Real.log_inv, Real.log_mul hw0.ne' hx.ne']
      ring
    have hp : 0 < w * x := by positivity
    have l2 := Real.log_le_sub_one_of_pos hp
    have l3 := Real.one_sub_inv_le_log_of_pos hp
    have l4 : (w * x)⁻¹ ≤ 1 + eps := by
      rw [inv_le_comm₀ hp (by positivity)]
      refine le_trans ?_ (by linarith : 1 - 3 / 4 * eps ≤ w * x)
      rw [inv_le_iff_one_le_mul₀ (by positivity)]
      nlinarith
    rw [l1, abs_neg]
    exact abs_le.2 ⟨by linarith, by linarith⟩

/-- The data of the loop, with the rounded inverse variances of the coefficients. -/
theorem psr_obs (hL : GoodLog L) (hK : K ≤ 2 ^ 22) (hN : N ≤ 2 ^ 30) (hκ : 100 * ((K + 3) * eps * N) ≤ μ) (U : UsualPsr N K μ o) (h0 : 0 < o.n) {inv : Nat → Fl} {ld : Fl} {g : Gp}
    (hi : IsPhiInv A L o.fl.n o.fl.phi inv ld) (hg : IsGp A o.fl.n o.fl.cols o.fl.ndiag o.fl.res inv ld g) :
    ∃ d, (UsualObs N K (μ / 2) d ∧ FromObs A g d) ∧ |d.term - (o.like - o.whiteTerm)| ≤ (N + 2) * eps * o.size ∧ d.size ≤ o.size := by
  obtain ⟨hi1, hi2⟩ := hi
  have he := eps_pos
  have ht := tiny_pos
  have hte : tiny ≤ eps / 8 := by
    have e : eps / 8 = (2 : ℝ) ^ (-54 : ℤ) := by unfold eps; norm_num
    rw [e, tiny]
    exact zpow_le_zpow_right₀ (by norm_num) (by norm_num)
  have n1 : (1 : ℝ) ≤ o.n := by exact_mod_cast h0
  have nN : (o.n : ℝ) ≤ N := by exact_mod_cast U.le
  have hN' : (N : ℝ) ≤ 1073741824 := by exact_mod_cast hN
  have hK0 : (0 : ℝ) ≤ K := Nat.cast_nonneg K
  have hnL : o.n ≤ 2 ^ 30 := U.le.trans hN
  choose w hw1 hw2 hw3 hw4 hw5 using fun i => recip A (U.φlow i) (U.φhigh i)
  have ephi : ∀ i : Fin o.n, o.fl.phi i = .fin (o.φ i) := fun i => by simp [GpPsr.fl]
  have einv : ∀ i : Fin o.n, inv i = .fin (w i) := fun i => by rw [hi1, ephi, hw1]
  have elist : (List.range o.fl.n).map (fun i => npLog L (o.fl.phi i)) = (List.finRange o.n).map fun k => npLog L (.fin (o.φ k)) := by
    refine List.ext_getElem (by simp [GpPsr.fl]) fun i h1 h2 => ?_
    simp only [List.length_map, List.length_range] at h1
    have h1' : i < o.n := h1
    simp [GpPsr.fl, h1']
  rw [elist] at hi2
  obtain ⟨l, rfl, hl⟩ := logs_acc A L hL hnL U.φpos U.φlog hi2
  obtain ⟨Λ, hΛ⟩ : ∃ Λ, Λ = ∑ i, (1 + |Real.log (o.φ i)|) := ⟨_, rfl⟩
  have hle := hl.err
  have hls := hl.size
  simp only at hle hls
  rw [← hΛ] at hle hls
  have hΛn : (o.n : ℝ) ≤ Λ := by
    have : ∑ _i : Fin o.n, (1 : ℝ) ≤ ∑ i, (1 + |Real.log (o.φ i)|) := Finset.sum_le_sum fun i _ => by linarith [abs_nonneg (Real.log (o.φ i))]
    rw [Finset.sum_const, Finset.card_univ, Fintype.card_fin, nsmul_eq_mul, mul_one] at this
    rwa [hΛ]
  have hΛu : Λ ≤ 650 * o.n := by
    have : ∑ i, (1 + |Real.log (o.φ i)|) ≤ ∑ _i : Fin o.n, (650 : ℝ) := Finset.sum_le_sum fun k _ => by linarith [U.φlog k]
    rw [Finset.sum_const, Finset.card_univ, Fintype.card_fin, nsmul_eq_mul] at this
    linarith
  have hne : (1 + (o.n : ℝ)) * eps ≤ 1 / 1000 := by
    have : eps ≤ 1 / 2 ^ 50 := by unfold eps; norm_num
    have := mul_le_mul (by linarith : (1 + (o.n : ℝ)) ≤ 2 ^ 31) this he.le (by norm_num)
    exact this.trans (by norm_num)
  have hnt : (o.n : ℝ) * 2 * tiny ≤ eps / 4 * Λ := by
    have := mul_le_mul_of_nonneg_left hte (by positivity : 0 ≤ (o.n : ℝ) * 2)
    have h2 := mul_le_mul_of_nonneg_left hΛn he.le
    linarith
  have hl2 : |l| ≤ 2 * Λ := by
    have h2 := mul_le_mul_of_nonneg_right hne (by linarith : 0 ≤ Λ)
    have h3 : eps / 4 * Λ ≤ 1 / 1000 * Λ := mul_le_mul_of_nonneg_right (by nlinarith) (by linarith)
    have h4 : |l| ≤ |l - ∑ i, Real.log (o.φ i)| + |∑ i, Real.log (o.φ i)| := by simpa using abs_add_le (l - ∑ i, Real.log (o.φ i)) (∑ i, Real.log (o.φ i))
    linarith
  have hd : ((o.with o.ν fun i => (w i)⁻¹).obs l) = ⟨o.n, o.M, o.T, o.ν, o.r, w, l⟩ := by
    simp only [GpPsr.obs, GpPsr.with, inv_inv]
  obtain ⟨Z, hZ⟩ : ∃ Z, Z = o.prec := ⟨_, rfl⟩
  obtain ⟨X, hX⟩ : ∃ X : Matrix (Fin o.n) (Fin o.n) ℝ, X = o.Tᵀ * diagonal (fun k => (o.ν k)⁻¹) * o.T + diagonal w := ⟨_, rfl⟩
  have dX : ∀ i j, X i j - Z i j = if i = j then w i - (o.φ i)⁻¹ else 0 := by
    intro i j
    rw [hX, hZ, GpPsr.prec, Matrix.add_apply, Matrix.add_apply, diagonal_apply, diagonal_apply]
    split <;> ring
  have Zi : ∀ i, (o.φ i)⁻¹ ≤ Z i i := by
    intro i
    rw [hZ, GpPsr.prec, Matrix.add_apply, diagonal_apply_eq]
    have : 0 ≤ (o.Tᵀ * diagonal (fun k => (o.ν k)⁻¹) * o.T) i i := by
      rw [mul_apply]
      refine Finset.sum_nonneg fun k _ => ?_
      rw [mul_diagonal, transpose_apply]
      have := (U.νpos k)
      have e : o.T k i * (o.ν k)⁻¹ * o.T k i = (o.ν k)⁻¹ * o.T k i ^ 2 := by ring
      rw [e]
      positivity
    linarith
  have Zp : ∀ i, 0 < Z i i := fun i => lt_of_lt_of_le (by have := U.φpos i; positivity) (Zi i)
  have hμ0 : 0 < μ := lt_of_lt_of_le (by have : (1 : ℝ) ≤ N := n1.trans nN; positivity) hκ
  have hκn : 100 * (eps * o.n) ≤ μ := by
    refine le_trans ?_ hκ
    have h2 := mul_le_mul_of_nonneg_left nN he.le
    have h3 : 0 ≤ eps * N * (K + 2) := by positivity
    linarith
  have ent : ∀ i j, |X i j - Z i j| ≤ eps * (Real.sqrt (Z i i) * Real.sqrt (Z j j)) := by
    intro i j
    rw [dX]
    by_cases hij : i = j
    · subst hij
      rw [if_pos rfl, Real.mul_self_sqrt (Zp i).le]
      exact (hw3 i).trans (mul_le_mul_of_nonneg_left (Zi i) he.le)
    · rw [if_neg hij, abs_zero]
      positivity
  have hm : (Z - μ • diagonal Z.diag).PosSemidef := hZ ▸ U.margin
  have sX : ∀ i j, X i j = X j i := by
    intro i j
    have e : Xᵀ = X := by
      rw [hX, transpose_add, transpose_mul, transpose_mul, transpose_transpose, diagonal_transpose, diagonal_transpose, Matrix.mul_assoc]
    exact (congrFun (congrFun e i) j).symm
  have he1 : eps ≤ 1 / 1000 := by unfold eps; norm_num
  have mX := (margin_near hm Zp hμ0 sX he.le hκn (by linarith) ent).2
  have eii : ∀ i, |X i i - Z i i| ≤ 1 / 2 * Z i i := by
    intro i
    have := ent i i
    rw [Real.mul_self_sqrt (Zp i).le] at this
    exact this.trans (mul_le_mul_of_nonneg_right (by linarith) (Zp i).le)
  refine ⟨⟨o.n, o.M, o.T, o.ν, o.r, w, l⟩, ⟨?_, ?_⟩, ?_, ?_⟩
  · refine ⟨h0, U.le, U.toas, U.νlow, U.T, U.r, fun i => (hw2 i).le, fun i => ?_, fun i => ?_, U.ρ, ?_, ?_⟩
    · show _ ≤ (o.Tᵀ * diagonal (fun k => (o.ν k)⁻¹) * o.T + diagonal w) i i
      rw [← hX]
      have h1 := U.low i
      rw [← hZ] at h1
      have h2 := (abs_le.1 (eii i)).1
      have e : (2 : ℝ) ^ (-299 : ℤ) = 2 * (2 : ℝ) ^ (-300 : ℤ) := by
        rw [show (-299 : ℤ) = 1 + -300 by norm_num, zpow_add₀ (by norm_num), zpow_one]
      rw [e] at h1
      clear e
      generalize (2 : ℝ) ^ (-300 : ℤ) = Q at *
      linarith
    · show (o.Tᵀ * diagonal (fun k => (o.ν k)⁻¹) * o.T + diagonal w) i i ≤ _
      rw [← hX]
      have h1 := U.high i
      rw [← hZ] at h1
      have h2 := (abs_le.1 (eii i)).2
      have e : (2 : ℝ) ^ (300 : ℤ) = 2 * (2 : ℝ) ^ (299 : ℤ) := by
        rw [show (300 : ℤ) = 1 + 299 by norm_num, zpow_add₀ (by norm_num), zpow_one]
      rw [e]
      clear e
      have : 0 < (2 : ℝ) ^ (299 : ℤ) := by positivity
      generalize (2 : ℝ) ^ (299 : ℤ) = Q at *
      linarith
    · have e : (2 : ℝ) ^ (50 : ℤ) ≤ (2 : ℝ) ^ (900 : ℤ) := zpow_le_zpow_right₀ (by norm_num) (by norm_num)
      refine le_trans ?_ e
      norm_num
      linarith
    · have e : Obs.Z ⟨o.n, o.M, o.T, o.ν, o.r, w, l⟩ = X := hX.symm
      rw [e]
      exact mX
  · exact ⟨o.fl.cols, inv, fun i => by simp [GpPsr.fl], einv, hg⟩
  · have hwp : ∀ i, 0 < (o.with o.ν fun i => (w i)⁻¹).φ i := fun i => inv_pos.2 (hw2 i)
    have h1 := GpPsr.woodbury (o := o.with o.ν fun i => (w i)⁻¹) U.νpos hwp l
    rw [hd] at h1
    have h2 := GpPsr.like_near U.νpos U.φpos he.le (by linarith) (ν' := o.ν) (φ' := fun i => (w i)⁻¹) (fun k => by rw [sub_self, abs_zero]; have := U.νpos k; positivity) hw4
    have h3 : |(∑ i, Real.log (w i)⁻¹) - ∑ i, Real.log (o.φ i)| ≤ o.n * eps := by
      rw [← Finset.sum_sub_distrib]
      refine (Finset.abs_sum_le_sum_abs _ _).trans ?_
      refine (Finset.sum_le_sum fun i _ => hw5 i).trans ?_
      rw [Finset.sum_const, Finset.card_univ, Fintype.card_fin, nsmul_eq_mul]
    have h4 : |l - ∑ i, Real.log (w i)⁻¹| ≤ (1 + o.n) * eps * Λ + eps / 4 * Λ + o.n * eps := by
      have : l - ∑ i, Real.log (w i)⁻¹ = (l - ∑ i, Real.log (o.φ i)) - ((∑ i, Real.log (w i)⁻¹) - ∑ i, Real.log (o.φ i)) := by ring
      rw [this]
      have h5 := abs_sub (l - ∑ i, Real.log (o.φ i)) ((∑ i, Real.log (w i)⁻¹) - ∑ i, Real.log (o.φ i))
      linarith
    obtain ⟨t, htm⟩ : ∃ t, t = Obs.term ⟨o.n, o.M, o.T, o.ν, o.r, w, l⟩ := ⟨_, rfl⟩
    have h6 : (o.with o.ν fun i => (w i)⁻¹).like = o.whiteTerm + t + 1 / 2 * (l - ∑ i, Real.log (w i)⁻¹) := by
      rw [htm]
      exact h1
    rw [← htm]
    have h7 : t - (o.like - o.whiteTerm) = ((o.with o.ν fun i => (w i)⁻¹).like - o.like) - 1 / 2 * (l - ∑ i, Real.log (w i)⁻¹) := by
      rw [h6]
      ring
    rw [h7]
    refine (abs_sub _ _).trans ?_
    rw [abs_mul, abs_of_pos (by norm_num : (0 : ℝ) < 1 / 2)]
    have h8 : o.ρ + o.M + Λ ≤ o.size := by
      have e1 : ∑ i, (376 + |Real.log (o.φ i)|) = Λ + 375 * o.n := by
        rw [hΛ]
        have : ∀ i, 376 + |Real.log (o.φ i)| = (1 + |Real.log (o.φ i)|) + 375 := fun i => by ring
        simp_rw [this]
        rw [Finset.sum_add_distrib, Finset.sum_const, Finset.card_univ, Fintype.card_fin, nsmul_eq_mul, mul_comm]
      have e2 : (o.M : ℝ) ≤ ∑ k, (1 + |Real.log (o.ν k)|) := by
        have : ∑ _i : Fin o.M, (1 : ℝ) ≤ ∑ i, (1 + |Real.log (o.ν i)|) := Finset.sum_le_sum fun i _ => by linarith [abs_nonneg (Real.log (o.ν i))]
        rwa [Finset.sum_const, Finset.card_univ, Fintype.card_fin, nsmul_eq_mul, mul_one] at this
      unfold GpPsr.size
      rw [e1]
      linarith
    have h9 : 0 ≤ o.ρ + o.M := by
      have := U.size.1
      positivity
    have h10 := mul_le_mul_of_nonneg_left h8 (by positivity : 0 ≤ (N + 2) * eps)
    have h11 : eps * (o.ρ + o.M) ≤ (N + 2) * eps * (o.ρ + o.M) := mul_le_mul_of_nonneg_right (by nlinarith) h9
    have h12 : o.n * (eps * Λ) ≤ N * (eps * Λ) := mul_le_mul_of_nonneg_right nN (mul_nonneg he.le (by linarith))
    have h13 : o.n * eps ≤ eps * Λ := by
      have := mul_le_mul_of_nonneg_left hΛn he.le
      linarith
    have h14 : 0 ≤ N * (eps * Λ) := by
      have : 0 ≤ Λ := by linarith
      positivity
    have h15 : 0 ≤ eps * Λ := by
      have : 0 ≤ Λ := by linarith
      positivity
    linarith
  · have e1 : ∑ i, (376 + |Real.log (o.φ i)|) = Λ + 375 * o.n := by
      rw [hΛ]
      have : ∀ i, 376 + |Real.log (o.φ i)| = (1 + |Real.log (o.φ i)|) + 375 := fun i => by ring
      simp_rw [this]
      rw [Finset.sum_add_distrib, Finset.sum_const, Finset.card_univ, Fintype.card_fin, nsmul_eq_mul, mul_comm]
    have e2 : 0 ≤ ∑ k, (1 + |Real.log (o.ν k)|) := Finset.sum_nonneg fun k _ => by positivity
    show o.ρ + 1 + 375 * (o.n : ℝ) + 1 / 2 * |l| ≤ o.size
    unfold GpPsr.size
    rw [e1]
    linarith

/-- Without processes there is only white noise. -/
theorem like_white (hν : ∀ k, 0 < o.ν k) (h : o.n = 0) : o.like = o.whiteTerm := by
  haveI : IsEmpty (Fin o.n) := by
    rw [h]
    infer_instance
  haveI : IsEmpty (Fin (o.obs 0).n) := ‹IsEmpty (Fin o.n)›
  rw [GpPsr.woodbury hν (fun i => isEmptyElim i) 0, Finset.univ_eq_empty (α := Fin o.n), Finset.sum_empty, sub_zero, mul_zero, add_zero, GpPsr.whiteTerm, Obs.term, det_isEmpty, Real.log_one]
  have : (o.obs 0).β ⬝ᵥ ((o.obs 0).Z⁻¹ *ᵥ (o.obs 0).β) = 0 := by
    rw [dotProduct]
    exact Finset.sum_eq_zero fun i _ => isEmptyElim i
  rw [this]
  show _ + 1 / 2 * (0 - 0 - (0 : ℝ)) = _
  ring

theorem obs_all (hL : GoodLog L) (hK : K ≤ 2 ^ 22) (hN : N ≤ 2 ^ 30) (hκ : 100 * ((K + 3) * eps * N) ≤ μ) {os : List GpPsr} (hs : ∀ o ∈ os, UsualPsr N K μ o) {gs : List Gp}
    (h : List.Forall₂ (fun p g => ∃ inv ld, IsPhiInv A L p.n p.phi inv ld ∧ IsGp A p.n p.cols p.ndiag p.res inv ld g) ((os.map GpPsr.fl).filter fun p => p.n ≠ 0) gs) :
    ∃ ds, List.Forall₂ (fun p d => UsualObs N K (μ / 2) d ∧ FromObs A p d) gs ds ∧
      |(ds.map Obs.term).sum + (os.map GpPsr.whiteTerm).sum - (os.map GpPsr.like).sum| ≤ (N + 2) * eps * (os.map GpPsr.size).sum ∧ (ds.map Obs.size).sum ≤ (os.map GpPsr.size).sum ∧ gs.length ≤ os.length := by
  induction os generalizing gs with
  | nil =>
    cases h
    exact ⟨[], .nil, by simp, by simp, le_rfl⟩
  | cons o os ih =>
    have U := hs o (by simp)
    have he := eps_pos
    have hsz : 0 ≤ o.size := by
      have h1 := U.size.1
      have h2 := U.size.2.1
      have h3 : 0 ≤ ∑ k, (1 + |Real.log (o.ν k)|) := Finset.sum_nonneg fun k _ => by positivity
      linarith
    by_cases h0 : o.n = 0
    · have e : ((o :: os).map GpPsr.fl).filter (fun p => p.n ≠ 0) = (os.map GpPsr.fl).filter fun p => p.n ≠ 0 := by
        rw [List.map_cons, List.filter_cons_of_neg]
        show ¬ decide (o.n ≠ 0) = true
        simp [h0]
      rw [e] at h
      obtain ⟨ds, i1, i2, i3, i4⟩ := ih (fun o' h' => hs o' (by simp [h'])) h
      refine ⟨ds, i1, ?_, ?_, ?_⟩
      · rw [List.map_cons, List.map_cons, List.map_cons, List.sum_cons, List.sum_cons, List.sum_cons, like_white U.νpos h0]
        have e2 : (ds.map Obs.term).sum + (o.whiteTerm + (os.map GpPsr.whiteTerm).sum) - (o.whiteTerm + (os.map GpPsr.like).sum) =
            (ds.map Obs.term).sum + (os.map GpPsr.whiteTerm).sum - (os.map GpPsr.like).sum := by ring
        rw [e2, mul_add]
        have : 0 ≤ (N + 2) * eps * o.size := by positivity
        linarith
      · rw [List.map_cons, List.sum_cons]
        linarith
      · rw [List.length_cons]
        omega
    · have e : ((o :: os).map GpPsr.fl).filter (fun p => p.n ≠ 0) = o.fl :: (os.map GpPsr.fl).filter fun p => p.n ≠ 0 := by
        rw [List.map_cons, List.filter_cons_of_pos]
        show decide (o.n ≠ 0) = true
        simp [h0]
      rw [e] at h
      cases h with
      | @cons _ g _ gs h1 h2 =>
        obtain ⟨inv, ld, h3, h4⟩ := h1
        obtain ⟨ds, i1, i2, i3, i4⟩ := ih (fun o' h' => hs o' (by simp [h'])) h2
        obtain ⟨d, d1, d2, d3⟩ := psr_obs A L hL hK hN hκ U (Nat.pos_of_ne_zero h0) h3 h4
        refine ⟨d :: ds, .cons d1 i1, ?_, ?_, ?_⟩
        · rw [List.map_cons, List.map_cons, List.map_cons, List.map_cons, List.sum_cons, List.sum_cons, List.sum_cons, List.sum_cons]
          have e2 : d.term + (ds.map Obs.term).sum + (o.whiteTerm + (os.map GpPsr.whiteTerm).sum) - (o.like + (os.map GpPsr.like).sum) =
              (d.term - (o.like - o.whiteTerm)) + ((ds.map Obs.term).sum + (os.map GpPsr.whiteTerm).sum - (os.map GpPsr.like).sum) := by ring
          rw [e2, mul_add]
          exact (abs_add_le _ _).trans (add_le_add d2 i2)
        · rw [List.map_cons, List.map_cons, List.sum_cons, List.sum_cons]
          exact add_le_add d3 i3
        · rw [List.length_cons, List.length_cons]
          omega

/-- C152: the log-likelihood of a PTA without common signals, computed in binary64 from the basis, the residuals and all variances, is a finite number close to the Gaussian log-likelihood of the
residuals with the covariance of the model. -/
theorem C152_likelihood (hL : GoodLog L) (hN0 : 1 ≤ N) (hN : N ≤ 2 ^ 30) (hK : K ≤ 2 ^ 22) (hμ1 : μ ≤ 1) (hκ : 200 * ((K + 3) * (2 : ℝ) ^ (-51 : ℤ) * N) ≤ μ)
    (hμ : 2 ^ 19 * N ^ 2 * (2 : ℝ) ^ (-51 : ℤ) ≤ μ) {os : List GpPsr} (hs : ∀ o ∈ os, UsualPsr N K μ o) (h0 : os ≠ []) (hP : os.length ≤ 2 ^ 15) {r : Except PyErr Fl}
    (h : IsLikelihood A L (os.map GpPsr.fl) r) :
    ∃ v, r = .ok (.fin v) ∧ |v - (os.map GpPsr.like).sum| ≤
      ((10500 * N ^ 2 + 13 * (K + 3) * N) / μ + 3 * os.length) * (2 : ℝ) ^ (-51 : ℤ) * (os.map GpPsr.size).sum + (2 : ℝ) ^ (-999 : ℤ) := by
  obtain ⟨ll, h1, gs, h2, h3⟩ := h
  rw [List.map_map] at h1
  have he := eps_pos
  have hκ' : 100 * ((K + 3) * eps * N) ≤ μ / 2 := by
    have : 200 * ((K + 3) * eps * N) ≤ μ := hκ
    linarith
  have hμ' : 2 ^ 18 * N ^ 2 * eps ≤ μ / 2 := by
    have : 2 ^ 19 * N ^ 2 * eps ≤ μ := hμ
    linarith
  have N1 : (1 : ℝ) ≤ N := by exact_mod_cast hN0
  have K0 : (0 : ℝ) ≤ K := Nat.cast_nonneg K
  have hK' : (K : ℝ) ≤ 4194304 := by exact_mod_cast hK
  have hP' : (os.length : ℝ) ≤ 32768 := by exact_mod_cast hP
  have μ0 : 0 < μ := lt_of_lt_of_le (by positivity) hκ
  obtain ⟨z, rfl, hz1, hz2⟩ := white_psr A L hL hK hN hs hP h1
  obtain ⟨ds, i1, i2, i3, i4⟩ := obs_all A L hL hK hN (by linarith) hs h2
  obtain ⟨S, hS⟩ : ∃ S, S = (os.map GpPsr.size).sum := ⟨_, rfl⟩
  have hSp := size_pow hK hN hs hP
  have hS2 : 2 ≤ S := by
    rw [hS]
    have hpos : ∀ o ∈ os, 2 ≤ o.size := fun o ho => by
      have h1 := (hs o ho).size.1
      have h3 : 0 ≤ ∑ k, (1 + |Real.log (o.ν k)|) := Finset.sum_nonneg fun k _ => by positivity
      have h4 : 0 ≤ ∑ i, (376 + |Real.log (o.φ i)|) := Finset.sum_nonneg fun i _ => by positivity
      unfold GpPsr.size
      linarith
    obtain ⟨o, os', rfl⟩ := List.exists_cons_of_ne_nil h0
    rw [List.map_cons, List.sum_cons]
    have h5 := hpos o (by simp)
    have h6 : 0 ≤ (os'.map GpPsr.size).sum := List.sum_nonneg fun x hx => by
      obtain ⟨o', ho', rfl⟩ := List.mem_map.1 hx
      linarith [hpos o' (by simp [ho'])]
    linarith
  rw [← hS] at hz1 hz2 i2 i3 hSp
  rw [← hS]
  have V1 : (2 : ℝ) ^ (-1000 : ℤ) ≤ 1 / 8 := by
    refine (zpow_le_zpow_right₀ (by norm_num) (by norm_num : (-1000 : ℤ) ≤ -3)).trans ?_
    norm_num
  have c2 : (K + 2 * os.length + 4) * eps ≤ 1 / 8 := by
    have : eps ≤ 1 / 2 ^ 50 := by unfold eps; norm_num
    have := mul_le_mul (by linarith : (K + 2 * (os.length : ℝ) + 4) ≤ 2 ^ 30) this he.le (by norm_num)
    exact this.trans (by norm_num)
  have hzS : |z| ≤ S := by
    have h4 : |z| ≤ |z - (os.map GpPsr.whiteTerm).sum| + |(os.map GpPsr.whiteTerm).sum| := by simpa using abs_add_le (z - (os.map GpPsr.whiteTerm).sum) (os.map GpPsr.whiteTerm).sum
    have h5 := mul_le_mul_of_nonneg_right c2 (by linarith : 0 ≤ S / 2)
    linarith
  obtain ⟨v, e, hv⟩ := C151_likelihood A L hL hN (hK.trans (by norm_num)) hκ' hμ' i1 (i4.trans (hP.trans (by norm_num)))
    (hzS.trans (hSp.trans (zpow_le_zpow_right₀ (by norm_num) (by norm_num)))) h3
  refine ⟨v, e, ?_⟩
  have hg : (gs.length : ℝ) ≤ os.length := by exact_mod_cast i4
  have hg0 : (0 : ℝ) ≤ gs.length := Nat.cast_nonneg _
  have e1 : (2620 * (N : ℝ) ^ 2 + 3 * (K + 3) * N) / (μ / 2) = (5240 * (N : ℝ) ^ 2 + 6 * (K + 3) * N) / μ := by
    rw [div_div_eq_mul_div]
    ring
  rw [e1] at hv
  have a1 : (N : ℝ) ^ 2 ≤ N ^ 2 / μ := by
    rw [le_div_iff₀ μ0]
    exact mul_le_of_le_one_right (by positivity) hμ1
  have a2 : ((K : ℝ) + 3) * N ≤ (K + 3) * N / μ := by
    rw [le_div_iff₀ μ0]
    exact mul_le_of_le_one_right (by positivity) hμ1
  have a3 : (K : ℝ) + 3 ≤ (K + 3) * N := le_mul_of_one_le_right (by positivity) N1
  have a4 : (N : ℝ) ≤ N ^ 2 := by nlinarith
  have f1 : (5240 * (N : ℝ) ^ 2 + 6 * (K + 3) * N) / μ = 5240 * (N ^ 2 / μ) + 6 * ((K + 3) * N / μ) := by ring
  have f2 : (10500 * (N : ℝ) ^ 2 + 13 * (K + 3) * N) / μ = 10500 * (N ^ 2 / μ) + 13 * ((K + 3) * N / μ) := by ring
  rw [f1] at hv
  rw [f2]
  obtain ⟨a, ha⟩ : ∃ a, a = (N : ℝ) ^ 2 / μ := ⟨_, rfl⟩
  obtain ⟨b, hb⟩ : ∃ b, b = ((K : ℝ) + 3) * N / μ := ⟨_, rfl⟩
  rw [← ha] at hv a1 ⊢
  rw [← hb] at hv a2 ⊢
  have b1 : (5240 * a + 6 * b + 3 + gs.length) * eps * (|z| + (ds.map Obs.size).sum) ≤ (5240 * a + 6 * b + 3 + os.length) * eps * (S + S) := by
    refine mul_le_mul (mul_le_mul_of_nonneg_right (by linarith) he.le) (add_le_add hzS i3) ?_ (mul_nonneg (by linarith) he.le)
    have : 0 ≤ (ds.map Obs.size).sum := by
      have hf : ∀ {gs : List Gp} {ds : List Obs}, List.Forall₂ (fun p d => UsualObs N K (μ / 2) d ∧ FromObs A p d) gs ds → 0 ≤ (ds.map Obs.size).sum := by
        intro gs ds h
        induction h with
        | nil => simp
        | @cons g d gs ds h1 h2 ih =>
          rw [List.map_cons, List.sum_cons]
          refine add_nonneg ?_ ih
          have : 0 ≤ d.ρ := Finset.sum_nonneg fun k _ => div_nonneg (sq_nonneg _) (lt_of_lt_of_le (by positivity) (h1.1.νlow k)).le
          unfold Obs.size
          positivity
      exact hf i1
    positivity
  have b2 : (2 * (5240 * a + 6 * b + 3 + os.length) + (K + 2 * os.length + 4) / 2 + (N + 2)) * (eps * S) ≤ (10500 * a + 13 * b + 3 * os.length) * (eps * S) := by
    refine mul_le_mul_of_nonneg_right ?_ (mul_nonneg he.le (by linarith))
    linarith
  have e9 : (2 : ℝ) ^ (-999 : ℤ) = 2 * (2 : ℝ) ^ (-1000 : ℤ) := by
    rw [show (-999 : ℤ) = 1 + -1000 by norm_num, zpow_add₀ (by norm_num), zpow_one]
  obtain ⟨W, hW⟩ : ∃ W, W = (os.map GpPsr.whiteTerm).sum := ⟨_, rfl⟩
  obtain ⟨Y, hY⟩ : ∃ Y, Y = (os.map GpPsr.like).sum := ⟨_, rfl⟩
  obtain ⟨D, hD⟩ : ∃ D, D = (ds.map Obs.term).sum := ⟨_, rfl⟩
  rw [← hW] at hz1
  rw [← hW, ← hY, ← hD] at i2
  rw [← hD] at hv
  rw [← hY]
  have t1 : v - Y = (v - (z + D)) + ((z - W) + (D + W - Y)) := by ring
  rw [t1, e9]
  refine (abs_add_le _ _).trans ((add_le_add le_rfl (abs_add_le _ _)).trans ?_)
  change _ ≤ (10500 * a + 13 * b + 3 * os.length) * eps * S + _
  change _ ≤ (5240 * a + 6 * b + 3 + gs.length) * eps * _ + _ at hv
  clear e9 e1 f1 f2 hκ hμ hκ' hμ' hSp
  generalize (2 : ℝ) ^ (-1000 : ℤ) = V at *
  linarith

/-- C152: the outcomes on two machines. -/
theorem C152_machines (A' : Arith) (L' : Lib) (hL : GoodLog L) (hL' : GoodLog L') (hN0 : 1 ≤ N) (hN : N ≤ 2 ^ 30) (hK : K ≤ 2 ^ 22) (hμ1 : μ ≤ 1)
    (hκ : 200 * ((K + 3) * (2 : ℝ) ^ (-51 : ℤ) * N) ≤ μ) (hμ : 2 ^ 19 * N ^ 2 * (2 : ℝ) ^ (-51 : ℤ) ≤ μ) {os : List GpPsr} (hs : ∀ o ∈ os, UsualPsr N K μ o) (h0 : os ≠ []) (hP : os.length ≤ 2 ^ 15)
    {r r' : Except PyErr Fl} (h : IsLikelihood A L (os.map GpPsr.fl) r) (h' : IsLikelihood A' L' (os.map GpPsr.fl) r') :
    ∃ v v', r = .ok (.fin v) ∧ r' = .ok (.fin v') ∧ |v - v'| ≤
      2 * (((10500 * N ^ 2 + 13 * (K + 3) * N) / μ + 3 * os.length) * (2 : ℝ) ^ (-51 : ℤ) * (os.map GpPsr.size).sum + (2 : ℝ) ^ (-999 : ℤ)) := by
  obtain ⟨v, e, hv⟩ := C152_likelihood A L hL hN0 hN hK hμ1 hκ hμ hs h0 hP h
  obtain ⟨v', e', hv'⟩ := C152_likelihood A' L' hL' hN0 hN hK hμ1 hκ hμ hs h0 hP h'
  refine ⟨v, v', e, e', ?_⟩
  have := abs_sub (v - (os.map GpPsr.like).sum) (v' - (os.map GpPsr.like).sum)
  rw [sub_sub_sub_cancel_right] at this
  refine (this.trans (add_le_add hv hv')).trans (le_of_eq ?_)
  ring

/-! ## Examples -/

/-- There is an outcome. -/
theorem exists_likelihood (ps : List PsrF) : ∃ r, IsLikelihood A L ps r := by
  obtain ⟨ll, h1⟩ := exists_lnlike A L (ps.map fun p => p.res.zip p.ndiag)
  have h2 : ∀ qs : List PsrF, ∃ gs, List.Forall₂ (fun p g => ∃ inv ld, IsPhiInv A L p.n p.phi inv ld ∧ IsGp A p.n p.cols p.ndiag p.res inv ld g) qs gs := by
    intro qs
    induction qs with
    | nil => exact ⟨[], .nil⟩
    | cons p qs ih =>
      obtain ⟨gs, h⟩ := ih
      obtain ⟨ld, hld⟩ := exists_sum A ((List.range p.n).map fun i => npLog L (p.phi i))
      choose tnr t1 using fun i => exists_dot A ((p.cols i).zip (List.zipWith (div A) p.res p.ndiag))
      choose tnt t2 using fun i j => exists_dot A ((p.cols i).zip (List.zipWith (div A) (p.cols j) p.ndiag))
      exact ⟨⟨p.n, tnr, sigmaF A tnt fun i => div A (.fin 1) (p.phi i), ld⟩ :: gs, .cons ⟨_, ld, ⟨fun _ => rfl, hld⟩, rfl, t1, ⟨tnt, t2, rfl⟩, rfl⟩ h⟩
  obtain ⟨gs, h2⟩ := h2 (ps.filter fun p => p.n ≠ 0)
  obtain ⟨r, h3⟩ := exists_gp_loop A L ll gs
  exact ⟨r, ll, h1, gs, h2, h3⟩

/-- Two TOAs with variances 2 and residuals 3 and 1, and two coefficients with equal columns and variances 1. -/
noncomputable def exPsr : GpPsr := ⟨2, 2, Matrix.of fun _ _ => 1, fun _ => 2, ![3, 1], fun _ => 1⟩

/-- The same TOAs without a process. -/
noncomputable def exBare : GpPsr := ⟨0, 2, Matrix.of fun _ _ => 1, fun _ => 2, ![3, 1], fun _ => 1⟩

theorem exPsr_prec : exPsr.prec = exX := by
  rw [← exObs_Z]
  show _ + diagonal (fun _ => (1 : ℝ)⁻¹) = _ + diagonal fun _ => 1
  rw [inv_one]
  rfl

theorem ex_usual_psr : UsualPsr 2 2 (1 / 2) exPsr := by
  have b : ∀ {e : ℤ} {x : ℝ}, 2 ≤ e → x ≤ 4 → x ≤ (2 : ℝ) ^ e := fun h hx =>
    hx.trans ((by norm_num : (4 : ℝ) ≤ (2 : ℝ) ^ (2 : ℤ)).trans (zpow_le_zpow_right₀ (by norm_num) h))
  have c : ∀ {e : ℤ} {x : ℝ}, e ≤ 0 → 1 ≤ x → (2 : ℝ) ^ e ≤ x := fun h hx => (zpow_le_one_of_nonpos₀ (by norm_num) h).trans hx
  refine ⟨le_rfl, le_rfl, fun k => c (by norm_num) ?_, fun k => b (by norm_num) ?_, fun i => c (by norm_num) ?_, fun i => b (by norm_num) ?_, fun k i => b (by norm_num) ?_,
    ex_usual.r, fun i => c (by norm_num) ?_, fun i => b (by norm_num) ?_, ex_usual.ρ, ?_⟩
  · show (1 : ℝ) ≤ 2
    norm_num
  · show (2 : ℝ) ≤ 4
    norm_num
  · show (1 : ℝ) ≤ 1
    norm_num
  · show (1 : ℝ) ≤ 4
    norm_num
  · show |(1 : ℝ)| ≤ 4
    norm_num
  · rw [exPsr_prec]
    change Fin 2 at i
    fin_cases i <;> norm_num [exX]
  · rw [exPsr_prec]
    change Fin 2 at i
    fin_cases i <;> norm_num [exX]
  · rw [exPsr_prec]
    exact ex_margin

theorem ex_usual_bare : UsualPsr 2 2 (1 / 2) exBare := by
  refine ⟨by show 0 ≤ 2; norm_num, le_rfl, ex_usual_psr.νlow, ex_usual_psr.νhigh, fun i => Fin.elim0 i, fun i => Fin.elim0 i, fun k i => Fin.elim0 i, ex_usual_psr.r, fun i => Fin.elim0 i,
    fun i => Fin.elim0 i, ex_usual_psr.ρ, ?_⟩
  have : exBare.prec - (1 / 2 : ℝ) • diagonal exBare.prec.diag = 0 := by
    ext i j
    exact Fin.elim0 i
  rw [this]
  exact PosSemidef.zero

/-- C152 for a pulsar with a process and one without: an outcome exists, and each one is within `2^-20` of the Gaussian log-likelihood. -/
example (hL : GoodLog L) : (∃ r, IsLikelihood A L [exPsr.fl, exBare.fl] r) ∧ ∀ r, IsLikelihood A L [exPsr.fl, exBare.fl] r → ∃ v, r = .ok (.fin v) ∧
    |v - (exPsr.like + exBare.like)| ≤ (2 : ℝ) ^ (-20 : ℤ) := by
  refine ⟨exists_likelihood A L _, fun r h => ?_⟩
  obtain ⟨v, e, hv⟩ := C152_likelihood A L hL (N := 2) (K := 2) (μ := 1 / 2) (os := [exPsr, exBare]) (by norm_num) (by norm_num) (by norm_num) (by norm_num) (by norm_num) (by norm_num)
    (by
      intro o ho
      rcases List.mem_pair.1 ho with rfl | rfl
      · exact ex_usual_psr
      · exact ex_usual_bare) (by simp) (by norm_num) h
  refine ⟨v, e, ?_⟩
  have e1 : ([exPsr, exBare].map GpPsr.like).sum = exPsr.like + exBare.like := by simp
  have hlog : |Real.log 2| ≤ 1 := by
    rw [abs_of_pos (Real.log_pos (by norm_num))]
    linarith [Real.log_two_lt_d9]
  have e2 : ([exPsr, exBare].map GpPsr.size).sum ≤ 800 := by
    have h1 : exPsr.size = 5 + 2 + 2 * (1 + |Real.log 2|) + 2 * 376 := by
      show ∑ k : Fin 2, (![3, 1] : Fin 2 → ℝ) k ^ 2 / 2 + 2 + (∑ _k : Fin 2, (1 + |Real.log 2|)) + ∑ _i : Fin 2, (376 + |Real.log 1|) = _
      norm_num [Fin.sum_univ_two]
      ring
    have h2 : exBare.size = 5 + 2 + 2 * (1 + |Real.log 2|) := by
      show ∑ k : Fin 2, (![3, 1] : Fin 2 → ℝ) k ^ 2 / 2 + 2 + (∑ _k : Fin 2, (1 + |Real.log 2|)) + ∑ _i : Fin 0, (376 + |Real.log 1|) = _
      norm_num [Fin.sum_univ_two]
      ring
    simp only [List.map_cons, List.map_nil, List.sum_cons, List.sum_nil, h1, h2]
    linarith
  rw [e1] at hv
  refine hv.trans ?_
  have h1 : (2 : ℝ) ^ (-999 : ℤ) ≤ (2 : ℝ) ^ (-30 : ℤ) := zpow_le_zpow_right₀ (by norm_num) (by norm_num)
  refine (add_le_add (mul_le_mul_of_nonneg_left e2 (by positivity)) h1).trans ?_
  rw [List.length_cons, List.length_singleton]
  norm_num

end Verif.Ieee
