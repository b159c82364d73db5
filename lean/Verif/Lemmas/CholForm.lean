import Verif.Lemmas.CholReal

/-!
# The solution of a linear system with an inexact triangular factor

Real matrices: bounds on determinants and quadratic forms for a factor `L` with `L * Lᵀ` close to `X`, and on the solution of two triangular systems with errors.
-/

namespace Verif.CholReal

open Matrix

variable {m : Nat} {L X : Matrix (Fin m) (Fin m) ℝ}

theorem diag_form (D : Matrix (Fin m) (Fin m) ℝ) (k : Fin m) : D k k = Pi.single k (1 : ℝ) ⬝ᵥ (D *ᵥ Pi.single k 1) := by simp

theorem dot_move (M : Matrix (Fin m) (Fin m) ℝ) (u v : Fin m → ℝ) : u ⬝ᵥ (M *ᵥ v) = (Mᵀ *ᵥ u) ⬝ᵥ v := by
  rw [dotProduct_mulVec, ← mulVec_transpose]

theorem single_sq (k : Fin m) : ∑ i, (Pi.single k (1 : ℝ) : Fin m → ℝ) i ^ 2 = 1 := by
  rw [Finset.sum_eq_single k]
  · simp
  · intro b _ hb
    simp [Pi.single_eq_of_ne hb]
  · simp

theorem Low.inj (h : Low L) : Function.Injective L.mulVec := mulVec_injective_of_isUnit ((isUnit_iff_isUnit_det L).2 h.unit)

theorem det_up_unit (hu : IsUnit L.det) (hX : X.PosDef) {δ : ℝ} (h : ∀ z, z ⬝ᵥ (X *ᵥ z) ≤ (1 + δ) * ∑ k, (Lᵀ *ᵥ z) k ^ 2) :
    Real.log X.det ≤ Real.log (L * Lᵀ).det + m * δ := by
  have huT : IsUnit Lᵀ.det := by rwa [det_transpose]
  have hD : (L⁻¹ * X * (L⁻¹)ᵀ).PosDef := by
    have := hX.mul_mul_conjTranspose_same (B := L⁻¹) (vecMul_injective_of_isUnit ((isUnit_iff_isUnit_det _).2 (isUnit_nonsing_inv_det L hu)))
    rwa [conjTranspose_eq_transpose_of_trivial] at this
  have h1 := Wide.log_det_le hD
  have h2 : (L⁻¹ * X * (L⁻¹)ᵀ).trace ≤ m * (1 + δ) := by
    have : ∀ k, (L⁻¹ * X * (L⁻¹)ᵀ) k k ≤ 1 + δ := by
      intro k
      have e : (L⁻¹ * X * (L⁻¹)ᵀ) k k = ((L⁻¹)ᵀ *ᵥ Pi.single k 1) ⬝ᵥ (X *ᵥ ((L⁻¹)ᵀ *ᵥ Pi.single k 1)) := by
        rw [diag_form (L⁻¹ * X * (L⁻¹)ᵀ), ← mulVec_mulVec, ← mulVec_mulVec, dot_move]
      rw [e]
      refine (h _).trans (le_of_eq ?_)
      rw [mulVec_mulVec, ← transpose_mul, nonsing_inv_mul _ hu, transpose_one, one_mulVec, single_sq, mul_one]
    have h3 := Finset.sum_le_card_nsmul Finset.univ (fun k => (L⁻¹ * X * (L⁻¹)ᵀ) k k) (1 + δ) fun k _ => this k
    rw [Finset.card_univ, Fintype.card_fin, nsmul_eq_mul] at h3
    exact h3
  have e : (L⁻¹ * X * (L⁻¹)ᵀ).det * (L * Lᵀ).det = X.det := by
    rw [det_mul, det_mul, det_mul, det_transpose, det_transpose]
    have : L⁻¹.det * L.det = 1 := by rw [← det_mul, nonsing_inv_mul _ hu, det_one]
    linear_combination X.det * (L⁻¹.det * L.det + 1) * this
  have hB : 0 < (L * Lᵀ).det := by
    rw [det_mul, det_transpose]
    exact mul_self_pos.2 hu.ne_zero
  rw [← e, Real.log_mul hD.det_pos.ne' hB.ne']
  linarith

theorem det_up (hL : Low L) (hX : X.PosDef) {δ : ℝ} (h : ∀ z, z ⬝ᵥ (X *ᵥ z) ≤ (1 + δ) * ∑ k, (Lᵀ *ᵥ z) k ^ 2) :
    Real.log X.det ≤ Real.log (L * Lᵀ).det + m * δ := det_up_unit hL.unit hX h

theorem det_down (hL : Low L) (hX : X.PosDef) {δ : ℝ} (h : ∀ z, ∑ k, (Lᵀ *ᵥ z) k ^ 2 ≤ (1 + δ) * (z ⬝ᵥ (X *ᵥ z))) :
    Real.log (L * Lᵀ).det ≤ Real.log X.det + m * δ := by
  have hu := hL.unit
  have hXu : IsUnit X.det := isUnit_iff_ne_zero.2 hX.det_pos.ne'
  have hD : (Lᵀ * X⁻¹ * L).PosDef := by
    have := hX.inv.conjTranspose_mul_mul_same hL.inj
    rwa [conjTranspose_eq_transpose_of_trivial] at this
  have h1 := Wide.log_det_le hD
  have h2 : (Lᵀ * X⁻¹ * L).trace ≤ m * (1 + δ) := by
    have : ∀ k, (Lᵀ * X⁻¹ * L) k k ≤ 1 + δ := by
      intro k
      obtain ⟨l, hl⟩ : ∃ l, l = L *ᵥ Pi.single k (1 : ℝ) := ⟨_, rfl⟩
      obtain ⟨v, hv⟩ : ∃ v, v = X⁻¹ *ᵥ l := ⟨_, rfl⟩
      have e : (Lᵀ * X⁻¹ * L) k k = l ⬝ᵥ v := by
        rw [diag_form (Lᵀ * X⁻¹ * L), ← mulVec_mulVec, ← mulVec_mulVec, dot_move, transpose_transpose, hv, hl]
      have eX : X *ᵥ v = l := by rw [hv, mulVec_mulVec, mul_nonsing_inv _ hXu, one_mulVec]
      have e2 : l ⬝ᵥ v = (Lᵀ *ᵥ v) k := by
        rw [dotProduct_comm, hl, dot_move]
        simp
      have h3 := h v
      rw [eX, dotProduct_comm] at h3
      have h4 : (Lᵀ *ᵥ v) k ^ 2 ≤ ∑ k, (Lᵀ *ᵥ v) k ^ 2 := Finset.single_le_sum (f := fun k => (Lᵀ *ᵥ v) k ^ 2) (fun _ _ => sq_nonneg _) (Finset.mem_univ k)
      have h5 := h4.trans h3
      rw [← e2] at h5
      have h6 := hD.diag_pos (i := k)
      rw [e] at h6 ⊢
      nlinarith
    have h3 := Finset.sum_le_card_nsmul Finset.univ (fun k => (Lᵀ * X⁻¹ * L) k k) (1 + δ) fun k _ => this k
    rw [Finset.card_univ, Fintype.card_fin, nsmul_eq_mul] at h3
    exact h3
  have e : (Lᵀ * X⁻¹ * L).det * X.det = (L * Lᵀ).det := by
    rw [det_mul, det_mul, det_mul, det_transpose]
    have : X⁻¹.det * X.det = 1 := by rw [← det_mul, nonsing_inv_mul _ hXu, det_one]
    linear_combination L.det * L.det * this
  rw [← e, Real.log_mul hD.det_pos.ne' hX.det_pos.ne']
  linarith

/-! ## Lengths of vectors -/

/-- The length of a vector. -/
noncomputable def nrm (v : Fin m → ℝ) : ℝ := Real.sqrt (∑ k, v k ^ 2)

theorem nrm_nonneg (v : Fin m → ℝ) : 0 ≤ nrm v := Real.sqrt_nonneg _

theorem sq_nrm (v : Fin m → ℝ) : nrm v ^ 2 = ∑ k, v k ^ 2 := Real.sq_sqrt (Finset.sum_nonneg fun _ _ => sq_nonneg _)

theorem nrm_le {v : Fin m → ℝ} {c : ℝ} (hc : 0 ≤ c) (h : ∑ k, v k ^ 2 ≤ c ^ 2) : nrm v ≤ c := by
  refine abs_le_of_sq_le_sq' ?_ hc |>.2
  rw [sq_nrm]
  exact h

theorem abs_le_nrm (v : Fin m → ℝ) (k : Fin m) : |v k| ≤ nrm v := by
  refine abs_le_of_sq_le_sq ?_ (nrm_nonneg v)
  rw [sq_nrm]
  exact Finset.single_le_sum (f := fun k => v k ^ 2) (fun _ _ => sq_nonneg _) (Finset.mem_univ k)

theorem abs_dot (u v : Fin m → ℝ) : ∑ k, |u k * v k| ≤ nrm u * nrm v := by
  refine abs_le_of_sq_le_sq' ?_ (mul_nonneg (nrm_nonneg u) (nrm_nonneg v)) |>.2
  rw [mul_pow, sq_nrm, sq_nrm]
  have := Finset.sum_mul_sq_le_sq_mul_sq Finset.univ (fun k => |u k|) fun k => |v k|
  simpa [abs_mul, sq_abs] using this

theorem dot_le (u v : Fin m → ℝ) : |u ⬝ᵥ v| ≤ nrm u * nrm v := (Finset.abs_sum_le_sum_abs _ _).trans (abs_dot u v)

theorem sum_abs (v : Fin m → ℝ) : ∑ k, |v k| ≤ Real.sqrt m * nrm v := by
  have h := abs_dot (fun _ => 1) v
  simp only [one_mul] at h
  have e : nrm (fun _ : Fin m => (1 : ℝ)) = Real.sqrt m := by simp [nrm]
  rwa [e] at h

theorem nrm_const {v : Fin m → ℝ} {c : ℝ} (hc : 0 ≤ c) (h : ∀ k, |v k| ≤ c) : nrm v ≤ Real.sqrt m * c := by
  refine nrm_le (by positivity) ?_
  rw [mul_pow, Real.sq_sqrt (Nat.cast_nonneg m)]
  have := Finset.sum_le_card_nsmul Finset.univ (fun k => v k ^ 2) (c ^ 2) fun k _ => by
    rw [← sq_abs]
    exact pow_le_pow_left₀ (abs_nonneg _) (h k) 2
  simpa using this

theorem nrm_tri (u v : Fin m → ℝ) : nrm u ≤ nrm v + nrm (u - v) := by
  refine nrm_le (add_nonneg (nrm_nonneg _) (nrm_nonneg _)) ?_
  have h := (abs_le.1 (dot_le v (u - v))).2
  have e : ∑ k, u k ^ 2 = ∑ k, v k ^ 2 + 2 * (v ⬝ᵥ (u - v)) + ∑ k, (u - v) k ^ 2 := by
    simp only [dotProduct, Finset.mul_sum, ← Finset.sum_add_distrib, Pi.sub_apply]
    exact Finset.sum_congr rfl fun k _ => by ring
  rw [e, ← sq_nrm, ← sq_nrm]
  nlinarith

theorem root_le (m : Nat) : Real.sqrt m ≤ m := by
  rcases Nat.eq_zero_or_pos m with rfl | h
  · simp
  · have h1 : (1 : ℝ) ≤ m := by exact_mod_cast h
    rw [Real.sqrt_le_left (by linarith)]
    nlinarith

/-! ## A factor close to a matrix -/

/-- `L * Lᵀ` is close to `X`, which is far from singular. -/
structure Close (L X : Matrix (Fin m) (Fin m) ℝ) (s : Fin m → ℝ) (κ μ : ℝ) : Prop where
  low : Low L
  spos : ∀ i, 0 < s i
  κ0 : 0 ≤ κ
  μ0 : 0 < μ
  μ1 : μ ≤ 1
  rows : ∀ i, ∑ k, L i k ^ 2 ≤ 2 * s i ^ 2
  err : ∀ i j, |(L * Lᵀ) i j - X i j| ≤ 7 * κ * (s i * s j)
  margin : ∀ z, μ * ∑ i, s i ^ 2 * z i ^ 2 ≤ z ⬝ᵥ (X *ᵥ z)
  small : 40 * (κ * m) ≤ μ

variable {s : Fin m → ℝ} {κ μ a : ℝ}

/-- A vector in units of `s`. -/
def wt (s z : Fin m → ℝ) : Fin m → ℝ := fun i => s i * z i

theorem sq_wt (s z : Fin m → ℝ) : nrm (wt s z) ^ 2 = ∑ i, s i ^ 2 * z i ^ 2 := by
  rw [sq_nrm]
  exact Finset.sum_congr rfl fun i _ => by rw [wt, mul_pow]

namespace Close

variable (C : Close L X s κ μ)
include C

/-- The relative error. -/
theorem rho : 0 ≤ κ * m / μ ∧ κ * m / μ ≤ 1 / 40 := by
  have h0 := C.μ0
  have h1 := C.κ0
  refine ⟨by positivity, ?_⟩
  rw [div_le_iff₀ h0]
  have := C.small
  linarith

theorem form (z : Fin m → ℝ) : |nrm (Lᵀ *ᵥ z) ^ 2 - z ⬝ᵥ (X *ᵥ z)| ≤ 7 * (κ * m / μ) * (z ⬝ᵥ (X *ᵥ z)) := by
  have h1 := form_small (E := L * Lᵀ - X) (fun i => (C.spos i).le) (by have := C.κ0; positivity : 0 ≤ 7 * κ) (fun i j => by simpa [Matrix.sub_apply] using C.err i j) z
  rw [sub_mulVec, dotProduct_sub, gram_form, ← sq_nrm] at h1
  refine h1.trans ?_
  have h2 := C.margin z
  have h3 : ∑ i, s i ^ 2 * z i ^ 2 ≤ (z ⬝ᵥ (X *ᵥ z)) / μ := by
    rw [le_div_iff₀ C.μ0]
    linarith
  have h4 : 0 ≤ 7 * κ * m := by have := C.κ0; positivity
  calc 7 * κ * m * ∑ i, s i ^ 2 * z i ^ 2 ≤ 7 * κ * m * ((z ⬝ᵥ (X *ᵥ z)) / μ) := mul_le_mul_of_nonneg_left h3 h4
    _ = _ := by ring

theorem form_nonneg (z : Fin m → ℝ) : 0 ≤ z ⬝ᵥ (X *ᵥ z) :=
  le_trans (mul_nonneg C.μ0.le (Finset.sum_nonneg fun _ _ => mul_nonneg (sq_nonneg _) (sq_nonneg _))) (C.margin z)

theorem form_le (z : Fin m → ℝ) : z ⬝ᵥ (X *ᵥ z) ≤ 2 * nrm (Lᵀ *ᵥ z) ^ 2 := by
  have h1 := (abs_le.1 (C.form z)).1
  have h2 := C.form_nonneg z
  have h3 := mul_le_mul_of_nonneg_right C.rho.2 h2
  linarith

/-- In units of `s`. -/
theorem wt_le (z : Fin m → ℝ) : Real.sqrt μ * nrm (wt s z) ≤ 3 / 2 * nrm (Lᵀ *ᵥ z) := by
  refine abs_le_of_sq_le_sq' ?_ (by have := nrm_nonneg (Lᵀ *ᵥ z); positivity) |>.2
  rw [mul_pow, mul_pow, Real.sq_sqrt C.μ0.le, sq_wt]
  have h1 := (C.margin z).trans (C.form_le z)
  have h2 := sq_nonneg (nrm (Lᵀ *ᵥ z))
  linarith

theorem root : μ ≤ Real.sqrt μ ∧ 0 < Real.sqrt μ ∧ Real.sqrt μ * Real.sqrt μ = μ := by
  have h := C.μ0
  refine ⟨?_, Real.sqrt_pos.2 h, Real.mul_self_sqrt h.le⟩
  refine Real.le_sqrt_of_sq_le ?_
  have := C.μ1
  nlinarith

theorem wt_le' (z : Fin m → ℝ) : μ * nrm (wt s z) ≤ 3 / 2 * nrm (Lᵀ *ᵥ z) :=
  (mul_le_mul_of_nonneg_right C.root.1 (nrm_nonneg _)).trans (C.wt_le z)

theorem wt_exact (z : Fin m → ℝ) : Real.sqrt μ * nrm (wt s z) ≤ Real.sqrt (z ⬝ᵥ (X *ᵥ z)) := by
  refine Real.le_sqrt_of_sq_le ?_
  rw [mul_pow, Real.sq_sqrt C.μ0.le, sq_wt]
  exact C.margin z

/-- The factor applied to a vector. -/
theorem left_le (z : Fin m → ℝ) : nrm (Lᵀ *ᵥ z) ≤ 11 / 10 * Real.sqrt (z ⬝ᵥ (X *ᵥ z)) := by
  refine abs_le_of_sq_le_sq' ?_ (by positivity) |>.2
  rw [mul_pow, Real.sq_sqrt (C.form_nonneg z)]
  have h1 := (abs_le.1 (C.form z)).2
  have h2 := C.form_nonneg z
  have h3 := mul_le_mul_of_nonneg_right C.rho.2 h2
  linarith

theorem weighted (v : Fin m → ℝ) {e : Fin m → ℝ} {c : ℝ} (h : ∀ i, |e i| ≤ c * s i) : ∑ i, |v i * e i| ≤ c * (Real.sqrt m * nrm (wt s v)) ∨ m = 0 := by
  rcases Nat.eq_zero_or_pos m with h0 | h0
  · exact .inr h0
  left
  have hc : 0 ≤ c := by
    have h1 := (abs_nonneg _).trans (h ⟨0, h0⟩)
    exact nonneg_of_mul_nonneg_left h1 (C.spos _)
  calc ∑ i, |v i * e i| ≤ ∑ i, c * |wt s v i| := by
        refine Finset.sum_le_sum fun i _ => ?_
        rw [abs_mul, wt, abs_mul, abs_of_pos (C.spos i)]
        have := mul_le_mul_of_nonneg_left (h i) (abs_nonneg (v i))
        linarith
    _ = c * ∑ i, |wt s v i| := by rw [Finset.mul_sum]
    _ ≤ _ := mul_le_mul_of_nonneg_left (sum_abs _) hc

theorem weighted_dot (v : Fin m → ℝ) {e : Fin m → ℝ} {c : ℝ} (hc : 0 ≤ c) (h : ∀ i, |e i| ≤ c * s i) : |v ⬝ᵥ e| ≤ c * (Real.sqrt m * nrm (wt s v)) := by
  rcases C.weighted v h with h1 | rfl
  · exact (Finset.abs_sum_le_sum_abs _ _).trans h1
  · simp only [dotProduct, Finset.univ_eq_empty, Finset.sum_empty, abs_zero]
    have := nrm_nonneg (wt s v)
    positivity

theorem bilinear (x z : Fin m → ℝ) : |x ⬝ᵥ ((L * Lᵀ - X) *ᵥ z)| ≤ 7 * (κ * m) * (nrm (wt s x) * nrm (wt s z)) := by
  have h1 : ∀ i, |((L * Lᵀ - X) *ᵥ z) i| ≤ (7 * κ * (Real.sqrt m * nrm (wt s z))) * s i := by
    intro i
    calc |((L * Lᵀ - X) *ᵥ z) i| ≤ ∑ j, |(L * Lᵀ - X) i j * z j| := Finset.abs_sum_le_sum_abs (fun j => (L * Lᵀ - X) i j * z j) Finset.univ
      _ ≤ ∑ j, 7 * κ * s i * |wt s z j| := by
          refine Finset.sum_le_sum fun j _ => ?_
          rw [abs_mul, wt, abs_mul, abs_of_pos (C.spos j), Matrix.sub_apply]
          have := mul_le_mul_of_nonneg_right (C.err i j) (abs_nonneg (z j))
          linarith
      _ = 7 * κ * s i * ∑ j, |wt s z j| := by rw [Finset.mul_sum]
      _ ≤ 7 * κ * s i * (Real.sqrt m * nrm (wt s z)) := by
          refine mul_le_mul_of_nonneg_left (sum_abs _) ?_
          have := C.κ0
          have := (C.spos i).le
          positivity
      _ = _ := by ring
  have h2 := C.weighted_dot x (by have := C.κ0; have := nrm_nonneg (wt s z); positivity) h1
  refine h2.trans (le_of_eq ?_)
  have e : Real.sqrt m * Real.sqrt m = m := Real.mul_self_sqrt (Nat.cast_nonneg m)
  linear_combination (7 * κ * nrm (wt s z) * nrm (wt s x)) * e

theorem entry (i k : Fin m) : |L i k| ≤ 3 / 2 * s i := by
  have h := C.spos i
  refine abs_le_of_sq_le_sq ?_ (by linarith)
  have h1 : L i k ^ 2 ≤ ∑ k, L i k ^ 2 := Finset.single_le_sum (f := fun k => L i k ^ 2) (fun _ _ => sq_nonneg _) (Finset.mem_univ k)
  have h2 := C.rows i
  nlinarith

/-! ## Two triangular systems -/

/-- The errors of the first system. -/
theorem first {b y : Fin m → ℝ} {w : ℝ} (ha : 0 ≤ a) (hw : ∀ i, 2 * w ≤ κ * a * s i) (h : ∀ i, |(L *ᵥ y) i - b i| ≤ 3 * κ * (∑ k, |L i k * y k|) + 2 * w) (i : Fin m) :
    |(L *ᵥ y - b) i| ≤ 5 * κ * (nrm y + a) * s i := by
  have hs := C.spos i
  have hκ := C.κ0
  have hy := nrm_nonneg y
  have h1 : ∑ k, |L i k * y k| ≤ 3 / 2 * s i * nrm y := by
    refine (abs_dot _ _).trans (mul_le_mul_of_nonneg_right ?_ hy)
    refine nrm_le (by linarith) ?_
    have := C.rows i
    nlinarith
  have h2 := h i
  have h3 := hw i
  have h4 := mul_le_mul_of_nonneg_left h1 (by positivity : 0 ≤ 3 * κ)
  rw [Pi.sub_apply]
  have h5 : 0 ≤ κ * nrm y * s i := by positivity
  have h6 : 0 ≤ κ * a * s i := by positivity
  nlinarith

/-- The errors of the second system. -/
theorem second {y z : Fin m → ℝ} {w : ℝ} (ha : 0 ≤ a) (hw : 2 * w ≤ κ * a) (h : ∀ i, |(Lᵀ *ᵥ z) i - y i| ≤ 3 * κ * (∑ k, |L k i * z k|) + 2 * w) :
    nrm (Lᵀ *ᵥ z - y) ≤ 15 / 2 * (κ * m / μ) * (nrm (Lᵀ *ᵥ z) + a) ∧ nrm (Lᵀ *ᵥ z) ≤ 2 * (nrm y + a) := by
  have hκ := C.κ0
  have hR := nrm_nonneg (wt s z)
  have hT := nrm_nonneg (Lᵀ *ᵥ z)
  have hμ := C.μ0
  have e : Real.sqrt m * Real.sqrt m = m := Real.mul_self_sqrt (Nat.cast_nonneg m)
  have h1 : ∀ i, |(Lᵀ *ᵥ z - y) i| ≤ 5 * κ * (Real.sqrt m * nrm (wt s z) + a) := by
    intro i
    have h2 : ∑ k, |L k i * z k| ≤ 3 / 2 * (Real.sqrt m * nrm (wt s z)) := by
      calc ∑ k, |L k i * z k| ≤ ∑ k, 3 / 2 * |wt s z k| := by
            refine Finset.sum_le_sum fun k _ => ?_
            rw [abs_mul, wt, abs_mul, abs_of_pos (C.spos k)]
            have := mul_le_mul_of_nonneg_right (C.entry k i) (abs_nonneg (z k))
            linarith
        _ = 3 / 2 * ∑ k, |wt s z k| := by rw [Finset.mul_sum]
        _ ≤ _ := mul_le_mul_of_nonneg_left (sum_abs _) (by norm_num)
    have h3 := h i
    have h4 := mul_le_mul_of_nonneg_left h2 (by positivity : 0 ≤ 3 * κ)
    rw [Pi.sub_apply]
    have h5 : 0 ≤ κ * (Real.sqrt m * nrm (wt s z)) := by positivity
    have h6 : 0 ≤ κ * a := by positivity
    nlinarith
  have h2 := nrm_const (by positivity) h1
  have h3 : nrm (Lᵀ *ᵥ z - y) ≤ 5 * (κ * m) * (nrm (wt s z) + a) := by
    refine h2.trans ?_
    have h4 : Real.sqrt m * a ≤ m * a := mul_le_mul_of_nonneg_right (root_le m) ha
    have h5 : Real.sqrt m * (5 * κ * (Real.sqrt m * nrm (wt s z) + a)) = 5 * κ * (m * nrm (wt s z) + Real.sqrt m * a) := by
      linear_combination (5 * κ * nrm (wt s z)) * e
    rw [h5]
    have h6 := mul_le_mul_of_nonneg_left h4 (by positivity : 0 ≤ 5 * κ)
    linarith
  have h4 : nrm (wt s z) ≤ 3 / 2 * nrm (Lᵀ *ᵥ z) / μ := by
    rw [le_div_iff₀ hμ]
    have := C.wt_le' z
    linarith
  have h5 : a ≤ a / μ := by
    rw [le_div_iff₀ hμ]
    have := C.μ1
    nlinarith
  have h6 : nrm (Lᵀ *ᵥ z - y) ≤ 15 / 2 * (κ * m / μ) * (nrm (Lᵀ *ᵥ z) + a) := by
    have hm : 0 ≤ 5 * (κ * m) := by positivity
    have h7 := mul_le_mul_of_nonneg_left (add_le_add h4 h5) hm
    refine h3.trans (h7.trans ?_)
    have h8 : 5 * (κ * m) * (3 / 2 * nrm (Lᵀ *ᵥ z) / μ + a / μ) = 15 / 2 * (κ * m / μ) * nrm (Lᵀ *ᵥ z) + 5 * (κ * m / μ) * a := by ring
    have h9 := mul_nonneg C.rho.1 ha
    rw [h8]
    linarith
  refine ⟨h6, ?_⟩
  have h7 := nrm_tri (Lᵀ *ᵥ z) y
  have h8 := mul_le_mul_of_nonneg_right C.rho.2 (add_nonneg hT ha)
  have h9 := nrm_nonneg y
  linarith

/-- The solution of the first system, tested with a vector. -/
theorem first_test {b y : Fin m → ℝ} (ha : 0 ≤ a) (h : ∀ i, |(L *ᵥ y - b) i| ≤ 5 * κ * (nrm y + a) * s i) :
    ∃ v, Lᵀ *ᵥ v = y ∧ nrm y ^ 2 ≤ |v ⬝ᵥ b| + 15 / 2 * (κ * m / μ) * (nrm y + a) * nrm y := by
  have hu := C.low.unit
  have huT : IsUnit Lᵀ.det := by rwa [det_transpose]
  obtain ⟨v, hv⟩ : ∃ v, v = (Lᵀ)⁻¹ *ᵥ y := ⟨_, rfl⟩
  have e : Lᵀ *ᵥ v = y := by rw [hv, mulVec_mulVec, mul_nonsing_inv _ huT, one_mulVec]
  refine ⟨v, e, ?_⟩
  have hκ := C.κ0
  have hy := nrm_nonneg y
  have hμ := C.μ0
  have e1 : nrm y ^ 2 = v ⬝ᵥ b + v ⬝ᵥ (L *ᵥ y - b) := by
    rw [← dotProduct_add, add_sub_cancel, dot_move, e, sq_nrm]
    simp only [dotProduct, sq]
  have h1 := C.weighted_dot v (by positivity) h
  have h2 : nrm (wt s v) ≤ 3 / 2 * nrm y / μ := by
    rw [le_div_iff₀ hμ]
    have := C.wt_le' v
    rw [e] at this
    linarith
  have h3 : Real.sqrt m * nrm (wt s v) ≤ m * (3 / 2 * nrm y / μ) := mul_le_mul (root_le m) h2 (nrm_nonneg _) (Nat.cast_nonneg m)
  have h4 := h1.trans (mul_le_mul_of_nonneg_left h3 (by positivity : 0 ≤ 5 * κ * (nrm y + a)))
  have e2 : 5 * κ * (nrm y + a) * (m * (3 / 2 * nrm y / μ)) = 15 / 2 * (κ * m / μ) * (nrm y + a) * nrm y := by ring
  rw [e2] at h4
  rw [e1]
  have h5 := le_abs_self (v ⬝ᵥ b)
  have h6 := le_abs_self (v ⬝ᵥ (L *ᵥ y - b))
  linarith

omit C in
theorem cancel_sq {Y c r a : ℝ} (hY : 0 ≤ Y) (ha : 0 ≤ a) (h : Y ^ 2 ≤ c * Y + 15 / 2 * r * (Y + a) * Y) (hr : r ≤ 1 / 40) (hc : 0 ≤ c) : Y ≤ 5 / 4 * c + a / 4 := by
  rcases hY.eq_or_lt with rfl | h0
  · positivity
  · have h1 : Y ≤ c + 15 / 2 * r * (Y + a) := by
      refine le_of_mul_le_mul_right ?_ h0
      linarith
    have h2 := mul_le_mul_of_nonneg_right hr (add_nonneg hY ha)
    linarith

/-- The size of the solution of the first system. -/
theorem first_size {b y : Fin m → ℝ} {β : ℝ} (hβ : 0 ≤ β) (hb : ∀ i, |b i| ≤ β * s i) (ha : 0 ≤ a) (h : ∀ i, |(L *ᵥ y - b) i| ≤ 5 * κ * (nrm y + a) * s i) :
    nrm y ≤ 2 * (β * (m / μ)) + a := by
  obtain ⟨v, e, hv⟩ := C.first_test ha h
  have hμ := C.μ0
  have hy := nrm_nonneg y
  have h1 := C.weighted_dot v hβ hb
  have h2 : nrm (wt s v) ≤ 3 / 2 * nrm y / μ := by
    rw [le_div_iff₀ hμ]
    have := C.wt_le' v
    rw [e] at this
    linarith
  have h3 : Real.sqrt m * nrm (wt s v) ≤ m * (3 / 2 * nrm y / μ) := mul_le_mul (root_le m) h2 (nrm_nonneg _) (Nat.cast_nonneg m)
  have h4 := h1.trans (mul_le_mul_of_nonneg_left h3 hβ)
  have e2 : β * (m * (3 / 2 * nrm y / μ)) = 3 / 2 * (β * (m / μ)) * nrm y := by ring
  rw [e2] at h4
  have h5 : 0 ≤ β * (m / μ) := by positivity
  have h6 := cancel_sq (c := 3 / 2 * (β * (m / μ))) hy ha (by linarith) C.rho.2 (by positivity)
  linarith

/-- Products with the matrix. -/
theorem test_exact (v x : Fin m → ℝ) : |v ⬝ᵥ (X *ᵥ x)| ≤ 11 / 10 * nrm (Lᵀ *ᵥ v) * Real.sqrt (x ⬝ᵥ (X *ᵥ x)) +
    7 * (κ * m) * (nrm (wt s v) * nrm (wt s x)) := by
  have e : v ⬝ᵥ (X *ᵥ x) = (Lᵀ *ᵥ v) ⬝ᵥ (Lᵀ *ᵥ x) - v ⬝ᵥ ((L * Lᵀ - X) *ᵥ x) := by
    rw [sub_mulVec, dotProduct_sub, ← mulVec_mulVec, dot_move L]
    ring
  rw [e]
  refine (abs_sub _ _).trans (add_le_add ((dot_le _ _).trans ?_) (C.bilinear v x))
  have := mul_le_mul_of_nonneg_left (C.left_le x) (nrm_nonneg (Lᵀ *ᵥ v))
  linarith

/-- Two products in units of `s`. -/
theorem two_wt {u v p q : ℝ} (hu : 0 ≤ u) (hv : 0 ≤ v) (hp : Real.sqrt μ * u ≤ p) (hq : Real.sqrt μ * v ≤ q) : κ * m * (u * v) ≤ κ * m / μ * (p * q) := by
  obtain ⟨-, r0, r⟩ := C.root
  have h1 := mul_le_mul hp hq (by positivity) ((mul_nonneg r0.le hu).trans hp)
  have h2 : u * v ≤ p * q / μ := by
    rw [le_div_iff₀ C.μ0]
    calc u * v * μ = Real.sqrt μ * u * (Real.sqrt μ * v) := by linear_combination (-(u * v)) * r
      _ ≤ _ := h1
  have h3 : 0 ≤ κ * m := by have := C.κ0; positivity
  calc κ * m * (u * v) ≤ κ * m * (p * q / μ) := mul_le_mul_of_nonneg_left h2 h3
    _ = _ := by ring

/-- The solution of the two systems: its product with the right-hand side, and the sizes of the terms. -/
theorem solve {b y z x : Fin m → ℝ} {w : ℝ} (hsym : Xᵀ = X) (hx : X *ᵥ x = b) (ha : 0 ≤ a) (hw : ∀ i, 2 * w ≤ κ * a * s i) (hw' : 2 * w ≤ κ * a)
    (h1 : ∀ i, |(L *ᵥ y) i - b i| ≤ 3 * κ * (∑ k, |L i k * y k|) + 2 * w) (h2 : ∀ i, |(Lᵀ *ᵥ z) i - y i| ≤ 3 * κ * (∑ k, |L k i * z k|) + 2 * w) :
    |b ⬝ᵥ z - x ⬝ᵥ b| ≤ 100 * (κ * m / μ) * (Real.sqrt (x ⬝ᵥ b) * (Real.sqrt (x ⬝ᵥ b) + a)) ∧
    ∑ i, |b i * z i| ≤ 12 * (m / μ) * (Real.sqrt (x ⬝ᵥ b) * (Real.sqrt (x ⬝ᵥ b) + a)) := by
  obtain ⟨H, hH⟩ : ∃ H, H = Real.sqrt (x ⬝ᵥ b) := ⟨_, rfl⟩
  have hH' : Real.sqrt (x ⬝ᵥ (X *ᵥ x)) = H := by rw [hx, hH]
  have hH0 : 0 ≤ H := by rw [hH]; exact Real.sqrt_nonneg _
  rw [← hH]
  have hκ := C.κ0
  have hμ := C.μ0
  obtain ⟨r0, r1⟩ := C.rho
  have f := C.first ha hw h1
  obtain ⟨g1, g2⟩ := C.second ha hw' h2
  have hRx := C.wt_exact x
  rw [hH'] at hRx
  have hRz := C.wt_le z
  have hy := nrm_nonneg y
  have hT := nrm_nonneg (Lᵀ *ᵥ z)
  -- The size of `y`.
  have hY : nrm y ≤ 7 / 4 * H + a / 4 := by
    obtain ⟨v, e, hv⟩ := C.first_test ha f
    have t := C.test_exact v x
    rw [hx, e, ← hH] at t
    have t2 := C.two_wt (nrm_nonneg (wt s v)) (nrm_nonneg (wt s x)) (C.wt_le v) hRx
    rw [e] at t2
    have t3 : 0 ≤ nrm y * H := mul_nonneg hy hH0
    have t4 := mul_le_mul_of_nonneg_right r1 t3
    have t5 : |v ⬝ᵥ b| ≤ 7 / 5 * H * nrm y := by linarith
    have := cancel_sq (c := 7 / 5 * H) hy ha (by linarith) r1 (by positivity)
    linarith
  have hT' : nrm (Lᵀ *ᵥ z) ≤ 4 * (H + a) := by linarith
  have hg : nrm (Lᵀ *ᵥ z - y) ≤ 38 * (κ * m / μ) * (H + a) := by
    have t1 := mul_le_mul_of_nonneg_left (by linarith : nrm (Lᵀ *ᵥ z) + a ≤ 4 * H + 5 * a) (by positivity : 0 ≤ 15 / 2 * (κ * m / μ))
    have t2 := mul_nonneg r0 hH0
    have t3 := mul_nonneg r0 ha
    nlinarith
  constructor
  · have e : b ⬝ᵥ z - x ⬝ᵥ b = (Lᵀ *ᵥ x) ⬝ᵥ (Lᵀ *ᵥ z - y) + x ⬝ᵥ (L *ᵥ y - b) - x ⬝ᵥ ((L * Lᵀ - X) *ᵥ z) := by
      have e1 : b ⬝ᵥ z = x ⬝ᵥ (X *ᵥ z) := by rw [dot_move, hsym, hx]
      rw [e1, sub_mulVec, dotProduct_sub, dotProduct_sub, dotProduct_sub, ← mulVec_mulVec, dot_move L, dot_move L]
      ring
    rw [e]
    have t1 : |(Lᵀ *ᵥ x) ⬝ᵥ (Lᵀ *ᵥ z - y)| ≤ 11 / 10 * H * (38 * (κ * m / μ) * (H + a)) := by
      refine (dot_le _ _).trans (mul_le_mul ?_ hg (nrm_nonneg _) (by positivity))
      have := C.left_le x
      rwa [hH'] at this
    have t2 : |x ⬝ᵥ (L *ᵥ y - b)| ≤ 10 * (κ * m / μ) * (H * (H + a)) := by
      have u1 := C.weighted_dot x (by positivity) f
      have u2 : nrm (wt s x) ≤ H / μ := by
        rw [le_div_iff₀ hμ]
        have := mul_le_mul_of_nonneg_right C.root.1 (nrm_nonneg (wt s x))
        linarith
      have u3 : Real.sqrt m * nrm (wt s x) ≤ m * (H / μ) := mul_le_mul (root_le m) u2 (nrm_nonneg _) (Nat.cast_nonneg m)
      have u4 : nrm y + a ≤ 2 * (H + a) := by linarith
      have u5 : 5 * κ * (nrm y + a) ≤ 5 * κ * (2 * (H + a)) := mul_le_mul_of_nonneg_left u4 (by positivity)
      have u6 := u1.trans (mul_le_mul u5 u3 (mul_nonneg (Real.sqrt_nonneg _) (nrm_nonneg _)) (by positivity))
      refine u6.trans (le_of_eq ?_)
      ring
    have t3 : |x ⬝ᵥ ((L * Lᵀ - X) *ᵥ z)| ≤ 42 * (κ * m / μ) * (H * (H + a)) := by
      have u1 := C.two_wt (nrm_nonneg (wt s x)) (nrm_nonneg (wt s z)) hRx hRz
      have u2 := C.bilinear x z
      have u3 : H * (3 / 2 * nrm (Lᵀ *ᵥ z)) ≤ H * (6 * (H + a)) := mul_le_mul_of_nonneg_left (by linarith) hH0
      have u4 := mul_le_mul_of_nonneg_left u3 r0
      linarith
    have t4 := abs_sub ((Lᵀ *ᵥ x) ⬝ᵥ (Lᵀ *ᵥ z - y) + x ⬝ᵥ (L *ᵥ y - b)) (x ⬝ᵥ ((L * Lᵀ - X) *ᵥ z))
    have t5 := abs_add_le ((Lᵀ *ᵥ x) ⬝ᵥ (Lᵀ *ᵥ z - y)) (x ⬝ᵥ (L *ᵥ y - b))
    have t6 : 0 ≤ κ * m / μ * (H * (H + a)) := by positivity
    have t7 : 11 / 10 * H * (38 * (κ * m / μ) * (H + a)) = 418 / 10 * (κ * m / μ * (H * (H + a))) := by ring
    rw [t7] at t1
    linarith
  · have hb : ∀ i, |b i| ≤ 2 * H * s i := by
      intro i
      have t := C.test_exact (Pi.single i 1) x
      rw [hx, ← hH] at t
      have e1 : Pi.single i (1 : ℝ) ⬝ᵥ b = b i := by simp
      have e2 : nrm (Lᵀ *ᵥ Pi.single i (1 : ℝ)) ≤ 3 / 2 * s i := by
        refine nrm_le (by have := C.spos i; linarith) ?_
        have e3 : ∀ k, (Lᵀ *ᵥ Pi.single i (1 : ℝ)) k = L i k := fun k => by simp
        simp only [e3]
        have := C.rows i
        have := C.spos i
        nlinarith
      have e3 : nrm (wt s (Pi.single i (1 : ℝ))) = s i := by
        have e4 : nrm (wt s (Pi.single i (1 : ℝ))) ^ 2 = s i ^ 2 := by
          rw [sq_wt, Finset.sum_eq_single i]
          · simp
          · intro k _ hk
            simp [Pi.single_eq_of_ne hk]
          · simp
        have := C.spos i
        rwa [pow_left_inj₀ (nrm_nonneg _) this.le (by norm_num)] at e4
      rw [e1, e3] at t
      have hs := C.spos i
      have u1 : nrm (wt s x) ≤ H / μ := by
        rw [le_div_iff₀ hμ]
        have := mul_le_mul_of_nonneg_right C.root.1 (nrm_nonneg (wt s x))
        linarith
      have u2 : 7 * (κ * m) * (s i * nrm (wt s x)) ≤ 7 * (κ * m) * (s i * (H / μ)) :=
        mul_le_mul_of_nonneg_left (mul_le_mul_of_nonneg_left u1 hs.le) (by positivity)
      have u3 : 7 * (κ * m) * (s i * (H / μ)) = 7 * (κ * m / μ) * (H * s i) := by ring
      have u4 : 0 ≤ H * s i := mul_nonneg hH0 hs.le
      have u5 := mul_le_mul_of_nonneg_right r1 u4
      have u6 := mul_le_mul_of_nonneg_right e2 hH0
      linarith
    have e : ∑ i, |b i * z i| = ∑ i, |z i * b i| := Finset.sum_congr rfl fun i _ => by rw [mul_comm]
    rw [e]
    have u2 : nrm (wt s z) ≤ 6 * (H + a) / μ := by
      rw [le_div_iff₀ hμ]
      have := C.wt_le' z
      linarith
    have u3 : Real.sqrt m * nrm (wt s z) ≤ m * (6 * (H + a) / μ) := mul_le_mul (root_le m) u2 (nrm_nonneg _) (Nat.cast_nonneg m)
    rcases C.weighted z hb with h | rfl
    · refine h.trans ((mul_le_mul_of_nonneg_left u3 (by positivity)).trans (le_of_eq ?_))
      ring
    · simp

end Close

end Verif.CholReal
