import Verif.Model.IeeeNoise
import Verif.Props.IeeePta

/-!
# The likelihood, from the noise parameters on

C153: variances with small relative errors, as those of EFAC, EQUAD, power laws and timing-model priors, and the computed likelihood.
-/

namespace Verif.Ieee

open Verif Matrix

variable (A : Arith) (L : Lib) (P : Powers) {N K : Nat} {μ δ : ℝ} {o : GpPsr}

/-! ## Specification -/

/-- The numbers of the pulsar `o`, with relative errors of the variances up to `δ`. -/
def NearPsr (δ : ℝ) (p : PsrF) (o : GpPsr) : Prop :=
  ∃ ν' φ', (∀ k, |ν' k - o.ν k| ≤ δ * o.ν k) ∧ (∀ i, |φ' i - o.φ i| ≤ δ * o.φ i) ∧ p = (o.with ν' φ').fl

/-- Like `UsualPsr`, with a little less room. -/
structure InnerPsr (N K : Nat) (μ : ℝ) (o : GpPsr) : Prop where
  le : o.n ≤ N
  toas : o.M ≤ K
  νlow : ∀ k, (2 : ℝ) ^ (-199 : ℤ) ≤ o.ν k
  νhigh : ∀ k, o.ν k ≤ (2 : ℝ) ^ (199 : ℤ)
  φlow : ∀ i, (2 : ℝ) ^ (-298 : ℤ) ≤ o.φ i
  φhigh : ∀ i, o.φ i ≤ (2 : ℝ) ^ (799 : ℤ)
  T : ∀ k i, |o.T k i| ≤ (2 : ℝ) ^ (200 : ℤ)
  r : ∀ k, |o.r k| ≤ (2 : ℝ) ^ (200 : ℤ)
  low : ∀ i, (2 : ℝ) ^ (-298 : ℤ) ≤ o.prec i i
  high : ∀ i, o.prec i i ≤ (2 : ℝ) ^ (298 : ℤ)
  ρ : o.ρ ≤ (2 : ℝ) ^ (189 : ℤ)
  margin : (o.prec - μ • diagonal o.prec.diag).PosSemidef

/-! ## Changed variances -/

theorem two_step (a : ℤ) : (2 : ℝ) ^ (a + 1) = 2 * (2 : ℝ) ^ a := by
  rw [zpow_add₀ (by norm_num), zpow_one, mul_comm]

theorem near_pos {x x' : ℝ} (h : 0 < x) (hδ : δ ≤ 1 / 1048576) (h1 : |x' - x| ≤ δ * x) : 0 < x' ∧ 1 / 2 * x ≤ x' ∧ x' ≤ 2 * x := by
  have h2 := abs_le.1 h1
  have h3 := mul_le_mul_of_nonneg_right hδ h.le
  exact ⟨by linarith, by linarith, by linarith⟩

theorem near_inv {x x' : ℝ} (h : 0 < x) (hδ0 : 0 ≤ δ) (hδ : δ ≤ 1 / 1048576) (h1 : |x' - x| ≤ δ * x) : |x'⁻¹ - x⁻¹| ≤ 2 * δ * x⁻¹ := by
  obtain ⟨h2, h3, -⟩ := near_pos h hδ h1
  have e : x'⁻¹ - x⁻¹ = -((x' - x) * (x'⁻¹ * x⁻¹)) := by
    field_simp
    ring
  have hi : 0 < x⁻¹ := by positivity
  have hi' : 0 < x'⁻¹ := by positivity
  have h4 : x'⁻¹ ≤ 2 * x⁻¹ := by
    rw [inv_le_comm₀ h2 (by positivity), mul_inv, inv_inv]
    linarith
  rw [e, abs_neg, abs_mul, abs_of_pos (mul_pos hi' hi)]
  refine (mul_le_mul_of_nonneg_right h1 (by positivity)).trans ?_
  have e2 : δ * x * (x'⁻¹ * x⁻¹) = δ * x'⁻¹ := by
    field_simp
  rw [e2]
  have := mul_le_mul_of_nonneg_left h4 hδ0
  linarith

theorem near_log {x x' : ℝ} (h : 0 < x) (hδ0 : 0 ≤ δ) (hδ : δ ≤ 1 / 1048576) (h1 : |x' - x| ≤ δ * x) : |Real.log x'| ≤ |Real.log x| + 2 * δ := by
  obtain ⟨h2, -, -⟩ := near_pos h hδ h1
  have a1 := near_inv h hδ0 hδ h1
  have l1 := Real.log_le_sub_one_of_pos (div_pos h2 h)
  have l2 := Real.log_le_sub_one_of_pos (div_pos h h2)
  rw [Real.log_div h2.ne' h.ne'] at l1
  rw [Real.log_div h.ne' h2.ne'] at l2
  have b1 : x' / x - 1 ≤ 2 * δ := by
    rw [sub_le_iff_le_add, div_le_iff₀ h]
    have := (abs_le.1 h1).2
    nlinarith
  have b2 : x / x' - 1 ≤ 2 * δ := by
    have e : x / x' - 1 = (x'⁻¹ - x⁻¹) * x := by
      field_simp
    rw [e]
    have := mul_le_mul_of_nonneg_right (abs_le.1 a1).2 h.le
    rwa [mul_assoc (2 * δ), inv_mul_cancel₀ h.ne', mul_one] at this
  have : |Real.log x' - Real.log x| ≤ 2 * δ := abs_le.2 ⟨by linarith, by linarith⟩
  have h5 : |Real.log x'| ≤ |Real.log x' - Real.log x| + |Real.log x| := by simpa using abs_add_le (Real.log x' - Real.log x) (Real.log x)
  linarith

namespace InnerPsr

theorem νpos (I : InnerPsr N K μ o) (k : Fin o.M) : 0 < o.ν k := lt_of_lt_of_le (by positivity) (I.νlow k)

theorem φpos (I : InnerPsr N K μ o) (i : Fin o.n) : 0 < o.φ i := lt_of_lt_of_le (by positivity) (I.φlow i)

end InnerPsr

theorem prec_apply (i j : Fin o.n) : o.prec i j = (∑ k, o.T k i * o.T k j / o.ν k) + if i = j then (o.φ i)⁻¹ else 0 := Obs.Z_apply (o.obs 0) i j

/-- The entries of the inverse covariance of the coefficients. -/
theorem prec_near (hν : ∀ k, 0 < o.ν k) (hφ : ∀ i, 0 < o.φ i) (hδ0 : 0 ≤ δ) (hδ : δ ≤ 1 / 1048576) {ν' : Fin o.M → ℝ} {φ' : Fin o.n → ℝ} (dν : ∀ k, |ν' k - o.ν k| ≤ δ * o.ν k)
    (dφ : ∀ i, |φ' i - o.φ i| ≤ δ * o.φ i) (i j : Fin o.n) :
    |(o.with ν' φ').prec i j - o.prec i j| ≤ 2 * δ * (Real.sqrt (o.prec i i) * Real.sqrt (o.prec j j)) := by
  have e1 : (o.with ν' φ').prec i j = (∑ k, o.T k i * o.T k j / ν' k) + if i = j then (φ' i)⁻¹ else 0 := prec_apply (o := o.with ν' φ') i j
  have hc := Obs.cauchy hν (fun k => o.T k i) fun k => o.T k j
  have hs : |∑ k, o.T k i * o.T k j / ν' k - ∑ k, o.T k i * o.T k j / o.ν k| ≤ 2 * δ * ∑ k, |o.T k i * o.T k j / o.ν k| := by
    rw [← Finset.sum_sub_distrib, Finset.mul_sum]
    refine (Finset.abs_sum_le_sum_abs _ _).trans (Finset.sum_le_sum fun k _ => ?_)
    have := near_inv (hν k) hδ0 hδ (dν k)
    obtain ⟨t, ht⟩ : ∃ t : ℝ, t = o.T k i * o.T k j := ⟨_, rfl⟩
    have e3 : |t / ν' k - t / o.ν k| ≤ 2 * δ * |t / o.ν k| := by
      rw [div_eq_mul_inv, div_eq_mul_inv, ← mul_sub, abs_mul, abs_mul, abs_of_pos (inv_pos.2 (hν k))]
      have := mul_le_mul_of_nonneg_left this (abs_nonneg t)
      linarith
    rw [ht] at e3
    exact e3
  have hq : ∀ i, 0 ≤ ∑ k, o.T k i * o.T k i / o.ν k := fun i => Finset.sum_nonneg fun k _ => div_nonneg (mul_self_nonneg _) (hν k).le
  have hle : ∀ i, ∑ k, o.T k i * o.T k i / o.ν k ≤ o.prec i i := fun i => by
    rw [prec_apply, if_pos rfl]
    linarith [inv_pos.2 (hφ i)]
  by_cases hij : i = j
  · subst hij
    rw [e1, prec_apply, if_pos rfl, if_pos rfl, add_sub_add_comm]
    have h2 := near_inv (hφ i) hδ0 hδ (dφ i)
    have h3 : 0 ≤ (∑ k, o.T k i * o.T k i / o.ν k) + (o.φ i)⁻¹ := add_nonneg (hq i) (inv_pos.2 (hφ i)).le
    rw [Real.mul_self_sqrt h3]
    rw [Real.mul_self_sqrt (hq i)] at hc
    have h4 := mul_le_mul_of_nonneg_left hc (by linarith : 0 ≤ 2 * δ)
    refine (abs_add_le _ _).trans ?_
    linarith
  · rw [e1, prec_apply, if_neg hij, if_neg hij, add_zero, add_zero]
    refine hs.trans (mul_le_mul_of_nonneg_left (hc.trans ?_) (by linarith))
    exact mul_le_mul (Real.sqrt_le_sqrt (hle i)) (Real.sqrt_le_sqrt (hle j)) (Real.sqrt_nonneg _) (Real.sqrt_nonneg _)

theorem size_near (hν : ∀ k, 0 < o.ν k) (hφ : ∀ i, 0 < o.φ i) (hδ0 : 0 ≤ δ) (hδ : δ ≤ 1 / 1048576) {ν' : Fin o.M → ℝ} {φ' : Fin o.n → ℝ} (dν : ∀ k, |ν' k - o.ν k| ≤ δ * o.ν k)
    (dφ : ∀ i, |φ' i - o.φ i| ≤ δ * o.φ i) : (o.with ν' φ').ρ ≤ (1 + 2 * δ) * o.ρ ∧ (o.with ν' φ').size ≤ (1 + 2 * δ) * o.size := by
  have h1 : (o.with ν' φ').ρ ≤ (1 + 2 * δ) * o.ρ := by
    show ∑ k, o.r k ^ 2 / ν' k ≤ (1 + 2 * δ) * ∑ k, o.r k ^ 2 / o.ν k
    rw [Finset.mul_sum]
    refine Finset.sum_le_sum fun k _ => ?_
    have := (abs_le.1 (near_inv (hν k) hδ0 hδ (dν k))).2
    rw [div_eq_mul_inv, div_eq_mul_inv]
    have := mul_le_mul_of_nonneg_left this (sq_nonneg (o.r k))
    linarith
  refine ⟨h1, ?_⟩
  have h2 : ∑ k, (1 + |Real.log (ν' k)|) ≤ (1 + 2 * δ) * ∑ k, (1 + |Real.log (o.ν k)|) := by
    rw [Finset.mul_sum]
    refine Finset.sum_le_sum fun k _ => ?_
    have := near_log (hν k) hδ0 hδ (dν k)
    have := mul_nonneg hδ0 (abs_nonneg (Real.log (o.ν k)))
    linarith
  have h3 : ∑ i, (376 + |Real.log (φ' i)|) ≤ (1 + 2 * δ) * ∑ i, (376 + |Real.log (o.φ i)|) := by
    rw [Finset.mul_sum]
    refine Finset.sum_le_sum fun k _ => ?_
    have := near_log (hφ k) hδ0 hδ (dφ k)
    have := mul_nonneg hδ0 (abs_nonneg (Real.log (o.φ k)))
    linarith
  show (o.with ν' φ').ρ + 2 + (∑ k, (1 + |Real.log (ν' k)|)) + ∑ i, (376 + |Real.log (φ' i)|) ≤ (1 + 2 * δ) * (o.ρ + 2 + (∑ k, (1 + |Real.log (o.ν k)|)) + ∑ i, (376 + |Real.log (o.φ i)|))
  linarith

theorem usual_near (I : InnerPsr N K μ o) (hμ : 0 < μ) (hδ0 : 0 ≤ δ) (hδ : δ ≤ 1 / 1048576) (hδN : 200 * (δ * N) ≤ μ) {ν' : Fin o.M → ℝ} {φ' : Fin o.n → ℝ}
    (dν : ∀ k, |ν' k - o.ν k| ≤ δ * o.ν k) (dφ : ∀ i, |φ' i - o.φ i| ≤ δ * o.φ i) : UsualPsr N K (μ / 2) (o.with ν' φ') := by
  have hent := prec_near I.νpos I.φpos hδ0 hδ dν dφ
  have Zp : ∀ i, 0 < o.prec i i := fun i => lt_of_lt_of_le (by positivity) (I.low i)
  obtain ⟨X, hX⟩ : ∃ X : Matrix (Fin o.n) (Fin o.n) ℝ, X = (o.with ν' φ').prec := ⟨_, rfl⟩
  have hent' : ∀ i j, |X i j - o.prec i j| ≤ 2 * δ * (Real.sqrt (o.prec i i) * Real.sqrt (o.prec j j)) := fun i j => by
    rw [hX]
    exact hent i j
  have sX : ∀ i j, X i j = X j i := by
    intro i j
    rw [hX]
    refine (prec_apply (o := o.with ν' φ') i j).trans (Eq.trans ?_ (prec_apply (o := o.with ν' φ') j i).symm)
    congr 1
    · exact Finset.sum_congr rfl fun k _ => by ring
    · show (if i = j then (φ' i)⁻¹ else 0) = if j = i then (φ' j)⁻¹ else 0
      by_cases h : i = j
      · subst h
        rfl
      · rw [if_neg h, if_neg (Ne.symm h)]
  have nN : (o.n : ℝ) ≤ N := by exact_mod_cast I.le
  have mX := (margin_near I.margin Zp hμ sX (by linarith : 0 ≤ 2 * δ) (by
    have := mul_le_mul_of_nonneg_left nN hδ0
    linarith) (by linarith) hent').2
  have eii : ∀ i, |X i i - o.prec i i| ≤ 1 / 2 * o.prec i i := by
    intro i
    have := hent' i i
    rw [Real.mul_self_sqrt (Zp i).le] at this
    exact this.trans (mul_le_mul_of_nonneg_right (by linarith) (Zp i).le)
  refine ⟨I.le, I.toas, fun k => ?_, fun k => ?_, fun i => ?_, fun i => ?_, I.T, I.r, fun i => ?_, fun i => ?_, ?_, hX ▸ mX⟩
  · have h1 := I.νlow k
    have h2 := (near_pos (I.νpos k) hδ (dν k)).2.1
    have e := two_step (-200)
    norm_num only at e
    show _ ≤ ν' k
    rw [show (-199 : ℤ) = -200 + 1 by norm_num, two_step] at h1
    clear e
    generalize (2 : ℝ) ^ (-200 : ℤ) = Q at *
    linarith
  · have h1 := I.νhigh k
    have h2 := (near_pos (I.νpos k) hδ (dν k)).2.2
    show ν' k ≤ _
    rw [show (200 : ℤ) = 199 + 1 by norm_num, two_step]
    generalize (2 : ℝ) ^ (199 : ℤ) = Q at *
    linarith
  · have h1 := I.φlow i
    have h2 := (near_pos (I.φpos i) hδ (dφ i)).2.1
    show _ ≤ φ' i
    rw [show (-298 : ℤ) = -299 + 1 by norm_num, two_step] at h1
    generalize (2 : ℝ) ^ (-299 : ℤ) = Q at *
    linarith
  · have h1 := I.φhigh i
    have h2 := (near_pos (I.φpos i) hδ (dφ i)).2.2
    show φ' i ≤ _
    rw [show (800 : ℤ) = 799 + 1 by norm_num, two_step]
    generalize (2 : ℝ) ^ (799 : ℤ) = Q at *
    linarith
  · rw [← hX]
    have h1 := I.low i
    have h2 := (abs_le.1 (eii i)).1
    rw [show (-298 : ℤ) = -299 + 1 by norm_num, two_step] at h1
    generalize (2 : ℝ) ^ (-299 : ℤ) = Q at *
    linarith
  · rw [← hX]
    have h1 := I.high i
    have h2 := (abs_le.1 (eii i)).2
    rw [show (299 : ℤ) = 298 + 1 by norm_num, two_step]
    have : 0 < (2 : ℝ) ^ (298 : ℤ) := by positivity
    generalize (2 : ℝ) ^ (298 : ℤ) = Q at *
    linarith
  · have h1 := (size_near I.νpos I.φpos hδ0 hδ dν dφ).1
    have h2 := I.ρ
    have h3 : 0 ≤ o.ρ := Finset.sum_nonneg fun k _ => div_nonneg (sq_nonneg _) (I.νpos k).le
    refine h1.trans ?_
    rw [show (190 : ℤ) = 189 + 1 by norm_num, two_step]
    exact mul_le_mul (by linarith) h2 h3 (by norm_num)

/-- The pulsars with changed variances. -/
theorem near_all (hμ : 0 < μ) (hδ0 : 0 ≤ δ) (hδ : δ ≤ 1 / 1048576) (hδN : 200 * (δ * N) ≤ μ) {ps : List PsrF} {os : List GpPsr} (h : List.Forall₂ (fun p o => NearPsr δ p o ∧ InnerPsr N K μ o) ps os) :
    ∃ os' : List GpPsr, ps = os'.map GpPsr.fl ∧ (∀ o ∈ os', UsualPsr N K (μ / 2) o) ∧ |(os'.map GpPsr.like).sum - (os.map GpPsr.like).sum| ≤ δ * (os.map GpPsr.size).sum ∧
      (os'.map GpPsr.size).sum ≤ (1 + 2 * δ) * (os.map GpPsr.size).sum ∧ os'.length = os.length := by
  induction h with
  | nil => exact ⟨[], rfl, by simp, by simp, by simp, rfl⟩
  | @cons p o ps os h1 h2 ih =>
    obtain ⟨os', rfl, i2, i3, i4, i5⟩ := ih
    obtain ⟨⟨ν', φ', dν, dφ, rfl⟩, I⟩ := h1
    refine ⟨o.with ν' φ' :: os', rfl, ?_, ?_, ?_, by simp [i5]⟩
    · intro x hx
      rcases List.mem_cons.1 hx with rfl | hx
      · exact usual_near I hμ hδ0 hδ hδN dν dφ
      · exact i2 x hx
    · rw [List.map_cons, List.map_cons, List.map_cons, List.sum_cons, List.sum_cons, List.sum_cons, add_sub_add_comm, mul_add]
      refine (abs_add_le _ _).trans (add_le_add ?_ i3)
      refine (GpPsr.like_near I.νpos I.φpos hδ0 (by linarith) dν dφ).trans (mul_le_mul_of_nonneg_left ?_ hδ0)
      have e2 : (o.M : ℝ) ≤ ∑ k, (1 + |Real.log (o.ν k)|) := by
        have : ∑ _i : Fin o.M, (1 : ℝ) ≤ ∑ i, (1 + |Real.log (o.ν i)|) := Finset.sum_le_sum fun i _ => by linarith [abs_nonneg (Real.log (o.ν i))]
        rwa [Finset.sum_const, Finset.card_univ, Fintype.card_fin, nsmul_eq_mul, mul_one] at this
      have h4 : 0 ≤ ∑ i, (376 + |Real.log (o.φ i)|) := Finset.sum_nonneg fun i _ => by positivity
      unfold GpPsr.size
      linarith
    · rw [List.map_cons, List.map_cons, List.sum_cons, List.sum_cons, mul_add]
      exact add_le_add (size_near I.νpos I.φpos hδ0 hδ dν dφ).2 i4

theorem size_nonneg {ps : List PsrF} {os : List GpPsr} (h : List.Forall₂ (fun p o => NearPsr δ p o ∧ InnerPsr N K μ o) ps os) : 0 ≤ (os.map GpPsr.size).sum := by
  induction h with
  | nil => simp
  | @cons p o ps os h1 h2 ih =>
    rw [List.map_cons, List.sum_cons]
    refine add_nonneg ?_ ih
    have h3 : 0 ≤ o.ρ := Finset.sum_nonneg fun k _ => div_nonneg (sq_nonneg _) (h1.2.νpos k).le
    have h4 : 0 ≤ ∑ i, (376 + |Real.log (o.φ i)|) := Finset.sum_nonneg fun i _ => by positivity
    have h5 : 0 ≤ ∑ k, (1 + |Real.log (o.ν k)|) := Finset.sum_nonneg fun i _ => by positivity
    unfold GpPsr.size
    linarith

/-- C153: variances with relative errors up to `δ`, and the computed likelihood. -/
theorem C153_variances (hL : GoodLog L) (hN0 : 1 ≤ N) (hN : N ≤ 2 ^ 30) (hK : K ≤ 2 ^ 22) (hμ1 : μ ≤ 1) (hκ : 400 * ((K + 3) * (2 : ℝ) ^ (-51 : ℤ) * N) ≤ μ)
    (hμ : 2 ^ 20 * N ^ 2 * (2 : ℝ) ^ (-51 : ℤ) ≤ μ) (hδ0 : 0 ≤ δ) (hδ : δ ≤ 1 / 1048576) (hδN : 200 * (δ * N) ≤ μ) {ps : List PsrF} {os : List GpPsr}
    (hs : List.Forall₂ (fun p o => NearPsr δ p o ∧ InnerPsr N K μ o) ps os) (h0 : os ≠ []) (hP : os.length ≤ 2 ^ 15) {r : Except PyErr Fl} (h : IsLikelihood A L ps r) :
    ∃ v, r = .ok (.fin v) ∧ |v - (os.map GpPsr.like).sum| ≤
      (((21100 * N ^ 2 + 27 * (K + 3) * N) / μ + 4 * os.length) * (2 : ℝ) ^ (-51 : ℤ) + δ) * (os.map GpPsr.size).sum + (2 : ℝ) ^ (-999 : ℤ) := by
  have N1 : (1 : ℝ) ≤ N := by exact_mod_cast hN0
  have K0 : (0 : ℝ) ≤ K := Nat.cast_nonneg K
  have μ0 : 0 < μ := lt_of_lt_of_le (by positivity) hκ
  have hS := size_nonneg hs
  have hκ2 : 200 * ((K + 3) * (2 : ℝ) ^ (-51 : ℤ) * N) ≤ μ / 2 := by
    clear hμ
    generalize (2 : ℝ) ^ (-51 : ℤ) = ε at *
    linarith
  have hμ2 : 2 ^ 19 * (N : ℝ) ^ 2 * (2 : ℝ) ^ (-51 : ℤ) ≤ μ / 2 := by
    clear hκ hκ2
    generalize (2 : ℝ) ^ (-51 : ℤ) = ε at *
    linarith
  obtain ⟨os', rfl, u1, u2, u3, u4⟩ := near_all μ0 hδ0 hδ hδN hs
  obtain ⟨v, e, hv⟩ := C152_likelihood A L hL hN0 hN hK (μ := μ / 2) (by linarith) hκ2 hμ2 u1 (by
    rintro rfl
    exact h0 (List.eq_nil_of_length_eq_zero u4.symm)) (by rw [u4]; exact hP) h
  refine ⟨v, e, ?_⟩
  rw [u4] at hv
  have e1 : (10500 * (N : ℝ) ^ 2 + 13 * (K + 3) * N) / (μ / 2) = 21000 * (N ^ 2 / μ) + 26 * ((K + 3) * N / μ) := by
    rw [div_div_eq_mul_div]
    ring
  have e2 : (21100 * (N : ℝ) ^ 2 + 27 * (K + 3) * N) / μ = 21100 * (N ^ 2 / μ) + 27 * ((K + 3) * N / μ) := by ring
  rw [e1] at hv
  rw [e2]
  have a0 : 0 ≤ (N : ℝ) ^ 2 / μ := by positivity
  have b0 : 0 ≤ ((K : ℝ) + 3) * N / μ := by positivity
  have p0 : (0 : ℝ) ≤ os.length := Nat.cast_nonneg _
  have he : (0 : ℝ) < (2 : ℝ) ^ (-51 : ℤ) := by positivity
  obtain ⟨a, ha⟩ : ∃ a, a = (N : ℝ) ^ 2 / μ := ⟨_, rfl⟩
  obtain ⟨b, hb⟩ : ∃ b, b = ((K : ℝ) + 3) * N / μ := ⟨_, rfl⟩
  obtain ⟨S, hSe⟩ : ∃ S, S = (os.map GpPsr.size).sum := ⟨_, rfl⟩
  obtain ⟨S', hSe'⟩ : ∃ S', S' = (os'.map GpPsr.size).sum := ⟨_, rfl⟩
  obtain ⟨Y, hY⟩ : ∃ Y, Y = (os.map GpPsr.like).sum := ⟨_, rfl⟩
  obtain ⟨Y', hY'⟩ : ∃ Y', Y' = (os'.map GpPsr.like).sum := ⟨_, rfl⟩
  rw [← ha] at hv a0 ⊢
  rw [← hb] at hv b0 ⊢
  rw [← hSe] at hS u2 u3 ⊢
  rw [← hSe'] at hv u3
  rw [← hY] at u2 ⊢
  rw [← hY'] at hv u2
  have h5 : |v - Y| ≤ |v - Y'| + |Y' - Y| := by
    have := abs_add_le (v - Y') (Y' - Y)
    rwa [sub_add_sub_cancel] at this
  have h6 : S' ≤ 1001 / 1000 * S := by
    have := mul_le_mul_of_nonneg_right (by linarith : 1 + 2 * δ ≤ 1001 / 1000) hS
    linarith
  clear e1 e2 hκ hμ
  generalize (2 : ℝ) ^ (-51 : ℤ) = ε at *
  generalize (2 : ℝ) ^ (-999 : ℤ) = V at *
  have h7 := mul_le_mul_of_nonneg_left h6 (by positivity : 0 ≤ (21000 * a + 26 * b + 3 * os.length) * ε)
  have h8 := mul_nonneg (mul_nonneg a0 he.le) hS
  have h9 := mul_nonneg (mul_nonneg b0 he.le) hS
  have h10 := mul_nonneg (mul_nonneg p0 he.le) hS
  linarith

/-! ## The usual noise model -/

/-- A pulsar with its noise parameters: errors of the TOAs, EFAC and EQUAD (of the group of each TOA), time span, amplitude and slope of a power law with `n` frequencies, and a timing model with `p` columns. -/
structure NoisePsr where
  n : Nat
  p : Nat
  M : Nat
  T : Matrix (Fin M) (Fin (2 * n + p)) ℝ
  r : Fin M → ℝ
  s : Fin M → ℝ
  efac : Fin M → ℝ
  equad : Fin M → ℝ
  span : ℝ
  a : ℝ
  g : ℝ

namespace NoisePsr

variable (w : NoisePsr)

/-- The pulsar with the exact variances: `efac² (s² + 10^(2 equad))`, the power law, and `10^40`. -/
noncomputable def exact : GpPsr where
  n := 2 * w.n + w.p
  M := w.M
  T := w.T
  ν k := w.efac k ^ 2 * (w.s k ^ 2 + (10 : ℝ) ^ (2 * w.equad k))
  r := w.r
  φ i := if (i : Nat) < 2 * w.n then law w.span w.a w.g ((i : Nat) / 2) else 10 ^ 40

/-- The computed numbers. -/
noncomputable def code : Except PyErr PsrF :=
  noiseF A P w.n w.p (fun i => if h : i < 2 * w.n + w.p then List.ofFn fun k => .fin (w.T k ⟨i, h⟩) else []) (List.ofFn fun k => (.fin (w.s k), .fin (w.efac k), .fin (w.equad k)))
    (List.ofFn fun k => .fin (w.r k)) (.fin w.span) (.fin w.a) (.fin w.g)

/-- Parameters as in the usual priors, and more. -/
structure Ranges : Prop where
  s : ∀ k, 0 < w.s k ∧ |Real.log (w.s k)| ≤ 100
  efac : ∀ k, 0 < w.efac k ∧ |Real.log (w.efac k)| ≤ 100
  equad : ∀ k, Rep (w.equad k) ∧ |w.equad k| ≤ 30
  span : 1 ≤ w.span ∧ w.span ≤ 2 ^ 50
  law : Usual w.a w.g

end NoisePsr

theorem tm_off : ∃ z, tmPriorF A = .fin z ∧ Off 2 133 z (10 ^ 40) := by
  have h1 : |Real.log ((10 : ℝ) ^ 40)| ≤ (133 : ℕ) := log_nat (by norm_num) (by norm_num)
  push_cast at h1
  obtain ⟨z, hz, oz⟩ := (Off.exact (by norm_num) h1).round A (by norm_num) (by norm_num)
  obtain ⟨y, hy, oy⟩ := oz.round A (by norm_num) (by norm_num)
  refine ⟨y, ?_, oy.mono (by norm_num) le_rfl⟩
  simp only [tmPriorF, hz, mul, one_mul, hy]

theorem add_zero_off {r m x X : ℝ} (h : Off r m x X) (hr : r ≤ 2 ^ 45) (hm : m ≤ 650) : ∃ z, add A (.fin 0) (.fin x) = .fin z ∧ Off (r + 1) m z X := by
  obtain ⟨z, hz, oz⟩ := h.round A hr hm
  exact ⟨z, by simp only [add, zero_add, hz], oz⟩

/-- The computed variances of the coefficients. -/
theorem phis_off {w : NoisePsr} (R : w.Ranges) (hn : w.n ≤ 2 ^ 40) :
    ∃ l, powerlawF A P (Bases.rep 2 (harmonicsF A w.n (.fin w.span))) (.fin w.a) (.fin w.g) 2 = .ok l ∧
      ∀ i : Fin (2 * w.n + w.p), ∃ z, (phisF A [l, List.replicate w.p (tmPriorF A)])[(i : Nat)]? = some (.fin z) ∧ Off (8 * w.n + 100) 600 z (w.exact.φ i) := by
  obtain ⟨l, e, hl, h⟩ := powerlaw_off A P hn R.span.1 R.span.2 R.law (c := 2) (by norm_num)
  refine ⟨l, e, fun i => ?_⟩
  have n0 : (0 : ℝ) ≤ w.n := Nat.cast_nonneg _
  have n1 : (w.n : ℝ) ≤ 2 ^ 40 := by exact_mod_cast hn
  rw [phisF, List.getElem?_map]
  simp only [List.flatten_cons, List.flatten_nil, List.append_nil]
  by_cases hi : (i : Nat) < 2 * w.n
  · obtain ⟨z, hz, oz⟩ := h ((i : Nat) / 2) (by omega) ((i : Nat) % 2) (by omega)
    have hj : (((i : Nat) / 2 : ℕ) : ℝ) + 1 ≤ w.n := by exact_mod_cast (by omega : (i : Nat) / 2 + 1 ≤ w.n)
    obtain ⟨y, hy, oy⟩ := add_zero_off A oz (by linarith) (by norm_num)
    rw [show 2 * ((i : Nat) / 2) + (i : Nat) % 2 = i by omega] at hz
    have ex : w.exact.φ i = law w.span w.a w.g ((i : Nat) / 2) := if_pos hi
    refine ⟨y, ?_, ex ▸ oy.mono (by linarith) le_rfl⟩
    rw [List.getElem?_append_left (by omega), hz, Option.map_some, hy]
  · obtain ⟨z, hz, oz⟩ := tm_off A
    obtain ⟨y, hy, oy⟩ := add_zero_off A oz (by norm_num) (by norm_num)
    have ex : w.exact.φ i = 10 ^ 40 := if_neg hi
    refine ⟨y, ?_, ex ▸ oy.mono (by linarith) (by norm_num)⟩
    rw [List.getElem?_append_right (by omega), hl, List.getElem?_replicate, if_pos (by have := i.2; omega), Option.map_some, hz, hy]

/-- The computed variances have small relative errors. -/
theorem noise_near {w : NoisePsr} (R : w.Ranges) (hn : w.n ≤ 2 ^ 40) :
    ∃ p, w.code A P = .ok p ∧ NearPsr ((8 * w.n + 100) * (2 : ℝ) ^ (-50 : ℤ)) p w.exact := by
  have n0 : (0 : ℝ) ≤ w.n := Nat.cast_nonneg _
  have n1 : (w.n : ℝ) ≤ 2 ^ 40 := by exact_mod_cast hn
  obtain ⟨l, e, h⟩ := phis_off A P R hn
  choose φ' hφ oφ using h
  have hw : ∀ k, ∃ z, add A (.fin 0) (ndiagF A P (.fin (w.s k)) (.fin (w.efac k)) (some (.fin (w.equad k)))) = .fin z ∧ Off 11 401 z (w.exact.ν k) := by
    intro k
    obtain ⟨z, hz, oz⟩ := ndiag_off A P (R.s k).1 (R.s k).2 (R.efac k).1 (R.efac k).2 (R.equad k).1 (R.equad k).2
    obtain ⟨y, hy, oy⟩ := add_zero_off A oz (by norm_num) (by norm_num)
    exact ⟨y, by rw [hz, hy], oy.mono (by norm_num) le_rfl⟩
  choose ν' hν oν using hw
  refine ⟨_, ?_, ν', φ', fun k => ((oν k).rel (by linarith) (by linarith)).2, fun i => ((oφ i).rel (by linarith) le_rfl).2, rfl⟩
  have e1 : ndiagsF A P (List.ofFn fun k => (.fin (w.s k), .fin (w.efac k), .fin (w.equad k))) = List.ofFn fun k => .fin (ν' k) := by
    rw [ndiagsF, List.map_ofFn]
    congr 1
    funext k
    exact hν k
  have e2 : (fun i => (phisF A [l, List.replicate w.p (tmPriorF A)]).getD i (.fin 1)) = fun i => if h : i < 2 * w.n + w.p then .fin (φ' ⟨i, h⟩) else .fin 1 := by
    funext i
    by_cases hi : i < 2 * w.n + w.p
    · rw [dif_pos hi, List.getD_eq_getElem?_getD, hφ ⟨i, hi⟩, Option.getD_some]
    · rw [dif_neg hi, List.getD_eq_getElem?_getD, List.getElem?_eq_none, Option.getD_none]
      obtain ⟨l', e', hl', -⟩ := powerlaw_off A P hn R.span.1 R.span.2 R.law (c := 2) (by norm_num)
      rw [e] at e'
      cases e'
      simp only [phisF, List.flatten_cons, List.flatten_nil, List.append_nil, List.length_map, List.length_append, List.length_replicate, hl']
      omega
  rw [NoisePsr.code, noiseF, e]
  show Except.ok _ = _
  rw [e1, e2]
  rfl

theorem NearPsr.mono {δ' : ℝ} {p : PsrF} (h : NearPsr δ p o) (hν : ∀ k, 0 ≤ o.ν k) (hφ : ∀ i, 0 ≤ o.φ i) (hd : δ ≤ δ') : NearPsr δ' p o := by
  obtain ⟨ν', φ', h1, h2, h3⟩ := h
  exact ⟨ν', φ', fun k => (h1 k).trans (mul_le_mul_of_nonneg_right hd (hν k)), fun i => (h2 i).trans (mul_le_mul_of_nonneg_right hd (hφ i)), h3⟩

theorem noise_all (hN : N ≤ 2 ^ 16) {ws : List NoisePsr} (hw : ∀ w ∈ ws, w.Ranges ∧ InnerPsr N K μ w.exact) :
    ∃ ps, ws.mapM (NoisePsr.code A P) = .ok ps ∧
      List.Forall₂ (fun p o => NearPsr ((4 * N + 100) * (2 : ℝ) ^ (-50 : ℤ)) p o ∧ InnerPsr N K μ o) ps (ws.map NoisePsr.exact) := by
  induction ws with
  | nil => exact ⟨[], rfl, .nil⟩
  | cons w ws ih =>
    obtain ⟨ps, h1, h2⟩ := ih fun x hx => hw x (List.mem_cons_of_mem _ hx)
    obtain ⟨R, I⟩ := hw w List.mem_cons_self
    have hn : 2 * w.n + w.p ≤ N := I.le
    obtain ⟨p, h3, h4⟩ := noise_near A P R (by omega)
    refine ⟨p :: ps, ?_, .cons ⟨?_, I⟩ h2⟩
    · rw [List.mapM_cons, h3, h1]
      rfl
    · refine h4.mono (fun k => (I.νpos k).le) (fun i => (I.φpos i).le) (mul_le_mul_of_nonneg_right ?_ (by positivity))
      have : (2 * w.n : ℝ) ≤ N := by exact_mod_cast (by omega : 2 * w.n ≤ N)
      linarith

/-- C153: the computed likelihood, from the noise parameters of the pulsars on. -/
theorem C153_parameters (hL : GoodLog L) (hN0 : 1 ≤ N) (hK : K ≤ 2 ^ 22) (hμ1 : μ ≤ 1) (hκ : 400 * ((K + 3) * (2 : ℝ) ^ (-51 : ℤ) * N) ≤ μ)
    (hμ : 2 ^ 20 * N ^ 2 * (2 : ℝ) ^ (-51 : ℤ) ≤ μ) {ws : List NoisePsr} (hw : ∀ w ∈ ws, w.Ranges ∧ InnerPsr N K μ w.exact) (h0 : ws ≠ []) (hP : ws.length ≤ 2 ^ 15) :
    ∃ ps, ws.mapM (NoisePsr.code A P) = .ok ps ∧ ∀ r, IsLikelihood A L ps r → ∃ v, r = .ok (.fin v) ∧
      |v - (ws.map fun w => w.exact.like).sum| ≤
        ((21400 * N ^ 2 + 27 * (K + 3) * N) / μ + 4 * ws.length) * (2 : ℝ) ^ (-51 : ℤ) * (ws.map fun w => w.exact.size).sum + (2 : ℝ) ^ (-999 : ℤ) := by
  have N1 : (1 : ℝ) ≤ N := by exact_mod_cast hN0
  have μ0 : 0 < μ := lt_of_lt_of_le (by positivity) hκ
  have N2 : (N : ℝ) ≤ 2 ^ 16 := by
    by_contra h
    have h1 : (2 : ℝ) ^ 16 * 2 ^ 16 ≤ N ^ 2 := by nlinarith
    have h2 : (2 : ℝ) ^ 20 * (2 ^ 16 * 2 ^ 16) * (2 : ℝ) ^ (-51 : ℤ) ≤ 1 := by
      refine le_trans ?_ (hμ.trans hμ1)
      exact mul_le_mul_of_nonneg_right (mul_le_mul_of_nonneg_left h1 (by norm_num)) (by positivity)
    norm_num at h2
  have N3 : N ≤ 2 ^ 16 := by exact_mod_cast N2
  have N4 : (N : ℝ) ≤ N ^ 2 := by nlinarith
  obtain ⟨ps, h1, h2⟩ := noise_all A P N3 hw
  refine ⟨ps, h1, fun r h => ?_⟩
  have hδ : ((4 * N + 100) * (2 : ℝ) ^ (-50 : ℤ)) ≤ 1 / 1048576 := by
    refine (mul_le_mul_of_nonneg_right (by linarith : (4 * (N : ℝ) + 100) ≤ 2 ^ 19) (by positivity)).trans ?_
    norm_num
  have e50 : (2 : ℝ) ^ (-50 : ℤ) = 2 * (2 : ℝ) ^ (-51 : ℤ) := two_eps
  have he : (0 : ℝ) < (2 : ℝ) ^ (-51 : ℤ) := by positivity
  have hδN : 200 * (((4 * N + 100) * (2 : ℝ) ^ (-50 : ℤ)) * N) ≤ μ := by
    rw [e50]
    refine le_trans ?_ hμ
    clear hδ hκ hμ e50
    generalize (2 : ℝ) ^ (-51 : ℤ) = ε at *
    have h3 := mul_le_mul_of_nonneg_right N4 he.le
    have h4 : 0 ≤ (N : ℝ) ^ 2 * ε := by positivity
    linarith
  obtain ⟨v, e, hv⟩ := C153_variances A L hL hN0 (N3.trans (by norm_num)) hK hμ1 hκ hμ (by positivity) hδ hδN h2 (by simpa using h0) (by simpa using hP) h
  refine ⟨v, e, ?_⟩
  have hS := size_nonneg h2
  rw [List.map_map] at hv hS
  rw [List.map_map, List.length_map] at hv
  refine hv.trans (add_le_add ?_ le_rfl)
  refine mul_le_mul_of_nonneg_right ?_ hS
  have h5 : (4 * (N : ℝ) + 100) * (2 : ℝ) ^ (-50 : ℤ) ≤ 300 * N ^ 2 / μ * (2 : ℝ) ^ (-51 : ℤ) := by
    have h6 : 8 * (N : ℝ) + 200 ≤ 300 * N ^ 2 / μ := by
      rw [le_div_iff₀ μ0]
      have := mul_le_mul_of_nonneg_left hμ1 (by linarith : 0 ≤ 8 * (N : ℝ) + 200)
      nlinarith
    have := mul_le_mul_of_nonneg_right h6 he.le
    rw [e50]
    linarith
  have e3 : (21400 * (N : ℝ) ^ 2 + 27 * (K + 3) * N) / μ = (21100 * N ^ 2 + 27 * (K + 3) * N) / μ + 300 * N ^ 2 / μ := by ring
  rw [e3, add_right_comm, add_mul _ (300 * (N : ℝ) ^ 2 / μ)]
  exact add_le_add le_rfl h5

/-! ## An example -/

/-- Three TOAs with errors 1, EFAC 1, EQUAD `10^0` and residuals 3, 1 and 2; a power law with one frequency and a timing model with one column. -/
noncomputable def exNoise : NoisePsr := ⟨1, 1, 3, (1 : Matrix (Fin 3) (Fin 3) ℝ), ![3, 1, 2], fun _ => 1, fun _ => 1, fun _ => 0, 1, 0, 3⟩

theorem exNoise_ranges : exNoise.Ranges := by
  refine ⟨fun k => ?_, fun k => ?_, fun k => ?_, ?_, ?_⟩
  · show (0 : ℝ) < 1 ∧ |Real.log 1| ≤ 100
    norm_num
  · show (0 : ℝ) < 1 ∧ |Real.log 1| ≤ 100
    norm_num
  · exact ⟨rep_zero, by show |(0 : ℝ)| ≤ 30; norm_num⟩
  · show (1 : ℝ) ≤ 1 ∧ (1 : ℝ) ≤ 2 ^ 50
    norm_num
  · show |(0 : ℝ)| ≤ 30 ∧ (0 : ℝ) ≤ 3 ∧ (3 : ℝ) ≤ 7
    norm_num

theorem exNoise_ν (k : Fin 3) : exNoise.exact.ν k = 2 := by
  show (1 : ℝ) ^ 2 * (1 ^ 2 + (10 : ℝ) ^ (2 * (0 : ℝ))) = 2
  norm_num

theorem exNoise_law : law 1 0 3 0 = 1 / (12 * Real.pi ^ 2) := by
  unfold law
  norm_num

theorem exNoise_φ (i : Fin 3) : 1 / 192 ≤ exNoise.exact.φ i ∧ exNoise.exact.φ i ≤ 10 ^ 40 := by
  have h : (1 : ℝ) / 192 ≤ law 1 0 3 0 ∧ law 1 0 3 0 ≤ 10 ^ 40 := by
    rw [exNoise_law]
    have h3 := Real.pi_gt_three
    have h4 := Real.pi_lt_four
    constructor
    · exact one_div_le_one_div_of_le (by positivity) (by nlinarith)
    · rw [div_le_iff₀ (by positivity)]
      nlinarith
  show 1 / 192 ≤ (if (i : Nat) < 2 * 1 then law 1 0 3 ((i : Nat) / 2) else (10 : ℝ) ^ 40) ∧ (if (i : Nat) < 2 * 1 then law 1 0 3 ((i : Nat) / 2) else (10 : ℝ) ^ 40) ≤ 10 ^ 40
  fin_cases i
  · simpa using h
  · simpa using h
  · norm_num

theorem ex_one (i j : Fin 3) : ∑ k : Fin 3, (1 : Matrix (Fin 3) (Fin 3) ℝ) k i * (1 : Matrix (Fin 3) (Fin 3) ℝ) k j / 2 = if i = j then 1 / 2 else 0 := by
  rw [← Finset.sum_div]
  simp only [Matrix.one_apply, ite_mul, one_mul, zero_mul, Finset.sum_ite_eq', Finset.mem_univ, if_true]
  split_ifs <;> norm_num

theorem ex_res : ∑ k : Fin 3, (![3, 1, 2] : Fin 3 → ℝ) k ^ 2 / 2 = 7 := by
  rw [Fin.sum_univ_three]
  show (3 : ℝ) ^ 2 / 2 + 1 ^ 2 / 2 + 2 ^ 2 / 2 = 7
  norm_num

theorem exNoise_prec (i j : Fin 3) : exNoise.exact.prec i j = if i = j then 1 / 2 + (exNoise.exact.φ i)⁻¹ else 0 := by
  refine (prec_apply (o := exNoise.exact) i j).trans ?_
  have e : ∑ k, exNoise.exact.T k i * exNoise.exact.T k j / exNoise.exact.ν k = if i = j then 1 / 2 else 0 := by
    show ∑ k : Fin 3, (1 : Matrix (Fin 3) (Fin 3) ℝ) k i * (1 : Matrix (Fin 3) (Fin 3) ℝ) k j / exNoise.exact.ν k = _
    simp only [exNoise_ν]
    exact ex_one i j
  rw [e]
  by_cases h : i = j
  · rw [if_pos h, if_pos h]
    exact congrArg _ (if_pos h)
  · rw [if_neg h, if_neg h]
    exact (zero_add _).trans (if_neg h)

theorem exNoise_inner : InnerPsr 3 3 1 exNoise.exact := by
  have b : ∀ {e : ℤ} {x : ℝ}, 8 ≤ e → x ≤ 256 → x ≤ (2 : ℝ) ^ e := fun h hx =>
    hx.trans ((by norm_num : (256 : ℝ) ≤ (2 : ℝ) ^ (8 : ℤ)).trans (zpow_le_zpow_right₀ (by norm_num) h))
  have c : ∀ {e : ℤ} {x : ℝ}, e ≤ -8 → 1 / 256 ≤ x → (2 : ℝ) ^ e ≤ x := fun h hx =>
    ((zpow_le_zpow_right₀ (by norm_num) h).trans (by norm_num : (2 : ℝ) ^ (-8 : ℤ) ≤ 1 / 256)).trans hx
  have hφ0 : ∀ i : Fin 3, 0 < exNoise.exact.φ i := fun i => lt_of_lt_of_le (by norm_num) (exNoise_φ i).1
  have hp : ∀ i : Fin 3, exNoise.exact.prec i i = 1 / 2 + (exNoise.exact.φ i)⁻¹ := fun i => (exNoise_prec i i).trans (if_pos rfl)
  refine ⟨le_rfl, le_rfl, fun k => c (by norm_num) ?_, fun k => b (by norm_num) ?_, fun i => c (by norm_num) ?_, fun i => ?_, fun k i => b (by norm_num) ?_, fun k => b (by norm_num) ?_,
    fun i => c (by norm_num) ?_, fun i => b (by norm_num) ?_, b (by norm_num) ?_, ?_⟩
  · exact (by norm_num : (1 : ℝ) / 256 ≤ 2).trans_eq (exNoise_ν k).symm
  · exact (exNoise_ν k).trans_le (by norm_num)
  · exact le_trans (by norm_num) (exNoise_φ i).1
  · refine (exNoise_φ i).2.trans ?_
    exact (by norm_num : (10 : ℝ) ^ 40 ≤ (2 : ℝ) ^ (133 : ℤ)).trans (zpow_le_zpow_right₀ (by norm_num) (by norm_num))
  · show |(1 : Matrix (Fin 3) (Fin 3) ℝ) k i| ≤ 256
    have h : ∀ k i : Fin 3, |(1 : Matrix (Fin 3) (Fin 3) ℝ) k i| ≤ 256 := fun k i => by
      rw [Matrix.one_apply]
      split_ifs <;> norm_num
    exact h k i
  · show |(![3, 1, 2] : Fin 3 → ℝ) k| ≤ 256
    change Fin 3 at k
    fin_cases k <;> norm_num
  · refine le_trans ?_ (hp i).ge
    have := inv_pos.2 (hφ0 i)
    linarith
  · refine (hp i).trans_le ?_
    have : (exNoise.exact.φ i)⁻¹ ≤ 192 := by
      have := inv_anti₀ (by norm_num) (exNoise_φ i).1
      linarith
    linarith
  · have e : exNoise.exact.ρ = ∑ k : Fin 3, (![3, 1, 2] : Fin 3 → ℝ) k ^ 2 / 2 := Finset.sum_congr rfl fun k _ => congrArg _ (exNoise_ν k)
    rw [e, ex_res]
    norm_num
  · have e : exNoise.exact.prec - (1 : ℝ) • diagonal exNoise.exact.prec.diag = 0 := by
      ext i j
      rw [one_smul, Matrix.sub_apply, Matrix.zero_apply]
      by_cases h : i = j
      · subst h
        rw [diagonal_apply_eq, diag_apply, sub_self]
      · rw [diagonal_apply_ne _ h, sub_zero]
        exact (exNoise_prec i j).trans (if_neg h)
    rw [e]
    exact PosSemidef.zero

/-- C153 for two such pulsars: the numbers and an outcome exist, and each outcome is within `2^-20` of the Gaussian log-likelihood. -/
example (hL : GoodLog L) : ∃ ps, [exNoise, exNoise].mapM (NoisePsr.code A P) = .ok ps ∧ (∃ r, IsLikelihood A L ps r) ∧ ∀ r, IsLikelihood A L ps r → ∃ v, r = .ok (.fin v) ∧
    |v - (exNoise.exact.like + exNoise.exact.like)| ≤ (2 : ℝ) ^ (-20 : ℤ) := by
  obtain ⟨ps, h1, h2⟩ := C153_parameters A L P hL (N := 3) (K := 3) (μ := 1) (ws := [exNoise, exNoise]) (by norm_num) (by norm_num) le_rfl (by norm_num) (by norm_num) (by
    intro w hw
    rcases List.mem_pair.1 hw with rfl | rfl <;> exact ⟨exNoise_ranges, exNoise_inner⟩) (by simp) (by norm_num)
  refine ⟨ps, h1, exists_likelihood A L ps, fun r h => ?_⟩
  obtain ⟨v, e, hv⟩ := h2 r h
  refine ⟨v, e, ?_⟩
  have hlog : |Real.log 2| ≤ 1 := by
    rw [abs_of_pos (Real.log_pos (by norm_num))]
    linarith [Real.log_two_lt_d9]
  have hφ : ∀ i : Fin 3, |Real.log (exNoise.exact.φ i)| ≤ 133 := by
    intro i
    obtain ⟨a, b⟩ := exNoise_φ i
    have l1 := Real.log_le_log (by norm_num) a
    have l2 := Real.log_le_log (lt_of_lt_of_le (by norm_num) a) b
    have l3 := abs_le.1 (log_nat (j := 133) (by norm_num) (by norm_num) : |Real.log ((10 : ℝ) ^ 40)| ≤ (133 : ℕ))
    have l4 := abs_le.1 (log_nat (j := 8) (by norm_num) (by norm_num) : |Real.log (192 : ℝ)| ≤ (8 : ℕ))
    rw [one_div, Real.log_inv] at l1
    push_cast at l3 l4
    exact abs_le.2 ⟨by linarith, by linarith⟩
  have e2 : exNoise.exact.size ≤ 2000 := by
    show (∑ k : Fin 3, (![3, 1, 2] : Fin 3 → ℝ) k ^ 2 / exNoise.exact.ν k) + 2 + (∑ k : Fin 3, (1 + |Real.log (exNoise.exact.ν k)|)) + ∑ i : Fin 3, (376 + |Real.log (exNoise.exact.φ i)|) ≤ 2000
    have h1 : ∑ k : Fin 3, (![3, 1, 2] : Fin 3 → ℝ) k ^ 2 / exNoise.exact.ν k = 7 := by
      simp only [exNoise_ν]
      exact ex_res
    have h2 : ∑ k : Fin 3, (1 + |Real.log (exNoise.exact.ν k)|) ≤ 6 := by
      simp only [exNoise_ν, Fin.sum_univ_three]
      linarith
    have h3 : ∑ i : Fin 3, (376 + |Real.log (exNoise.exact.φ i)|) ≤ 1527 := by
      rw [Fin.sum_univ_three]
      have := hφ 0
      have := hφ 1
      have := hφ 2
      linarith
    linarith
  simp only [List.map_cons, List.map_nil, List.sum_cons, List.sum_nil, add_zero, List.length_cons, List.length_nil] at hv
  refine hv.trans ?_
  have h3 : (2 : ℝ) ^ (-999 : ℤ) ≤ (2 : ℝ) ^ (-30 : ℤ) := zpow_le_zpow_right₀ (by norm_num) (by norm_num)
  refine (add_le_add (mul_le_mul_of_nonneg_left (add_le_add e2 e2) (by positivity)) h3).trans ?_
  norm_num

end Verif.Ieee
