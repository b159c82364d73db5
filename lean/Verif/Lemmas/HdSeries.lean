import Mathlib.Analysis.SpecialFunctions.Log.Deriv
import Mathlib.Analysis.SpecialFunctions.Log.NegMulLog
import Mathlib.Analysis.PSeries
import Mathlib.Analysis.Normed.Group.FunctionSeries
import Mathlib.Algebra.BigOperators.Field
import Mathlib.Topology.Algebra.InfiniteSum.NatInt
import Verif.Lemmas.Sphere

/-!
# The kernel `1.5 y log y - 0.25 y + 0.5`, `y = (1 - p · q) / 2`, on the sphere
-/

namespace Verif.Sphere

open Finset

/-! ## The series of `(1 - x) log (1 - x) + x` -/

theorem hasSum_inside {x : ℝ} (h : |x| < 1) :
    HasSum (fun k : ℕ => x ^ (k + 2) / ((k + 1) * (k + 2))) ((1 - x) * Real.log (1 - x) + x) := by
  have h1 := Real.hasSum_pow_div_log_of_abs_lt_one h
  have h2 : HasSum (fun n : ℕ => x ^ (n + 2) / ((n : ℝ) + 2)) (-Real.log (1 - x) - x) := by
    have := (hasSum_nat_add_iff' 1).2 h1
    simp only [range_one, sum_singleton, Nat.cast_zero, zero_add, pow_one, div_one] at this
    convert! this using 2 with n
    push_cast
    ring
  have h3 := (h1.mul_left x).sub h2
  convert! h3 using 1
  · funext k
    have e1 : (k : ℝ) + 1 ≠ 0 := by positivity
    have e2 : (k : ℝ) + 2 ≠ 0 := by positivity
    field_simp
    ring
  · ring

theorem summable_base : Summable fun k : ℕ => (1 : ℝ) / ((k + 1) * (k + 2)) := by
  have : Summable fun k : ℕ => (1 : ℝ) / (k + 1 : ℕ) ^ 2 :=
    (summable_nat_add_iff 1).2 (Real.summable_one_div_nat_pow.2 one_lt_two)
  refine Summable.of_nonneg_of_le (fun k => by positivity) (fun k => ?_) this
  push_cast
  apply one_div_le_one_div_of_le (by positivity)
  nlinarith [(Nat.cast_nonneg k : (0 : ℝ) ≤ k)]

theorem term_le {x : ℝ} (h : |x| ≤ 1) (k : ℕ) : ‖x ^ (k + 2) / (((k : ℝ) + 1) * (k + 2))‖ ≤ 1 / ((k + 1) * (k + 2)) := by
  have h0 : (0 : ℝ) < (k + 1) * (k + 2) := by positivity
  rw [norm_div, norm_pow, Real.norm_eq_abs, Real.norm_eq_abs, abs_of_pos h0]
  exact div_le_div_of_nonneg_right (pow_le_one₀ (abs_nonneg x) h) h0.le

/-- The series converges to the function on the closed interval. -/
theorem hasSum_closed {x : ℝ} (h : |x| ≤ 1) :
    HasSum (fun k : ℕ => x ^ (k + 2) / ((k + 1) * (k + 2))) ((1 - x) * Real.log (1 - x) + x) := by
  have hs : Summable (fun k : ℕ => x ^ (k + 2) / (((k : ℝ) + 1) * (k + 2))) :=
    Summable.of_norm_bounded summable_base (term_le h)
  have hc : ContinuousOn (fun x : ℝ => ∑' k : ℕ, x ^ (k + 2) / (((k : ℝ) + 1) * (k + 2))) (Set.Icc (-1) 1) := by
    refine continuousOn_tsum (fun k => by fun_prop) summable_base fun k x hx => ?_
    exact term_le (abs_le.2 hx) k
  have hf : Continuous fun x : ℝ => (1 - x) * Real.log (1 - x) + x :=
    (Real.continuous_mul_log.comp (continuous_const.sub continuous_id)).add continuous_id
  have heq : Set.EqOn (fun x : ℝ => ∑' k : ℕ, x ^ (k + 2) / (((k : ℝ) + 1) * (k + 2)))
      (fun x : ℝ => (1 - x) * Real.log (1 - x) + x) (Set.Icc (-1) 1) := by
    refine Set.EqOn.of_subset_closure (s := Set.Ioo (-1 : ℝ) 1) ?_ hc hf.continuousOn Set.Ioo_subset_Icc_self ?_
    · intro y hy
      exact (hasSum_inside (abs_lt.2 hy)).tsum_eq
    · rw [closure_Ioo (by norm_num)]
  have := heq (abs_le.1 h)
  simp only at this
  rw [← this]
  exact hs.hasSum

/-! ## The sums over even and odd powers -/

/-- `1/((k+1)(k+2))` for even `k`, else zero. -/
noncomputable def ev (k : ℕ) : ℝ := if Even k then 1 / (((k : ℝ) + 1) * (k + 2)) else 0

/-- `1/((k+1)(k+2))` for odd `k`, else zero. -/
noncomputable def od (k : ℕ) : ℝ := if Even k then 0 else 1 / (((k : ℝ) + 1) * (k + 2))

theorem hasSum_one : HasSum (fun k : ℕ => 1 / (((k : ℝ) + 1) * (k + 2))) 1 := by
  simpa using hasSum_closed (x := 1) (by norm_num)

theorem hasSum_alt : HasSum (fun k : ℕ => (-1) ^ k / (((k : ℝ) + 1) * (k + 2))) (2 * Real.log 2 - 1) := by
  have := hasSum_closed (x := -1) (by norm_num)
  convert! this using 1
  · funext k
    rw [pow_add]; norm_num
  · norm_num
    ring

theorem hasSum_ev : HasSum ev (Real.log 2) := by
  have := (hasSum_one.add hasSum_alt).mul_left (1 / 2)
  convert! this using 1
  · funext k
    unfold ev
    rcases Nat.even_or_odd k with h | h
    · rw [if_pos h, h.neg_one_pow]; ring
    · rw [if_neg (Nat.not_even_iff_odd.2 h), h.neg_one_pow]; ring
  · ring

theorem hasSum_od : HasSum od (1 - Real.log 2) := by
  have := (hasSum_one.sub hasSum_alt).mul_left (1 / 2)
  convert! this using 1
  · funext k
    unfold od
    rcases Nat.even_or_odd k with h | h
    · rw [if_pos h, h.neg_one_pow]; ring
    · rw [if_neg (Nat.not_even_iff_odd.2 h), h.neg_one_pow]; ring
  · ring

/-- `1/((k+1)(k+2)(k+3))` over even `k`. -/
noncomputable def lowEven (k : ℕ) : ℝ := if Even k then 1 / (((k : ℝ) + 1) * (k + 2) * (k + 3)) else 0

/-- `3/((k+1)(k+2)(k+4))` over odd `k`. -/
noncomputable def lowOdd (k : ℕ) : ℝ := if Even k then 0 else 3 / (((k : ℝ) + 1) * (k + 2) * (k + 4))

theorem hasSum_lowEven : HasSum lowEven (Real.log 2 - 1 / 2) := by
  have h1 : HasSum (fun k => od (k + 1)) (1 - Real.log 2) := by
    have := (hasSum_nat_add_iff' 1).2 hasSum_od
    simpa [od] using this
  have := (hasSum_ev.sub h1).mul_left (1 / 2)
  convert! this using 1
  · funext k
    unfold lowEven ev od
    by_cases h : Even k
    · have h' : ¬ Even (k + 1) := by rw [Nat.even_add_one]; exact not_not.2 h
      rw [if_pos h, if_pos h, if_neg h']
      push_cast
      have e1 : (k : ℝ) + 1 ≠ 0 := by positivity
      have e2 : (k : ℝ) + 2 ≠ 0 := by positivity
      have e3 : (k : ℝ) + 3 ≠ 0 := by positivity
      rw [show (k : ℝ) + 1 + 1 = k + 2 by ring, show (k : ℝ) + 1 + 2 = k + 3 by ring]
      field_simp
      ring
    · have h' : Even (k + 1) := by rw [Nat.even_add_one]; exact h
      rw [if_neg h, if_neg h, if_pos h']
      ring
  · ring

theorem hasSum_lowOdd : HasSum lowOdd (5 / 6 - Real.log 2) := by
  have h1 : HasSum (fun k => ev (k + 1)) (Real.log 2 - 1 / 2) := by
    have := (hasSum_nat_add_iff' 1).2 hasSum_ev
    simpa [ev] using this
  have h2 : HasSum (fun k => od (k + 2)) (1 - Real.log 2 - 1 / 6) := by
    have := (hasSum_nat_add_iff' 2).2 hasSum_od
    convert! this using 1
    simp [od, sum_range_succ]
    norm_num
  have := ((hasSum_od.sub (h1.mul_left (1 / 2))).sub (h2.mul_left (1 / 2)))
  convert! this using 1
  · funext k
    unfold lowOdd ev od
    by_cases h : Even k
    · have h' : ¬ Even (k + 1) := by rw [Nat.even_add_one]; exact not_not.2 h
      have h'' : Even (k + 2) := by rw [Nat.even_add_one]; exact h'
      rw [if_pos h, if_pos h, if_neg h', if_pos h'']
      ring
    · have h' : Even (k + 1) := by rw [Nat.even_add_one]; exact h
      have h'' : ¬ Even (k + 2) := by rw [Nat.even_add_one]; exact not_not.2 h'
      rw [if_neg h, if_neg h, if_pos h', if_neg h'']
      push_cast
      have e1 : (k : ℝ) + 1 ≠ 0 := by positivity
      have e2 : (k : ℝ) + 2 ≠ 0 := by positivity
      have e3 : (k : ℝ) + 3 ≠ 0 := by positivity
      have e4 : (k : ℝ) + 4 ≠ 0 := by positivity
      rw [show (k : ℝ) + 1 + 1 = k + 2 by ring, show (k : ℝ) + 1 + 2 = k + 3 by ring, show (k : ℝ) + 2 + 1 = k + 3 by ring,
        show (k : ℝ) + 2 + 2 = k + 4 by ring]
      field_simp
      ring
  · ring

/-! ## The kernel -/

/-- The Hellings-Downs curve as a function of the cosine of the angle. -/
noncomputable def hd (x : ℝ) : ℝ := 3 / 2 * ((1 - x) / 2) * Real.log ((1 - x) / 2) - 1 / 4 * ((1 - x) / 2) + 1 / 2

theorem hasSum_hd {x : ℝ} (h : |x| ≤ 1) : HasSum (fun k : ℕ => 3 / 4 * (x ^ (k + 2) / ((k + 1) * (k + 2))))
    (hd x - (3 / 8 - 3 / 4 * Real.log 2) - (-(5 / 8) + 3 / 4 * Real.log 2) * x) := by
  have := (hasSum_closed h).mul_left (3 / 4)
  convert! this using 1
  unfold hd
  by_cases h1 : 1 - x = 0
  · rw [h1]
    have : x = 1 := by linarith
    simp [this]; ring
  · rw [Real.log_div h1 two_ne_zero]
    ring

variable {ι : Type} [Fintype ι]

theorem dot_le {v w : Fin 3 → ℝ} (hv : Unit3 v) (hw : Unit3 w) : |∑ c, v c * w c| ≤ 1 := by
  unfold Unit3 at hv hw
  rw [Fin.sum_univ_three] at *
  rw [abs_le]
  constructor <;> nlinarith [sq_nonneg (v 0 - w 0), sq_nonneg (v 1 - w 1), sq_nonneg (v 2 - w 2), sq_nonneg (v 0 + w 0),
    sq_nonneg (v 1 + w 1), sq_nonneg (v 2 + w 2)]

theorem dot_eq_one {v w : Fin 3 → ℝ} (hv : Unit3 v) (hw : Unit3 w) : ∑ c, v c * w c = 1 ↔ v = w := by
  constructor
  · intro h
    unfold Unit3 at hv hw
    rw [Fin.sum_univ_three] at *
    have : (v 0 - w 0) ^ 2 + (v 1 - w 1) ^ 2 + (v 2 - w 2) ^ 2 = 0 := by nlinarith
    have h0 : (v 0 - w 0) ^ 2 = 0 := by nlinarith [sq_nonneg (v 0 - w 0), sq_nonneg (v 1 - w 1), sq_nonneg (v 2 - w 2)]
    have h1 : (v 1 - w 1) ^ 2 = 0 := by nlinarith [sq_nonneg (v 0 - w 0), sq_nonneg (v 1 - w 1), sq_nonneg (v 2 - w 2)]
    have h2 : (v 2 - w 2) ^ 2 = 0 := by nlinarith [sq_nonneg (v 0 - w 0), sq_nonneg (v 1 - w 1), sq_nonneg (v 2 - w 2)]
    funext c
    fin_cases c
    · exact sub_eq_zero.1 (pow_eq_zero_iff two_ne_zero |>.1 h0)
    · exact sub_eq_zero.1 (pow_eq_zero_iff two_ne_zero |>.1 h1)
    · exact sub_eq_zero.1 (pow_eq_zero_iff two_ne_zero |>.1 h2)
  · rintro rfl; exact hv

/-- **The Hellings-Downs curve is a positive semidefinite kernel on the sphere.** -/
theorem hd_form_nonneg (p : ι → Fin 3 → ℝ) (a : ι → ℝ) (hp : ∀ i, Unit3 (p i)) :
    0 ≤ ∑ i, ∑ j, a i * a j * hd (∑ c, p i c * p j c) := by
  set s0 := (∑ i, a i) ^ 2 with hs0
  set s1 := ∑ d, (∑ i, a i * p i d) ^ 2 with hs1
  have e0 : ∑ i, ∑ j, a i * a j = s0 := by
    rw [hs0, sq, sum_mul_sum]
  have e1 : ∑ i, ∑ j, a i * a j * (∑ c, p i c * p j c) = s1 := by
    have h : ∀ d, (∑ i, a i * p i d) ^ 2 = ∑ i, ∑ j, a i * a j * (p i d * p j d) := by
      intro d
      rw [sq, sum_mul_sum]
      exact sum_congr rfl fun i _ => sum_congr rfl fun j _ => by ring
    rw [hs1]
    simp only [h, Fin.sum_univ_three, mul_add, sum_add_distrib]
  have hsum : HasSum (fun k : ℕ => 3 / 4 * (form p a (k + 2) / (((k : ℝ) + 1) * (k + 2))))
      (∑ i, ∑ j, a i * a j * hd (∑ c, p i c * p j c) - (3 / 8 - 3 / 4 * Real.log 2) * s0 -
        (-(5 / 8) + 3 / 4 * Real.log 2) * s1) := by
    have := hasSum_sum (s := univ) fun i (_ : i ∈ univ) => hasSum_sum (s := univ) fun j (_ : j ∈ univ) =>
      (hasSum_hd (dot_le (hp i) (hp j))).mul_left (a i * a j)
    convert! this using 1
    · funext k
      unfold form
      rw [sum_div, mul_sum]
      refine sum_congr rfl fun i _ => ?_
      rw [sum_div, mul_sum]
      exact sum_congr rfl fun j _ => by ring
    · rw [← e0, ← e1]
      simp only [mul_sum, ← sum_sub_distrib]
      refine sum_congr rfl fun i _ => sum_congr rfl fun j _ => ?_
      simp only [← mul_sum]
      ring
  have hlow := ((hasSum_lowEven.mul_left s0).add (hasSum_lowOdd.mul_left s1)).mul_left (3 / 4)
  have hle := hasSum_le (fun k => ?_) hlow hsum
  · linarith
  · unfold lowEven lowOdd
    have e1 : (0 : ℝ) < (k : ℝ) + 1 := by positivity
    have e2 : (0 : ℝ) < (k : ℝ) + 2 := by positivity
    have e3 : (0 : ℝ) < (k : ℝ) + 3 := by positivity
    have e4 : (0 : ℝ) < (k : ℝ) + 4 := by positivity
    have e12 : (0 : ℝ) < ((k : ℝ) + 1) * (k + 2) := by positivity
    refine mul_le_mul_of_nonneg_left ?_ (by norm_num)
    by_cases h : Even k
    · rw [if_pos h, if_pos h]
      obtain ⟨j, hj⟩ := h
      have := form_even p a hp (j + 1)
      rw [show 2 * (j + 1) = k + 2 by omega] at this
      have hk : (k : ℝ) = 2 * j := by rw [hj]; push_cast; ring
      rw [le_div_iff₀ e12]
      refine le_trans (le_of_eq ?_) this
      rw [← hs0]
      push_cast
      rw [show 2 * ((j : ℝ) + 1) + 1 = k + 3 by rw [hk]; ring]
      field_simp
      ring
    · rw [if_neg h, if_neg h]
      obtain ⟨j, hj⟩ := Nat.not_even_iff_odd.1 h
      have := form_odd p a hp (j + 1)
      rw [show 2 * (j + 1) + 1 = k + 2 by omega] at this
      have hk : (k : ℝ) = 2 * j + 1 := by rw [hj]; push_cast; ring
      rw [le_div_iff₀ e12]
      refine le_trans (le_of_eq ?_) this
      rw [← hs1]
      push_cast
      rw [show 2 * ((j : ℝ) + 1) + 3 = k + 4 by rw [hk]; ring]
      field_simp
      ring

end Verif.Sphere
