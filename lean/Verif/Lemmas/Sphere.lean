import Mathlib.Data.Nat.Choose.Multinomial
import Mathlib.Data.Nat.Choose.Central
import Mathlib.RingTheory.PowerSeries.Derivative
import Mathlib.Algebra.Order.BigOperators.Ring.Finset
import Mathlib.Data.Real.Basic
import Mathlib.Tactic.Linarith
import Mathlib.Tactic.Ring
import Mathlib.Tactic.FieldSimp
import Mathlib.Tactic.LinearCombination
import Mathlib.Tactic.FinCases
import Mathlib.Tactic.Positivity

/-!
# Powers of the scalar product as kernels on the sphere in three dimensions

For unit vectors `p i` and weights `a i`, the quadratic form of the kernel `(p · q)^k` is at least `(Σ a)² / (k + 1)`
for even `k` and at least `3 |Σ a p|² / (k + 2)` for odd `k`.
-/

namespace Verif.Sphere

open Finset Nat

/-! ## Sums of products of central binomial coefficients -/

section Series

open PowerSeries

/-- The generating function of the central binomial coefficients. -/
noncomputable def G : PowerSeries ℝ := PowerSeries.mk fun n => (centralBinom n : ℝ)

theorem G_ode : (1 - 4 * X) * derivative ℝ G = 2 * G := by
  ext n
  have h : ((n : ℝ) + 1) * (centralBinom (n + 1) : ℝ) = 2 * (2 * n + 1) * centralBinom n := by
    exact_mod_cast succ_mul_centralBinom_succ n
  rw [sub_mul, one_mul, map_sub, mul_assoc, show (4 : PowerSeries ℝ) = C 4 from rfl, show (2 : PowerSeries ℝ) = C 2 from rfl,
    coeff_C_mul, coeff_C_mul, coeff_derivative]
  cases n with
  | zero => simp [G] at h ⊢; linarith
  | succ n =>
    rw [coeff_succ_X_mul, coeff_derivative]
    simp only [G, coeff_mk]
    push_cast at h ⊢
    linarith

theorem coeff_cube_step (n : Nat) : ((n : ℝ) + 1) * coeff (n + 1) (G ^ 3) = (4 * n + 6) * coeff n (G ^ 3) := by
  have hode : (1 - 4 * X) * derivative ℝ (G ^ 3) = 6 * G ^ 3 := by
    have : derivative ℝ (G ^ 3) = 3 * G ^ 2 * derivative ℝ G := by
      have := (derivative ℝ).leibniz_pow G 3
      simp only [Nat.add_one_sub_one] at this
      rw [this]
      simp [mul_assoc]
    rw [this]
    linear_combination (3 * G ^ 2) * G_ode
  have := congrArg (coeff n) hode
  rw [sub_mul, one_mul, map_sub, mul_assoc, show (4 : PowerSeries ℝ) = C 4 from rfl, show (6 : PowerSeries ℝ) = C 6 from rfl,
    coeff_C_mul, coeff_C_mul, coeff_derivative] at this
  cases n with
  | zero => simp at this ⊢; linarith
  | succ n =>
    rw [coeff_succ_X_mul, coeff_derivative] at this
    push_cast at this ⊢
    linarith

theorem coeff_cube (n : Nat) : coeff n (G ^ 3) = (2 * n + 1) * (centralBinom n : ℝ) := by
  induction n with
  | zero => simp [G]
  | succ n ih =>
    have h : ((n : ℝ) + 1) * (centralBinom (n + 1) : ℝ) = 2 * (2 * n + 1) * centralBinom n := by
      exact_mod_cast succ_mul_centralBinom_succ n
    have h1 := coeff_cube_step n
    rw [ih] at h1
    have h0 : (n : ℝ) + 1 ≠ 0 := by positivity
    apply mul_left_cancel₀ h0
    rw [h1]
    push_cast
    linear_combination (-(2 * (n : ℝ) + 3)) * h

/-- The generating function with factors `2n + 1`. -/
noncomputable def G1 : PowerSeries ℝ := PowerSeries.mk fun n => (2 * n + 1) * (centralBinom n : ℝ)

theorem coeff_one (n : Nat) : coeff n (G1 * G ^ 2) = (2 * n + 3) / 3 * ((2 * n + 1) * (centralBinom n : ℝ)) := by
  have h1 : G1 = 2 * X * derivative ℝ G + G := by
    ext n
    rw [map_add, mul_assoc, show (2 : PowerSeries ℝ) = C 2 from rfl, coeff_C_mul]
    cases n with
    | zero => simp [G1, G]
    | succ n =>
      rw [coeff_succ_X_mul, coeff_derivative]
      simp only [G1, G, coeff_mk]
      push_cast
      ring
  have h2 : derivative ℝ (G ^ 3) = 3 * G ^ 2 * derivative ℝ G := by
    have := (derivative ℝ).leibniz_pow G 3
    simp only [Nat.add_one_sub_one] at this
    rw [this]
    simp [mul_assoc]
  have h3 : C 3 * (G1 * G ^ 2) = C 2 * (X * derivative ℝ (G ^ 3)) + C 3 * G ^ 3 := by
    rw [h1, h2, show (C 3 : PowerSeries ℝ) = 3 from rfl, show (C 2 : PowerSeries ℝ) = 2 from rfl]
    ring
  have := congrArg (coeff n) h3
  rw [map_add, coeff_C_mul, coeff_C_mul, coeff_C_mul] at this
  have h4 : coeff n (X * derivative ℝ (G ^ 3)) = (n : ℝ) * coeff n (G ^ 3) := by
    cases n with
    | zero => simp
    | succ n => rw [coeff_succ_X_mul, coeff_derivative]; push_cast; ring
  rw [h4, coeff_cube] at this
  linarith

/-- Coefficients of a product of three series, as a sum over the exponents. -/
theorem coeff_three (f : Fin 3 → PowerSeries ℝ) (n : Nat) :
    coeff n (f 0 * f 1 * f 2) = ∑ β ∈ piAntidiag (univ : Finset (Fin 3)) n, ∏ c, coeff (β c) (f c) := by
  rw [← Fin.prod_univ_three, coeff_prod]
  refine sum_bij (fun l _ => (l : Fin 3 → ℕ)) ?_ ?_ ?_ ?_
  · intro l hl
    rw [mem_finsuppAntidiag] at hl
    rw [mem_piAntidiag]
    exact ⟨hl.1, fun i _ => mem_univ i⟩
  · intro l _ l' _ h
    exact DFunLike.coe_injective h
  · intro β hβ
    rw [mem_piAntidiag] at hβ
    refine ⟨Finsupp.equivFunOnFinite.symm β, ?_, rfl⟩
    rw [mem_finsuppAntidiag]
    exact ⟨hβ.1, fun i _ => mem_univ i⟩
  · intro l _
    rfl

theorem central_sum (n : Nat) : ∑ β ∈ piAntidiag (univ : Finset (Fin 3)) n, ∏ c, (centralBinom (β c) : ℝ) =
    (2 * n + 1) * (centralBinom n : ℝ) := by
  rw [← coeff_cube, show G ^ 3 = G * G * G by ring]
  refine Eq.trans ?_ (coeff_three (fun _ => G) n).symm
  simp [G]

theorem central_sum_odd (n : Nat) (d : Fin 3) : ∑ β ∈ piAntidiag (univ : Finset (Fin 3)) n,
    (2 * (β d : ℝ) + 1) * ∏ c, (centralBinom (β c) : ℝ) = (2 * n + 3) / 3 * ((2 * n + 1) * (centralBinom n : ℝ)) := by
  rw [← coeff_one]
  have h := coeff_three (fun c => if c = d then G1 else G) n
  have e : (if (0 : Fin 3) = d then G1 else G) * (if (1 : Fin 3) = d then G1 else G) * (if (2 : Fin 3) = d then G1 else G) =
      G1 * G ^ 2 := by
    fin_cases d <;> simp <;> ring
  rw [e] at h
  rw [h]
  refine sum_congr rfl fun β _ => ?_
  rw [Fin.prod_univ_three, Fin.prod_univ_three]
  fin_cases d <;> simp [G, G1] <;> ring

end Series

/-! ## Quadratic forms -/

variable {ι : Type} [Fintype ι]

/-- The moment of the weighted points with the exponents `α`. -/
noncomputable def mom (p : ι → Fin 3 → ℝ) (a : ι → ℝ) (α : Fin 3 → ℕ) : ℝ := ∑ i, a i * ∏ c, p i c ^ α c

/-- The quadratic form of the kernel `(p · q)^k`. -/
noncomputable def form (p : ι → Fin 3 → ℝ) (a : ι → ℝ) (k : ℕ) : ℝ := ∑ i, ∑ j, a i * a j * (∑ c, p i c * p j c) ^ k

/-- The number of arrangements, as a real number. -/
noncomputable def arr (α : Fin 3 → ℕ) : ℝ := (multinomial univ α : ℝ)

theorem arr_pos (α : Fin 3 → ℕ) : 0 < arr α := by
  unfold arr; exact_mod_cast multinomial_pos _ _

theorem form_eq (p : ι → Fin 3 → ℝ) (a : ι → ℝ) (k : ℕ) :
    form p a k = ∑ α ∈ piAntidiag (univ : Finset (Fin 3)) k, arr α * mom p a α ^ 2 := by
  unfold form
  have h : ∀ i j, a i * a j * (∑ c, p i c * p j c) ^ k = ∑ α ∈ piAntidiag (univ : Finset (Fin 3)) k,
      arr α * ((a i * ∏ c, p i c ^ α c) * (a j * ∏ c, p j c ^ α c)) := by
    intro i j
    rw [sum_pow_eq_sum_piAntidiag, mul_sum]
    refine sum_congr rfl fun α _ => ?_
    simp only [mul_pow, prod_mul_distrib, arr]
    ring
  simp only [h]
  have h2 : ∀ i, ∑ j, ∑ α ∈ piAntidiag (univ : Finset (Fin 3)) k,
      arr α * ((a i * ∏ c, p i c ^ α c) * (a j * ∏ c, p j c ^ α c)) =
      ∑ α ∈ piAntidiag (univ : Finset (Fin 3)) k, arr α * ((a i * ∏ c, p i c ^ α c) * mom p a α) := by
    intro i
    rw [sum_comm]
    refine sum_congr rfl fun α _ => ?_
    rw [← mul_sum, ← mul_sum, mom]
  simp only [h2]
  rw [sum_comm]
  refine sum_congr rfl fun α _ => ?_
  rw [← mul_sum, ← sum_mul, sq]
  rfl

theorem form_nonneg (p : ι → Fin 3 → ℝ) (a : ι → ℝ) (k : ℕ) : 0 ≤ form p a k := by
  rw [form_eq]
  exact sum_nonneg fun α _ => mul_nonneg (arr_pos α).le (sq_nonneg _)

/-- A unit vector. -/
def Unit3 (v : Fin 3 → ℝ) : Prop := ∑ c, v c * v c = 1

/-- Exponents doubled. -/
def dbl (β : Fin 3 → ℕ) : Fin 3 → ℕ := fun c => 2 * β c

/-- Exponents doubled, and one more for the coordinate `d`. -/
def dblOne (d : Fin 3) (β : Fin 3 → ℕ) : Fin 3 → ℕ := fun c => 2 * β c + if c = d then 1 else 0

theorem sum_weights (p : ι → Fin 3 → ℝ) (a : ι → ℝ) (hp : ∀ i, Unit3 (p i)) (j : ℕ) :
    ∑ i, a i = ∑ β ∈ piAntidiag (univ : Finset (Fin 3)) j, arr β * mom p a (dbl β) := by
  have h : ∀ i, a i = ∑ β ∈ piAntidiag (univ : Finset (Fin 3)) j, arr β * (a i * ∏ c, p i c ^ dbl β c) := by
    intro i
    have := sum_pow_eq_sum_piAntidiag univ (fun c => p i c * p i c) j
    rw [show ∑ c, p i c * p i c = 1 from hp i, one_pow] at this
    calc a i = a i * 1 := (mul_one _).symm
      _ = _ := by
        rw [this, mul_sum]
        refine sum_congr rfl fun β _ => ?_
        have : ∀ c, (p i c * p i c) ^ β c = p i c ^ dbl β c := fun c => by rw [dbl, ← sq, ← pow_mul]
        simp only [this, arr]
        ring
  calc ∑ i, a i = ∑ i, ∑ β ∈ piAntidiag (univ : Finset (Fin 3)) j, arr β * (a i * ∏ c, p i c ^ dbl β c) :=
        sum_congr rfl fun i _ => h i
    _ = _ := by
      rw [sum_comm]
      refine sum_congr rfl fun β _ => ?_
      rw [← mul_sum]
      rfl

theorem sum_vector (p : ι → Fin 3 → ℝ) (a : ι → ℝ) (hp : ∀ i, Unit3 (p i)) (j : ℕ) (d : Fin 3) :
    ∑ i, a i * p i d = ∑ β ∈ piAntidiag (univ : Finset (Fin 3)) j, arr β * mom p a (dblOne d β) := by
  have := sum_weights p (fun i => a i * p i d) hp j
  rw [this]
  refine sum_congr rfl fun β _ => ?_
  congr 1
  unfold mom
  refine sum_congr rfl fun i _ => ?_
  have : ∏ c, p i c ^ dblOne d β c = (∏ c, p i c ^ dbl β c) * p i d := by
    have h : ∀ c, p i c ^ dblOne d β c = p i c ^ dbl β c * if c = d then p i c else 1 := by
      intro c
      by_cases hc : c = d <;> simp [dblOne, dbl, hc, pow_succ]
    simp only [h, prod_mul_distrib]
    congr 1
    simp
  rw [this]
  ring

theorem factorial_two_mul (m : ℕ) : ((2 * m)! : ℝ) = centralBinom m * (m ! : ℝ) ^ 2 := by
  have := Nat.choose_mul_factorial_mul_factorial (show m ≤ 2 * m by omega)
  rw [show 2 * m - m = m by omega, ← centralBinom_eq_two_mul_choose] at this
  rw [← this]
  push_cast
  ring

theorem arr_eq (α : Fin 3 → ℕ) (k : ℕ) (h : ∑ c, α c = k) : arr α = (k ! : ℝ) / ∏ c, ((α c)! : ℝ) := by
  have hs := multinomial_spec (univ : Finset (Fin 3)) α
  rw [h] at hs
  have hs' : (∏ c, ((α c)! : ℝ)) * arr α = (k ! : ℝ) := by unfold arr; exact_mod_cast hs
  have h0 : (∏ c, ((α c)! : ℝ)) ≠ 0 := prod_ne_zero_iff.2 fun c _ => by exact_mod_cast (factorial_pos _).ne'
  rw [eq_div_iff h0, mul_comm, hs']

theorem ratio_even (β : Fin 3 → ℕ) (j : ℕ) (h : ∑ c, β c = j) :
    arr β ^ 2 / arr (dbl β) = 1 / centralBinom j * ∏ c, (centralBinom (β c) : ℝ) := by
  have h2 : ∑ c, dbl β c = 2 * j := by rw [← h, mul_sum]; rfl
  rw [arr_eq β j h, arr_eq (dbl β) (2 * j) h2]
  have hf : ∀ c, ((dbl β c)! : ℝ) = centralBinom (β c) * ((β c)! : ℝ) ^ 2 := fun c => factorial_two_mul _
  simp only [hf, prod_mul_distrib, prod_pow, factorial_two_mul]
  have h0 : (∏ c, ((β c)! : ℝ)) ≠ 0 := prod_ne_zero_iff.2 fun c _ => by exact_mod_cast (factorial_pos _).ne'
  have h1 : (∏ c, (centralBinom (β c) : ℝ)) ≠ 0 := prod_ne_zero_iff.2 fun c _ => by exact_mod_cast (centralBinom_pos _).ne'
  have h3 : (centralBinom j : ℝ) ≠ 0 := by exact_mod_cast (centralBinom_pos _).ne'
  have h4 : (j ! : ℝ) ≠ 0 := by exact_mod_cast (factorial_pos _).ne'
  field_simp

theorem ratio_odd (β : Fin 3 → ℕ) (j : ℕ) (h : ∑ c, β c = j) (d : Fin 3) :
    arr β ^ 2 / arr (dblOne d β) = 1 / ((2 * j + 1) * centralBinom j) *
      ((2 * (β d : ℝ) + 1) * ∏ c, (centralBinom (β c) : ℝ)) := by
  have h2 : ∑ c, dblOne d β c = 2 * j + 1 := by
    unfold dblOne
    rw [sum_add_distrib, ← mul_sum, h]
    simp
  rw [arr_eq β j h, arr_eq (dblOne d β) (2 * j + 1) h2]
  have hf : ∀ c, ((dblOne d β c)! : ℝ) = centralBinom (β c) * ((β c)! : ℝ) ^ 2 * if c = d then (2 * (β c : ℝ) + 1) else 1 := by
    intro c
    by_cases hc : c = d
    · simp only [dblOne, hc, if_true]
      rw [factorial_succ]
      push_cast
      rw [factorial_two_mul]
      ring
    · simp only [dblOne, hc, if_false, add_zero, mul_one]
      exact factorial_two_mul _
  simp only [hf, prod_mul_distrib, prod_pow]
  rw [factorial_succ]
  push_cast
  rw [factorial_two_mul]
  have hd : ∏ c, (if c = d then (2 * (β c : ℝ) + 1) else 1) = 2 * (β d : ℝ) + 1 := by simp
  rw [hd]
  have h0 : (∏ c, ((β c)! : ℝ)) ≠ 0 := prod_ne_zero_iff.2 fun c _ => by exact_mod_cast (factorial_pos _).ne'
  have h1 : (∏ c, (centralBinom (β c) : ℝ)) ≠ 0 := prod_ne_zero_iff.2 fun c _ => by exact_mod_cast (centralBinom_pos _).ne'
  have h3 : (centralBinom j : ℝ) ≠ 0 := by exact_mod_cast (centralBinom_pos _).ne'
  have h4 : (j ! : ℝ) ≠ 0 := by exact_mod_cast (factorial_pos _).ne'
  have h5 : (2 * (j : ℝ) + 1) ≠ 0 := by positivity
  have h6 : (2 * (β d : ℝ) + 1) ≠ 0 := by positivity
  field_simp

/-- **Even powers.** -/
theorem form_even (p : ι → Fin 3 → ℝ) (a : ι → ℝ) (hp : ∀ i, Unit3 (p i)) (j : ℕ) :
    (∑ i, a i) ^ 2 / (2 * j + 1) ≤ form p a (2 * j) := by
  have hcs := sum_sq_le_sum_mul_sum_of_sq_eq_mul (piAntidiag (univ : Finset (Fin 3)) j)
    (r := fun β => arr β * mom p a (dbl β)) (f := fun β => arr β ^ 2 / arr (dbl β))
    (g := fun β => arr (dbl β) * mom p a (dbl β) ^ 2)
    (fun β _ => div_nonneg (sq_nonneg _) (arr_pos _).le) (fun β _ => mul_nonneg (arr_pos _).le (sq_nonneg _))
    (fun β _ => by have := (arr_pos (dbl β)).ne'; field_simp)
  rw [← sum_weights p a hp j] at hcs
  have h1 : ∑ β ∈ piAntidiag (univ : Finset (Fin 3)) j, arr β ^ 2 / arr (dbl β) = 2 * j + 1 := by
    rw [sum_congr rfl fun β hβ => ratio_even β j (mem_piAntidiag.1 hβ).1, ← mul_sum, central_sum]
    have h3 : (centralBinom j : ℝ) ≠ 0 := by exact_mod_cast (centralBinom_pos _).ne'
    field_simp
  have h2 : ∑ β ∈ piAntidiag (univ : Finset (Fin 3)) j, arr (dbl β) * mom p a (dbl β) ^ 2 ≤ form p a (2 * j) := by
    rw [form_eq]
    have hinj : Set.InjOn dbl (piAntidiag (univ : Finset (Fin 3)) j : Set (Fin 3 → ℕ)) := by
      intro β _ β' _ h
      funext c
      have := congrFun h c
      simp only [dbl] at this
      omega
    rw [← sum_image (f := fun α => arr α * mom p a α ^ 2) hinj]
    refine sum_le_sum_of_subset_of_nonneg ?_ fun α _ _ => mul_nonneg (arr_pos α).le (sq_nonneg _)
    intro α hα
    obtain ⟨β, hβ, rfl⟩ := mem_image.1 hα
    rw [mem_piAntidiag] at hβ ⊢
    refine ⟨?_, fun i _ => mem_univ i⟩
    rw [← hβ.1, mul_sum]
    rfl
  rw [h1] at hcs
  have h3 : (0 : ℝ) < 2 * j + 1 := by positivity
  rw [div_le_iff₀ h3]
  nlinarith

/-- **Odd powers.** -/
theorem form_odd (p : ι → Fin 3 → ℝ) (a : ι → ℝ) (hp : ∀ i, Unit3 (p i)) (j : ℕ) :
    3 * (∑ d, (∑ i, a i * p i d) ^ 2) / (2 * j + 3) ≤ form p a (2 * j + 1) := by
  have h3 : (0 : ℝ) < 2 * j + 3 := by positivity
  have hd : ∀ d : Fin 3, (∑ i, a i * p i d) ^ 2 ≤ (2 * j + 3) / 3 *
      ∑ β ∈ piAntidiag (univ : Finset (Fin 3)) j, arr (dblOne d β) * mom p a (dblOne d β) ^ 2 := by
    intro d
    have hcs := sum_sq_le_sum_mul_sum_of_sq_eq_mul (piAntidiag (univ : Finset (Fin 3)) j)
      (r := fun β => arr β * mom p a (dblOne d β)) (f := fun β => arr β ^ 2 / arr (dblOne d β))
      (g := fun β => arr (dblOne d β) * mom p a (dblOne d β) ^ 2)
      (fun β _ => div_nonneg (sq_nonneg _) (arr_pos _).le) (fun β _ => mul_nonneg (arr_pos _).le (sq_nonneg _))
      (fun β _ => by have := (arr_pos (dblOne d β)).ne'; field_simp)
    rw [← sum_vector p a hp j d] at hcs
    have h1 : ∑ β ∈ piAntidiag (univ : Finset (Fin 3)) j, arr β ^ 2 / arr (dblOne d β) = (2 * j + 3) / 3 := by
      rw [sum_congr rfl fun β hβ => ratio_odd β j (mem_piAntidiag.1 hβ).1 d, ← mul_sum, central_sum_odd]
      have h3 : (centralBinom j : ℝ) ≠ 0 := by exact_mod_cast (centralBinom_pos _).ne'
      have h5 : (2 * (j : ℝ) + 1) ≠ 0 := by positivity
      field_simp
    rwa [h1] at hcs
  have h2 : ∑ d : Fin 3, ∑ β ∈ piAntidiag (univ : Finset (Fin 3)) j, arr (dblOne d β) * mom p a (dblOne d β) ^ 2 ≤
      form p a (2 * j + 1) := by
    rw [form_eq, ← sum_product']
    have hinj : Set.InjOn (fun x : Fin 3 × (Fin 3 → ℕ) => dblOne x.1 x.2)
        ((univ ×ˢ piAntidiag (univ : Finset (Fin 3)) j : Finset (Fin 3 × (Fin 3 → ℕ))) : Set _) := by
      rintro ⟨d, β⟩ _ ⟨d', β'⟩ _ h
      simp only at h
      have hdd : d = d' := by
        by_contra hne
        have := congrFun h d
        simp only [dblOne, if_true, if_neg hne] at this
        omega
      subst hdd
      congr 1
      funext c
      have := congrFun h c
      simp only [dblOne] at this
      omega
    rw [← sum_image (f := fun α => arr α * mom p a α ^ 2) hinj]
    refine sum_le_sum_of_subset_of_nonneg ?_ fun α _ _ => mul_nonneg (arr_pos α).le (sq_nonneg _)
    intro α hα
    obtain ⟨⟨d, β⟩, hβ, rfl⟩ := mem_image.1 hα
    rw [mem_product, mem_piAntidiag] at hβ
    rw [mem_piAntidiag]
    refine ⟨?_, fun i _ => mem_univ i⟩
    unfold dblOne
    rw [sum_add_distrib, ← mul_sum, hβ.2.1]
    simp
  rw [div_le_iff₀ h3]
  have := sum_le_sum fun d (_ : d ∈ (univ : Finset (Fin 3))) => hd d
  rw [← mul_sum] at this
  have h4 := mul_le_mul_of_nonneg_left h2 (show (0 : ℝ) ≤ (2 * j + 3) / 3 by positivity)
  linarith

end Verif.Sphere
