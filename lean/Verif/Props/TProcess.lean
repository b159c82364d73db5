import Verif.Model.TProcess
import Verif.Props.Spectra
import Verif.Props.Evidence

/-!
# The prior of the coefficients of a t-process: C120
-/

namespace Verif.TProcess

open Verif Verif.Spectra Verif.Bases Verif.Spec MeasureTheory Set Matrix

/-- The density at `(x, y)` of a bivariate Student distribution with `2 a` degrees of freedom, and scale `w s / a`. -/
noncomputable def student (a s w x y : ℝ) : ℝ :=
  a / (2 * Real.pi * w * s) * (1 + (x ^ 2 + y ^ 2) / (2 * w * s)) ^ (-(a + 1))

/-- One scale factor and the two coefficients it scales. -/
noncomputable def pair (a s w x y t : ℝ) : ℝ :=
  invGammaPrior t a s * (Real.exp (-(1 / 2) * (x ^ 2 / (w * t) + y ^ 2 / (w * t))) / (2 * Real.pi * (w * t)))

theorem prior_zero {t : ℝ} (h : ¬0 < t) (a s : ℝ) : invGammaPrior t a s = 0 := by unfold invGammaPrior; rw [if_neg h]

/-- The integral over the scale factor. -/
theorem pair_integral (a s w x y : ℝ) (ha : 0 < a) (hs : 0 < s) (hw : 0 < w) : ∫ t, pair a s w x y t = student a s w x y := by
  have hG := Real.Gamma_pos_of_pos ha
  have hpi := Real.pi_pos
  set S := s + (x ^ 2 + y ^ 2) / (2 * w) with hS
  have hSpos : 0 < S := by positivity
  let g : ℝ → ℝ := fun u => u ^ (a + 1 - 1) * Real.exp (-(S * u))
  let h : ℝ → ℝ := fun t => (|(-1 : ℝ)| * t ^ ((-1 : ℝ) - 1)) • g (t ^ (-1 : ℝ))
  have hval : ∫ t in Ioi 0, h t = (1 / S) ^ (a + 1) * Real.Gamma (a + 1) := by
    rw [← Real.integral_rpow_mul_exp_neg_mul_Ioi (by linarith : 0 < a + 1) hSpos]
    exact integral_comp_rpow_Ioi g (by norm_num)
  have hd : pair a s w x y = (Ioi 0).indicator fun t => (s ^ a / (Real.Gamma a * (2 * Real.pi * w))) * h t := by
    funext t
    by_cases ht : 0 < t
    · rw [indicator_of_mem (show t ∈ Ioi 0 from ht)]
      simp only [h, g, abs_neg, abs_one, one_mul, smul_eq_mul, pair]
      unfold invGammaPrior
      rw [if_pos ht, ← Real.rpow_mul ht.le, Real.div_rpow ht.le hs.le]
      have e1 : t ^ ((-1 : ℝ) - 1) * (t ^ ((-1 : ℝ) * (a + 1 - 1)) * Real.exp (-(S * t ^ (-1 : ℝ)))) =
          t ^ (-a - 1) * t⁻¹ * Real.exp (-(S * t⁻¹)) := by
        rw [← mul_assoc, ← Real.rpow_add ht, Real.rpow_neg_one, ← Real.rpow_neg_one t, ← Real.rpow_add ht]
        congr 2
        ring
      have e2 : s ^ (-a - 1) = (s ^ a)⁻¹ * s⁻¹ := by
        rw [← Real.rpow_neg_one s, ← Real.rpow_neg hs.le, ← Real.rpow_add hs]
        congr 1
      have e3 : Real.exp (-(S * t⁻¹)) = Real.exp (-(1 / (t / s))) * Real.exp (-(1 / 2) * (x ^ 2 / (w * t) + y ^ 2 / (w * t))) := by
        rw [← Real.exp_add]
        congr 1
        rw [hS]
        field_simp
        ring
      rw [e1, e2, e3]
      have hsa : s ^ a ≠ 0 := (Real.rpow_pos_of_pos hs a).ne'
      field_simp
    · rw [indicator_of_notMem (show t ∉ Ioi 0 from ht), pair, prior_zero ht, zero_mul]
  rw [hd, integral_indicator measurableSet_Ioi, integral_const_mul, hval, Real.Gamma_add_one ha.ne']
  unfold student
  have e4 : S = s * (1 + (x ^ 2 + y ^ 2) / (2 * w * s)) := by rw [hS]; field_simp
  have hq : 0 < 1 + (x ^ 2 + y ^ 2) / (2 * w * s) := by positivity
  have e5 : (1 / S) ^ (a + 1) = (s ^ a)⁻¹ * s⁻¹ * (1 + (x ^ 2 + y ^ 2) / (2 * w * s)) ^ (-(a + 1)) := by
    rw [e4, one_div, Real.inv_rpow (by positivity), Real.mul_rpow hs.le hq.le, mul_inv, Real.rpow_neg hq.le, Real.rpow_add_one hs.ne', mul_inv]
  rw [e5]
  have hsa : s ^ a ≠ 0 := (Real.rpow_pos_of_pos hs a).ne'
  field_simp

/-! ## All frequencies -/

theorem alphasPdf_eq (alpha gamma : ℝ) (n : Nat) (v : Fin n → ℝ) :
    alphasPdf alpha gamma n (List.ofFn v) = ∏ k, invGammaPrior (v k) alpha gamma := by
  unfold alphasPdf Priors.getPdf invGamma
  simp only [bind, Except.bind, Priors.Arr.map, Priors.Arr.entries]
  rw [List.map_ofFn, List.prod_ofFn]
  rfl

/-- A Gaussian density with a diagonal covariance. -/
theorem mvn_diagonal {m : Nat} (v x : Fin m → ℝ) (hv : ∀ j, 0 < v j) :
    mvn (diagonal v) x = ∏ j, (Real.exp (-(1 / 2) * (x j ^ 2 / v j)) / Real.sqrt (2 * Real.pi * v j)) := by
  have hpi := Real.pi_pos
  have hinv : (diagonal v)⁻¹ = diagonal fun j => (v j)⁻¹ := by
    refine inv_eq_right_inv ?_
    rw [diagonal_mul_diagonal, ← diagonal_one]
    congr 1
    funext j
    exact mul_inv_cancel₀ (hv j).ne'
  unfold mvn
  rw [hinv, Finset.prod_div_distrib, ← Real.exp_sum]
  congr 1
  · congr 1
    rw [← Finset.mul_sum]
    congr 1
    refine Finset.sum_congr rfl fun j _ => ?_
    rw [mulVec_diagonal]
    field_simp
  · rw [show (2 * Real.pi) • diagonal v = diagonal fun j => 2 * Real.pi * v j by
      ext i j
      by_cases h : i = j
      · subst h; simp
      · simp [h], det_diagonal]
    rw [Real.sqrt_eq_iff_mul_self_eq (Finset.prod_nonneg fun j _ => by have := hv j; positivity)
      (Finset.prod_nonneg fun j _ => Real.sqrt_nonneg _), ← Finset.prod_mul_distrib]
    exact (Finset.prod_congr rfl fun j _ => Real.mul_self_sqrt (by have := hv j; positivity)).symm

/-- **C120.**  With the inverse-gamma prior on the scale factors, the prior of the coefficients of a t-process is a product over the
frequencies of bivariate Student densities around the power law. -/
theorem C120 (A γ a s : ℝ) (ha : 0 < a) (hs : 0 < s) (g : List ℝ) (hg : Ascending g) (c : Fin g.length → Fin 2 → ℝ) :
    ∃ w : Fin g.length → ℝ, (powerlaw (rep 2 g) A γ 2 = .ok (rep 2 (List.ofFn w)) ∧ ∀ k, 0 < w k) ∧
      ∫ al : Fin g.length → ℝ, alphasPdf a s g.length (List.ofFn al) *
        mvn (diagonal fun j : Fin (2 * g.length) => variance (rep 2 g) A γ (List.ofFn al) j)
          (fun j => c ⟨j / 2, by omega⟩ ⟨j % 2, by omega⟩) =
      ∏ k, student a s (w k) (c k 0) (c k 1) := by
  obtain ⟨-, -, w, hw1, hw2, hw3⟩ := C90_t_process A γ g
  obtain ⟨w', hw1', -, hpos', -⟩ := C66_powerlaw A γ 2 (by norm_num) g hg
  have hww : rep 2 w = rep 2 w' := Except.ok.inj (hw1.symm.trans hw1')
  have hpos : ∀ k : Fin g.length, 0 < w.getD k 0 := by
    intro k
    have e := congrArg (fun l => l[2 * k.val + 0]?) hww
    simp only [rep_get 2 _ k.val 0 (by norm_num)] at e
    have hk : k.val < w.length := by rw [hw2]; exact k.2
    rw [List.getD_eq_getElem?_getD, e]
    rw [List.getElem?_eq_getElem hk] at e
    rw [← e, Option.getD_some]
    exact hpos' _ (List.mem_of_getElem? e.symm)
  have hofn : List.ofFn (fun k : Fin g.length => w.getD k 0) = w := by
    refine List.ext_getElem (by simp [hw2]) fun i h1 h2 => ?_
    simp [List.getElem?_eq_getElem h2]
  refine ⟨fun k => w.getD k 0, ⟨by rw [hofn]; exact hw1, hpos⟩, ?_⟩
  have hvar : ∀ (al : Fin g.length → ℝ) (k : Fin g.length) (q : Nat), q < 2 →
      variance (rep 2 g) A γ (List.ofFn al) (2 * k + q) = w.getD k 0 * al k := by
    intro al k q hq
    unfold variance
    rw [(hw3 (List.ofFn al) (by simp)).1]
    simp only
    rw [List.getD_eq_getElem?_getD, rep_get 2 _ k.val q hq, List.getElem?_zipWith]
    have hk : k.val < w.length := by rw [hw2]; exact k.2
    simp [List.getElem?_eq_getElem hk]
  have hfun : ∀ al : Fin g.length → ℝ, alphasPdf a s g.length (List.ofFn al) *
      mvn (diagonal fun j : Fin (2 * g.length) => variance (rep 2 g) A γ (List.ofFn al) j)
        (fun j => c ⟨j / 2, by omega⟩ ⟨j % 2, by omega⟩) = ∏ k : Fin g.length, pair a s (w.getD k 0) (c k 0) (c k 1) (al k) := by
    intro al
    rw [alphasPdf_eq]
    by_cases hal : ∀ k, 0 < al k
    · have hv : ∀ j : Fin (2 * g.length), 0 < variance (rep 2 g) A γ (List.ofFn al) j := by
        intro j
        have := hvar al ⟨j / 2, by omega⟩ (j % 2) (by omega)
        rw [show 2 * ((⟨j / 2, by omega⟩ : Fin g.length) : Nat) + j % 2 = j by simp only; omega] at this
        rw [this]
        exact mul_pos (hpos _) (hal _)
      rw [mvn_diagonal _ _ hv]
      have hsplit : ∀ F : Fin (2 * g.length) → ℝ, ∏ j, F j = ∏ k : Fin g.length, (F ⟨2 * k, by omega⟩ * F ⟨2 * k + 1, by omega⟩) := by
        intro F
        rw [← (finCongr (Nat.mul_comm g.length 2)).prod_comp, ← (finProdFinEquiv (m := g.length) (n := 2)).prod_comp, Fintype.prod_prod_type]
        refine Finset.prod_congr rfl fun k _ => ?_
        rw [Fin.prod_univ_two]
        congr 2
        · ext; simp [finProdFinEquiv]
        · ext; simp [finProdFinEquiv]; ring
      rw [hsplit, ← Finset.prod_mul_distrib]
      refine Finset.prod_congr rfl fun k _ => ?_
      unfold pair
      have v0 := hvar al k 0 (by norm_num)
      have v1 := hvar al k 1 (by norm_num)
      rw [add_zero] at v0
      have i0 : (⟨2 * k / 2, by omega⟩ : Fin g.length) = k := by ext; simp
      have i1 : (⟨(2 * k + 1) / 2, by omega⟩ : Fin g.length) = k := by ext; simp only; omega
      have r0 : (⟨2 * k % 2, by omega⟩ : Fin 2) = 0 := by ext; simp
      have r1 : (⟨(2 * k + 1) % 2, by omega⟩ : Fin 2) = 1 := by ext; simp only; omega
      simp only [v0, v1, i0, i1, r0, r1]
      have hp : 0 < w.getD k 0 * al k := mul_pos (hpos k) (hal k)
      congr 1
      rw [div_mul_div_comm, ← Real.exp_add, Real.mul_self_sqrt (by have := Real.pi_pos; positivity)]
      congr 2
      ring
    · push Not at hal
      obtain ⟨k, hk⟩ := hal
      rw [Finset.prod_eq_zero (Finset.mem_univ k) (prior_zero (not_lt.2 hk) a s), zero_mul]
      rw [Finset.prod_eq_zero (Finset.mem_univ k)]
      unfold pair
      rw [prior_zero (not_lt.2 hk), zero_mul]
  rw [show (fun al : Fin g.length → ℝ => alphasPdf a s g.length (List.ofFn al) *
      mvn (diagonal fun j : Fin (2 * g.length) => variance (rep 2 g) A γ (List.ofFn al) j)
        (fun j => c ⟨j / 2, by omega⟩ ⟨j % 2, by omega⟩)) = fun al => ∏ k : Fin g.length, pair a s (w.getD k 0) (c k 0) (c k 1) (al k) from funext hfun,
    integral_fintype_prod_volume_eq_prod fun (k : Fin g.length) t => pair a s (w.getD k 0) (c k 0) (c k 1) t]
  exact Finset.prod_congr rfl fun k _ => pair_integral a s _ _ _ ha hs (hpos k)

/-- Three frequencies and the default parameters of the inverse gamma. -/
example (c : Fin 3 → Fin 2 → ℝ) : ∃ w : Fin 3 → ℝ, (powerlaw (rep 2 [1e-9, 2e-9, 3e-9]) (-15) 4.33 2 = .ok (rep 2 (List.ofFn w)) ∧
      ∀ k, 0 < w k) ∧
    ∫ al : Fin 3 → ℝ, alphasPdf 1 1 3 (List.ofFn al) *
      mvn (diagonal fun j : Fin (2 * 3) => variance (rep 2 [1e-9, 2e-9, 3e-9]) (-15) 4.33 (List.ofFn al) j)
        (fun j => c ⟨j / 2, by omega⟩ ⟨j % 2, by omega⟩) = ∏ k, student 1 1 (w k) (c k 0) (c k 1) :=
  C120 (-15) 4.33 1 1 one_pos one_pos [1e-9, 2e-9, 3e-9] (by simp [Ascending]; norm_num) c

end Verif.TProcess
