import Verif.Props.SkyMap
import Verif.Lemmas.HdIntegral

/-!
# C125: the Hellings-Downs curve and the antenna patterns

`hd_orf` (utils.py 845-852) is a closed formula.  `create_gw_antenna_pattern` (utils.py) is the response of a pulsar to one
source.  The two were written separately; here the formula is shown to be the average of the products of the responses over
the sky.
-/

namespace Verif.HdSky

open Verif Verif.Orf Verif.Sky Verif.Sphere MeasureTheory Real

/-- The average over the sky: `θ` is the polar angle and `φ` the azimuth of the source. -/
noncomputable def skyMean (G : ℝ → ℝ → ℝ) : ℝ :=
  (∫ θ in (0 : ℝ)..π, (∫ φ in (0 : ℝ)..(2 * π), G θ φ) * sin θ) / (4 * π)

/-- What two pulsars see in common of a source that sends the two polarisations with the same power and without
correlation. -/
noncomputable def common (p q : Pos) (θ φ : ℝ) : ℝ :=
  (antenna p θ φ).1 * (antenna q θ φ).1 + (antenna p θ φ).2.1 * (antenna q θ φ).2.1

theorem frame2 (p q : Pos) (θ φ : ℝ) :
    dot ![sin φ, -cos φ, 0] p * dot ![sin φ, -cos φ, 0] q +
      dot ![-cos θ * cos φ, -cos θ * sin φ, sin θ] p * dot ![-cos θ * cos φ, -cos θ * sin φ, sin θ] q +
      dot (dir θ φ) p * dot (dir θ φ) q = dot p q := by
  simp only [dot, dir, Fin.sum_univ_three, Matrix.cons_val_zero, Matrix.cons_val_one, Matrix.cons_val]
  have h1 : sin φ ^ 2 = 1 - cos φ ^ 2 := by linarith [sin_sq_add_cos_sq φ]
  have h2 : sin θ ^ 2 = 1 - cos θ ^ 2 := by linarith [sin_sq_add_cos_sq θ]
  ring_nf
  rw [h1, h2]
  ring

theorem common_eq (p q : Pos) (hp : IsUnit3 p) (hq : IsUnit3 q) (θ φ : ℝ) :
    common p q θ φ = kern (dot p q) (dot (dir θ φ) p) (dot (dir θ φ) q) := by
  have h1 := frame2 p q θ φ
  have h2 := frame2 p p θ φ
  have h3 := frame2 q q θ φ
  have hneg : ∀ r : Pos, dot ![-sin θ * cos φ, -sin θ * sin φ, -cos θ] r = -dot (dir θ φ) r := fun r => by
    simp only [dot, dir, Fin.sum_univ_three, Matrix.cons_val_zero, Matrix.cons_val_one, Matrix.cons_val]
    ring
  rw [show dot p p = 1 from hp] at h2
  rw [show dot q q = 1 from hq] at h3
  simp only [common, antenna, hneg, kern]
  generalize dot (dir θ φ) p = μ at *
  generalize dot (dir θ φ) q = ν at *
  generalize dot p q = c at *
  generalize dot ![sin φ, -cos φ, 0] p = x at *
  generalize dot ![sin φ, -cos φ, 0] q = x' at *
  generalize dot ![-cos θ * cos φ, -cos θ * sin φ, sin θ] p = y at *
  generalize dot ![-cos θ * cos φ, -cos θ * sin φ, sin θ] q = y' at *
  have e1 : c - μ * ν = x * x' + y * y' := by linear_combination -h1
  have e2 : 1 - μ ^ 2 = x ^ 2 + y ^ 2 := by linear_combination -h2
  have e3 : 1 - ν ^ 2 = x' ^ 2 + y' ^ 2 := by linear_combination -h3
  rw [e1, e2, e3, ← sub_eq_add_neg, ← sub_eq_add_neg, div_mul_div_comm, div_mul_div_comm, ← add_div]
  congr 1
  ring

theorem common_le (p q : Pos) (hp : IsUnit3 p) (hq : IsUnit3 q) (θ φ : ℝ) : |common p q θ φ| ≤ 1 := by
  have key : ∀ p : Pos, IsUnit3 p → (antenna p θ φ).1 ^ 2 + (antenna p θ φ).2.1 ^ 2 ≤ 1 := by
    intro p hp
    by_cases h : (antenna p θ φ).2.2 = 1
    · have h0 : 1 + dot ![-sin θ * cos φ, -sin θ * sin φ, -cos θ] p = 0 := by
        simp only [antenna] at h
        linarith
      simp only [antenna, h0, div_zero]
      norm_num
    · obtain ⟨e, hb⟩ := C75_pattern p hp θ φ h
      rw [e]
      have := abs_le.1 hb
      nlinarith
  have h1 := key p hp
  have h2 := key q hq
  unfold common
  rw [abs_le]
  constructor <;> nlinarith [sq_nonneg ((antenna p θ φ).1 - (antenna q θ φ).1), sq_nonneg ((antenna p θ φ).2.1 - (antenna q θ φ).2.1),
    sq_nonneg ((antenna p θ φ).1 + (antenna q θ φ).1), sq_nonneg ((antenna p θ φ).2.1 + (antenna q θ φ).2.1)]

theorem measurable_kern (c : ℝ) (p q : Pos) : Measurable fun w : Fin 3 → ℝ => kern c (dot w p) (dot w q) := by
  have hd : ∀ r : Pos, Measurable fun w : Fin 3 → ℝ => dot w r := fun r => by
    unfold dot
    exact Finset.measurable_sum _ fun i _ => (measurable_pi_apply i).mul_const _
  have h1 := hd p
  have h2 := hd q
  unfold kern
  fun_prop

theorem mean_common (p q : Pos) (hp : IsUnit3 p) (hq : IsUnit3 q) : 3 / 2 * skyMean (common p q) = hd (dot p q) := by
  have hdotM : ∀ (M : Matrix (Fin 3) (Fin 3) ℝ), M.transpose * M = 1 → ∀ x y : Pos, dot (M.mulVec x) (M.mulVec y) = dot x y :=
    fun M hM x y => dot_orthogonal hM x y
  obtain ⟨M, hM, hMp, hMq⟩ := exists_frame p q hp hq
  have hc1 : dot p q ^ 2 ≤ 1 := by
    have h := Finset.sum_mul_sq_le_sq_mul_sq Finset.univ p q
    have e1 : ∑ i, p i ^ 2 = 1 := by rw [← hp]; exact Finset.sum_congr rfl fun i _ => sq _
    have e2 : ∑ i, q i ^ 2 = 1 := by rw [← hq]; exact Finset.sum_congr rfl fun i _ => sq _
    rw [e1, e2] at h
    have h' : (dot p q) ^ 2 ≤ 1 * 1 := h
    linarith
  set c := dot p q with hc
  have hcs : c ^ 2 + √(1 - c ^ 2) ^ 2 = 1 := by rw [sq_sqrt (by linarith)]; ring
  have hb : ∀ θ φ, |kern c (dot (dir θ φ) p) (dot (dir θ φ) q)| ≤ 1 := fun θ φ => by
    rw [← common_eq p q hp hq]; exact common_le p q hp hq θ φ
  have hMp1 : IsUnit3 (M.mulVec p) := by rw [IsUnit3, hdotM M hM]; exact hp
  have hMq1 : IsUnit3 (M.mulVec q) := by rw [IsUnit3, hdotM M hM]; exact hq
  have hcM : dot (M.mulVec p) (M.mulVec q) = c := hdotM M hM p q
  have hb' : ∀ θ φ, |kern c (dot (dir θ φ) (M.mulVec p)) (dot (dir θ φ) (M.mulVec q))| ≤ 1 := fun θ φ => by
    rw [← hcM, ← common_eq _ _ hMp1 hMq1]; exact common_le _ _ hMp1 hMq1 θ φ
  have e : (∫ θ in (0 : ℝ)..π, (∫ φ in (0 : ℝ)..(2 * π), common p q θ φ) * sin θ) =
      2 * π * (1 / 2 + c / 6 + (1 - c) * log ((1 - c) / 2)) := by
    rw [← full hcs]
    simp only [common_eq p q hp hq]
    rw [← integral_sky _ (measurable_kern c p q) hb]
    have h1 := integral_rotate hM _ (measurable_kern c (M.mulVec p) (M.mulVec q))
    simp only [hdotM M hM] at h1
    rw [h1, integral_sky _ (measurable_kern c _ _) hb']
    refine intervalIntegral.integral_congr fun θ _ => ?_
    refine congrArg (· * sin θ) ?_
    refine intervalIntegral.integral_congr fun φ _ => ?_
    simp only [hMp, hMq]
    have e1 : dot (dir θ φ) ![0, 0, 1] = cos θ := by simp [dot, dir, Fin.sum_univ_three]
    have e2 : dot (dir θ φ) ![√(1 - (∑ c, p c * q c) ^ 2), 0, ∑ c, p c * q c] = √(1 - c ^ 2) * sin θ * cos φ + c * cos θ := by
      rw [show ∑ c, p c * q c = c from rfl]
      simp [dot, dir, Fin.sum_univ_three]
      ring
    rw [e1, e2]
  rw [skyMean, e, hd]
  have hpi := pi_ne_zero
  field_simp
  ring

/-- **C125.**  For two pulsars in different directions, `hd_orf` is 3/2 of the average, over sources everywhere on the sky, of
what the two see in common according to `create_gw_antenna_pattern`. -/
theorem C125_pair (p q : Pos) (hp : IsUnit3 p) (hq : IsUnit3 q) (h : p ≠ q) : hdOrf p q = 3 / 2 * skyMean (common p q) := by
  rw [mean_common p q hp hq, hdOrf_eq hp, if_neg h, mul_zero, add_zero]
  rfl

/-- **C125, a pulsar with itself.**  `hd_orf` is twice as much: the disturbance at the pulsar counts as well, and it is as
large as the one at the Earth and independent of it. -/
theorem C125_same (p : Pos) (hp : IsUnit3 p) : hdOrf p p = 2 * (3 / 2 * skyMean (common p p)) := by
  rw [mean_common p p hp hp, hdOrf_eq hp, if_pos rfl, show dot p p = 1 from hp, show ∑ c, p c * p c = 1 from hp]
  norm_num [hd]

/-! ### Maps of pixels -/

/-- The pixels of a sequence of maps are evenly distributed: the average over the pixels of a continuous function on the
directions goes to its average over the sky. -/
def Even (npix : ℕ → ℕ) (θ φ : (n : ℕ) → Fin (npix n) → ℝ) : Prop :=
  ∀ f : (Fin 3 → ℝ) → ℝ, Continuous f →
    Filter.Tendsto (fun n => (∑ k, f (dir (θ n k) (φ n k))) / npix n) Filter.atTop (nhds (skyMean fun a b => f (dir a b)))

/-- A factor that removes the neighbourhood of the direction in which the response of a pulsar is not continuous, divided
by the denominator of the response. -/
noncomputable def cut (k : ℕ) (μ : ℝ) : ℝ := 1 / 2 * ∑ j ∈ Finset.range k, ((1 + μ) / 2) ^ j

theorem cut_eq (k : ℕ) (μ : ℝ) : cut k μ * (1 - μ) = 1 - ((1 + μ) / 2) ^ k := by
  have := geom_sum_mul ((1 + μ) / 2) k
  unfold cut
  linear_combination -this

/-- The product of the responses with the neighbourhoods removed: a polynomial. -/
noncomputable def smooth (k : ℕ) (c μ ν : ℝ) : ℝ :=
  1 / 4 * (2 * (c - μ * ν) ^ 2 - (1 - μ ^ 2) * (1 - ν ^ 2)) * (cut k μ * cut k ν)

theorem smooth_eq (k : ℕ) {c μ ν : ℝ} (hμ : μ ≠ 1) (hν : ν ≠ 1) :
    smooth k c μ ν = kern c μ ν * ((1 - ((1 + μ) / 2) ^ k) * (1 - ((1 + ν) / 2) ^ k)) := by
  have h1 : 1 - μ ≠ 0 := sub_ne_zero.2 (Ne.symm hμ)
  have h2 : 1 - ν ≠ 0 := sub_ne_zero.2 (Ne.symm hν)
  rw [← cut_eq, ← cut_eq, smooth, kern]
  field_simp

theorem abs_dot_dir (p : Pos) (hp : IsUnit3 p) (θ φ : ℝ) : |dot (dir θ φ) p| ≤ 1 := by
  have h := frame2 p p θ φ
  rw [show dot p p = 1 from hp] at h
  rw [← sq_le_one_iff_abs_le_one]
  nlinarith [sq_nonneg (dot ![sin φ, -cos φ, 0] p), sq_nonneg (dot ![-cos θ * cos φ, -cos θ * sin φ, sin θ] p)]

theorem smooth_near (k : ℕ) (p q : Pos) (hp : IsUnit3 p) (hq : IsUnit3 q) (θ φ : ℝ) :
    |common p q θ φ - smooth k (dot p q) (dot (dir θ φ) p) (dot (dir θ φ) q)| ≤
      ((1 + dot (dir θ φ) p) / 2) ^ k + ((1 + dot (dir θ φ) q) / 2) ^ k := by
  have hle := common_le p q hp hq θ φ
  have hμ := abs_le.1 (abs_dot_dir p hp θ φ)
  have hν := abs_le.1 (abs_dot_dir q hq θ φ)
  have ha0 : 0 ≤ ((1 + dot (dir θ φ) p) / 2) ^ k := pow_nonneg (by linarith) k
  have hb0 : 0 ≤ ((1 + dot (dir θ φ) q) / 2) ^ k := pow_nonneg (by linarith) k
  have ha1 : ((1 + dot (dir θ φ) p) / 2) ^ k ≤ 1 := pow_le_one₀ (by linarith) (by linarith)
  have hb1 : ((1 + dot (dir θ φ) q) / 2) ^ k ≤ 1 := pow_le_one₀ (by linarith) (by linarith)
  have h1 := frame2 p q θ φ
  have h2 := frame2 p p θ φ
  have h3 := frame2 q q θ φ
  rw [show dot p p = 1 from hp] at h2
  rw [show dot q q = 1 from hq] at h3
  rw [common_eq p q hp hq] at hle ⊢
  generalize dot (dir θ φ) p = μ at *
  generalize dot (dir θ φ) q = ν at *
  generalize dot p q = c at *
  generalize dot ![sin φ, -cos φ, 0] p = x at *
  generalize dot ![sin φ, -cos φ, 0] q = x' at *
  generalize dot ![-cos θ * cos φ, -cos θ * sin φ, sin θ] p = y at *
  generalize dot ![-cos θ * cos φ, -cos θ * sin φ, sin θ] q = y' at *
  by_cases hm : μ = 1
  · subst hm
    have hx : x = 0 := by nlinarith [sq_nonneg x, sq_nonneg y]
    have hy : y = 0 := by nlinarith [sq_nonneg x, sq_nonneg y]
    subst hx hy
    have hc : c = ν := by linarith
    subst hc
    have e : smooth k c 1 c = 0 := by unfold smooth; ring
    have e' : kern c 1 c = 0 := by unfold kern; simp
    rw [e, e', sub_zero, abs_zero]
    linarith
  by_cases hn : ν = 1
  · subst hn
    have hx : x' = 0 := by nlinarith [sq_nonneg x', sq_nonneg y']
    have hy : y' = 0 := by nlinarith [sq_nonneg x', sq_nonneg y']
    subst hx hy
    have hc : c = μ := by linarith
    subst hc
    have e : smooth k c c 1 = 0 := by unfold smooth; ring
    have e' : kern c c 1 = 0 := by unfold kern; simp
    rw [e, e', sub_zero, abs_zero]
    linarith
  rw [smooth_eq k hm hn]
  generalize ((1 + μ) / 2) ^ k = a at *
  generalize ((1 + ν) / 2) ^ k = b at *
  generalize kern c μ ν = g at *
  rw [show g - g * ((1 - a) * (1 - b)) = g * (a + b - a * b) by ring, abs_mul, abs_of_nonneg (show 0 ≤ a + b - a * b by nlinarith)]
  have h5 : 0 ≤ a + b - a * b := by nlinarith
  nlinarith [mul_nonneg ha0 hb0, mul_le_mul_of_nonneg_right hle h5]

theorem continuous_dot (p : Pos) : Continuous fun w : Fin 3 → ℝ => dot w p := by
  unfold dot
  exact continuous_finsetSum _ fun i _ => (continuous_apply i).mul continuous_const

theorem continuous_smooth (k : ℕ) (c : ℝ) (p q : Pos) : Continuous fun w : Fin 3 → ℝ => smooth k c (dot w p) (dot w q) := by
  have h1 := continuous_dot p
  have h2 := continuous_dot q
  unfold smooth cut
  fun_prop

theorem skyMean_eq (G : (Fin 3 → ℝ) → ℝ) (hG : Measurable G) {B : ℝ} (hB : ∀ θ φ, |G (dir θ φ)| ≤ B) :
    skyMean (fun θ φ => G (dir θ φ)) = (∫ w, G w ∂sky) / (4 * π) := by
  rw [integral_sky G hG hB]
  rfl

theorem near_bound (k : ℕ) (p : Pos) (hp : IsUnit3 p) (θ φ : ℝ) : |((1 + dot (dir θ φ) p) / 2) ^ k| ≤ 1 := by
  have hμ := abs_le.1 (abs_dot_dir p hp θ φ)
  rw [abs_of_nonneg (pow_nonneg (by linarith) k)]
  exact pow_le_one₀ (by linarith) (by linarith)

/-- The average of the part that is removed. -/
theorem mean_near (k : ℕ) (p : Pos) (hp : IsUnit3 p) : skyMean (fun θ φ => ((1 + dot (dir θ φ) p) / 2) ^ k) = 1 / (k + 1) := by
  obtain ⟨M, hM, hMp, -⟩ := exists_frame p p hp hp
  have hme : ∀ r : Pos, Measurable fun w : Fin 3 → ℝ => ((1 + dot w r) / 2) ^ k := fun r =>
    (((continuous_const.add (continuous_dot r)).div_const 2).pow k).measurable
  have hdotM : ∀ x y : Pos, dot (M.mulVec x) (M.mulVec y) = dot x y := fun x y => dot_orthogonal hM x y
  have hMp1 : IsUnit3 (M.mulVec p) := by rw [IsUnit3, hdotM]; exact hp
  have h1 := integral_rotate hM _ (hme (M.mulVec p))
  simp only [hdotM] at h1
  rw [skyMean_eq _ (hme p) (near_bound k p hp), h1, integral_sky _ (hme _) (near_bound k _ hMp1)]
  have e1 : ∀ θ φ, dot (dir θ φ) (M.mulVec p) = cos θ := fun θ φ => by rw [hMp]; simp [dot, dir, Fin.sum_univ_three]
  simp only [e1, intervalIntegral.integral_const, sub_zero, smul_eq_mul]
  have hder : ∀ θ ∈ Set.uIcc (0 : ℝ) π, HasDerivAt (fun θ => -(2 / (k + 1)) * ((1 + cos θ) / 2) ^ (k + 1))
      (((1 + cos θ) / 2) ^ k * sin θ) θ := by
    intro θ _
    have := ((((hasDerivAt_cos θ).const_add 1).div_const 2).pow (k + 1)).const_mul (-(2 / ((k : ℝ) + 1)))
    refine HasDerivAt.congr_deriv this ?_
    have hk : (k : ℝ) + 1 ≠ 0 := by positivity
    push_cast
    field_simp
  have e2 := intervalIntegral.integral_eq_sub_of_hasDerivAt hder (Continuous.intervalIntegrable (by fun_prop) _ _)
  simp only [mul_assoc] at e2 ⊢
  rw [intervalIntegral.integral_const_mul, intervalIntegral.integral_const_mul, e2]
  have hk : (k : ℝ) + 1 ≠ 0 := by positivity
  have hpi := pi_ne_zero
  simp
  field_simp
  norm_num

theorem dir_bound (θ φ : ℝ) : dir θ φ ∈ Metric.closedBall (0 : Fin 3 → ℝ) 1 := by
  rw [mem_closedBall_zero_iff, pi_norm_le_iff_of_nonneg zero_le_one]
  have h := dir_dot θ φ
  rw [Fin.sum_univ_three] at h
  intro i
  rw [Real.norm_eq_abs, ← sq_le_one_iff_abs_le_one]
  match i with
  | 0 => nlinarith [sq_nonneg (dir θ φ 1), sq_nonneg (dir θ φ 2)]
  | 1 => nlinarith [sq_nonneg (dir θ φ 0), sq_nonneg (dir θ φ 2)]
  | 2 => nlinarith [sq_nonneg (dir θ φ 0), sq_nonneg (dir θ φ 1)]

theorem exists_bound {f : (Fin 3 → ℝ) → ℝ} (hf : Continuous f) : ∃ B, ∀ θ φ, |f (dir θ φ)| ≤ B := by
  obtain ⟨B, hB⟩ := (isCompact_closedBall (0 : Fin 3 → ℝ) 1).exists_bound_of_continuousOn hf.continuousOn
  exact ⟨B, fun θ φ => hB _ (dir_bound θ φ)⟩

theorem integrable_sky {G : (Fin 3 → ℝ) → ℝ} (hG : Measurable G) {B : ℝ} (hB : ∀ θ φ, |G (dir θ φ)| ≤ B) :
    Integrable G sky := by
  refine Integrable.of_bound hG.aestronglyMeasurable B ?_
  have hS : MeasurableSet {w | ‖G w‖ ≤ B} := measurableSet_le hG.norm measurable_const
  rw [sky, ae_map_iff measurable_dir.aemeasurable hS]
  exact Filter.Eventually.of_forall fun p => hB _ _

/-- The averages over the pixels of what two pulsars see in common go to the average over the sky. -/
theorem even_common {npix : ℕ → ℕ} {θ φ : (n : ℕ) → Fin (npix n) → ℝ} (he : Even npix θ φ) (p q : Pos) (hp : IsUnit3 p)
    (hq : IsUnit3 q) : Filter.Tendsto (fun n => (∑ k, common p q (θ n k) (φ n k)) / npix n) Filter.atTop
      (nhds (skyMean (common p q))) := by
  rw [Metric.tendsto_atTop]
  intro ε hε
  obtain ⟨k, hk⟩ := exists_nat_one_div_lt (show 0 < ε / 8 by linarith)
  have h1 := he _ (continuous_smooth k (dot p q) p q)
  have hcn : ∀ r : Pos, Continuous fun w : Fin 3 → ℝ => ((1 + dot w r) / 2) ^ k := fun r =>
    ((continuous_const.add (continuous_dot r)).div_const 2).pow k
  have h2 := he _ (hcn p)
  have h3 := he _ (hcn q)
  rw [mean_near k p hp] at h2
  rw [mean_near k q hq] at h3
  obtain ⟨B, hB⟩ := exists_bound (continuous_smooth k (dot p q) p q)
  have hmean : |skyMean (common p q) - skyMean (fun a b => smooth k (dot p q) (dot (dir a b) p) (dot (dir a b) q))| ≤
      1 / (k + 1) + 1 / (k + 1) := by
    have hm := measurable_kern (dot p q) p q
    have hb : ∀ θ φ, |kern (dot p q) (dot (dir θ φ) p) (dot (dir θ φ) q)| ≤ 1 := fun θ φ => by
      rw [← common_eq p q hp hq]; exact common_le p q hp hq θ φ
    have e1 : skyMean (common p q) = (∫ w, kern (dot p q) (dot w p) (dot w q) ∂sky) / (4 * π) := by
      rw [← skyMean_eq _ hm hb]
      congr 1
      funext a b
      exact common_eq p q hp hq a b
    rw [e1, skyMean_eq _ (continuous_smooth k (dot p q) p q).measurable hB, ← mean_near k p hp]
    nth_rw 2 [mean_near k p hp]
    rw [← mean_near k q hq, skyMean_eq _ (hcn p).measurable (near_bound k p hp), skyMean_eq _ (hcn q).measurable (near_bound k q hq),
      ← sub_div, ← add_div, abs_div, abs_of_pos (show 0 < 4 * π by positivity)]
    refine div_le_div_of_nonneg_right ?_ (by positivity)
    have i1 := integrable_sky hm hb
    have i2 := integrable_sky (continuous_smooth k (dot p q) p q).measurable hB
    have i3 := integrable_sky (hcn p).measurable (near_bound k p hp)
    have i4 := integrable_sky (hcn q).measurable (near_bound k q hq)
    rw [← integral_sub i1 i2, ← integral_add i3 i4]
    refine (abs_integral_le_integral_abs).trans ?_
    refine integral_mono_ae (i1.sub i2).abs (i3.add i4) ?_
    have hS : MeasurableSet {w : Fin 3 → ℝ | |kern (dot p q) (dot w p) (dot w q) - smooth k (dot p q) (dot w p) (dot w q)| ≤
        ((1 + dot w p) / 2) ^ k + ((1 + dot w q) / 2) ^ k} :=
      measurableSet_le (continuous_abs.measurable.comp (hm.sub (continuous_smooth k (dot p q) p q).measurable)) ((hcn p).add (hcn q)).measurable
    rw [Filter.EventuallyLE, sky, ae_map_iff measurable_dir.aemeasurable hS]
    refine Filter.Eventually.of_forall fun x => ?_
    have := smooth_near k p q hp hq x.1 x.2
    rw [common_eq p q hp hq] at this
    exact this
  have hpt : ∀ n, |(∑ k, common p q (θ n k) (φ n k)) / npix n -
      (∑ i, smooth k (dot p q) (dot (dir (θ n i) (φ n i)) p) (dot (dir (θ n i) (φ n i)) q)) / npix n| ≤
      (∑ i, ((1 + dot (dir (θ n i) (φ n i)) p) / 2) ^ k) / npix n + (∑ i, ((1 + dot (dir (θ n i) (φ n i)) q) / 2) ^ k) / npix n := by
    intro n
    rw [← sub_div, ← add_div, abs_div, abs_of_nonneg (Nat.cast_nonneg (npix n) : (0 : ℝ) ≤ _), ← Finset.sum_sub_distrib,
      ← Finset.sum_add_distrib]
    refine div_le_div_of_nonneg_right ?_ (Nat.cast_nonneg _)
    exact (Finset.abs_sum_le_sum_abs _ _).trans (Finset.sum_le_sum fun i _ => smooth_near k p q hp hq _ _)
  rw [Metric.tendsto_atTop] at h1 h2 h3
  obtain ⟨n1, hn1⟩ := h1 (ε / 8) (by linarith)
  obtain ⟨n2, hn2⟩ := h2 (ε / 8) (by linarith)
  obtain ⟨n3, hn3⟩ := h3 (ε / 8) (by linarith)
  refine ⟨max n1 (max n2 n3), fun n hn => ?_⟩
  have g1 := abs_lt.1 (hn1 n (le_trans (le_max_left _ _) hn))
  have g2 := abs_lt.1 (hn2 n (le_trans (le_trans (le_max_left _ _) (le_max_right _ _)) hn))
  have g3 := abs_lt.1 (hn3 n (le_trans (le_trans (le_max_right _ _) (le_max_right _ _)) hn))
  have g4 := abs_le.1 (hpt n)
  have g5 := abs_le.1 hmean
  rw [Real.dist_eq, abs_lt]
  constructor <;> linarith [g1.1, g1.2, g2.1, g2.2, g3.1, g3.2, g4.1, g4.2, g5.1, g5.2]

theorem dir_opposite (θ φ : ℝ) : dir (π - θ) (φ + π) = -dir θ φ := by
  funext i
  match i with
  | 0 => simp [dir]
  | 1 => simp [dir]
  | 2 => simp [dir]

/-- The opposite points are evenly distributed as well. -/
theorem even_opposite {npix : ℕ → ℕ} {θ φ : (n : ℕ) → Fin (npix n) → ℝ} (he : Even npix θ φ) :
    Even npix (fun n k => π - θ n k) (fun n k => φ n k + π) := by
  intro f hf
  have h := he (fun w => f (-w)) (hf.comp continuous_neg)
  simp only [dir_opposite]
  obtain ⟨B, hB⟩ := exists_bound hf
  have hB' : ∀ θ φ, |f (-dir θ φ)| ≤ B := fun θ φ => by rw [← dir_opposite]; exact hB _ _
  have e : skyMean (fun a b => f (-dir a b)) = skyMean (fun a b => f (dir a b)) := by
    rw [skyMean_eq (fun w => f (-w)) (hf.comp continuous_neg).measurable hB', skyMean_eq f hf.measurable hB]
    have := integral_rotate (M := -1) (by simp) f hf.measurable
    simp only [Matrix.neg_mulVec, Matrix.one_mulVec] at this
    rw [this]
  rw [e] at h
  exact h

open Verif.Anis in
/-- **C125, maps.**  The covariance that `anis_coefficients` makes of a map of uniform power goes to `hd_orf` when the pixels
become more and cover the sky evenly. -/
theorem C125_maps {npix : ℕ → ℕ} {θ φ : (n : ℕ) → Fin (npix n) → ℝ} (he : Even npix θ φ) {P : ℕ} (ptheta pphi : Fin P → ℝ)
    (hinj : Function.Injective fun a => psrVec (pphi a) (ptheta a)) (a b : Fin P) :
    Filter.Tendsto (fun n => orfFromMap (response ptheta pphi (θ n) (φ n)) (fun _ => 1) a b) Filter.atTop
      (nhds (hdOrf (psrVec (pphi a) (ptheta a)) (psrVec (pphi b) (ptheta b)))) := by
  set p := psrVec (pphi a) (ptheta a) with hpd
  set q := psrVec (pphi b) (ptheta b) with hqd
  have hp : IsUnit3 p := psrVec_unit _ _
  have hq : IsUnit3 q := psrVec_unit _ _
  have hlim := even_common (even_opposite he) p q hp hq
  have e1 : ∀ n, orfFromMap (response ptheta pphi (θ n) (φ n)) (fun _ => 1) a b =
      (if a = b then 2 else 1) * (3 / 2) * ((∑ k, common p q (π - θ n k) (φ n k + π)) / npix n) := by
    intro n
    rw [C74_entries, power, mul_comm, mul_assoc]
    congr 1
    rw [← mul_div_assoc, Finset.mul_sum, Finset.sum_div]
    refine Finset.sum_congr rfl fun k _ => ?_
    obtain ⟨r1, r2⟩ := C74_response (N := npix n) (pphi a) (ptheta a) (φ n k) (θ n k)
    obtain ⟨r3, r4⟩ := C74_response (N := npix n) (pphi b) (ptheta b) (φ n k) (θ n k)
    have hs : scale (npix n) * scale (npix n) = 1.5 / npix n := by
      unfold scale
      rw [div_mul_div_comm, Real.mul_self_sqrt (by norm_num), Real.mul_self_sqrt (by positivity)]
    simp only [response, Matrix.of_apply, col_div, col_mod, if_true, one_ne_zero, if_false, r1, r2, r3, r4, common]
    rw [show ∀ u v w z : ℝ, 1 * (-(scale (npix n) * u) * -(scale (npix n) * v) + scale (npix n) * w * (scale (npix n) * z)) =
      scale (npix n) * scale (npix n) * (u * v + w * z) from fun u v w z => by ring, hs]
    ring
  simp only [e1]
  have h2 := hlim.const_mul ((if a = b then 2 else 1) * (3 / 2))
  have e2 : hdOrf p q = (if a = b then 2 else 1) * (3 / 2) * skyMean (common p q) := by
    by_cases hab : a = b
    · subst hab
      rw [if_pos rfl, C125_same p hp, mul_assoc]
    · rw [if_neg hab, one_mul, C125_pair p q hp hq fun e => hab (hinj e)]
  rw [e2]
  exact h2

open Verif.Anis Verif.SkyMap in
/-- The map of the monopole that `anis_orf` uses is 1 everywhere. -/
theorem monopole {N : ℕ} {Y : Int → Nat → Fin N → ℂ} (hY : Harmonics Y) (lmax : ℕ) :
    alm2map Y lmax (almList (lmax + 1) fun i => if i = 0 then 2 * √π else 0) = fun _ => 1 := by
  have h := alm2map_eq hY (lmax + 1) fun i => if i = 0 then 2 * √π else 0
  rw [show ((lmax + 1 : Nat) : Int) - 1 = lmax by push_cast; ring] at h
  rw [h]
  funext k
  have hpi : √π ≠ 0 := (sqrt_pos.2 pi_pos).ne'
  have h0 : ∀ k, Y 0 0 k = ((1 / (2 * √π) : ℝ) : ℂ) := fun k => by
    rw [hY.first, sqrt_mul (by norm_num), show √(4 : ℝ) = 2 by rw [show (4 : ℝ) = 2 ^ 2 by norm_num]; exact sqrt_sq (by norm_num)]
  rw [mapOf_eq, Finset.sum_eq_single 0]
  · rw [if_pos (by norm_num), Finset.range_zero, Finset.sum_empty, add_zero]
    simp only [realSphHarm, lt_irrefl, if_false, if_true, h0, Complex.ofReal_re]
    field_simp
  · intro l _ hl
    rw [if_neg (by positivity), zero_mul, zero_add]
    refine Finset.sum_eq_zero fun m hm => ?_
    have hm := Finset.mem_range.1 hm
    have : l ≤ l ^ 2 := Nat.le_self_pow two_ne_zero l
    rw [if_neg (by omega), if_neg (by omega), zero_mul, zero_mul, add_zero]
  · intro h
    exact absurd (Finset.mem_range.2 (Nat.succ_pos lmax)) h

open Verif.Anis Verif.SkyMap in
/-- **C125, `anis_orf`.**  `anis_orf` without anisotropy, which is what it is with all parameters zero, goes to `hd_orf`. -/
theorem C125_anis {npix : ℕ → ℕ} {θ φ : (n : ℕ) → Fin (npix n) → ℝ} (he : Even npix θ φ) {P : ℕ} (ptheta pphi : Fin P → ℝ)
    (hinj : Function.Injective fun a => psrVec (pphi a) (ptheta a)) (lmax : ℕ)
    (Y : (n : ℕ) → Int → Nat → Fin (npix n) → ℂ) (hY : ∀ n, Harmonics (Y n)) (a b : Fin P) :
    ∃ basis : ℕ → List (Matrix (Fin P) (Fin P) ℝ), ∃ value : ℕ → ℝ,
      (∀ n, anisBasis (alm2map (Y n)) (response ptheta pphi (θ n) (φ n)) lmax = .ok (basis n)) ∧
      (∀ n, anisOrf ((basis n).map asFun) P (List.ofFn fun c => psrVec (pphi c) (ptheta c)) lmax
        (List.replicate ((lmax + 1) ^ 2 - 1) 0) (psrVec (pphi a) (ptheta a)) (psrVec (pphi b) (ptheta b)) = .ok (value n)) ∧
      Filter.Tendsto value Filter.atTop (nhds (hdOrf (psrVec (pphi a) (ptheta a)) (psrVec (pphi b) (ptheta b)))) := by
  have hclm : anisClm lmax (List.replicate ((lmax + 1) ^ 2 - 1) 0) =
      .ok (2 * √π :: List.replicate ((lmax + 1) ^ 2 - 1) 0) := by
    unfold anisClm
    by_cases h0 : lmax = 0
    · subst h0; simp
    · simp only [if_neg h0]
      rw [if_pos (by simp)]
  have hlen := anisClm_length hclm
  have hs : Nat.sqrt (2 * √π :: List.replicate ((lmax + 1) ^ 2 - 1) (0 : ℝ)).length = lmax + 1 := by rw [hlen, sq]; exact Nat.sqrt_eq _
  have hfun : (fun k => (2 * √π :: List.replicate ((lmax + 1) ^ 2 - 1) (0 : ℝ)).getD k 0) = fun i => if i = 0 then 2 * √π else 0 := by
    funext i
    cases i with
    | zero => simp
    | succ i =>
      rw [if_neg (by omega), List.getD_cons_succ, List.getD_eq_getElem?_getD, List.getElem?_replicate]
      split <;> rfl
  have hnd : (List.ofFn fun c => psrVec (pphi c) (ptheta c)).Nodup := List.nodup_ofFn.2 hinj
  have key := fun n => C94_partial (C118_linear (Y n)) (response ptheta pphi (θ n) (φ n)) lmax hclm _ hnd (List.length_ofFn)
  choose basis M h1 h2 h3 using key
  refine ⟨basis, fun n => M n a b, h1, fun n => ?_, ?_⟩
  · have := h3 n a b
    simpa using this
  · refine (C125_maps he ptheta pphi hinj a b).congr fun n => ?_
    have e := h2 n
    rw [getCov_eq, hs, hfun, show ((lmax + 1 : Nat) : Int) - 1 = lmax by push_cast; ring,
      monopole (hY n)] at e
    rw [Except.ok.inj e]

/-! ### A sequence of maps that covers the sky evenly -/

theorem riemann {F : ℝ → ℝ} (hF : Continuous F) {N : ℕ} (hN : 0 < N) {ε : ℝ}
    (h : ∀ x ∈ Set.Icc (0 : ℝ) 1, ∀ y ∈ Set.Icc (0 : ℝ) 1, |x - y| ≤ 1 / N → |F x - F y| ≤ ε) :
    |(∑ i : Fin N, F ((i : ℕ) / N)) / N - ∫ x in (0 : ℝ)..1, F x| ≤ ε := by
  have hN' : (0 : ℝ) < N := Nat.cast_pos.2 hN
  have e1 : (∫ x in (0 : ℝ)..1, F x) = ∑ i ∈ Finset.range N, ∫ x in ((i : ℕ) / N : ℝ)..(((i + 1 : ℕ) : ℝ) / N), F x := by
    rw [intervalIntegral.sum_integral_adjacent_intervals fun i _ => hF.intervalIntegrable _ _]
    simp [hN'.ne']
  rw [Fin.sum_univ_eq_sum_range (fun i : ℕ => F ((i : ℝ) / N)) N, e1, Finset.sum_div, ← Finset.sum_sub_distrib]
  refine (Finset.abs_sum_le_sum_abs _ _).trans ?_
  have hterm : ∀ i ∈ Finset.range N, |F ((i : ℝ) / N) / N - ∫ x in ((i : ℕ) / N : ℝ)..(((i + 1 : ℕ) : ℝ) / N), F x| ≤ ε / N := by
    intro i hi
    have hi' : i < N := Finset.mem_range.1 hi
    have hlen : ((i + 1 : ℕ) : ℝ) / N - (i : ℝ) / N = 1 / N := by push_cast; ring
    have hle : (i : ℝ) / N ≤ ((i + 1 : ℕ) : ℝ) / N := by
      have : (0 : ℝ) < 1 / N := by positivity
      linarith
    have e2 : F ((i : ℝ) / N) / N = ∫ x in ((i : ℕ) / N : ℝ)..(((i + 1 : ℕ) : ℝ) / N), F ((i : ℝ) / N) := by
      rw [intervalIntegral.integral_const, hlen, smul_eq_mul]; ring
    rw [e2, ← intervalIntegral.integral_sub (continuous_const.intervalIntegrable _ _) (hF.intervalIntegrable _ _)]
    have := intervalIntegral.norm_integral_le_of_norm_le_const (C := ε) (f := fun x => F ((i : ℝ) / N) - F x)
      (a := (i : ℝ) / N) (b := ((i + 1 : ℕ) : ℝ) / N) ?_
    · rw [hlen, abs_of_pos (by positivity), mul_one_div] at this
      exact this
    · intro x hx
      rw [Set.uIoc_of_le hle] at hx
      have h0 : (0 : ℝ) ≤ (i : ℝ) / N := by positivity
      have h1 : ((i + 1 : ℕ) : ℝ) / N ≤ 1 := by
        rw [div_le_one hN']
        exact_mod_cast hi'
      refine h _ ⟨h0, hle.trans h1⟩ _ ⟨h0.trans hx.1.le, hx.2.trans h1⟩ ?_
      rw [abs_sub_comm, abs_of_nonneg (by linarith [hx.1])]
      linarith [hx.2]
  refine (Finset.sum_le_sum hterm).trans ?_
  rw [Finset.sum_const, Finset.card_range, nsmul_eq_mul]
  field_simp
  exact le_rfl

theorem continuous_dir_of {α : Type} [TopologicalSpace α] {a b : α → ℝ} (ha : Continuous a) (hb : Continuous b) :
    Continuous fun x => dir (a x) (b x) := by
  refine continuous_pi fun i => ?_
  match i with
  | 0 => exact (continuous_sin.comp ha).mul (continuous_cos.comp hb)
  | 1 => exact (continuous_sin.comp ha).mul (continuous_sin.comp hb)
  | 2 => exact continuous_cos.comp ha

theorem continuous_dir : Continuous fun x : ℝ × ℝ => dir x.1 x.2 := continuous_dir_of continuous_fst continuous_snd

/-- The average over the sky in coordinates in which the area is uniform. -/
theorem skyMean_unit {f : (Fin 3 → ℝ) → ℝ} (hf : Continuous f) :
    skyMean (fun a b => f (dir a b)) = ∫ u in (0 : ℝ)..1, ∫ v in (0 : ℝ)..1, f (dir (arccos (1 - 2 * u)) (2 * π * v)) := by
  have hpi := pi_ne_zero
  have hin : ∀ a : ℝ, (∫ v in (0 : ℝ)..1, f (dir a (2 * π * v))) = (2 * π)⁻¹ * ∫ b in (0 : ℝ)..(2 * π), f (dir a b) := by
    intro a
    rw [intervalIntegral.integral_comp_mul_left (fun b => f (dir a b)) (by positivity : 2 * π ≠ 0)]
    simp
  simp only [hin]
  have hcont : Continuous fun a : ℝ => ∫ b in (0 : ℝ)..(2 * π), f (dir a b) :=
    intervalIntegral.continuous_parametric_intervalIntegral_of_continuous' (f := fun a b => f (dir a b)) (hf.comp continuous_dir) _ _
  have hsub := intervalIntegral.integral_comp_mul_deriv (a := 0) (b := π) (f := fun x => (1 - cos x) / 2) (f' := fun x => sin x / 2)
    (g := fun u => (2 * π)⁻¹ * ∫ b in (0 : ℝ)..(2 * π), f (dir (arccos (1 - 2 * u)) b)) (fun x _ => by
      have := ((hasDerivAt_cos x).const_sub 1).div_const 2
      rwa [neg_neg] at this) (by fun_prop) (by
      refine continuous_const.mul (hcont.comp (continuous_arccos.comp (by fun_prop))))
  simp only [cos_zero, cos_pi, sub_self, zero_div, sub_neg_eq_add, Function.comp] at hsub
  rw [show ((1 : ℝ) + 1) / 2 = 1 by norm_num] at hsub
  rw [← hsub, skyMean, ← intervalIntegral.integral_div]
  refine intervalIntegral.integral_congr fun x hx => ?_
  rw [Set.uIcc_of_le pi_pos.le] at hx
  rw [show 1 - 2 * ((1 - cos x) / 2) = cos x by ring, arccos_cos hx.1 hx.2]
  field_simp
  ring

/-- The number of pixels of a grid with the same number of bands and of pixels in each. -/
def gridPix (n : ℕ) : ℕ := (n + 1) * (n + 1)

/-- Bands of equal area. -/
noncomputable def gridTheta (n : ℕ) (k : Fin (gridPix n)) : ℝ := arccos (1 - 2 * ((k.divNat : ℕ) / ((n + 1 : ℕ) : ℝ)))

/-- Pixels of equal width. -/
noncomputable def gridPhi (n : ℕ) (k : Fin (gridPix n)) : ℝ := 2 * π * ((k.modNat : ℕ) / ((n + 1 : ℕ) : ℝ))

/-- There are maps that cover the sky evenly. -/
theorem even_grid : Even gridPix gridTheta gridPhi := by
  intro f hf
  rw [skyMean_unit hf, Metric.tendsto_atTop]
  intro ε hε
  set G : ℝ × ℝ → ℝ := fun x => f (dir (arccos (1 - 2 * x.1)) (2 * π * x.2)) with hG
  have hGc : Continuous G :=
    hf.comp (continuous_dir_of (a := fun x : ℝ × ℝ => arccos (1 - 2 * x.1)) (b := fun x : ℝ × ℝ => 2 * π * x.2)
      (continuous_arccos.comp (by fun_prop)) (by fun_prop))
  have hcomp : IsCompact (Set.Icc (0 : ℝ) 1 ×ˢ Set.Icc (0 : ℝ) 1) := isCompact_Icc.prod isCompact_Icc
  have huc := (hcomp.uniformContinuousOn_of_continuous hGc.continuousOn)
  clear_value G
  obtain ⟨δ, hδ, huc⟩ := Metric.uniformContinuousOn_iff_le.1 huc (ε / 4) (by linarith)
  obtain ⟨n0, hn0⟩ := exists_nat_one_div_lt hδ
  refine ⟨n0, fun n hn => ?_⟩
  have hstep : 1 / ((n + 1 : ℕ) : ℝ) ≤ δ := by
    refine le_trans ?_ hn0.le
    push_cast
    exact one_div_le_one_div_of_le (by positivity) (by exact_mod_cast Nat.succ_le_succ hn)
  have hout : Continuous fun u : ℝ => ∫ v in (0 : ℝ)..1, G (u, v) :=
    intervalIntegral.continuous_parametric_intervalIntegral_of_continuous' (f := fun u v => G (u, v)) hGc _ _
  have hin : ∀ u ∈ Set.Icc (0 : ℝ) 1, |(∑ j : Fin (n + 1), G (u, (j : ℕ) / ((n + 1 : ℕ) : ℝ))) / ((n + 1 : ℕ) : ℝ) -
      ∫ v in (0 : ℝ)..1, G (u, v)| ≤ ε / 4 := by
    intro u hu
    refine riemann (hGc.comp (Continuous.prodMk continuous_const continuous_id)) (Nat.succ_pos n) fun x hx y hy hxy => ?_
    refine huc (u, x) ⟨hu, hx⟩ (u, y) ⟨hu, hy⟩ ?_
    rw [Prod.dist_eq, dist_self, Real.dist_eq]
    exact max_le hδ.le (hxy.trans hstep)
  have ho : |(∑ i : Fin (n + 1), ∫ v in (0 : ℝ)..1, G ((i : ℕ) / ((n + 1 : ℕ) : ℝ), v)) / ((n + 1 : ℕ) : ℝ) -
      ∫ u in (0 : ℝ)..1, ∫ v in (0 : ℝ)..1, G (u, v)| ≤ ε / 4 := by
    refine riemann hout (Nat.succ_pos n) fun x hx y hy hxy => ?_
    have hi : ∀ x : ℝ, IntervalIntegrable (fun v => G (x, v)) volume 0 1 := fun x =>
      (hGc.comp (Continuous.prodMk continuous_const continuous_id)).intervalIntegrable _ _
    rw [← intervalIntegral.integral_sub (hi x) (hi y)]
    have := intervalIntegral.norm_integral_le_of_norm_le_const (C := ε / 4) (f := fun v => G (x, v) - G (y, v)) (a := 0) (b := 1) ?_
    · rw [sub_zero, abs_one, mul_one] at this
      exact this
    · intro v hv
      rw [Set.uIoc_of_le zero_le_one] at hv
      refine huc (x, v) ⟨hx, hv.1.le, hv.2⟩ (y, v) ⟨hy, hv.1.le, hv.2⟩ ?_
      rw [Prod.dist_eq, dist_self, Real.dist_eq]
      exact max_le (hxy.trans hstep) hδ.le
  have hN : (0 : ℝ) < ((n + 1 : ℕ) : ℝ) := by positivity
  have e1 : (∑ k, f (dir (gridTheta n k) (gridPhi n k))) / gridPix n =
      (∑ i : Fin (n + 1), (∑ j : Fin (n + 1), G ((i : ℕ) / ((n + 1 : ℕ) : ℝ), (j : ℕ) / ((n + 1 : ℕ) : ℝ))) / ((n + 1 : ℕ) : ℝ)) /
        ((n + 1 : ℕ) : ℝ) := by
    have h1 : ∑ k, f (dir (gridTheta n k) (gridPhi n k)) =
        ∑ i : Fin (n + 1), ∑ j : Fin (n + 1), G ((i : ℕ) / ((n + 1 : ℕ) : ℝ), (j : ℕ) / ((n + 1 : ℕ) : ℝ)) := by
      have h := (finProdFinEquiv (m := n + 1) (n := n + 1)).sum_comp fun k : Fin (gridPix n) => f (dir (gridTheta n k) (gridPhi n k))
      refine h.symm.trans ((Fintype.sum_prod_type _).trans ?_)
      refine Finset.sum_congr rfl fun i _ => Finset.sum_congr rfl fun j _ => ?_
      have hs := finProdFinEquiv.symm_apply_apply (i, j)
      have hd : (finProdFinEquiv (i, j)).divNat = i := congrArg Prod.fst hs
      have hm : (finProdFinEquiv (i, j)).modNat = j := congrArg Prod.snd hs
      simp only [gridTheta, gridPhi, hG]
      rw [hd, hm]
    rw [h1, ← Finset.sum_div, div_div, gridPix]
    push_cast
    rfl
  have e2 : |(∑ i : Fin (n + 1), (∑ j : Fin (n + 1), G ((i : ℕ) / ((n + 1 : ℕ) : ℝ), (j : ℕ) / ((n + 1 : ℕ) : ℝ))) / ((n + 1 : ℕ) : ℝ)) /
      ((n + 1 : ℕ) : ℝ) - (∑ i : Fin (n + 1), ∫ v in (0 : ℝ)..1, G ((i : ℕ) / ((n + 1 : ℕ) : ℝ), v)) / ((n + 1 : ℕ) : ℝ)| ≤ ε / 4 := by
    rw [← sub_div, abs_div, abs_of_pos hN, ← Finset.sum_sub_distrib, div_le_iff₀ hN]
    refine (Finset.abs_sum_le_sum_abs _ _).trans ?_
    refine (Finset.sum_le_sum fun (i : Fin (n + 1)) _ => hin ((i : ℕ) / ((n + 1 : ℕ) : ℝ)) ⟨by positivity, ?_⟩).trans ?_
    · rw [div_le_one hN]; exact_mod_cast i.2.le
    · rw [Finset.sum_const, Finset.card_univ, Fintype.card_fin, nsmul_eq_mul, mul_comm]
  have e3 : (∫ u in (0 : ℝ)..1, ∫ v in (0 : ℝ)..1, f (dir (arccos (1 - 2 * u)) (2 * π * v))) =
      ∫ u in (0 : ℝ)..1, ∫ v in (0 : ℝ)..1, G (u, v) := by simp only [hG]
  rw [Real.dist_eq, e1, e3]
  have g1 := abs_le.1 e2
  have g2 := abs_le.1 ho
  rw [abs_lt]
  constructor <;> linarith [g1.1, g1.2, g2.1, g2.2]

/-! ### Examples -/

/-- Two pulsars at a right angle. -/
example : hdOrf ![1, 0, 0] ![0, 1, 0] = 3 / 2 * skyMean (common ![1, 0, 0] ![0, 1, 0]) :=
  C125_pair _ _ (by simp [IsUnit3, dot, Fin.sum_univ_three]) (by simp [IsUnit3, dot, Fin.sum_univ_three])
    fun e => by simpa using congrFun e 0

example : hdOrf ![1, 0, 0] ![1, 0, 0] = 2 * (3 / 2 * skyMean (common ![1, 0, 0] ![1, 0, 0])) :=
  C125_same _ (by simp [IsUnit3, dot, Fin.sum_univ_three])

open Verif.Anis in
/-- Two pulsars at a right angle on the grid. -/
example (a b : Fin 2) : Filter.Tendsto
    (fun n => orfFromMap (response ![0, π / 2] ![0, 0] (gridTheta n) (gridPhi n)) (fun _ => 1) a b) Filter.atTop
    (nhds (hdOrf (psrVec ((![0, 0] : Fin 2 → ℝ) a) ((![0, π / 2] : Fin 2 → ℝ) a)) (psrVec ((![0, 0] : Fin 2 → ℝ) b) ((![0, π / 2] : Fin 2 → ℝ) b)))) :=
  C125_maps even_grid _ _ (by
    intro x y e
    have h := congrFun e 2
    match x, y with
    | 0, 0 => rfl
    | 1, 1 => rfl
    | 0, 1 => simp [psrVec] at h
    | 1, 0 => simp [psrVec] at h) a b

open Verif.Anis Verif.SkyMap in
/-- `anis_orf` of two pulsars at a right angle with `lmax = 1`, on the grid. -/
example :=
  C125_anis even_grid (P := 2) ![0, π / 2] ![0, 0] (by
    intro x y e
    have h := congrFun e 2
    match x, y with
    | 0, 0 => rfl
    | 1, 1 => rfl
    | 0, 1 => simp [psrVec] at h
    | 1, 0 => simp [psrVec] at h) 1 (fun n => low (gridTheta n) (gridPhi n)) (fun _ => low_harmonics _ _) 0 1

end Verif.HdSky
