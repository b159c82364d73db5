import Mathlib.Probability.Distributions.Gaussian.Real
import Verif.Model.Priors
import Verif.Lemmas.Density

/-!
# Prior densities, quantile functions and samplers

C61, C62, C63, C86.
-/

namespace Verif.Priors

open Verif Verif.Spec Verif.Density MeasureTheory Set

/-! ## Elementwise operators -/

section
variable {α β γ : Type}

@[simp] theorem map2_num (f : α → β → γ) (x : α) (y : β) : Arr.map2 f (.num x) (.num y) = .ok (.num (f x y)) := rfl

theorem map2_vec (f : α → β → γ) (xs : List α) (ys : List β) (h : xs.length = ys.length) :
    Arr.map2 f (.vec xs) (.vec ys) = .ok (.vec (List.zipWith f xs ys)) := by
  simp only [Arr.map2, if_pos h]

theorem map2_ofFn {n : ℕ} (f : α → β → γ) (x : Fin n → α) (y : Fin n → β) :
    Arr.map2 f (.vec (List.ofFn x)) (.vec (List.ofFn y)) = .ok (.vec (List.ofFn fun i => f (x i) (y i))) := by
  rw [map2_vec _ _ _ (by simp)]
  congr 2
  apply List.ext_getElem <;> simp

theorem map2_ofFn_num {n : ℕ} (f : α → β → γ) (x : Fin n → α) (y : β) :
    Arr.map2 f (.vec (List.ofFn x)) (.num y) = .ok (.vec (List.ofFn fun i => f (x i) y)) := by
  simp only [Arr.map2, List.map_ofFn]; rfl

theorem map2_num_ofFn {n : ℕ} (f : α → β → γ) (x : α) (y : Fin n → β) :
    Arr.map2 f (.num x) (.vec (List.ofFn y)) = .ok (.vec (List.ofFn fun i => f x (y i))) := by
  simp only [Arr.map2, List.map_ofFn]; rfl

end

/-! ## Uniform -/

theorem uniform_num (x a b : ℝ) :
    uniformPrior (.num x) (.num a) (.num b) = .ok (.num (on a b (fun _ => 1 / (b - a)) x)) := by
  show Except.ok (Arr.num (ofBool (decide (a ≤ x) && decide (x ≤ b)) / (b - a))) = _
  congr 2
  by_cases h1 : a ≤ x <;> by_cases h2 : x ≤ b <;> simp [ofBool, on, indicator, h1, h2]

theorem uniform_hasDeriv (a b x : ℝ) : HasDerivAt (fun t => (t - a) / (b - a)) (1 / (b - a)) x :=
  ((hasDerivAt_id x).sub_const a).div_const (b - a)

/-- **C61**: for `pmin < pmax` the value of `UniformPrior` is a probability density: `1/(pmax-pmin)` on
the closed interval, zero outside, of integral one. -/
theorem C61_density (a b : ℝ) (hab : a < b) :
    ∃ f : ℝ → ℝ, (∀ x, uniformPrior (.num x) (.num a) (.num b) = .ok (.num (f x))) ∧
      IsDensity f ∧ (∀ x, a ≤ x → x ≤ b → f x = 1 / (b - a)) ∧ (∀ x, x < a ∨ b < x → f x = 0) ∧
      (∀ x, a ≤ x → x ≤ b → cdf f x = (x - a) / (b - a)) := by
  have hw : 0 < b - a := sub_pos.2 hab
  refine ⟨on a b fun _ => 1 / (b - a), fun x => uniform_num x a b, ⟨?_, ?_, ?_⟩, ?_, ?_, ?_⟩
  · intro x; exact indicator_nonneg (fun _ _ => by positivity) x
  · exact on_integrable continuous_const
  · rw [on_integral hab.le continuous_const (uniform_hasDeriv a b), sub_self, zero_div, sub_zero, div_self hw.ne']
  · intro x h1 h2; exact indicator_of_mem (show x ∈ Icc a b from ⟨h1, h2⟩) _
  · intro x h; refine indicator_of_notMem (fun hx => ?_) _
    rcases h with h | h
    · exact absurd hx.1 (not_le.2 h)
    · exact absurd hx.2 (not_le.2 h)
  · intro x h1 h2
    rw [on_cdf hab.le continuous_const (uniform_hasDeriv a b), min_eq_left h2, max_eq_right h1]; simp

example : ∃ f : ℝ → ℝ, (∀ x, uniformPrior (.num x) (.num (-10)) (.num (-5)) = .ok (.num (f x))) ∧ f (-7) = 1 / 5 ∧
    f (-4) = 0 ∧ cdf f (-7) = 3 / 5 := by
  obtain ⟨f, h, _, h1, h2, h3⟩ := C61_density (-10) (-5) (by norm_num)
  exact ⟨f, h, by rw [h1 _ (by norm_num) (by norm_num)]; norm_num, h2 _ (by norm_num),
    by rw [h3 _ (by norm_num) (by norm_num)]; norm_num⟩

/-- **C61**: the quantile function maps the unit interval monotonically into the support, and the
distribution function of the density takes it back; outside the unit interval it gives nan. -/
theorem C61_ppf (a b : ℝ) (hab : a < b) (f : ℝ → ℝ)
    (hf : ∀ x, uniformPrior (.num x) (.num a) (.num b) = .ok (.num (f x))) :
    ∃ q : ℝ → ℝ, (∀ u, 0 ≤ u → u ≤ 1 → uniformPPF (.num u) (.num a) (.num b) = .ok (.num (some (q u)))) ∧
      (∀ u, u < 0 ∨ 1 < u → uniformPPF (.num u) (.num a) (.num b) = .ok (.num none)) ∧
      StrictMono q ∧ q 0 = a ∧ q 1 = b ∧ ∀ u, 0 ≤ u → u ≤ 1 → cdf f (q u) = u := by
  have hw : 0 < b - a := sub_pos.2 hab
  obtain ⟨f', h1, _, _, _, hc⟩ := C61_density a b hab
  have hff : f = f' := by
    funext x
    have := (hf x).symm.trans (h1 x)
    injection this with h; injection h
  refine ⟨fun u => u * (b - a) + a, ?_, ?_, ?_, by ring, by ring, ?_⟩
  · intro u h0 h1
    show Except.ok (Arr.num (scipyUniformPpf u a (b - a))) = _
    rw [scipyUniformPpf, if_pos ⟨hw, h0, h1⟩]
  · intro u h
    show Except.ok (Arr.num (scipyUniformPpf u a (b - a))) = _
    rw [scipyUniformPpf, if_neg]
    rintro ⟨_, h0, h1⟩
    rcases h with h | h <;> linarith
  · intro u v h; nlinarith
  · intro u h0 h1
    rw [hff, hc _ (by nlinarith) (by nlinarith)]
    field_simp; ring

example : uniformPPF (.num (1 / 2 : ℚ)) (.num (-10)) (.num (-5)) = .ok (.num (some (-15 / 2))) := by
  show Except.ok (Arr.num (scipyUniformPpf (1 / 2 : ℚ) (-10) (-5 - -10))) = _
  rw [scipyUniformPpf, if_pos (by norm_num)]; norm_num

/-- **C61**: the sampler draws from the density, and stays in the support. -/
theorem C61_sampler (a b : ℝ) (hab : a < b) (f : ℝ → ℝ)
    (hf : ∀ x, uniformPrior (.num x) (.num a) (.num b) = .ok (.num (f x))) :
    Samples (uniformSampler · a b) f ∧ ∀ u, 0 ≤ u → u < 1 → a ≤ uniformSampler u a b ∧ uniformSampler u a b < b := by
  have hw : 0 < b - a := sub_pos.2 hab
  have hff : f = on a b fun _ => 1 / (b - a) := by
    funext x
    have := (hf x).symm.trans (uniform_num x a b)
    injection this with h; injection h
  constructor
  · rw [hff]
    refine on_samples hab continuous_const (uniform_hasDeriv a b) ?_ ?_ ?_
    · rw [sub_self, zero_div, sub_zero, div_self hw.ne']
    · intro x y h; exact (div_lt_div_iff_of_pos_right hw).2 (by linarith)
    · intro u _ _
      show (a + (b - a) * u - a) / (b - a) = (a - a) / (b - a) + u
      field_simp; ring
  · intro u h0 h1
    constructor
    · show a ≤ a + (b - a) * u; nlinarith
    · show a + (b - a) * u < b; nlinarith

/-! ## LinearExp -/

theorem pow10_pos (x : ℝ) : 0 < pow10 x := Real.rpow_pos_of_pos (by norm_num) x

theorem pow10_strictMono : StrictMono pow10 := fun _ _ h => Real.rpow_lt_rpow_of_exponent_lt (by norm_num) h

theorem pow10_hasDeriv (x : ℝ) : HasDerivAt pow10 (pow10 x * Real.log 10) x := by
  have := (hasDerivAt_id x).const_rpow (a := (10 : ℝ)) (by norm_num)
  have e : pow10 = fun y : ℝ => (10 : ℝ) ^ id y := rfl
  rw [e]
  simpa [pow10, mul_comm] using this

theorem log10_pow10 (x : ℝ) : log10 (pow10 x) = x := by
  simp only [log10, pow10]
  exact Real.logb_rpow (by norm_num) (by norm_num)

theorem pow10_log10 {y : ℝ} (hy : 0 < y) : pow10 (log10 y) = y := by
  simp only [log10, pow10]
  exact Real.rpow_logb (by norm_num) (by norm_num) hy

theorem pow10_continuous : Continuous pow10 := by
  unfold pow10
  exact Real.continuous_const_rpow (by norm_num)

/-- The density written on the interval. -/
noncomputable def leDens (a b x : ℝ) : ℝ := Real.log 10 * pow10 x / (pow10 b - pow10 a)

theorem linearExp_num (x a b : ℝ) (hab : a < b) :
    linearExpPrior (.num x) (.num a) (.num b) = .ok (.num (on a b (leDens a b) x)) := by
  have hc : linearExpCheck (.num a) (.num b) = .ok () := by
    show (if (Arr.num (decide (b ≤ a))).any = true then Except.error PyErr.valueError else Except.ok ()) = _
    rw [if_neg]; simp [Arr.any, Arr.entries, hab]
  unfold linearExpPrior
  rw [hc]
  show Except.ok (Arr.num (ofBool (decide (a ≤ x) && decide (x ≤ b)) * Real.log 10 * pow10 x / (pow10 b - pow10 a))) = _
  congr 2
  by_cases h1 : a ≤ x <;> by_cases h2 : x ≤ b <;> simp [ofBool, on, indicator, leDens, h1, h2]

theorem leDens_continuous (a b : ℝ) : Continuous (leDens a b) :=
  (continuous_const.mul pow10_continuous).div_const _

theorem linearExp_hasDeriv (a b x : ℝ) :
    HasDerivAt (fun t => (pow10 t - pow10 a) / (pow10 b - pow10 a)) (leDens a b x) x := by
  have := ((pow10_hasDeriv x).sub_const (pow10 a)).div_const (pow10 b - pow10 a)
  rwa [mul_comm (pow10 x)] at this

/-- **C62**: for `pmin < pmax` the value of `LinearExpPrior` is a probability density, proportional to
`10^x` on the closed interval and zero outside: uniform in `10^x`. -/
theorem C62_density (a b : ℝ) (hab : a < b) :
    ∃ f : ℝ → ℝ, (∀ x, linearExpPrior (.num x) (.num a) (.num b) = .ok (.num (f x))) ∧
      IsDensity f ∧ (∀ x, a ≤ x → x ≤ b → f x = f a * (10 : ℝ) ^ (x - a)) ∧ (∀ x, x < a ∨ b < x → f x = 0) ∧
      (∀ x, a ≤ x → x ≤ b → cdf f x = ((10 : ℝ) ^ x - 10 ^ a) / (10 ^ b - 10 ^ a)) := by
  have hw : 0 < pow10 b - pow10 a := sub_pos.2 (pow10_strictMono hab)
  refine ⟨on a b (leDens a b), fun x => linearExp_num x a b hab, ⟨?_, ?_, ?_⟩, ?_, ?_, ?_⟩
  · intro x
    refine indicator_nonneg (fun t _ => ?_) x
    have := pow10_pos t
    have : 0 < Real.log 10 := Real.log_pos (by norm_num)
    unfold leDens; positivity
  · exact on_integrable (leDens_continuous a b)
  · rw [on_integral hab.le (leDens_continuous a b) (linearExp_hasDeriv a b), sub_self, zero_div, sub_zero,
      div_self hw.ne']
  · intro x h1 h2
    have e1 : on a b (leDens a b) x = leDens a b x := indicator_of_mem (show x ∈ Icc a b from ⟨h1, h2⟩) _
    have e2 : on a b (leDens a b) a = leDens a b a := indicator_of_mem (show a ∈ Icc a b from ⟨le_refl a, hab.le⟩) _
    rw [e1, e2]
    have : pow10 x = pow10 a * 10 ^ (x - a) := by
      unfold pow10; rw [← Real.rpow_add (by norm_num)]; congr 1; ring
    unfold leDens; rw [this]; ring
  · intro x h; refine indicator_of_notMem (fun hx => ?_) _
    rcases h with h | h
    · exact absurd hx.1 (not_le.2 h)
    · exact absurd hx.2 (not_le.2 h)
  · intro x h1 h2
    rw [on_cdf hab.le (leDens_continuous a b) (linearExp_hasDeriv a b), min_eq_left h2, max_eq_right h1]
    simp [pow10]

example : ∃ f : ℝ → ℝ, (∀ x, linearExpPrior (.num x) (.num 0) (.num 1) = .ok (.num (f x))) ∧ f 2 = 0 ∧
    cdf f 1 = 1 := by
  obtain ⟨f, h, _, _, h2, h3⟩ := C62_density 0 1 (by norm_num)
  exact ⟨f, h, h2 _ (by norm_num), by rw [h3 _ (by norm_num) (by norm_num)]; norm_num⟩

/-- **C62**: the quantile function maps the unit interval monotonically onto `[pmin, pmax]`, and the
distribution function of the density takes it back. -/
theorem C62_ppf (a b : ℝ) (hab : a < b) (f : ℝ → ℝ)
    (hf : ∀ x, linearExpPrior (.num x) (.num a) (.num b) = .ok (.num (f x))) :
    ∃ q : ℝ → ℝ, (∀ u, 0 ≤ u → u ≤ 1 → linearExpPPF (.num u) (.num a) (.num b) = .ok (.num (some (q u)))) ∧
      (∀ u, u < 0 ∨ 1 < u → linearExpPPF (.num u) (.num a) (.num b) = .ok (.num none)) ∧
      StrictMonoOn q (Icc 0 1) ∧ q 0 = a ∧ q 1 = b ∧
      ∀ u, 0 ≤ u → u ≤ 1 → a ≤ q u ∧ q u ≤ b ∧ cdf f (q u) = u := by
  have hw : 0 < pow10 b - pow10 a := sub_pos.2 (pow10_strictMono hab)
  have hff : f = on a b (leDens a b) := by
    funext x
    have := (hf x).symm.trans (linearExp_num x a b hab)
    injection this with h; injection h
  have ha := pow10_pos a
  have hb := pow10_pos b
  have hpos : ∀ u : ℝ, 0 ≤ u → 0 < u * (pow10 b - pow10 a) + pow10 a := fun u h0 => by positivity
  have hpow : ∀ u : ℝ, 0 ≤ u → pow10 (log10 (u * (pow10 b - pow10 a) + pow10 a)) =
      u * (pow10 b - pow10 a) + pow10 a := fun u h0 => pow10_log10 (hpos u h0)
  have hrun : ∀ u, linearExpPPF (.num u) (.num a) (.num b) =
      .ok (.num (Option.map log10 (scipyUniformPpf u (pow10 a) (pow10 b - pow10 a)))) := fun u => rfl
  have hmono : StrictMonoOn (fun u : ℝ => log10 (u * (pow10 b - pow10 a) + pow10 a)) (Icc 0 1) := by
    intro u hu v hv h
    rw [← pow10_strictMono.lt_iff_lt, hpow u hu.1, hpow v hv.1]
    nlinarith
  refine ⟨fun u => log10 (u * (pow10 b - pow10 a) + pow10 a), ?_, ?_, hmono, ?_, ?_, ?_⟩
  · intro u h0 h1
    rw [hrun, scipyUniformPpf, if_pos ⟨hw, h0, h1⟩]; rfl
  · intro u h
    rw [hrun, scipyUniformPpf, if_neg]
    · rfl
    · rintro ⟨_, h0, h1⟩
      rcases h with h | h <;> linarith
  · show log10 (0 * (pow10 b - pow10 a) + pow10 a) = a
    rw [zero_mul, zero_add, log10_pow10]
  · show log10 (1 * (pow10 b - pow10 a) + pow10 a) = b
    rw [one_mul, sub_add_cancel, log10_pow10]
  · intro u h0 h1
    have l : a ≤ log10 (u * (pow10 b - pow10 a) + pow10 a) := by
      rw [← pow10_strictMono.le_iff_le, hpow u h0]; nlinarith
    have r : log10 (u * (pow10 b - pow10 a) + pow10 a) ≤ b := by
      rw [← pow10_strictMono.le_iff_le, hpow u h0]; nlinarith
    refine ⟨l, r, ?_⟩
    show cdf f (log10 (u * (pow10 b - pow10 a) + pow10 a)) = u
    rw [hff, on_cdf hab.le (leDens_continuous a b) (linearExp_hasDeriv a b), min_eq_left r, max_eq_right l, hpow u h0]
    field_simp; ring

/-- **C62**: the sampler draws from the density and stays in `[pmin, pmax]`. -/
theorem C62_sampler (a b : ℝ) (hab : a < b) (f : ℝ → ℝ)
    (hf : ∀ x, linearExpPrior (.num x) (.num a) (.num b) = .ok (.num (f x))) :
    ∃ s : ℝ → ℝ, (∀ u, linearExpSampler u a b = .ok (s u)) ∧ Samples s f ∧
      ∀ u, 0 ≤ u → u < 1 → a ≤ s u ∧ s u < b := by
  have hw : 0 < pow10 b - pow10 a := sub_pos.2 (pow10_strictMono hab)
  have hff : f = on a b (leDens a b) := by
    funext x
    have := (hf x).symm.trans (linearExp_num x a b hab)
    injection this with h; injection h
  have ha := pow10_pos a
  have hpow : ∀ u : ℝ, 0 ≤ u → pow10 (log10 (rngUniform u (pow10 a) (pow10 b))) =
      pow10 a + (pow10 b - pow10 a) * u := fun u h0 => pow10_log10 (by
        show 0 < pow10 a + (pow10 b - pow10 a) * u
        positivity)
  refine ⟨fun u => log10 (rngUniform u (pow10 a) (pow10 b)), ?_, ?_, ?_⟩
  · intro u
    unfold linearExpSampler linearExpCheck
    simp only [map2_num]
    show (if (Arr.num (decide (b ≤ a))).any = true then Except.error PyErr.valueError else Except.ok ()).bind _ = _
    rw [if_neg (by simp [Arr.any, Arr.entries, hab])]
    rfl
  · rw [hff]
    refine on_samples hab (leDens_continuous a b) (linearExp_hasDeriv a b) ?_ ?_ ?_
    · rw [sub_self, zero_div, sub_zero, div_self hw.ne']
    · intro x y h; exact (div_lt_div_iff_of_pos_right hw).2 (by have := pow10_strictMono h; linarith)
    · intro u h0 _
      simp only [hpow u h0]
      field_simp; ring
  · intro u h0 h1
    constructor
    · rw [← pow10_strictMono.le_iff_le, hpow u h0]; nlinarith
    · rw [← pow10_strictMono.lt_iff_lt, hpow u h0]; nlinarith

/-- **C62**: `pmin ≥ pmax` is rejected by the density and by the sampler, whatever the value. -/
theorem C62_rejects (a b : ℝ) (hab : b ≤ a) (value : Arr ℝ) (u : ℝ) :
    linearExpPrior value (.num a) (.num b) = .error .valueError ∧
      linearExpSampler u a b = .error .valueError := by
  have hc : linearExpCheck (.num a) (.num b) = .error .valueError := by
    show (if (Arr.num (decide (b ≤ a))).any = true then Except.error PyErr.valueError else Except.ok ()) = _
    rw [if_pos]; simp [Arr.any, Arr.entries, hab]
  unfold linearExpPrior linearExpSampler
  rw [hc]
  exact ⟨rfl, rfl⟩

/-- **C62**: with vector bounds one bad component is enough. -/
theorem C62_rejects_vector {n : ℕ} (a b : Fin n → ℝ) (i : Fin n) (hab : b i ≤ a i) (value : Arr ℝ) :
    linearExpPrior value (.vec (List.ofFn a)) (.vec (List.ofFn b)) = .error .valueError := by
  have hc : linearExpCheck (.vec (List.ofFn a)) (.vec (List.ofFn b)) = .error .valueError := by
    unfold linearExpCheck
    rw [map2_ofFn]
    show (if (Arr.vec (List.ofFn fun i => decide (b i ≤ a i))).any = true then Except.error PyErr.valueError
      else Except.ok ()) = _
    rw [if_pos]
    simp only [Arr.any, Arr.entries, List.any_eq_true, List.mem_ofFn]
    exact ⟨true, ⟨i, by simpa using hab⟩, rfl⟩
  unfold linearExpPrior
  rw [hc]
  rfl

/-- **C62**: the quantile function does not check: with `pmin ≥ pmax` it gives nan without an error. -/
theorem C62_ppf_unchecked (a b : ℝ) (hab : b ≤ a) (u : ℝ) :
    linearExpPPF (.num u) (.num a) (.num b) = .ok (.num none) := by
  show Except.ok (Arr.num (Option.map log10 (scipyUniformPpf u (pow10 a) (pow10 b - pow10 a)))) = _
  rw [scipyUniformPpf, if_neg]
  · rfl
  · rintro ⟨h, _⟩
    have := pow10_strictMono.monotone hab
    linarith

example : linearExpPrior (.vec [0, 1]) (.vec (List.ofFn ![0, 3])) (.vec (List.ofFn ![1, 2])) = .error .valueError :=
  C62_rejects_vector ![0, 3] ![1, 2] 1 (by norm_num) _

/-! ## Normal -/

theorem normal_num (x m s : ℝ) :
    normalPrior (.num x) (.num m) (.num s) =
      .ok (.num (ProbabilityTheory.gaussianPDFReal m (s ^ 2).toNNReal x)) := by
  show Except.ok (Arr.num (Real.exp (-(1 / 2) * (x - m) ^ 2 / s ^ 2) / Real.sqrt (2 * Real.pi * s ^ 2))) = _
  congr 2
  simp only [ProbabilityTheory.gaussianPDFReal_def, Real.coe_toNNReal _ (sq_nonneg s)]
  rw [div_eq_mul_inv, mul_comm]
  congr 2
  show -(1 / 2) * (x - m) ^ 2 / s ^ 2 = -(x - m) ^ 2 / (2 * s ^ 2)
  rcases eq_or_ne s 0 with h | h
  · simp [h]
  · field_simp

/-- **C86**: for a non-zero `sigma` the value of `NormalPrior` is a probability density, positive
everywhere and symmetric about `mu`. -/
theorem C86_normal (m s : ℝ) (hs : s ≠ 0) :
    ∃ f : ℝ → ℝ, (∀ x, normalPrior (.num x) (.num m) (.num s) = .ok (.num (f x))) ∧
      IsDensity f ∧ (∀ x, 0 < f x) ∧ (∀ d, f (m + d) = f (m - d)) ∧ ∀ x, f x = f m * Real.exp (-(x - m) ^ 2 / (2 * s ^ 2)) := by
  have hv : (s ^ 2).toNNReal ≠ 0 := by
    rw [Ne, Real.toNNReal_eq_zero, not_le]; positivity
  refine ⟨ProbabilityTheory.gaussianPDFReal m (s ^ 2).toNNReal, fun x => normal_num x m s,
    ⟨fun x => ProbabilityTheory.gaussianPDFReal_nonneg _ _ x, ProbabilityTheory.integrable_gaussianPDFReal _ _,
      ProbabilityTheory.integral_gaussianPDFReal_eq_one m hv⟩,
    fun x => ProbabilityTheory.gaussianPDFReal_pos _ _ x hv, ?_, ?_⟩
  · intro d; simp [ProbabilityTheory.gaussianPDFReal]
  · intro x
    simp only [ProbabilityTheory.gaussianPDFReal_def, Real.coe_toNNReal _ (sq_nonneg s)]
    rw [sub_self]; simp

example : ∃ f : ℝ → ℝ, (∀ x, normalPrior (.num x) (.num 1) (.num 2) = .ok (.num (f x))) ∧ f 3 = f (-1) := by
  obtain ⟨f, h, _, _, h2, _⟩ := C86_normal 1 2 (by norm_num)
  exact ⟨f, h, by have := h2 2; norm_num at this; exact this⟩

/-! ## TruncNormal -/

theorem erf_diff (a b : ℝ) : erf b - erf a = 2 / Real.sqrt Real.pi * ∫ t in a..b, Real.exp (-t ^ 2) := by
  have hc : Continuous fun t : ℝ => Real.exp (-t ^ 2) := by fun_prop
  unfold erf
  rw [← mul_sub, intervalIntegral.integral_interval_sub_left (hc.intervalIntegrable _ _) (hc.intervalIntegrable _ _)]

theorem erf_strictMono : StrictMono erf := by
  intro a b h
  have hc : Continuous fun t : ℝ => Real.exp (-t ^ 2) := by fun_prop
  rw [← sub_pos, erf_diff]
  have : 0 < ∫ t in a..b, Real.exp (-t ^ 2) :=
    intervalIntegral.intervalIntegral_pos_of_pos_on (hc.intervalIntegrable _ _) (fun _ _ => Real.exp_pos _) h
  have := Real.pi_pos
  positivity

/-- The Gaussian integral over an interval through the error function. -/
theorem gauss_interval (m s a b : ℝ) (hs : 0 < s) :
    ∫ x in a..b, Real.exp (-(1 / 2) * ((x - m) / s) ^ 2) =
      s * Real.sqrt 2 * (Real.sqrt Real.pi / 2) *
        (erf ((b - m) / s / Real.sqrt 2) - erf ((a - m) / s / Real.sqrt 2)) := by
  have h2 : (0 : ℝ) < Real.sqrt 2 := Real.sqrt_pos.2 (by norm_num)
  have hp : (0 : ℝ) < Real.sqrt Real.pi := Real.sqrt_pos.2 Real.pi_pos
  have hk : s * Real.sqrt 2 ≠ 0 := by positivity
  have e : ∀ x : ℝ, Real.exp (-(1 / 2) * ((x - m) / s) ^ 2) =
      (fun t => Real.exp (-t ^ 2)) (x / (s * Real.sqrt 2) - m / (s * Real.sqrt 2)) := by
    intro x
    show _ = Real.exp (-(x / (s * Real.sqrt 2) - m / (s * Real.sqrt 2)) ^ 2)
    congr 1
    rw [← sub_div, div_pow, div_pow, mul_pow, Real.sq_sqrt (by norm_num : (0 : ℝ) ≤ 2)]
    field_simp
  simp only [e]
  rw [intervalIntegral.integral_comp_div_sub (fun t => Real.exp (-t ^ 2)) hk, erf_diff]
  have l : ∀ y : ℝ, y / (s * Real.sqrt 2) - m / (s * Real.sqrt 2) = (y - m) / s / Real.sqrt 2 := by
    intro y; rw [← sub_div, div_div]
  rw [l, l, smul_eq_mul]
  field_simp

theorem truncNorm_eq (m s a b : ℝ) (hs : 0 < s) (hab : a < b) :
    truncNorm m s a b * ∫ x in a..b, Real.exp (-(1 / 2) * ((x - m) / s) ^ 2) = 1 := by
  have h2 : (0 : ℝ) < Real.sqrt 2 := Real.sqrt_pos.2 (by norm_num)
  have hp : (0 : ℝ) < Real.sqrt Real.pi := Real.sqrt_pos.2 Real.pi_pos
  have hE : 0 < erf ((b - m) / s / Real.sqrt 2) - erf ((a - m) / s / Real.sqrt 2) := by
    refine sub_pos.2 (erf_strictMono ?_)
    exact (div_lt_div_iff_of_pos_right h2).2 ((div_lt_div_iff_of_pos_right hs).2 (by linarith))
  rw [gauss_interval m s a b hs, truncNorm, Real.sqrt_mul (by norm_num : (0 : ℝ) ≤ 2)]
  generalize erf ((b - m) / s / Real.sqrt 2) - erf ((a - m) / s / Real.sqrt 2) = E at hE ⊢
  field_simp

/-- **C86**: for `sigma > 0` and `pmin < pmax` the density of a `TruncNormal` parameter, whichever of its
arguments are Parameters and whether or not the normalisation was computed in advance, is a probability
density: zero outside the open interval, proportional to the normal density inside. -/
theorem C86_trunc_normal (m s a b : ℝ) (hs : 0 < s) (hab : a < b) (isPar : Fin 4 → Bool) :
    IsDensity (truncNormalPdf · m s a b isPar) ∧
      (∀ x, x ≤ a ∨ b ≤ x → truncNormalPdf x m s a b isPar = 0) ∧
      (∀ x y, a < x → x < b → a < y → y < b →
        truncNormalPdf x m s a b isPar * Real.exp (-(y - m) ^ 2 / (2 * s ^ 2)) =
          truncNormalPdf y m s a b isPar * Real.exp (-(x - m) ^ 2 / (2 * s ^ 2))) := by
  have h2 : (0 : ℝ) < Real.sqrt 2 := Real.sqrt_pos.2 (by norm_num)
  have hp : (0 : ℝ) < Real.sqrt Real.pi := Real.sqrt_pos.2 Real.pi_pos
  have hE : 0 < erf ((b - m) / s / Real.sqrt 2) - erf ((a - m) / s / Real.sqrt 2) := by
    refine sub_pos.2 (erf_strictMono ?_)
    exact (div_lt_div_iff_of_pos_right h2).2 ((div_lt_div_iff_of_pos_right hs).2 (by linarith))
  have hn : 0 < truncNorm m s a b := by
    have h2p : (0 : ℝ) < Real.sqrt (2 * Real.pi) := Real.sqrt_pos.2 (by have := Real.pi_pos; positivity)
    unfold truncNorm; positivity
  have hnorm : ∀ x, truncNormalPdf x m s a b isPar =
      (Ioo a b).indicator (fun x => truncNorm m s a b * Real.exp (-(1 / 2) * ((x - m) / s) ^ 2)) x := by
    intro x
    have : (truncClassNorm (if isPar 0 then none else some m) (if isPar 1 then none else some s)
        (if isPar 2 then none else some a) (if isPar 3 then none else some b)).getD (truncNorm m s a b) =
        truncNorm m s a b := by
      cases isPar 0 <;> cases isPar 1 <;> cases isPar 2 <;> cases isPar 3 <;> rfl
    unfold truncNormalPdf truncNormalPrior
    simp only [this]
    by_cases h1 : a < x <;> by_cases h2 : x < b <;> simp [indicator, ofBool, h1, h2]
  have hcont : Continuous fun x => truncNorm m s a b * Real.exp (-(1 / 2) * ((x - m) / s) ^ 2) := by fun_prop
  have hfun : (truncNormalPdf · m s a b isPar) =
      (Ioo a b).indicator (fun x => truncNorm m s a b * Real.exp (-(1 / 2) * ((x - m) / s) ^ 2)) := funext hnorm
  refine ⟨⟨?_, ?_, ?_⟩, ?_, ?_⟩
  · intro x; show 0 ≤ truncNormalPdf x m s a b isPar; rw [hnorm]; exact indicator_nonneg (fun _ _ => by positivity) x
  · rw [hfun]
    exact (integrable_indicator_iff measurableSet_Ioo).2
      ((hcont.continuousOn.integrableOn_Icc (a := a) (b := b)).mono_set Ioo_subset_Icc_self)
  · rw [hfun, integral_indicator measurableSet_Ioo, ← integral_Ioc_eq_integral_Ioo,
      ← intervalIntegral.integral_of_le hab.le, intervalIntegral.integral_const_mul]
    exact truncNorm_eq m s a b hs hab
  · intro x h
    rw [hnorm]
    refine indicator_of_notMem (fun hx => ?_) _
    rcases h with h | h
    · exact absurd hx.1 (not_lt.2 h)
    · exact absurd hx.2 (not_lt.2 h)
  · intro x y hx1 hx2 hy1 hy2
    rw [hnorm, hnorm, indicator_of_mem (show x ∈ Ioo a b from ⟨hx1, hx2⟩),
      indicator_of_mem (show y ∈ Ioo a b from ⟨hy1, hy2⟩)]
    have e : ∀ x : ℝ, -(1 / 2) * ((x - m) / s) ^ 2 = -(x - m) ^ 2 / (2 * s ^ 2) := by
      intro x; field_simp
    rw [e, e]; ring

example : IsDensity (truncNormalPdf · 0 1 (-2) 2 ![true, false, false, false]) :=
  (C86_trunc_normal 0 1 (-2) 2 (by norm_num) (by norm_num) _).1

/-! ## Vector parameters -/

/-- The prior evaluates the densities `p i` on the components of a vector value. -/
def Componentwise {n : ℕ} (f : Arr ℝ → Except PyErr (Arr ℝ)) (p : Fin n → ℝ → ℝ) : Prop :=
  ∀ x : Fin n → ℝ, f (.vec (List.ofFn x)) = .ok (.vec (List.ofFn fun i => p i (x i)))

theorem npExp_npLog (x : ℝ) (hx : 0 ≤ x) : npExp (npLog x) = x := by
  unfold npLog
  split_ifs with h
  · rw [h]; rfl
  · exact Real.exp_log (lt_of_le_of_ne hx (Ne.symm h))

theorem npExp_add (x y : WithBot ℝ) : npExp (x + y) = npExp x * npExp y := by
  induction x with
  | bot => rw [WithBot.bot_add]; simp [npExp]
  | coe x =>
    induction y with
    | bot => rw [WithBot.add_bot]; simp [npExp]
    | coe y => exact Real.exp_add x y

theorem npExp_zero : npExp 0 = 1 := Real.exp_zero

theorem npExp_sum (l : List (WithBot ℝ)) : npExp l.sum = (l.map npExp).prod := by
  induction l with
  | nil => exact npExp_zero
  | cons x t ih => rw [List.sum_cons, npExp_add, ih]; rfl

/-- **C63**: whatever the prior (given by a density or by a log density) and the value, as long as the
density is not negative: `get_logpdf` and `get_pdf` of a vector parameter succeed together, are single
numbers, and the second is the exponential of the first. -/
theorem C63_exp (n : ℕ) (d : Density) (value : Arr ℝ)
    (hpos : ∀ f p, d = .prior f → f value = .ok p → ∀ x ∈ p.entries, 0 ≤ x) :
    (∃ e, getLogpdf (some n) d value = .error e ∧ getPdf (some n) d value = .error e) ∨
      ∃ l : WithBot ℝ, getLogpdf (some n) d value = .ok (.num l) ∧ getPdf (some n) d value = .ok (.num (npExp l)) := by
  cases d with
  | prior f =>
    cases h : f value with
    | error e => exact .inl ⟨e, by simp only [getLogpdf, h]; rfl, by simp only [getPdf, h]; rfl⟩
    | ok p =>
      refine .inr ⟨(p.map npLog).entries.sum, by simp only [getLogpdf, h]; rfl, ?_⟩
      simp only [getPdf, h]
      show Except.ok (Arr.num p.entries.prod) = _
      congr 2
      rw [npExp_sum]
      have : (p.map npLog).entries = p.entries.map npLog := by cases p <;> rfl
      rw [this, List.map_map]
      congr 1
      symm
      exact (List.map_congr_left fun x hx => npExp_npLog x (hpos f p rfl h x hx)).trans (List.map_id _)
  | logprior f =>
    cases h : f value with
    | error e => exact .inl ⟨e, by simp only [getLogpdf, h]; rfl, by simp only [getPdf, h]; rfl⟩
    | ok p =>
      refine .inr ⟨p.entries.sum, by simp only [getLogpdf, h]; rfl, ?_⟩
      simp only [getPdf, h]
      show Except.ok (Arr.num (p.map npExp).entries.prod) = _
      congr 2
      rw [npExp_sum]
      cases p <;> rfl

/-- **C63**: `get_logpdf` of a vector parameter is the sum of the log densities of the components,
`get_pdf` the product of the densities; one component out of range makes the density zero and the log
density minus infinity. -/
theorem C63_components {n : ℕ} (f : Arr ℝ → Except PyErr (Arr ℝ)) (p : Fin n → ℝ → ℝ) (hf : Componentwise f p)
    (x : Fin n → ℝ) :
    getLogpdf (some n) (.prior f) (.vec (List.ofFn x)) = .ok (.num (∑ i, npLog (p i (x i)))) ∧
      getPdf (some n) (.prior f) (.vec (List.ofFn x)) = .ok (.num (∏ i, p i (x i))) ∧
      ((∃ i, p i (x i) = 0) → getPdf (some n) (.prior f) (.vec (List.ofFn x)) = .ok (.num 0) ∧
        getLogpdf (some n) (.prior f) (.vec (List.ofFn x)) = .ok (.num ⊥)) := by
  have h1 : getLogpdf (some n) (.prior f) (.vec (List.ofFn x)) = .ok (.num (∑ i, npLog (p i (x i)))) := by
    simp only [getLogpdf, hf x]
    show Except.ok (Arr.num ((List.ofFn fun i => p i (x i)).map npLog).sum) = _
    rw [List.map_ofFn, List.sum_ofFn]; rfl
  have h2 : getPdf (some n) (.prior f) (.vec (List.ofFn x)) = .ok (.num (∏ i, p i (x i))) := by
    simp only [getPdf, hf x]
    show Except.ok (Arr.num (List.ofFn fun i => p i (x i)).prod) = _
    rw [List.prod_ofFn]
  refine ⟨h1, h2, ?_⟩
  rintro ⟨i, hi⟩
  rw [h1, h2]
  refine ⟨by rw [Finset.prod_eq_zero (Finset.mem_univ i) hi], ?_⟩
  rw [← Finset.add_sum_erase _ _ (Finset.mem_univ i), hi]
  simp [npLog]

/-- **C63**: the joint density of a vector parameter whose components have probability densities
integrates to one: the components are independent. -/
theorem C63_joint {n : ℕ} (f : Arr ℝ → Except PyErr (Arr ℝ)) (p : Fin n → ℝ → ℝ) (hf : Componentwise f p)
    (hp : ∀ i, IsDensity (p i)) :
    ∃ g : (Fin n → ℝ) → ℝ, (∀ x, getPdf (some n) (.prior f) (.vec (List.ofFn x)) = .ok (.num (g x))) ∧
      (∀ x, 0 ≤ g x) ∧ ∫ x, g x = 1 ∧
      ∀ y : Fin n → ℝ, ∫ x in {x : Fin n → ℝ | ∀ i, x i ≤ y i}, g x = ∏ i, cdf (p i) (y i) := by
  refine ⟨fun x => ∏ i, p i (x i), fun x => (C63_components f p hf x).2.1,
    fun x => Finset.prod_nonneg fun i _ => (hp i).1 (x i), ?_, ?_⟩
  · rw [integral_fintype_prod_volume_eq_prod]
    exact Finset.prod_eq_one fun i _ => (hp i).2.2
  · intro y
    have hset : {x : Fin n → ℝ | ∀ i, x i ≤ y i} = univ.pi fun i => Iic (y i) := by
      ext x; simp only [mem_ofPred_eq, mem_pi, mem_univ, mem_Iic, true_imp_iff]
    have hms : MeasurableSet (univ.pi fun i => Iic (y i) : Set (Fin n → ℝ)) :=
      MeasurableSet.univ_pi fun i => measurableSet_Iic
    rw [hset, ← integral_indicator hms]
    have e : (univ.pi fun i => Iic (y i) : Set (Fin n → ℝ)).indicator (fun x => ∏ i, p i (x i)) =
        fun x => ∏ i, (Iic (y i)).indicator (p i) (x i) := by
      funext x
      by_cases h : x ∈ (univ.pi fun i => Iic (y i) : Set (Fin n → ℝ))
      · rw [indicator_of_mem h]
        exact Finset.prod_congr rfl fun i _ => (indicator_of_mem (h i (mem_univ i)) _).symm
      · rw [indicator_of_notMem h]
        have : ∃ i, x i ∉ Iic (y i) := by
          by_contra hc; push Not at hc; exact h fun i _ => hc i
        obtain ⟨i, hi⟩ := this
        exact (Finset.prod_eq_zero (Finset.mem_univ i) (indicator_of_notMem hi _)).symm
    rw [e, integral_fintype_prod_volume_eq_prod]
    exact Finset.prod_congr rfl fun i _ => integral_indicator measurableSet_Iic

/-- **C63**: a `Uniform` vector parameter, with bounds given per component or once for all, treats each
component by the scalar density with that component's bounds. -/
theorem C63_uniform {n : ℕ} (a b : Fin n → ℝ) (hab : ∀ i, a i < b i) :
    ∃ p : Fin n → ℝ → ℝ, Componentwise (uniformPrior · (.vec (List.ofFn a)) (.vec (List.ofFn b))) p ∧
      (∀ i x, uniformPrior (.num x) (.num (a i)) (.num (b i)) = .ok (.num (p i x))) ∧ (∀ i, IsDensity (p i)) ∧
      ∀ a' b', (∀ i, a i = a') → (∀ i, b i = b') → Componentwise (uniformPrior · (.num a') (.num b')) p := by
  choose p h1 h2 _ _ using fun i => C61_density (a i) (b i) (hab i)
  have hp : ∀ i x, p i x = ofBool (decide (a i ≤ x) && decide (x ≤ b i)) / (b i - a i) := by
    intro i x
    have := (h1 i x).symm
    injection this with h; injection h
  refine ⟨p, ?_, h1, h2, ?_⟩
  · intro x
    simp only [uniformPrior, map2_ofFn, hp]
    simp only [bind, Except.bind, map2_ofFn]
  · intro a' b' ha hb x
    simp only [uniformPrior, map2_ofFn_num, hp, ha, hb]
    simp only [bind, Except.bind, map2_ofFn, map2_num, map2_ofFn_num]

/-- **C63**: the same for `LinearExp`. -/
theorem C63_linear_exp {n : ℕ} (a b : Fin n → ℝ) (hab : ∀ i, a i < b i) :
    ∃ p : Fin n → ℝ → ℝ, Componentwise (linearExpPrior · (.vec (List.ofFn a)) (.vec (List.ofFn b))) p ∧
      (∀ i x, linearExpPrior (.num x) (.num (a i)) (.num (b i)) = .ok (.num (p i x))) ∧ ∀ i, IsDensity (p i) := by
  choose p h1 h2 _ _ using fun i => C62_density (a i) (b i) (hab i)
  have hp : ∀ i x, p i x = ofBool (decide (a i ≤ x) && decide (x ≤ b i)) * Real.log 10 * pow10 x / (pow10 (b i) - pow10 (a i)) := by
    intro i x
    have h3 := (h1 i x).symm.trans (linearExp_num x _ _ (hab i))
    injection h3 with h; injection h with h
    rw [h]
    by_cases h1 : a i ≤ x <;> by_cases h2 : x ≤ b i <;> simp [ofBool, on, indicator, leDens, h1, h2]
  have hc : linearExpCheck (.vec (List.ofFn a)) (.vec (List.ofFn b)) = .ok () := by
    unfold linearExpCheck
    rw [map2_ofFn]
    show (if (Arr.vec (List.ofFn fun i => decide (b i ≤ a i))).any = true then Except.error PyErr.valueError
      else Except.ok ()) = _
    rw [if_neg]
    simp only [Arr.any, Arr.entries, List.any_eq_true, List.mem_ofFn]
    rintro ⟨c, ⟨i, hi⟩, hc⟩
    rw [← hi] at hc
    exact absurd (of_decide_eq_true hc) (not_le.2 (hab i))
  refine ⟨p, ?_, h1, h2⟩
  intro x
  simp only [linearExpPrior, hc, map2_ofFn, hp]
  simp only [bind, Except.bind, map2_ofFn]

/-- **C63**: the same for `Normal` with standard deviations per component. -/
theorem C63_normal {n : ℕ} (m s : Fin n → ℝ) (hs : ∀ i, s i ≠ 0) :
    ∃ p : Fin n → ℝ → ℝ, Componentwise (normalPrior · (.vec (List.ofFn m)) (.vec (List.ofFn s))) p ∧
      (∀ i x, normalPrior (.num x) (.num (m i)) (.num (s i)) = .ok (.num (p i x))) ∧ ∀ i, IsDensity (p i) := by
  choose p h1 h2 _ _ _ using fun i => C86_normal (m i) (s i) (hs i)
  have hp : ∀ i x, p i x = Real.exp (-(1 / 2) * (x - m i) ^ 2 / (s i) ^ 2) / Real.sqrt (2 * Real.pi * s i ^ 2) := by
    intro i x
    have := (h1 i x).symm
    injection this with h; injection h
  refine ⟨p, ?_, h1, h2⟩
  intro x
  simp only [normalPrior, map2_ofFn, hp]
  simp only [bind, Except.bind, map2_ofFn]

example : getPdf (some 3) (.prior (uniformPrior · (.num 0) (.num 2))) (.vec (List.ofFn ![1, 1, 3])) = .ok (.num 0) := by
  obtain ⟨p, _, h2, _, h4⟩ := C63_uniform (n := 3) (fun _ => 0) (fun _ => 2) (fun _ => by norm_num)
  refine ((C63_components _ p (h4 0 2 (fun _ => rfl) fun _ => rfl) ![1, 1, 3]).2.2 ⟨2, ?_⟩).1
  have h := (h2 2 3).symm.trans (uniform_num 3 0 2)
  injection h with h; injection h with h
  show p 2 3 = 0
  rw [h]; exact indicator_of_notMem (by norm_num) _

end Verif.Priors
