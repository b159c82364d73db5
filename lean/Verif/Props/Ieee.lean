import Verif.Lemmas.Ieee

/-!
# Log priors in floating-point arithmetic

C137: the log prior is a finite number inside the support and `-inf` everywhere else.
-/

namespace Verif.Ieee

open Verif

variable (A : Arith) (L : Lib)

/-! ## What is expected -/

/-- The value is a finite number in the set `s`. -/
def In (s : Set ℝ) (v : Fl) : Prop := ∃ x, v = .fin x ∧ x ∈ s

/-- A log prior that a sampler can work with: finite (and not too large to be added to others) or `-inf`. -/
def Usable (r : Fl) : Prop := r = .ninf ∨ ∃ c : ℝ, r = .fin c ∧ |c| ≤ 1000

/-! ## Parts of the formulas -/

theorem abs_pow_le {x : ℝ} {j : ℤ} (hj : j ≤ 1000) (h0 : 0 ≤ x) (h : x ≤ (2 : ℝ) ^ j) : |x| ≤ big := by
  rw [abs_of_nonneg h0]
  exact h.trans (pow_le_big hj)

/-- The bounds of a rounded positive result. -/
theorem round_pos {x : ℝ} {i j : ℤ} (h1 : (2 : ℝ) ^ i ≤ x) (h2 : x ≤ (2 : ℝ) ^ j) (hi : -1074 ≤ i) (hj : j ≤ 1000) :
    ∃ y, A.round x = .fin y ∧ (2 : ℝ) ^ i ≤ y ∧ y ≤ (2 : ℝ) ^ j ∧ Rep y := by
  refine round_between A h1 h2 (rep_pow i hi) (rep_pow j ?_) ?_ (pow_le_big hj)
  · by_contra hc
    have : (2 : ℝ) ^ j < (2 : ℝ) ^ i := zpow_lt_zpow_right₀ (by norm_num) (by omega)
    linarith
  · have : (0 : ℝ) < (2 : ℝ) ^ i := by positivity
    linarith [big_nonneg]

theorem round_unsigned {x : ℝ} {j : ℤ} (h1 : 0 ≤ x) (h2 : x ≤ (2 : ℝ) ^ j) (h : -1074 ≤ j) (hj : j ≤ 1000) :
    ∃ y, A.round x = .fin y ∧ 0 ≤ y ∧ y ≤ (2 : ℝ) ^ j ∧ Rep y :=
  round_between A h1 h2 rep_zero (rep_pow j h) (by linarith [big_nonneg]) (pow_le_big hj)

theorem npLog_pos {q : ℝ} {j : ℤ} (h0 : 0 < q) (h1 : q ≤ (2 : ℝ) ^ j) (hj : j ≤ 1000) (hr : Rep q) : npLog L (.fin q) = .fin (L.log q) ∧ |L.log q| ≤ 1000 :=
  ⟨if_pos h0, (L.log_rep q hr h0 (h1.trans (pow_le_big hj))).1⟩

theorem npLog_zero : npLog L (.fin 0) = .ninf := by simp [npLog]

theorem npLog_unsigned {q : ℝ} {j : ℤ} (h0 : 0 ≤ q) (h1 : q ≤ (2 : ℝ) ^ j) (hj : j ≤ 1000) (hr : Rep q) : Usable (npLog L (.fin q)) := by
  rcases h0.eq_or_lt with h | h
  · subst h
    exact .inl (npLog_zero L)
  · have := npLog_pos L h h1 hj hr
    exact .inr ⟨_, this.1, this.2⟩

theorem round_one : A.round 1 = .fin 1 := round_rep A rep_one (by rw [abs_one]; simpa using nat_le_big (n := 1) (by norm_num))

theorem sub_ne_nan {v : Fl} (hv : v ≠ .nan) (m : ℝ) : sub A v (.fin m) ≠ .nan := by
  cases v with
  | nan => exact absurd rfl hv
  | pinf => simp [sub, neg, add]
  | ninf => simp [sub, neg, add]
  | fin x => exact round_ne_nan A _

theorem sub_inf {v : Fl} (hv : v = .pinf ∨ v = .ninf) (m : ℝ) : sub A v (.fin m) = v := by
  rcases hv with rfl | rfl <;> simp [sub, neg, add]

theorem div_ne_nan {a : Fl} (ha : a ≠ .nan) {w : ℝ} (hw : 0 < w) : div A a (.fin w) ≠ .nan := by
  cases a with
  | nan => exact absurd rfl ha
  | pinf => simp [div, not_lt.2 hw.le]
  | ninf => simp [div, not_lt.2 hw.le]
  | fin x =>
    simp only [div, hw.ne', if_false]
    exact round_ne_nan A _

theorem mul_self_nonneg {a : Fl} (ha : a ≠ .nan) : NonNeg (mul A a a) := by
  cases a with
  | nan => exact absurd rfl ha
  | pinf => exact .inl rfl
  | ninf => exact .inl rfl
  | fin x => exact round_nonneg A (_root_.mul_self_nonneg x)

theorem half_nonpos {a : Fl} (ha : NonNeg a) : NonPos (mul A (.fin (-1 / 2)) a) := by
  rcases ha with rfl | ⟨x, hx, rfl⟩
  · left
    simp only [mul, infSign]
    norm_num
  · exact round_nonpos A (by linarith)

theorem div_nonpos {a : Fl} (ha : NonPos a) {w : ℝ} (hw : 0 < w) : NonPos (div A a (.fin w)) := by
  rcases ha with rfl | ⟨x, hx, rfl⟩
  · left
    simp [div, not_lt.2 hw.le]
  · simp only [div, hw.ne', if_false]
    exact round_nonpos A (div_nonpos_of_nonpos_of_nonneg hx hw.le)

theorem exp_nonpos {a : Fl} (ha : NonPos a) : ∃ y, npExp L a = .fin y ∧ 0 ≤ y ∧ y ≤ 1 ∧ Rep y := by
  rcases ha with rfl | ⟨x, hx, rfl⟩
  · exact ⟨0, rfl, le_rfl, by norm_num, rep_zero⟩
  · exact L.exp_le x hx

/-- The variance and the denominator of the normal density are positive numbers. -/
theorem normal_scale {s : ℝ} (h1 : (2 : ℝ) ^ (-400 : ℤ) ≤ s) (h2 : s ≤ (2 : ℝ) ^ (400 : ℤ)) :
    ∃ w t, mul A (.fin s) (.fin s) = .fin w ∧ 0 < w ∧ npSqrt A (mul A (mul A (.fin 2) (.fin L.pi)) (.fin w)) = .fin t ∧
      (2 : ℝ) ^ (-399 : ℤ) ≤ t := by
  have hs : 0 < s := lt_of_lt_of_le (by positivity) h1
  obtain ⟨w, hw, hw1, hw2, -⟩ := round_pos A (x := s * s) (i := -800) (j := 800)
    (by
      have : (2 : ℝ) ^ (-800 : ℤ) = (2 : ℝ) ^ (-400 : ℤ) * (2 : ℝ) ^ (-400 : ℤ) := by rw [← zpow_add₀ (by norm_num)]; norm_num
      rw [this]
      exact mul_le_mul h1 h1 (by positivity) hs.le)
    (by
      have : (2 : ℝ) ^ (800 : ℤ) = (2 : ℝ) ^ (400 : ℤ) * (2 : ℝ) ^ (400 : ℤ) := by rw [← zpow_add₀ (by norm_num)]; norm_num
      rw [this]
      exact mul_le_mul h2 h2 hs.le (by positivity)) (by norm_num) (by norm_num)
  have hw0 : 0 < w := lt_of_lt_of_le (by positivity) hw1
  obtain ⟨p, hp, hp1, hp2, -⟩ := round_pos A (x := 2 * L.pi) (i := 2) (j := 3) (by have := L.pi_rep.2.1; norm_num; linarith)
    (by have := L.pi_rep.2.2; norm_num; linarith) (by norm_num) (by norm_num)
  have hp0 : 0 < p := lt_of_lt_of_le (by positivity) hp1
  obtain ⟨u, hu, hu1, hu2, -⟩ := round_pos A (x := p * w) (i := -798) (j := 803)
    (by
      have : (2 : ℝ) ^ (-798 : ℤ) = (2 : ℝ) ^ (2 : ℤ) * (2 : ℝ) ^ (-800 : ℤ) := by rw [← zpow_add₀ (by norm_num)]; norm_num
      rw [this]
      exact mul_le_mul hp1 hw1 (by positivity) hp0.le)
    (by
      have : (2 : ℝ) ^ (803 : ℤ) = (2 : ℝ) ^ (3 : ℤ) * (2 : ℝ) ^ (800 : ℤ) := by rw [← zpow_add₀ (by norm_num)]; norm_num
      rw [this]
      exact mul_le_mul hp2 hw2 hw0.le (by positivity)) (by norm_num) (by norm_num)
  have hu0 : 0 < u := lt_of_lt_of_le (by positivity) hu1
  obtain ⟨t, ht, ht1, -, -⟩ := round_pos A (x := Real.sqrt u) (i := -399) (j := 402)
    (by
      refine Real.le_sqrt_of_sq_le (le_trans (le_of_eq ?_) hu1)
      rw [← zpow_natCast, ← zpow_mul]
      norm_num)
    (by
      refine Real.sqrt_le_iff.2 ⟨by positivity, hu2.trans ?_⟩
      rw [← zpow_natCast, ← zpow_mul]
      exact zpow_le_zpow_right₀ (by norm_num) (by norm_num)) (by norm_num) (by norm_num)
  refine ⟨w, t, hw, hw0, ?_, ht1⟩
  simp only [mul, hp, hu, npSqrt, not_lt.2 hu0.le, if_false, ht]

/-! ## The four kinds of parameters -/

/-- C137 for Uniform parameters: one finite value for all numbers from `pmin` to `pmax`, and `-inf` for all others, infinities and NaN. -/
theorem C137_uniform {a b : ℝ} (h1 : (2 : ℝ) ^ (-1000 : ℤ) ≤ b - a) (h2 : b - a ≤ (2 : ℝ) ^ (1000 : ℤ)) : ∃ c : ℝ, |c| ≤ 1000 ∧
    ∀ v, (In (Set.Icc a b) v → npLog L (uniformPrior A v (.fin a) (.fin b)) = .fin c) ∧
      (¬ In (Set.Icc a b) v → npLog L (uniformPrior A v (.fin a) (.fin b)) = .ninf) := by
  obtain ⟨d, hd, hd1, hd2, -⟩ := round_pos A (x := b + -a) (by linarith) (by linarith) (by norm_num : (-1074 : ℤ) ≤ -1000) (le_refl (1000 : ℤ))
  have hd0 : 0 < d := lt_of_lt_of_le (by positivity) hd1
  obtain ⟨q, hq, hq1, hq2, hq3⟩ := round_pos A (x := 1 / d) (i := -1000) (j := 1000)
    (by rw [zpow_neg, one_div]; exact inv_anti₀ hd0 hd2)
    (by
      have : (2 : ℝ) ^ (1000 : ℤ) = ((2 : ℝ) ^ (-1000 : ℤ))⁻¹ := by rw [← zpow_neg]; norm_num
      rw [this, one_div]; exact inv_anti₀ (by positivity) hd1) (by norm_num) le_rfl
  have hq0 : 0 < q := lt_of_lt_of_le (by positivity) hq1
  have hl := npLog_pos L hq0 hq2 le_rfl hq3
  refine ⟨L.log q, hl.2, fun v => ⟨?_, fun hv => ?_⟩⟩
  · rintro ⟨x, rfl, hx1, hx2⟩
    simp only [uniformPrior, le, hx1, hx2, decide_true, Bool.and_self, sub, neg, add, hd, ofBool, if_true, div, hd0.ne', if_false, hq]
    exact hl.1
  · have hm : (le (.fin a) v && le v (.fin b)) = false := by
      cases v with
      | nan => rfl
      | pinf => rfl
      | ninf => rfl
      | fin x =>
        by_contra hc
        rw [Bool.not_eq_false, Bool.and_eq_true] at hc
        exact hv ⟨x, rfl, by simpa [le] using hc.1, by simpa [le] using hc.2⟩
    simp only [uniformPrior, hm, sub, neg, add, hd, ofBool, div, hd0.ne', if_false, zero_div, Bool.false_eq_true]
    rw [round_zero, npLog_zero]

/-- C137 for Normal parameters, the part that holds: never NaN nor `+inf` unless the value is NaN, and `-inf` at infinities. -/
theorem C137_normal_partial {s : ℝ} (h1 : (2 : ℝ) ^ (-400 : ℤ) ≤ s) (h2 : s ≤ (2 : ℝ) ^ (400 : ℤ)) (m : ℝ) (v : Fl) :
    (v ≠ .nan → Usable (npLog L (normalPrior A L v (.fin m) (.fin s)))) ∧
      (v = .pinf ∨ v = .ninf → npLog L (normalPrior A L v (.fin m) (.fin s)) = .ninf) := by
  obtain ⟨w, t, hw, hw0, ht, ht1⟩ := normal_scale A L h1 h2
  have ht0 : 0 < t := lt_of_lt_of_le (by positivity) ht1
  constructor
  · intro hv
    obtain ⟨y, hy, hy0, hy1, -⟩ := exp_nonpos L (div_nonpos A (half_nonpos A (mul_self_nonneg A (sub_ne_nan A hv m))) hw0)
    obtain ⟨q, hq, hq0, hq1, hq2⟩ := round_unsigned A (x := y / t) (j := 399) (by positivity)
      (by
        rw [div_le_iff₀ ht0]
        have : (2 : ℝ) ^ (399 : ℤ) * (2 : ℝ) ^ (-399 : ℤ) = 1 := by rw [← zpow_add₀ (by norm_num)]; norm_num
        refine hy1.trans ?_
        rw [← this]
        exact mul_le_mul_of_nonneg_left ht1 (by positivity)) (by norm_num) (by norm_num)
    have : normalPrior A L v (.fin m) (.fin s) = .fin q := by
      simp only [normalPrior, hw, hy, ht]
      simp only [div, ht0.ne', if_false, hq]
    rw [this]
    exact npLog_unsigned L hq0 hq1 (by norm_num) hq2
  · intro hv
    have h3 : mul A (sub A v (.fin m)) (sub A v (.fin m)) = .pinf := by
      rw [sub_inf A hv]
      rcases hv with rfl | rfl <;> rfl
    have h4 : mul A (.fin (-1 / 2)) .pinf = .ninf := by
      simp only [mul, infSign]
      norm_num
    have : normalPrior A L v (.fin m) (.fin s) = .fin 0 := by
      simp only [normalPrior, h3, h4, hw, ht]
      simp only [div, not_lt.2 hw0.le, if_false, npExp, ht0.ne', zero_div]
      exact round_zero A
    rw [this, npLog_zero]

/-- C137 for the default Normal parameter, the part that holds: finite up to 37 standard deviations. -/
theorem C137_standard_partial {x : ℝ} (hx : |x| ≤ 37) : ∃ c : ℝ, npLog L (normalPrior A L (.fin x) (.fin 0) (.fin 1)) = .fin c ∧ |c| ≤ 1000 := by
  have r (n : ℕ) (hn : n ≤ 2 ^ 53 := by norm_num) : Rep (n : ℝ) := rep_nat n hn
  have hb (n : ℕ) (hn : n ≤ 2 ^ 53 := by norm_num) : (n : ℝ) ≤ big := nat_le_big hn
  obtain ⟨d, hd, hd1, hd2, -⟩ := round_between A (x := x + -0) (lo := -37) (hi := 37) (by linarith [(abs_le.1 hx).1]) (by linarith [(abs_le.1 hx).2])
    (by simpa using (r 37).neg) (by simpa using r 37) (by simpa using hb 37) (by simpa using hb 37)
  obtain ⟨e, he, he1, he2, -⟩ := round_between A (x := d * d) (lo := 0) (hi := 1400) (_root_.mul_self_nonneg d) (by nlinarith)
    rep_zero (by simpa using r 1400) (by linarith [big_nonneg]) (by simpa using hb 1400)
  obtain ⟨f, hf, hf1, hf2, -⟩ := round_between A (x := -1 / 2 * e) (lo := -700) (hi := 0) (by linarith) (by linarith)
    (by simpa using (r 700).neg) rep_zero (by simpa using hb 700) big_nonneg
  obtain ⟨g, hg, hg1, hg2, -⟩ := round_between A (x := f / 1) (lo := -700) (hi := 0) (by linarith) (by linarith)
    (by simpa using (r 700).neg) rep_zero (by simpa using hb 700) big_nonneg
  obtain ⟨y, hy, hy1⟩ := L.exp_pos g hg1 hg2
  obtain ⟨y', hy', -, hy2, -⟩ := L.exp_le g hg2
  obtain rfl : y = y' := by rw [hy] at hy'; exact Fl.fin.inj hy'
  obtain ⟨p, hp, hp1, hp2, -⟩ := round_between A (x := 2 * L.pi) (lo := 6) (hi := 8) (by linarith [L.pi_rep.2.1]) (by linarith [L.pi_rep.2.2])
    (by simpa using r 6) (by simpa using r 8) (by linarith [big_nonneg]) (by simpa using hb 8)
  obtain ⟨u, hu, hu1, hu2, -⟩ := round_between A (x := p * 1) (lo := 6) (hi := 8) (by linarith) (by linarith)
    (by simpa using r 6) (by simpa using r 8) (by linarith [big_nonneg]) (by simpa using hb 8)
  obtain ⟨t, ht, ht1, ht2, -⟩ := round_between A (x := Real.sqrt u) (lo := 2) (hi := 4) (Real.le_sqrt_of_sq_le (by norm_num; linarith))
    (Real.sqrt_le_iff.2 ⟨by norm_num, by norm_num; linarith⟩) (by simpa using r 2) (by simpa using r 4) (by linarith [big_nonneg]) (by simpa using hb 4)
  have ht0 : 0 < t := by linarith
  have hy0 : 0 < y := lt_of_lt_of_le (by positivity) hy1
  obtain ⟨q, hq, hq1, hq2, hq3⟩ := round_pos A (x := y / t) (i := -1022) (j := 0)
    (by
      rw [le_div_iff₀ ht0]
      have : (2 : ℝ) ^ (-1020 : ℤ) = (2 : ℝ) ^ (-1022 : ℤ) * 4 := by
        have : (2 : ℝ) ^ (-1020 : ℤ) = (2 : ℝ) ^ ((-1022 : ℤ) + 2) := by norm_num
        rw [this, zpow_add₀ (by norm_num)]
        norm_num
      have h0 : (0 : ℝ) < (2 : ℝ) ^ (-1022 : ℤ) := by positivity
      nlinarith)
    (by rw [zpow_zero, div_le_one ht0]; linarith) (by norm_num) (by norm_num)
  have hl := npLog_pos L (lt_of_lt_of_le (by positivity) hq1) hq2 (by norm_num) hq3
  have h11 : A.round (1 * 1) = .fin 1 := by rw [one_mul]; exact round_one A
  have : normalPrior A L (.fin x) (.fin 0) (.fin 1) = .fin q := by
    simp only [normalPrior, sub, neg, add, hd, mul, he, hf, h11, div, one_ne_zero, if_false, hg, npExp, hy, hp, hu, npSqrt,
      not_lt.2 (show (0 : ℝ) ≤ u by linarith), ht, ht0.ne', hq]
  rw [this]
  exact ⟨_, hl.1, hl.2⟩

/-- C137 is false for Normal parameters: the density is computed before its logarithm is taken, and is zero far from the mean.  From 40 standard
deviations the log prior of the default Normal parameter is `-inf`, while every finite value is in its support. -/
theorem C137_normal_false {x : ℝ} (hx : 40 ≤ |x|) : npLog L (normalPrior A L (.fin x) (.fin 0) (.fin 1)) = .ninf := by
  have r (n : ℕ) (hn : n ≤ 2 ^ 53 := by norm_num) : Rep (n : ℝ) := rep_nat n hn
  obtain ⟨w, t, hw, hw0, ht, ht1⟩ := normal_scale A L (s := 1) (by rw [zpow_neg]; exact inv_le_one_of_one_le₀ (one_le_zpow₀ (by norm_num) (by norm_num)))
    (one_le_zpow₀ (by norm_num) (by norm_num))
  have ht0 : 0 < t := lt_of_lt_of_le (by positivity) ht1
  have h11 : A.round (1 * 1) = .fin 1 := by rw [one_mul]; exact round_one A
  obtain rfl : w = 1 := by
    have : A.round (1 * 1) = .fin w := hw
    rw [h11] at this
    exact (Fl.fin.inj this).symm
  -- the square of the distance
  have h2 : mul A (sub A (.fin x) (.fin 0)) (sub A (.fin x) (.fin 0)) = .pinf ∨
      ∃ e, 1600 ≤ e ∧ mul A (sub A (.fin x) (.fin 0)) (sub A (.fin x) (.fin 0)) = .fin e := by
    have key : ∀ d : ℝ, 40 ≤ |d| → A.round (d * d) = .pinf ∨ ∃ e, 1600 ≤ e ∧ A.round (d * d) = .fin e := by
      intro d hd
      refine round_ge A ?_ (by simpa using r 1600) (by norm_num)
      rw [← abs_mul_abs_self]
      nlinarith
    rcases le_total 0 x with h0 | h0
    · rw [abs_of_nonneg h0] at hx
      rcases round_ge A (x := x + -0) (lo := 40) (by linarith) (by simpa using r 40) (by norm_num) with h | ⟨d, hd, h⟩
      · left; simp only [sub, neg, add, h, mul]
      · simp only [sub, neg, add, h, mul]
        exact key d (hd.trans (le_abs_self d))
    · rw [abs_of_nonpos h0] at hx
      rcases round_le A (x := x + -0) (hi := -40) (by linarith) (by simpa using (r 40).neg) (by norm_num) with h | ⟨d, hd, h⟩
      · left; simp only [sub, neg, add, h, mul]
      · simp only [sub, neg, add, h, mul]
        exact key d (by rw [abs_of_nonpos (by linarith)]; linarith)
  have h3 : ∀ a, (a = .pinf ∨ ∃ e, 1600 ≤ e ∧ a = .fin e) → npExp L (div A (mul A (.fin (-1 / 2)) a) (.fin 1)) = .fin 0 := by
    rintro a (rfl | ⟨e, he, rfl⟩)
    · have h4 : mul A (.fin (-1 / 2)) .pinf = .ninf := by
        simp only [mul, infSign]
        norm_num
      simp only [h4, div, not_lt.2 (zero_le_one' ℝ), if_false, npExp]
    · rcases round_le A (x := -1 / 2 * e) (hi := -800) (by linarith) (by simpa using (r 800).neg) (by norm_num) with h | ⟨f, hf, h⟩
      · simp only [mul, h, div, not_lt.2 (zero_le_one' ℝ), if_false, npExp]
      · rcases round_le A (x := f / 1) (hi := -800) (by linarith) (by simpa using (r 800).neg) (by norm_num) with h' | ⟨g, hg, h'⟩
        · simp only [mul, h, div, one_ne_zero, if_false, h', npExp]
        · simp only [mul, h, div, one_ne_zero, if_false, h', npExp]
          exact L.exp_zero g (by linarith)
  have : normalPrior A L (.fin x) (.fin 0) (.fin 1) = .fin 0 := by
    simp only [normalPrior, hw, ht, h3 _ h2]
    simp only [div, ht0.ne', if_false, zero_div]
    exact round_zero A
  rw [this, npLog_zero]

/-- C137 for TruncNormal parameters, the part that holds: `-inf` outside the open interval and at infinities, and usable inside it. -/
theorem C137_trunc_partial {s n : ℝ} (hs : 0 < s) (hn0 : 0 ≤ n) (hn : n ≤ (2 : ℝ) ^ (500 : ℤ)) (m a b : ℝ) {v : Fl} (hv : v ≠ .nan) :
    Usable (npLog L (truncNormalPrior A L v (.fin m) (.fin s) (.fin a) (.fin b) (.fin n))) ∧
      (¬ In (Set.Ioo a b) v → npLog L (truncNormalPrior A L v (.fin m) (.fin s) (.fin a) (.fin b) (.fin n)) = .ninf) := by
  obtain ⟨y, hy, hy0, hy1, -⟩ := exp_nonpos L (half_nonpos A (mul_self_nonneg A (div_ne_nan A (sub_ne_nan A hv m) hs)))
  obtain ⟨q, hq, hq0, hq1, hq2⟩ := round_unsigned A (x := n * y) (j := 500) (by positivity) ((mul_le_of_le_one_right hn0 hy1).trans hn)
    (by norm_num) (by norm_num)
  have h : truncNormalPrior A L v (.fin m) (.fin s) (.fin a) (.fin b) (.fin n) =
      .fin (if (lt (.fin a) v && lt v (.fin b)) = true then q else 0) := by
    simp only [truncNormalPrior, hy]
    simp only [mul, hq, ofBool]
    split
    · rw [mul_one, round_rep A hq2 (abs_pow_le (by norm_num) hq0 hq1)]
    · rw [mul_zero, round_zero]
  rw [h]
  constructor
  · split
    · exact npLog_unsigned L hq0 hq1 (by norm_num) hq2
    · exact .inl (npLog_zero L)
  · intro hout
    rw [if_neg, npLog_zero]
    intro hc
    rw [Bool.and_eq_true] at hc
    cases v with
    | nan => exact hv rfl
    | pinf => exact absurd hc.2 (by simp [lt])
    | ninf => exact absurd hc.1 (by simp [lt])
    | fin x => exact hout ⟨x, rfl, by simpa [lt] using hc.1, by simpa [lt] using hc.2⟩

theorem pow10_bounds {x : ℝ} (h1 : -100 ≤ x) (h2 : x ≤ 100) : (2 : ℝ) ^ (-333 : ℤ) ≤ (10 : ℝ) ^ x ∧ (10 : ℝ) ^ x ≤ (2 : ℝ) ^ (333 : ℤ) := by
  have e1 : (10 : ℝ) ^ (100 : ℝ) = (10 : ℝ) ^ (100 : ℕ) := by rw [← Real.rpow_natCast]; norm_num
  have e2 : (2 : ℝ) ^ (333 : ℤ) = ((2 : ℝ) ^ (111 : ℕ)) ^ 3 := by
    rw [← pow_mul]
    exact_mod_cast zpow_natCast (2 : ℝ) 333
  have e3 : (10 : ℝ) ^ (100 : ℝ) ≤ (2 : ℝ) ^ (333 : ℤ) := by
    rw [e1, e2]
    norm_num
  refine ⟨?_, (Real.rpow_le_rpow_of_exponent_le (by norm_num) h2).trans e3⟩
  refine le_trans ?_ (Real.rpow_le_rpow_of_exponent_le (by norm_num) h1)
  rw [Real.rpow_neg (by norm_num), zpow_neg]
  exact inv_anti₀ (by positivity) e3

theorem linexp_denominator {a b : ℝ} (ha : -100 ≤ a) (hab : a + 1 ≤ b) (hb : b ≤ 100) : ∃ d,
    sub A (npPow10 L (.fin b)) (npPow10 L (.fin a)) = .fin d ∧ (2 : ℝ) ^ (-334 : ℤ) ≤ d ∧ d ≤ (2 : ℝ) ^ (334 : ℤ) := by
  obtain ⟨y, hy, -, hy1, hy2⟩ := L.pow_near b (abs_le.2 ⟨by linarith, by linarith⟩)
  obtain ⟨z, hz, -, hz1, hz2⟩ := L.pow_near a (abs_le.2 ⟨by linarith, by linarith⟩)
  have h1 : (10 : ℝ) ^ a * 10 ≤ (10 : ℝ) ^ b := by
    have : (10 : ℝ) ^ a * 10 = (10 : ℝ) ^ (a + 1) := by rw [Real.rpow_add (by norm_num), Real.rpow_one]
    rw [this]
    exact Real.rpow_le_rpow_of_exponent_le (by norm_num) hab
  obtain ⟨b1, b2⟩ := pow10_bounds (x := b) (by linarith) hb
  have hp : (0 : ℝ) < (10 : ℝ) ^ a := by positivity
  have e1 : (2 : ℝ) ^ (-333 : ℤ) = 2 * (2 : ℝ) ^ (-334 : ℤ) := by
    have : (2 : ℝ) ^ (-333 : ℤ) = (2 : ℝ) ^ ((1 : ℤ) + (-334 : ℤ)) := by norm_num
    rw [this, zpow_add₀ (by norm_num), zpow_one]
  have e2 : (2 : ℝ) ^ (334 : ℤ) = 2 * (2 : ℝ) ^ (333 : ℤ) := by
    have : (2 : ℝ) ^ (334 : ℤ) = (2 : ℝ) ^ ((1 : ℤ) + (333 : ℤ)) := by norm_num
    rw [this, zpow_add₀ (by norm_num), zpow_one]
  obtain ⟨d, hd, hd1, hd2, -⟩ := round_pos A (x := y + -z) (i := -334) (j := 334)
    (by generalize (2 : ℝ) ^ (-334 : ℤ) = c at *; generalize (2 : ℝ) ^ (-333 : ℤ) = c' at *; linarith)
    (by generalize (2 : ℝ) ^ (334 : ℤ) = c at *; generalize (2 : ℝ) ^ (333 : ℤ) = c' at *; linarith) (by norm_num) (by norm_num)
  exact ⟨d, by simp only [npPow10, hy, hz, sub, neg, add, hd], hd1, hd2⟩

/-- C137 for LinearExp parameters, the part that holds: finite from `pmin` to `pmax`, and `-inf` at other values up to 308 and at `-inf`. -/
theorem C137_linexp_partial {a b : ℝ} (ha : -100 ≤ a) (hab : a + 1 ≤ b) (hb : b ≤ 100) (v : Fl) : ∃ p, linearExpPrior A L v (.fin a) (.fin b) = .ok p ∧
    (In (Set.Icc a b) v → ∃ c : ℝ, npLog L p = .fin c ∧ |c| ≤ 1000) ∧
    (¬ In (Set.Icc a b) v → (v = .ninf ∨ In (Set.Iic 308) v) → npLog L p = .ninf) := by
  obtain ⟨d, hd, hd1, hd2⟩ := linexp_denominator A L ha hab hb
  have hd0 : 0 < d := lt_of_lt_of_le (by positivity) hd1
  have hle : le (.fin b) (.fin a) = false := by simp [le]; linarith
  refine ⟨_, by rw [linearExpPrior, hle]; rfl, ?_, ?_⟩
  · rintro ⟨x, rfl, hx1, hx2⟩
    obtain ⟨y, hy, -, hy1, hy2⟩ := L.pow_near x (abs_le.2 ⟨by linarith, by linarith⟩)
    obtain ⟨b1, b2⟩ := pow10_bounds (x := x) (by linarith) (by linarith)
    have hln : A.round (1 * L.ln10) = .fin L.ln10 := by
      rw [one_mul]
      refine round_rep A L.ln10_rep.1 (abs_pow_le (j := 2) (by norm_num) (by linarith [L.ln10_rep.2.1]) ?_)
      norm_num
      linarith [L.ln10_rep.2.2]
    obtain ⟨l1, l2, l3⟩ := L.ln10_rep
    have e2 : (2 : ℝ) ^ (335 : ℤ) = 4 * (2 : ℝ) ^ (333 : ℤ) := by
      have : (2 : ℝ) ^ (335 : ℤ) = (2 : ℝ) ^ ((2 : ℤ) + (333 : ℤ)) := by norm_num
      rw [this, zpow_add₀ (by norm_num)]
      norm_num
    have hp : (0 : ℝ) < (2 : ℝ) ^ (-333 : ℤ) := by positivity
    have hp' : (0 : ℝ) < (2 : ℝ) ^ (333 : ℤ) := by positivity
    obtain ⟨u, hu, hu1, hu2, -⟩ := round_pos A (x := L.ln10 * y) (i := -333) (j := 335)
      (by generalize (2 : ℝ) ^ (-333 : ℤ) = c at *; nlinarith) (by
        have hx0 : (0 : ℝ) < (10 : ℝ) ^ x := by positivity
        have := mul_le_mul_of_nonneg_right l3 (show 0 ≤ y by linarith)
        rw [e2]
        clear e2 hd1 hd2 b1 hp
        generalize (2 : ℝ) ^ (333 : ℤ) = c at *
        linarith) (by norm_num) (by norm_num)
    have hu0 : 0 < u := lt_of_lt_of_le (by positivity) hu1
    obtain ⟨q, hq, hq1, hq2, hq3⟩ := round_pos A (x := u / d) (i := -667) (j := 669)
      (by
        rw [le_div_iff₀ hd0]
        refine le_trans ?_ hu1
        have : (2 : ℝ) ^ (-333 : ℤ) = (2 : ℝ) ^ (-667 : ℤ) * (2 : ℝ) ^ (334 : ℤ) := by rw [← zpow_add₀ (by norm_num)]; norm_num
        rw [this]
        exact mul_le_mul_of_nonneg_left hd2 (by positivity))
      (by
        rw [div_le_iff₀ hd0]
        refine hu2.trans ?_
        have : (2 : ℝ) ^ (335 : ℤ) = (2 : ℝ) ^ (669 : ℤ) * (2 : ℝ) ^ (-334 : ℤ) := by rw [← zpow_add₀ (by norm_num)]; norm_num
        rw [this]
        exact mul_le_mul_of_nonneg_left hd1 (by positivity)) (by norm_num) (by norm_num)
    have hl := npLog_pos L (lt_of_lt_of_le (by positivity) hq1) hq2 (by norm_num) hq3
    refine ⟨L.log q, ?_, hl.2⟩
    rw [hd]
    have hm : (le (.fin a) (.fin x) && le (.fin x) (.fin b)) = true := by simp [le, hx1, hx2]
    simp only [hm, ofBool, if_true, mul, hln, npPow10, hy, hu, div, hd0.ne', if_false, hq]
    exact hl.1
  · intro hout hv
    have hm : (le (.fin a) v && le v (.fin b)) = false := by
      cases v with
      | nan => rfl
      | pinf => rfl
      | ninf => rfl
      | fin x =>
        by_contra hc
        rw [Bool.not_eq_false, Bool.and_eq_true] at hc
        exact hout ⟨x, rfl, by simpa [le] using hc.1, by simpa [le] using hc.2⟩
    have hpow : ∃ y, npPow10 L v = .fin y := by
      rcases hv with rfl | ⟨x, rfl, hx⟩
      · exact ⟨0, rfl⟩
      · rcases le_total x (-308) with h | h
        · obtain ⟨y, hy, -⟩ := L.pow_low x h
          exact ⟨y, hy⟩
        · obtain ⟨y, hy, -⟩ := L.pow_near x (abs_le.2 ⟨h, hx⟩)
          exact ⟨y, hy⟩
    obtain ⟨y, hy⟩ := hpow
    rw [hd, hm, hy]
    simp only [ofBool, Bool.false_eq_true, if_false, mul, zero_mul, round_zero, div, hd0.ne', zero_div]
    exact npLog_zero L

/-- C137 is false for LinearExp parameters: the mask multiplies `10 ** value`, which is infinite from 309, and zero times infinity is NaN.  The same
with `value = inf`. -/
theorem C137_linexp_false {a b : ℝ} (ha : -100 ≤ a) (hab : a + 1 ≤ b) (hb : b ≤ 100) {v : Fl} (hv : v = .pinf ∨ In (Set.Ici 309) v) :
    ∃ p, linearExpPrior A L v (.fin a) (.fin b) = .ok p ∧ npLog L p = .nan := by
  have hle : le (.fin b) (.fin a) = false := by simp [le]; linarith
  refine ⟨_, by rw [linearExpPrior, hle]; rfl, ?_⟩
  have hpow : npPow10 L v = .pinf := by
    rcases hv with rfl | ⟨x, rfl, hx⟩
    · rfl
    · exact L.pow_over x hx
  have hm : (le (.fin a) v && le v (.fin b)) = false := by
    rcases hv with rfl | ⟨x, rfl, hx⟩
    · rfl
    · have : ¬ x ≤ b := by
        have : (309 : ℝ) ≤ x := hx
        linarith
      simp [le, this]
  rw [hm, hpow]
  simp only [ofBool, Bool.false_eq_true, if_false, mul, zero_mul, round_zero, infSign, lt_self_iff_false, div, npLog]

/-- C137 is false at NaN for all parameters but the Uniform ones: the log prior is NaN. -/
theorem C137_nan_false {m s n : ℝ} {a b : ℝ} (hab : a < b) :
    npLog L (normalPrior A L .nan (.fin m) (.fin s)) = .nan ∧
    npLog L (truncNormalPrior A L .nan (.fin m) (.fin s) (.fin a) (.fin b) (.fin n)) = .nan ∧
    ∃ p, linearExpPrior A L .nan (.fin a) (.fin b) = .ok p ∧ npLog L p = .nan := by
  have hle : le (.fin b) (.fin a) = false := by simp [le]; exact hab
  have mn (x : Fl) : mul A x .nan = .nan := by cases x <;> rfl
  refine ⟨?_, ?_, _, by rw [linearExpPrior, hle]; rfl, ?_⟩
  · simp only [normalPrior, sub, add, mn, div, npExp, npLog]
  · simp only [truncNormalPrior, sub, add, div, mn, npExp]
    simp only [mul, npLog]
  · simp only [npPow10, mn, div, npLog]

/-! ## Sums -/

theorem tree_usable {B : ℕ} (t : Tree) (hl : ∀ a ∈ t.leaves, a = .ninf ∨ ∃ x : ℝ, a = .fin x ∧ |x| ≤ B) (hB : B * t.leaves.length ≤ 2 ^ 53) :
    (.ninf ∈ t.leaves → t.eval A = .ninf) ∧ (.ninf ∉ t.leaves → ∃ x : ℝ, t.eval A = .fin x ∧ |x| ≤ (B * t.leaves.length : ℕ)) := by
  induction t with
  | leaf a =>
    simp only [Tree.leaves, List.mem_singleton, Tree.eval, forall_eq, List.length_singleton, mul_one] at hl ⊢
    refine ⟨fun h => h.symm, fun h => ?_⟩
    rcases hl with rfl | h'
    · exact absurd rfl h
    · exact h'
  | node s t ihs iht =>
    simp only [Tree.leaves, List.length_append, List.mem_append, Tree.eval] at hl hB ⊢
    have hB' : B * s.leaves.length + B * t.leaves.length ≤ 2 ^ 53 := by rw [← Nat.mul_add]; exact hB
    obtain ⟨s1, s2⟩ := ihs (fun a ha => hl a (.inl ha)) (by omega)
    obtain ⟨t1, t2⟩ := iht (fun a ha => hl a (.inr ha)) (by omega)
    by_cases hs : Fl.ninf ∈ s.leaves
    · rw [s1 hs]
      refine ⟨fun _ => ?_, fun h => absurd (.inl hs) h⟩
      by_cases ht : Fl.ninf ∈ t.leaves
      · rw [t1 ht]; rfl
      · obtain ⟨x, hx, -⟩ := t2 ht
        rw [hx]; rfl
    · obtain ⟨x, hx, hx1⟩ := s2 hs
      by_cases ht : Fl.ninf ∈ t.leaves
      · rw [t1 ht, hx]
        exact ⟨fun _ => rfl, fun h => absurd (.inr ht) h⟩
      · obtain ⟨y, hy, hy1⟩ := t2 ht
        refine ⟨fun h => absurd h (by simp [hs, ht]), fun _ => ?_⟩
        rw [hx, hy]
        have hxy : |x + y| ≤ ((B * (s.leaves.length + t.leaves.length) : ℕ) : ℝ) := by
          refine (abs_add_le x y).trans ?_
          rw [Nat.mul_add]
          push_cast at hx1 hy1 ⊢
          linarith
        obtain ⟨z, hz, hz1, hz2, -⟩ := round_between A (abs_le.1 hxy).1 (abs_le.1 hxy).2 (rep_nat _ hB).neg (rep_nat _ hB)
          (neg_le_neg (nat_le_big hB)) (nat_le_big hB)
        exact ⟨z, hz, abs_le.2 ⟨hz1, hz2⟩⟩

/-- A sum of numbers, none too large, and `-inf`s: `-inf` if there is one, and otherwise finite. -/
theorem sum_usable {B : ℕ} {l : List Fl} {r : Fl} (h : IsSum A l r) (hl : ∀ a ∈ l, a = .ninf ∨ ∃ x : ℝ, a = .fin x ∧ |x| ≤ B)
    (hB : B * l.length ≤ 2 ^ 53) : (.ninf ∈ l → r = .ninf) ∧ (.ninf ∉ l → ∃ x : ℝ, r = .fin x ∧ |x| ≤ (B * l.length : ℕ)) := by
  rcases h with ⟨rfl, rfl⟩ | ⟨t, ht, rfl⟩
  · exact ⟨fun h => absurd h (by simp), fun _ => ⟨0, rfl, by simp⟩⟩
  · have := tree_usable A (B := B) t (fun a ha => hl a (ht.mem_iff.1 ha)) (by rw [ht.length_eq]; exact hB)
    rw [ht.mem_iff, ht.length_eq] at this
    exact this

theorem tree_nan (t : Tree) (h : .nan ∈ t.leaves) : t.eval A = .nan := by
  induction t with
  | leaf a => exact (List.mem_singleton.1 h).symm
  | node s t ihs iht =>
    rcases List.mem_append.1 h with h | h
    · simp only [Tree.eval, ihs h, add]
    · simp only [Tree.eval, iht h]
      cases s.eval A <;> rfl

/-- C137 for `get_lnprior`: if the log priors of all numbers are usable, then the sum over vectors and parameters, in whatever order numpy adds, is
`-inf` if one of them is `-inf`, and finite otherwise: it does not overflow, and is not NaN. -/
theorem C137_lnprior {m : ℕ} {pdfs : List (Bool × List Fl)} {r : Fl} (h : IsLnprior A L pdfs r) (hu : ∀ p ∈ pdfs, ∀ x ∈ p.2, Usable (npLog L x))
    (hm : ∀ p ∈ pdfs, p.2.length ≤ m) (h1 : 1 ≤ m) (hn : 1000 * m * pdfs.length ≤ 2 ^ 53) :
    ((∃ p ∈ pdfs, ∃ x ∈ p.2, npLog L x = .ninf) → r = .ninf) ∧
      ((∀ p ∈ pdfs, ∀ x ∈ p.2, npLog L x ≠ .ninf) → ∃ c : ℝ, r = .fin c ∧ |c| ≤ (1000 * m * pdfs.length : ℕ)) := by
  obtain ⟨ls, hf, hs⟩ := h
  have hone : ∀ (p : Bool × List Fl) (l : Fl), IsLogpdf A L p.1 p.2 l → (∀ x ∈ p.2, Usable (npLog L x)) → p.2.length ≤ m → 1000 * m ≤ 2 ^ 53 →
      ((∃ x ∈ p.2, npLog L x = .ninf) → l = .ninf) ∧ ((∀ x ∈ p.2, npLog L x ≠ .ninf) → ∃ c : ℝ, l = .fin c ∧ |c| ≤ (1000 * m : ℕ)) := by
    rintro ⟨vec, xs⟩ l hl hux hlen hm53
    simp only at hl hux hlen ⊢
    cases vec with
    | true =>
      have hl : IsSum A (xs.map (npLog L)) l := hl
      have hlen' : 1000 * xs.length ≤ 1000 * m := Nat.mul_le_mul_left _ hlen
      have := sum_usable A (B := 1000) hl (fun a ha => by
        obtain ⟨x, hx, rfl⟩ := List.mem_map.1 ha
        rcases hux x hx with h | ⟨c, hc, hc1⟩
        · exact .inl h
        · exact .inr ⟨c, hc, by simpa using hc1⟩) (by rw [List.length_map]; omega)
      refine ⟨fun ⟨x, hx, he⟩ => this.1 (List.mem_map.2 ⟨x, hx, he⟩), fun hne => ?_⟩
      obtain ⟨c, hc, hc1⟩ := this.2 (fun hin => by
        obtain ⟨x, hx, he⟩ := List.mem_map.1 hin
        exact hne x hx he)
      refine ⟨c, hc, hc1.trans ?_⟩
      rw [List.length_map]
      exact_mod_cast hlen'
    | false =>
      obtain ⟨x, rfl, rfl⟩ := hl
      refine ⟨fun ⟨y, hy, he⟩ => by rwa [List.mem_singleton.1 hy] at he, fun hne => ?_⟩
      rcases hux x (by simp) with h | ⟨c, hc, hc1⟩
      · exact absurd h (hne x (by simp))
      · refine ⟨c, hc, hc1.trans ?_⟩
        have : 1000 ≤ 1000 * m := by omega
        exact_mod_cast this
  have hlen : pdfs.length = ls.length := hf.length_eq
  -- every log prior
  have hall : ∀ l ∈ ls, ∃ p ∈ pdfs, IsLogpdf A L p.1 p.2 l := by
    clear hs hn hm hu hlen
    induction hf with
    | nil => simp
    | cons hpl _ ih =>
      intro l hl
      rcases List.mem_cons.1 hl with rfl | hl
      · exact ⟨_, by simp, hpl⟩
      · obtain ⟨p, hp, h⟩ := ih l hl
        exact ⟨p, by simp [hp], h⟩
  have hall' : ∀ p ∈ pdfs, ∃ l ∈ ls, IsLogpdf A L p.1 p.2 l := by
    clear hs hn hm hu hlen hall
    induction hf with
    | nil => simp
    | cons hpl _ ih =>
      intro p hp
      rcases List.mem_cons.1 hp with rfl | hp
      · exact ⟨_, by simp, hpl⟩
      · obtain ⟨l, hl, h⟩ := ih p hp
        exact ⟨l, by simp [hl], h⟩
  have hm53 : ls ≠ [] → 1000 * m ≤ 2 ^ 53 := by
    intro hne
    have : 1 ≤ pdfs.length := by rw [hlen]; exact List.length_pos_iff.2 hne
    exact (Nat.le_mul_of_pos_right _ this).trans hn
  have hsum := sum_usable A (B := 1000 * m) hs (fun l hl => by
    obtain ⟨p, hp, hpl⟩ := hall l hl
    have := hone p l hpl (hu p hp) (hm p hp) (hm53 (List.ne_nil_of_mem hl))
    by_cases he : ∃ x ∈ p.2, npLog L x = .ninf
    · exact .inl (this.1 he)
    · push Not at he
      exact .inr (this.2 he)) (by rw [← hlen]; exact hn)
  constructor
  · rintro ⟨p, hp, he⟩
    obtain ⟨l, hl, hpl⟩ := hall' p hp
    have := (hone p l hpl (hu p hp) (hm p hp) (hm53 (List.ne_nil_of_mem hl))).1 he
    exact hsum.1 (this ▸ hl)
  · intro hne
    rw [hlen]
    refine hsum.2 fun hin => ?_
    obtain ⟨p, hp, hpl⟩ := hall _ hin
    obtain ⟨c, hc, -⟩ := (hone p _ hpl (hu p hp) (hm p hp) (hm53 (List.ne_nil_of_mem hin))).2 (hne p hp)
    exact absurd hc (by simp)

/-- C137 for arrays with Uniform parameters: `get_lnprior` is finite if all numbers are in their ranges, and `-inf` otherwise. -/
theorem C137_uniform_lnprior {m : ℕ} {ps : List (Bool × List (Fl × ℝ × ℝ))} {r : Fl}
    (hr : ∀ p ∈ ps, ∀ x ∈ p.2, (2 : ℝ) ^ (-1000 : ℤ) ≤ x.2.2 - x.2.1 ∧ x.2.2 - x.2.1 ≤ (2 : ℝ) ^ (1000 : ℤ))
    (h : IsLnprior A L (ps.map fun p => (p.1, p.2.map fun x => uniformPrior A x.1 (.fin x.2.1) (.fin x.2.2))) r)
    (hm : ∀ p ∈ ps, p.2.length ≤ m) (h1 : 1 ≤ m) (hn : 1000 * m * ps.length ≤ 2 ^ 53) :
    ((∀ p ∈ ps, ∀ x ∈ p.2, In (Set.Icc x.2.1 x.2.2) x.1) → ∃ c : ℝ, r = .fin c) ∧
      ((∃ p ∈ ps, ∃ x ∈ p.2, ¬ In (Set.Icc x.2.1 x.2.2) x.1) → r = .ninf) := by
  have key : ∀ p ∈ ps, ∀ x ∈ p.2, (In (Set.Icc x.2.1 x.2.2) x.1 → ∃ c : ℝ, npLog L (uniformPrior A x.1 (.fin x.2.1) (.fin x.2.2)) = .fin c ∧ |c| ≤ 1000) ∧
      (¬ In (Set.Icc x.2.1 x.2.2) x.1 → npLog L (uniformPrior A x.1 (.fin x.2.1) (.fin x.2.2)) = .ninf) := by
    intro p hp x hx
    obtain ⟨c, hc, hv⟩ := C137_uniform A L (hr p hp x hx).1 (hr p hp x hx).2
    exact ⟨fun h => ⟨c, (hv x.1).1 h, hc⟩, (hv x.1).2⟩
  have hb := C137_lnprior A L (m := m) h (by
      intro p hp x hx
      obtain ⟨p, hp', rfl⟩ := List.mem_map.1 hp
      obtain ⟨x, hx', rfl⟩ := List.mem_map.1 hx
      by_cases hin : In (Set.Icc x.2.1 x.2.2) x.1
      · exact .inr ((key p hp' x hx').1 hin)
      · exact .inl ((key p hp' x hx').2 hin))
    (by
      intro p hp
      obtain ⟨p, hp', rfl⟩ := List.mem_map.1 hp
      simpa using hm p hp') h1 (by simpa using hn)
  constructor
  · intro hin
    obtain ⟨c, hc, -⟩ := hb.2 (by
      intro p hp x hx
      obtain ⟨p, hp', rfl⟩ := List.mem_map.1 hp
      obtain ⟨x, hx', rfl⟩ := List.mem_map.1 hx
      obtain ⟨c, hc, -⟩ := (key p hp' x hx').1 (hin p hp' x hx')
      rw [hc]
      simp)
    exact ⟨c, hc⟩
  · rintro ⟨p, hp, x, hx, hout⟩
    exact hb.1 ⟨_, List.mem_map.2 ⟨p, hp, rfl⟩, _, List.mem_map.2 ⟨x, hx, rfl⟩, (key p hp x hx).2 hout⟩

/-- C137 is false of arrays: one log prior that is NaN, as of a LinearExp parameter at 309, makes `get_lnprior` NaN even if other parameters are
outside their ranges. -/
theorem C137_lnprior_false {pdfs : List (Bool × List Fl)} {r : Fl} (h : IsLnprior A L pdfs r) {p : Bool × List Fl} (hp : p ∈ pdfs) {x : Fl} (hx : x ∈ p.2)
    (hnan : npLog L x = .nan) : r = .nan := by
  have hsum : ∀ {l : List Fl} {r : Fl}, IsSum A l r → .nan ∈ l → r = .nan := by
    rintro l r (⟨rfl, rfl⟩ | ⟨t, ht, rfl⟩) hin
    · exact absurd hin (by simp)
    · exact tree_nan A t (ht.mem_iff.2 hin)
  obtain ⟨ls, hf, hs⟩ := h
  have : ∃ l ∈ ls, IsLogpdf A L p.1 p.2 l := by
    clear hs
    induction hf with
    | nil => simp at hp
    | cons hpl _ ih =>
      rcases List.mem_cons.1 hp with rfl | hp
      · exact ⟨_, by simp, hpl⟩
      · obtain ⟨l, hl, h⟩ := ih hp
        exact ⟨l, by simp [hl], h⟩
  obtain ⟨l, hl, hpl⟩ := this
  have hlnan : l = .nan := by
    obtain ⟨vec, xs⟩ := p
    cases vec with
    | true => exact hsum hpl (List.mem_map.2 ⟨x, hx, hnan⟩)
    | false =>
      obtain ⟨y, hy, rfl⟩ := hpl
      simp only at hy hx
      subst hy
      rw [List.mem_singleton.1 hx] at hnan
      exact hnan
  exact hsum hs (hlnan ▸ hl)

/-! ## Examples -/

/-- Two parameters, one of them a vector: the spectral index is in range, one of the amplitudes is NaN. -/
example {r : Fl} (h : IsLnprior down lib [(false, [uniformPrior down (.fin 4) (.fin 0) (.fin 7)]),
    (true, [uniformPrior down (.fin (-13)) (.fin (-18)) (.fin (-11)), uniformPrior down .nan (.fin (-18)) (.fin (-11))])] r) : r = .ninf := by
  have h7 : (2 : ℝ) ^ (-1000 : ℤ) ≤ 7 ∧ (7 : ℝ) ≤ (2 : ℝ) ^ (1000 : ℤ) := by
    constructor
    · rw [zpow_neg]
      exact (inv_le_one_of_one_le₀ (one_le_zpow₀ (by norm_num) (by norm_num))).trans (by norm_num)
    · exact le_trans (by norm_num : (7 : ℝ) ≤ (2 : ℝ) ^ (3 : ℤ)) (zpow_le_zpow_right₀ (by norm_num) (by norm_num))
  refine (C137_uniform_lnprior down lib (m := 2)
    (ps := [(false, [(.fin 4, 0, 7)]), (true, [(.fin (-13), -18, -11), (.nan, -18, -11)])]) ?_ h ?_ (by norm_num) (by simp)).2 ?_
  · have e : (-11 : ℝ) - (-18) = 7 := by norm_num
    simp only [List.mem_cons, List.not_mem_nil, or_false]
    rintro p (rfl | rfl) x hx
    · simp only [List.mem_cons, List.not_mem_nil, or_false] at hx
      subst hx
      simpa using h7
    · simp only [List.mem_cons, List.not_mem_nil, or_false] at hx
      rcases hx with rfl | rfl <;> simpa [e] using h7
  · simp only [List.mem_cons, List.not_mem_nil, or_false]
    rintro p (rfl | rfl) <;> simp
  · exact ⟨(true, [(.fin (-13), -18, -11), (.nan, -18, -11)]), by simp, (.nan, -18, -11), by simp, by rintro ⟨x, hx, -⟩; exact absurd hx (by simp)⟩

/-- There is such a sum. -/
example : ∃ r, IsLnprior down lib [(false, [uniformPrior down (.fin 4) (.fin 0) (.fin 7)])] r :=
  ⟨_, [npLog lib (uniformPrior down (.fin 4) (.fin 0) (.fin 7))], .cons ⟨_, rfl, rfl⟩ .nil,
    .inr ⟨.leaf (npLog lib (uniformPrior down (.fin 4) (.fin 0) (.fin 7))), List.Perm.refl _, rfl⟩⟩

/-- The amplitude 400 of a LinearExp parameter. -/
example : ∃ p, linearExpPrior down lib (.fin 400) (.fin (-18)) (.fin (-11)) = .ok p ∧ npLog lib p = .nan :=
  C137_linexp_false down lib (by norm_num) (by norm_num) (by norm_num) (.inr ⟨400, rfl, by norm_num⟩)

example : npLog lib (normalPrior down lib (.fin (-41)) (.fin 0) (.fin 1)) = .ninf := C137_normal_false down lib (by norm_num [abs_of_neg])

end Verif.Ieee
