import Verif.Props.Ieee

/-!
# Log priors in floating-point arithmetic: ranges out of the ordinary

C137 for ranges that are empty, infinite, or in the tails.
-/

namespace Verif.Ieee

open Verif

variable (A : Arith) (L : Lib)

/-- C137 is false if `pmin` and `pmax` of a Uniform parameter are the same number: the log prior is `+inf` there, and NaN at all other values. -/
theorem C137_point_false (a : ℝ) (v : Fl) : (v = .fin a → npLog L (uniformPrior A v (.fin a) (.fin a)) = .pinf) ∧
    (v ≠ .fin a → npLog L (uniformPrior A v (.fin a) (.fin a)) = .nan) := by
  have hw : sub A (.fin a) (.fin a) = .fin 0 := by
    simp only [sub, neg, add, add_neg_cancel]
    exact round_zero A
  constructor
  · rintro rfl
    simp [uniformPrior, hw, le, ofBool, div, infSign, npLog]
  · intro hv
    have hm : (le (.fin a) v && le v (.fin a)) = false := by
      cases v with
      | nan => rfl
      | pinf => rfl
      | ninf => rfl
      | fin x =>
        by_contra hc
        simp only [Bool.not_eq_false, Bool.and_eq_true, le, decide_eq_true_eq] at hc
        exact hv (by rw [le_antisymm hc.1 hc.2])
    simp [uniformPrior, hw, hm, ofBool, div, infSign, npLog]

/-- C137 is false of a Uniform parameter without bounds (`pmin = -inf`, `pmax = inf`) or with one bound: the log prior is `-inf` at all values that
are numbers, though all of them are in the range. -/
theorem C137_unbounded_false (a v : ℝ) : (le .ninf (.fin v) && le (.fin v) .pinf) = true ∧ npLog L (uniformPrior A (.fin v) .ninf .pinf) = .ninf ∧
    (a ≤ v → (le (.fin a) (.fin v) && le (.fin v) .pinf) = true) ∧ npLog L (uniformPrior A (.fin v) (.fin a) .pinf) = .ninf ∧
    npLog L (uniformPrior A (.fin v) .ninf (.fin a)) = .ninf := by
  refine ⟨rfl, ?_, fun h => by simp [le, h], ?_, ?_⟩ <;> simp [uniformPrior, sub, neg, add, ofBool, div, npLog]

/-- C137 is false of a LinearExp parameter whose range is above all powers of ten: the log prior is NaN at all values. -/
theorem C137_powers_false {a b : ℝ} (ha : 309 ≤ a) (hab : a < b) (v : Fl) :
    ∃ p, linearExpPrior A L v (.fin a) (.fin b) = .ok p ∧ npLog L p = .nan := by
  have hle : le (.fin b) (.fin a) = false := by simp [le]; exact hab
  refine ⟨_, by rw [linearExpPrior, hle]; rfl, ?_⟩
  have dn (x : Fl) : div A x .nan = .nan := by cases x <;> rfl
  have hd : sub A (npPow10 L (.fin b)) (npPow10 L (.fin a)) = .nan := by
    simp only [npPow10, L.pow_over a ha, L.pow_over b (ha.trans hab.le), sub, neg, add]
  rw [hd, dn]
  rfl

/-- The norm of a TruncNormal parameter whose range is in the tail, where `erf` is one: infinite. -/
theorem truncNorm_tail {erf : ℝ → ℝ} (herf : ∀ x, 6 ≤ x → erf x = 1) {a b : ℝ} (ha : 9 ≤ a) (hab : a ≤ b) (hb : b ≤ 37) :
    truncNorm A L erf (.fin 0) (.fin 1) (.fin a) (.fin b) = .pinf := by
  have r (n : ℕ) (hn : n ≤ 2 ^ 53 := by norm_num) : Rep (n : ℝ) := rep_nat n hn
  have hB (n : ℕ) (hn : n ≤ 2 ^ 53 := by norm_num) : (n : ℝ) ≤ big := nat_le_big hn
  have h0 := big_nonneg
  have r32 : Rep (3 / 2) := by
    have := rep_zpow 3 (-1) (by norm_num) (by norm_num)
    norm_num at this ⊢
    exact this
  obtain ⟨t, ht, ht1, ht2, -⟩ := round_between A (x := Real.sqrt 2) (lo := 1) (hi := 3 / 2) (Real.le_sqrt_of_sq_le (by norm_num))
    (Real.sqrt_le_iff.2 ⟨by norm_num, by norm_num⟩) rep_one r32 (by linarith) (le_trans (by norm_num) (by simpa using hB 2 : (2 : ℝ) ≤ big))
  have hsq : npSqrt A (.fin 2) = .fin t := by simp [npSqrt, ht]
  have half (p : ℝ) (h1 : 9 ≤ p) (h2 : p ≤ 37) : npErf erf (div A (div A (sub A (.fin p) (.fin 0)) (.fin 1)) (npSqrt A (.fin 2))) = .fin 1 := by
    obtain ⟨d, hd, hd1, hd2, -⟩ := round_between A (x := p + -0) (lo := 9) (hi := 37) (by linarith) (by linarith) (by simpa using r 9) (by simpa using r 37)
      (by linarith) (by simpa using hB 37)
    obtain ⟨e, he, he1, he2, -⟩ := round_between A (x := d / 1) (lo := 9) (hi := 37) (by linarith) (by linarith) (by simpa using r 9) (by simpa using r 37)
      (by linarith) (by simpa using hB 37)
    obtain ⟨f, hf, hf1, -, -⟩ := round_between A (x := e / t) (lo := 6) (hi := 37) (by rw [le_div_iff₀ (by linarith)]; linarith)
      ((div_le_self (by linarith) ht1).trans he2) (by simpa using r 6) (by simpa using r 37) (by linarith) (by simpa using hB 37)
    simp only [hsq, sub, neg, add, hd, div, one_ne_zero, if_false, he, (by linarith : t ≠ 0), hf, npErf, herf f hf1]
  obtain ⟨p, hp, hp1, hp2, -⟩ := round_between A (x := 2 * L.pi) (lo := 6) (hi := 8) (by linarith [L.pi_rep.2.1]) (by linarith [L.pi_rep.2.2])
    (by simpa using r 6) (by simpa using r 8) (by linarith) (by simpa using hB 8)
  obtain ⟨q, hq, hq1, hq2, -⟩ := round_between A (x := Real.sqrt p) (lo := 2) (hi := 3) (Real.le_sqrt_of_sq_le (by linarith))
    (Real.sqrt_le_iff.2 ⟨by norm_num, by linarith⟩) (by simpa using r 2) (by simpa using r 3) (by linarith) (by simpa using hB 3)
  have rh : Rep (1 / 2) := by
    have := rep_pow (-1) (by norm_num)
    norm_num at this ⊢
    exact this
  obtain ⟨c, hc, hc1, hc2, -⟩ := round_between A (x := 2 / q) (lo := 1 / 2) (hi := 1) (by rw [le_div_iff₀ (by linarith)]; linarith)
    (by rw [div_le_one (by linarith)]; exact hq1) rh rep_one (by linarith) (by simpa using hB 1)
  obtain ⟨e, he, he1, -, -⟩ := round_between A (x := c / 1) (lo := 1 / 2) (hi := 1) (by linarith) (by linarith) rh rep_one (by linarith) (by simpa using hB 1)
  have hpq : npSqrt A (mul A (.fin 2) (.fin L.pi)) = .fin q := by
    simp only [mul, hp, npSqrt, (by linarith : ¬ p < 0), if_false, hq]
  have hz : sub A (.fin 1) (.fin 1) = .fin 0 := by
    simp only [sub, neg, add, add_neg_cancel]
    exact round_zero A
  simp only [truncNorm, half a ha (hab.trans hb), half b (ha.trans hab) hb, hz, hpq]
  simp only [div, (by linarith : q ≠ 0), if_false, hc, one_ne_zero, he, if_true, infSign, (by linarith : 0 < e)]

/-- C137 is false of a TruncNormal parameter whose range is in the tail, for instance nine to ten standard deviations from the mean: the log prior is
`+inf` inside the range and NaN outside it. -/
theorem C137_tail_false {erf : ℝ → ℝ} (herf : ∀ x, 6 ≤ x → erf x = 1) {a b : ℝ} (ha : 9 ≤ a) (hab : a < b) (hb : b ≤ 37) (v : Fl) :
    (In (Set.Ioo a b) v → npLog L (truncNormalPrior A L v (.fin 0) (.fin 1) (.fin a) (.fin b) (truncNorm A L erf (.fin 0) (.fin 1) (.fin a) (.fin b))) = .pinf) ∧
    (¬ In (Set.Ioo a b) v →
      npLog L (truncNormalPrior A L v (.fin 0) (.fin 1) (.fin a) (.fin b) (truncNorm A L erf (.fin 0) (.fin 1) (.fin a) (.fin b))) = .nan) := by
  rw [truncNorm_tail A L herf ha hab.le hb]
  have r (n : ℕ) (hn : n ≤ 2 ^ 53 := by norm_num) : Rep (n : ℝ) := rep_nat n hn
  have hB (n : ℕ) (hn : n ≤ 2 ^ 53 := by norm_num) : (n : ℝ) ≤ big := nat_le_big hn
  have h0 := big_nonneg
  constructor
  · rintro ⟨x, rfl, hx1, hx2⟩
    obtain ⟨d, hd, hd1, hd2, -⟩ := round_between A (x := x + -0) (lo := 9) (hi := 37) (by linarith) (by linarith) (by simpa using r 9) (by simpa using r 37)
      (by linarith) (by simpa using hB 37)
    obtain ⟨e, he, he1, he2, -⟩ := round_between A (x := d / 1) (lo := 9) (hi := 37) (by linarith) (by linarith) (by simpa using r 9) (by simpa using r 37)
      (by linarith) (by simpa using hB 37)
    obtain ⟨f, hf, hf1, hf2, -⟩ := round_between A (x := e * e) (lo := 0) (hi := 1400) (_root_.mul_self_nonneg e) (by nlinarith)
      rep_zero (by simpa using r 1400) (by linarith) (by simpa using hB 1400)
    obtain ⟨g, hg, hg1, hg2, -⟩ := round_between A (x := -1 / 2 * f) (lo := -700) (hi := 0) (by linarith) (by linarith)
      (by simpa using (r 700).neg) rep_zero (by simpa using hB 700) h0
    obtain ⟨y, hy, hy1⟩ := L.exp_pos g hg1 hg2
    have hy0 : 0 < y := lt_of_lt_of_le (by positivity) hy1
    simp only [truncNormalPrior, sub, neg, add, hd, div, one_ne_zero, if_false, he, mul, hf, hg, npExp, hy, infSign, hy0, if_true, lt, hx1, hx2,
      decide_true, Bool.and_self, ofBool, zero_lt_one, npLog]
  · intro hv
    have hm : (lt (.fin a) v && lt v (.fin b)) = false := by
      by_contra hc
      rw [Bool.not_eq_false, Bool.and_eq_true] at hc
      cases v with
      | nan => exact absurd hc.1 (by simp [lt])
      | pinf => exact absurd hc.2 (by simp [lt])
      | ninf => exact absurd hc.1 (by simp [lt])
      | fin x => exact hv ⟨x, rfl, by simpa [lt] using hc.1, by simpa [lt] using hc.2⟩
    have key : ∀ c : Fl, npLog L (mul A (mul A .pinf c) (.fin 0)) = .nan := by
      intro c
      cases c with
      | nan => rfl
      | pinf => simp [mul, infSign, npLog]
      | ninf => simp [mul, infSign, npLog]
      | fin y =>
        show npLog L (mul A (infSign y) (.fin 0)) = .nan
        unfold infSign
        split
        · simp [mul, infSign, npLog]
        · split <;> simp [mul, infSign, npLog]
    simp only [truncNormalPrior, hm, ofBool, Bool.false_eq_true, if_false]
    exact key _

/-- A function like `erf`, for a TruncNormal parameter from nine to ten standard deviations. -/
example : npLog lib (truncNormalPrior down lib (.fin (19 / 2)) (.fin 0) (.fin 1) (.fin 9) (.fin 10)
    (truncNorm down lib (fun x => max (-1) (min 1 x)) (.fin 0) (.fin 1) (.fin 9) (.fin 10))) = .pinf :=
  (C137_tail_false down lib (fun x hx => by rw [min_eq_left (by linarith)]; norm_num) (by norm_num) (by norm_num) (by norm_num) (.fin (19 / 2))).1
    ⟨19 / 2, rfl, by norm_num, by norm_num⟩

end Verif.Ieee
