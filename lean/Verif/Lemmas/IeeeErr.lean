import Mathlib.Analysis.SpecialFunctions.Log.Basic
import Mathlib.Analysis.Complex.ExponentialBounds
import Verif.Lemmas.Ieee
import Verif.Model.IeeePhi

/-! # Relative errors of floating-point operations, for C141 -/

namespace Verif.Ieee

open Verif

theorem eps_pos : 0 < eps := by unfold eps; positivity

/-- Rounding changes a number by less than `2 ** -52` of it. -/
theorem rnd_rel (A : Arith) {x : ℝ} (h : (2 : ℝ) ^ (-1000 : ℤ) ≤ x) : |A.rnd x - x| ≤ x * (2 : ℝ) ^ (-52 : ℤ) := by
  have hx : 0 < x := lt_of_lt_of_le (by positivity) h
  obtain ⟨k, hk1, hk2⟩ := exists_mem_Ico_zpow (y := (2 : ℝ)) hx (by norm_num)
  have hk : -1000 ≤ k := by
    by_contra hc
    have : (2 : ℝ) ^ (k + 1) ≤ (2 : ℝ) ^ (-1000 : ℤ) := zpow_le_zpow_right₀ (by norm_num) (by omega)
    linarith
  have hu : (0 : ℝ) < (2 : ℝ) ^ (k - 52) := by positivity
  have e1 : (2 : ℝ) ^ k = 2 ^ 52 * (2 : ℝ) ^ (k - 52) := by
    rw [← zpow_natCast, ← zpow_add₀ (by norm_num)]
    congr 1
    push_cast
    ring
  have e2 : (2 : ℝ) ^ (k + 1) = 2 ^ 53 * (2 : ℝ) ^ (k - 52) := by
    rw [← zpow_natCast, ← zpow_add₀ (by norm_num)]
    congr 1
    push_cast
    ring
  have e3 : (2 : ℝ) ^ (k - 52) = (2 : ℝ) ^ k * (2 : ℝ) ^ (-52 : ℤ) := by
    rw [← zpow_add₀ (by norm_num)]
    rfl
  obtain ⟨n, hn⟩ : ∃ n : ℤ, n = ⌊x / (2 : ℝ) ^ (k - 52)⌋ := ⟨_, rfl⟩
  have hn1 : (n : ℝ) * (2 : ℝ) ^ (k - 52) ≤ x := by
    rw [← le_div_iff₀ hu, hn]
    exact Int.floor_le _
  have hn2 : x < ((n + 1 : ℤ) : ℝ) * (2 : ℝ) ^ (k - 52) := by
    rw [← div_lt_iff₀ hu, hn]
    push_cast
    exact Int.lt_floor_add_one _
  have hn3 : n < 2 ^ 53 := by
    have : (n : ℝ) * (2 : ℝ) ^ (k - 52) < 2 ^ 53 * (2 : ℝ) ^ (k - 52) := by rw [← e2]; exact hn1.trans_lt hk2
    have := lt_of_mul_lt_mul_right this hu.le
    exact_mod_cast this
  have hn0 : 0 ≤ n := by
    rw [hn]
    exact Int.floor_nonneg.2 (by positivity)
  have r1 : Rep ((n : ℝ) * (2 : ℝ) ^ (k - 52)) := rep_zpow n _ (by rw [abs_of_nonneg hn0]; exact hn3.le) (by omega)
  have r2 : Rep (((n + 1 : ℤ) : ℝ) * (2 : ℝ) ^ (k - 52)) := rep_zpow (n + 1) _ (by rw [abs_of_nonneg (by omega)]; omega) (by omega)
  have g1 := A.mono hn1
  rw [A.fix _ r1] at g1
  have g2 := A.mono hn2.le
  rw [A.fix _ r2] at g2
  have e4 : ((n + 1 : ℤ) : ℝ) * (2 : ℝ) ^ (k - 52) = n * (2 : ℝ) ^ (k - 52) + (2 : ℝ) ^ (k - 52) := by push_cast; ring
  rw [e4] at hn2 g2
  have hb : (2 : ℝ) ^ (k - 52) ≤ x * (2 : ℝ) ^ (-52 : ℤ) := by
    rw [e3]
    exact mul_le_mul_of_nonneg_right hk1 (by positivity)
  rw [abs_le]
  constructor <;> linarith

/-- Numbers whose logarithm is not large. -/
theorem of_log {x : ℝ} (h0 : 0 < x) (h : |Real.log x| ≤ 660) : (2 : ℝ) ^ (-1000 : ℤ) ≤ x ∧ x ≤ (2 : ℝ) ^ (1000 : ℤ) := by
  have hl : (660 : ℝ) ≤ 1000 * Real.log 2 := by linarith [Real.log_two_gt_d9]
  obtain ⟨h1, h2⟩ := abs_le.1 h
  constructor
  · rw [← Real.log_le_log_iff (by positivity) h0, Real.log_zpow]
    push_cast
    linarith
  · rw [← Real.log_le_log_iff h0 (by positivity), Real.log_zpow]
    push_cast
    linarith

/-- Rounding changes the logarithm by less than `eps`. -/
theorem round_log (A : Arith) {x : ℝ} (h0 : 0 < x) (h : |Real.log x| ≤ 660) : ∃ z, A.round x = .fin z ∧ 0 < z ∧ |Real.log z - Real.log x| ≤ eps := by
  obtain ⟨h1, h2⟩ := of_log h0 h
  have hr := rnd_rel A h1
  have e : eps = 2 * (2 : ℝ) ^ (-52 : ℤ) := by
    have : (2 : ℝ) ^ (-51 : ℤ) = (2 : ℝ) ^ ((1 : ℤ) + (-52 : ℤ)) := by norm_num
    rw [eps, this, zpow_add₀ (by norm_num), zpow_one]
  have hp : (0 : ℝ) < (2 : ℝ) ^ (-52 : ℤ) := by positivity
  have hp1 : (2 : ℝ) ^ (-52 : ℤ) ≤ 1 / 4 := by
    have : (2 : ℝ) ^ (-52 : ℤ) ≤ (2 : ℝ) ^ (-2 : ℤ) := zpow_le_zpow_right₀ (by norm_num) (by norm_num)
    exact this.trans (le_of_eq (by norm_num))
  have hbig : A.rnd x ≤ big := by
    have := A.mono (h2.trans (pow_le_big le_rfl))
    rwa [A.fix _ rep_big] at this
  rw [e]
  generalize (2 : ℝ) ^ (-52 : ℤ) = p at *
  obtain ⟨g1, g2⟩ := abs_le.1 hr
  have hz : 0 < A.rnd x := by nlinarith
  refine ⟨A.rnd x, ?_, hz, ?_⟩
  · rw [Arith.round, if_neg (not_lt.2 hbig), if_neg]
    linarith [big_nonneg]
  · rw [← Real.log_div hz.ne' h0.ne', abs_le]
    have hq : 0 < A.rnd x / x := by positivity
    have u1 : A.rnd x / x ≤ 1 + p := by rw [div_le_iff₀ h0]; linarith
    have u2 : 1 - p ≤ A.rnd x / x := by rw [le_div_iff₀ h0]; linarith
    constructor
    · have := Real.one_sub_inv_le_log_of_pos hq
      have h3 : (A.rnd x / x)⁻¹ ≤ 1 + 2 * p := by
        refine (inv_anti₀ (by linarith) u2).trans ?_
        rw [inv_le_iff_one_le_mul₀ (by linarith)]
        nlinarith
      linarith
    · have := Real.log_le_sub_one_of_pos hq
      linarith

/-- A number `x` that stands for `X`: the logarithms differ by at most `r * eps`, and that of `X` is at most `m`. -/
structure Off (r m x X : ℝ) : Prop where
  pos : 0 < x
  pos' : 0 < X
  err : |Real.log x - Real.log X| ≤ r * eps
  size : |Real.log X| ≤ m

theorem Off.exact {x m : ℝ} (h : 0 < x) (hm : |Real.log x| ≤ m) : Off 0 m x x := ⟨h, h, by simp, hm⟩

theorem Off.mono {r m x X r' m' : ℝ} (h : Off r m x X) (hr : r ≤ r') (hm : m ≤ m') : Off r' m' x X :=
  ⟨h.pos, h.pos', h.err.trans (mul_le_mul_of_nonneg_right hr eps_pos.le), h.size.trans hm⟩

theorem eps_small {r : ℝ} (h : r ≤ 2 ^ 45) : r * eps ≤ 1 := by
  have e : (2 : ℝ) ^ 45 * eps ≤ 1 := by
    unfold eps
    norm_num
  have := mul_le_mul_of_nonneg_right h eps_pos.le
  linarith

/-- Rounding the value of a number that stands for another. -/
theorem Off.round (A : Arith) {r m x X : ℝ} (h : Off r m x X) (hr : r ≤ 2 ^ 45) (hm : m ≤ 650) : ∃ z, A.round x = .fin z ∧ Off (r + 1) m z X := by
  have h1 := eps_small hr
  obtain ⟨z, hz, hz0, hz1⟩ := round_log A h.pos (by
    have : |Real.log x| ≤ |Real.log x - Real.log X| + |Real.log X| := by
      simpa using abs_add_le (Real.log x - Real.log X) (Real.log X)
    linarith [h.err, h.size])
  refine ⟨z, hz, hz0, h.pos', ?_, h.size⟩
  have := abs_sub_le (Real.log z) (Real.log x) (Real.log X)
  linarith [h.err]

theorem Off.mul' {r m x X s l y Y : ℝ} (h : Off r m x X) (g : Off s l y Y) : Off (r + s) (m + l) (x * y) (X * Y) := by
  refine ⟨mul_pos h.pos g.pos, mul_pos h.pos' g.pos', ?_, ?_⟩
  · rw [Real.log_mul h.pos.ne' g.pos.ne', Real.log_mul h.pos'.ne' g.pos'.ne']
    have : Real.log x + Real.log y - (Real.log X + Real.log Y) = (Real.log x - Real.log X) + (Real.log y - Real.log Y) := by ring
    rw [this]
    refine (abs_add_le _ _).trans ?_
    linarith [h.err, g.err]
  · rw [Real.log_mul h.pos'.ne' g.pos'.ne']
    exact (abs_add_le _ _).trans (by linarith [h.size, g.size])

theorem Off.div' {r m x X s l y Y : ℝ} (h : Off r m x X) (g : Off s l y Y) : Off (r + s) (m + l) (x / y) (X / Y) := by
  refine ⟨div_pos h.pos g.pos, div_pos h.pos' g.pos', ?_, ?_⟩
  · rw [Real.log_div h.pos.ne' g.pos.ne', Real.log_div h.pos'.ne' g.pos'.ne']
    have : Real.log x - Real.log y - (Real.log X - Real.log Y) = (Real.log x - Real.log X) - (Real.log y - Real.log Y) := by ring
    rw [this]
    refine (abs_sub _ _).trans ?_
    linarith [h.err, g.err]
  · rw [Real.log_div h.pos'.ne' g.pos'.ne']
    exact (abs_sub _ _).trans (by linarith [h.size, g.size])

/-- Products. -/
theorem Off.mul (A : Arith) {r m x X s l y Y : ℝ} (h : Off r m x X) (g : Off s l y Y) (hr : r + s ≤ 2 ^ 45) (hm : m + l ≤ 650) :
    ∃ z, Ieee.mul A (.fin x) (.fin y) = .fin z ∧ Off (r + s + 1) (m + l) z (X * Y) := (h.mul' g).round A hr hm

/-- Quotients. -/
theorem Off.div (A : Arith) {r m x X s l y Y : ℝ} (h : Off r m x X) (g : Off s l y Y) (hr : r + s ≤ 2 ^ 45) (hm : m + l ≤ 650) :
    ∃ z, Ieee.div A (.fin x) (.fin y) = .fin z ∧ Off (r + s + 1) (m + l) z (X / Y) := by
  obtain ⟨z, hz, hoff⟩ := (h.div' g).round A hr hm
  exact ⟨z, by simp only [Ieee.div, g.pos.ne', if_false, hz], hoff⟩

/-- Sums of positive numbers. -/
theorem Off.add (A : Arith) {r m x X y Y : ℝ} (h : Off r m x X) (g : Off r m y Y) (hr : r ≤ 2 ^ 45) (hm : m ≤ 649) :
    ∃ z, Ieee.add A (.fin x) (.fin y) = .fin z ∧ Off (r + 1) (m + 1) z (X + Y) := by
  have hX := h.pos'
  have hY := g.pos'
  have key : ∀ {x X : ℝ}, Off r m x X → X * Real.exp (-(r * eps)) ≤ x ∧ x ≤ X * Real.exp (r * eps) := by
    intro x X h
    obtain ⟨h1, h2⟩ := abs_le.1 h.err
    constructor
    · rw [← Real.log_le_log_iff (mul_pos h.pos' (Real.exp_pos _)) h.pos, Real.log_mul h.pos'.ne' (Real.exp_pos _).ne', Real.log_exp]
      linarith
    · rw [← Real.log_le_log_iff h.pos (mul_pos h.pos' (Real.exp_pos _)), Real.log_mul h.pos'.ne' (Real.exp_pos _).ne', Real.log_exp]
      linarith
  obtain ⟨h1, h2⟩ := key h
  obtain ⟨g1, g2⟩ := key g
  have hpos : 0 < x + y := add_pos h.pos g.pos
  have hl : ∀ {t : ℝ}, 0 < t → |Real.log t| ≤ m → Real.exp (-m) ≤ t ∧ t ≤ Real.exp m := by
    intro t ht h
    obtain ⟨a, b⟩ := abs_le.1 h
    rw [← Real.exp_log ht]
    exact ⟨Real.exp_le_exp.2 a, Real.exp_le_exp.2 b⟩
  have hoff : Off r (m + 1) (x + y) (X + Y) := by
    refine ⟨hpos, by linarith, ?_, ?_⟩
    · rw [abs_le]
      constructor
      · have : (X + Y) * Real.exp (-(r * eps)) ≤ x + y := by linarith
        rw [← Real.log_le_log_iff (mul_pos (by linarith) (Real.exp_pos _)) hpos, Real.log_mul (by linarith) (Real.exp_pos _).ne', Real.log_exp] at this
        linarith
      · have : x + y ≤ (X + Y) * Real.exp (r * eps) := by linarith
        rw [← Real.log_le_log_iff hpos (mul_pos (by linarith) (Real.exp_pos _)), Real.log_mul (by linarith) (Real.exp_pos _).ne', Real.log_exp] at this
        linarith
    · obtain ⟨a1, a2⟩ := hl hX h.size
      obtain ⟨b1, b2⟩ := hl hY g.size
      rw [abs_le]
      constructor
      · rw [Real.le_log_iff_exp_le (by linarith)]
        have : Real.exp (-(m + 1)) ≤ Real.exp (-m) := Real.exp_le_exp.2 (by linarith)
        linarith
      · rw [Real.log_le_iff_le_exp (by linarith), Real.exp_add]
        have : (2 : ℝ) ≤ Real.exp 1 := by linarith [Real.exp_one_gt_d9]
        nlinarith [Real.exp_pos m]
  exact hoff.round A hr (by linarith)

/-- Powers. -/
theorem Off.pow (P : Powers) {r m x X y Y s : ℝ} (h : Off r m x X) (hy : |y - Y| * m ≤ s * eps) (hr : |y| * r + s ≤ 2 ^ 45) (hm : |Y| * m ≤ 640) :
    ∃ z, npPow P (.fin x) (.fin y) = .fin z ∧ Off (|y| * r + s + 4) (|Y| * m) z (X ^ Y) := by
  have hm0 : 0 ≤ m := (abs_nonneg _).trans h.size
  have e1 : Real.log (x ^ y) = y * Real.log x := Real.log_rpow h.pos y
  have e2 : Real.log (X ^ Y) = Y * Real.log X := Real.log_rpow h.pos' Y
  have hd : |Real.log (x ^ y) - Real.log (X ^ Y)| ≤ (|y| * r + s) * eps := by
    rw [e1, e2]
    have : y * Real.log x - Y * Real.log X = y * (Real.log x - Real.log X) + (y - Y) * Real.log X := by ring
    rw [this]
    refine (abs_add_le _ _).trans ?_
    rw [abs_mul, abs_mul]
    have h1 := mul_le_mul_of_nonneg_left h.err (abs_nonneg y)
    have h2 := mul_le_mul_of_nonneg_left h.size (abs_nonneg (y - Y))
    linarith
  have hs : |Real.log (X ^ Y)| ≤ |Y| * m := by
    rw [e2, abs_mul]
    exact mul_le_mul_of_nonneg_left h.size (abs_nonneg Y)
  have h1 := eps_small hr
  obtain ⟨z, hz, hz0, hz1⟩ := P.acc x y h.pos (by
    have : |Real.log (x ^ y)| ≤ |Real.log (x ^ y) - Real.log (X ^ Y)| + |Real.log (X ^ Y)| := by
      simpa using abs_add_le (Real.log (x ^ y) - Real.log (X ^ Y)) (Real.log (X ^ Y))
    linarith)
  refine ⟨z, by simp only [npPow, h.pos, if_true, hz], hz0, Real.rpow_pos_of_pos h.pos' _, ?_, hs⟩
  have := abs_sub_le (Real.log z) (Real.log (x ^ y)) (Real.log (X ^ Y))
  linarith

end Verif.Ieee
