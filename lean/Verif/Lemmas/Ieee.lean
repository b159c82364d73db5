import Verif.Model.Ieee
import Mathlib.Data.Int.LeastGreatest
import Mathlib.Analysis.SpecialFunctions.Log.Base
import Mathlib.Analysis.Complex.ExponentialBounds
import Mathlib.Analysis.Real.Pi.Bounds

/-!
# Lemmas on floating-point arithmetic, and a rounding rule with elementary functions
-/

namespace Verif.Ieee

open Verif

theorem tiny_pos : 0 < tiny := by unfold tiny; positivity

/-! ## Representable numbers -/

theorem rep_zpow (n : ℤ) (j : ℤ) (hn : |n| ≤ 2 ^ 53) (hj : -1074 ≤ j) : Rep (n * (2 : ℝ) ^ j) := by
  refine ⟨n, (j + 1074).toNat, hn, ?_⟩
  have h : (2 : ℝ) ^ (j + 1074).toNat = (2 : ℝ) ^ (j + 1074) := by
    rw [← zpow_natCast, Int.toNat_of_nonneg (by omega)]
  rw [mul_assoc, h, tiny, ← zpow_add₀ (by norm_num)]
  congr 2
  omega

theorem rep_pow (j : ℤ) (hj : -1074 ≤ j) : Rep ((2 : ℝ) ^ j) := by
  have := rep_zpow 1 j (by norm_num) hj
  simpa using this

theorem rep_int (n : ℤ) (hn : |n| ≤ 2 ^ 53) : Rep (n : ℝ) := by
  have := rep_zpow n 0 hn (by norm_num)
  simpa using this

theorem rep_nat (n : ℕ) (hn : n ≤ 2 ^ 53) : Rep (n : ℝ) := by
  have := rep_int (n : ℤ) (by rw [abs_of_nonneg (by positivity)]; exact_mod_cast hn)
  simpa using this

theorem Rep.neg {x : ℝ} (h : Rep x) : Rep (-x) := by
  obtain ⟨n, k, hn, rfl⟩ := h
  exact ⟨-n, k, by simpa using hn, by push_cast; ring⟩

theorem rep_zero : Rep 0 := by simpa using rep_nat 0 (by norm_num)

theorem rep_one : Rep 1 := by simpa using rep_nat 1 (by norm_num)

theorem big_eq : big = ((2 ^ 53 - 1 : ℤ) : ℝ) * (2 : ℝ) ^ (971 : ℤ) := by
  unfold big tiny
  rw [mul_assoc, ← zpow_natCast, ← zpow_add₀ (by norm_num)]
  norm_num

theorem rep_big : Rep big := ⟨2 ^ 53 - 1, 2045, by norm_num, rfl⟩

theorem pow_le_big {j : ℤ} (hj : j ≤ 1000) : (2 : ℝ) ^ j ≤ big := by
  rw [big_eq]
  calc (2 : ℝ) ^ j ≤ (2 : ℝ) ^ (1000 : ℤ) := zpow_le_zpow_right₀ (by norm_num) hj
    _ = (2 : ℝ) ^ (29 : ℤ) * (2 : ℝ) ^ (971 : ℤ) := by rw [← zpow_add₀ (by norm_num)]; norm_num
    _ ≤ _ := by
      refine mul_le_mul_of_nonneg_right ?_ (by positivity)
      norm_num

theorem nat_le_big {n : ℕ} (hn : n ≤ 2 ^ 53) : (n : ℝ) ≤ big := by
  refine le_trans ?_ (pow_le_big (j := 53) (by norm_num))
  have : ((n : ℕ) : ℝ) ≤ ((2 ^ 53 : ℕ) : ℝ) := by exact_mod_cast hn
  refine this.trans_eq ?_
  norm_num

theorem big_nonneg : 0 ≤ big := by simpa using nat_le_big (n := 0) (by norm_num)

/-! ## Rounding -/

theorem round_between (A : Arith) {x lo hi : ℝ} (h1 : lo ≤ x) (h2 : x ≤ hi) (r1 : Rep lo) (r2 : Rep hi) (b1 : -big ≤ lo) (b2 : hi ≤ big) :
    ∃ y, A.round x = .fin y ∧ lo ≤ y ∧ y ≤ hi ∧ Rep y := by
  have g1 : lo ≤ A.rnd x := by
    have := A.mono h1
    rwa [A.fix _ r1] at this
  have g2 : A.rnd x ≤ hi := by
    have := A.mono h2
    rwa [A.fix _ r2] at this
  refine ⟨A.rnd x, ?_, g1, g2, A.rep x⟩
  rw [Arith.round, if_neg (not_lt.2 (g2.trans b2)), if_neg (not_lt.2 (b1.trans g1))]

theorem round_rep (A : Arith) {x : ℝ} (h : Rep x) (h1 : |x| ≤ big) : A.round x = .fin x := by
  obtain ⟨y, hy, h2, h3, -⟩ := round_between A le_rfl le_rfl h h (abs_le.1 h1).1 (abs_le.1 h1).2
  rw [hy, le_antisymm h3 h2]

theorem round_zero (A : Arith) : A.round 0 = .fin 0 := round_rep A rep_zero (by simpa using big_nonneg)

/-- `a` is not below zero. -/
def NonNeg (a : Fl) : Prop := a = .pinf ∨ ∃ x, 0 ≤ x ∧ a = .fin x

/-- `a` is not above zero. -/
def NonPos (a : Fl) : Prop := a = .ninf ∨ ∃ x, x ≤ 0 ∧ a = .fin x

theorem round_nonneg (A : Arith) {x : ℝ} (h : 0 ≤ x) : NonNeg (A.round x) := by
  have g : 0 ≤ A.rnd x := by
    have := A.mono h
    rwa [A.fix _ rep_zero] at this
  unfold Arith.round
  split
  · exact .inl rfl
  · rw [if_neg (not_lt.2 ((neg_nonpos.2 big_nonneg).trans g))]
    exact .inr ⟨_, g, rfl⟩

theorem round_nonpos (A : Arith) {x : ℝ} (h : x ≤ 0) : NonPos (A.round x) := by
  have g : A.rnd x ≤ 0 := by
    have := A.mono h
    rwa [A.fix _ rep_zero] at this
  unfold Arith.round
  rw [if_neg (not_lt.2 (g.trans big_nonneg))]
  split
  · exact .inl rfl
  · exact .inr ⟨_, g, rfl⟩

theorem round_ne_nan (A : Arith) (x : ℝ) : A.round x ≠ .nan := by
  rcases le_total 0 x with h | h
  · rcases round_nonneg A h with h | ⟨y, -, h⟩ <;> simp [h]
  · rcases round_nonpos A h with h | ⟨y, -, h⟩ <;> simp [h]

/-- Above a representable number. -/
theorem round_ge (A : Arith) {x lo : ℝ} (h : lo ≤ x) (r : Rep lo) (h0 : 0 ≤ lo) : A.round x = .pinf ∨ ∃ y, lo ≤ y ∧ A.round x = .fin y := by
  have g : lo ≤ A.rnd x := by
    have := A.mono h
    rwa [A.fix _ r] at this
  unfold Arith.round
  split
  · exact .inl rfl
  · rw [if_neg (not_lt.2 ((neg_nonpos.2 big_nonneg).trans (h0.trans g)))]
    exact .inr ⟨_, g, rfl⟩

/-- Below a representable number. -/
theorem round_le (A : Arith) {x hi : ℝ} (h : x ≤ hi) (r : Rep hi) (h0 : hi ≤ 0) : A.round x = .ninf ∨ ∃ y, y ≤ hi ∧ A.round x = .fin y := by
  have g : A.rnd x ≤ hi := by
    have := A.mono h
    rwa [A.fix _ r] at this
  unfold Arith.round
  rw [if_neg (not_lt.2 ((g.trans h0).trans big_nonneg))]
  split
  · exact .inl rfl
  · exact .inr ⟨_, g, rfl⟩

/-! ## A rounding rule and elementary functions -/

theorem rep_dense {x : ℝ} (h : (2 : ℝ) ^ (-1050 : ℤ) ≤ x) : ∃ y, Rep y ∧ x * (1 - 1 / 1000) ≤ y ∧ y ≤ x := by
  have hx : 0 < x := lt_of_lt_of_le (by positivity) h
  set e := Int.log 2 x with he
  have h1 : (2 : ℝ) ^ e ≤ x := by simpa using Int.zpow_log_le_self (b := 2) (by norm_num) hx
  have h2 : x < (2 : ℝ) ^ (e + 1) := by simpa using Int.lt_zpow_succ_log_self (b := 2) (by norm_num) x
  have h3 : -1051 ≤ e := by
    by_contra hc
    have : x < (2 : ℝ) ^ (-1050 : ℤ) := h2.trans_le (zpow_le_zpow_right₀ (by norm_num) (by omega))
    exact absurd this (not_lt.2 h)
  have hp : (0 : ℝ) < (2 : ℝ) ^ (e - 20) := by positivity
  have e1 : (2 : ℝ) ^ e = 1048576 * (2 : ℝ) ^ (e - 20) := by
    have : (2 : ℝ) ^ e = (2 : ℝ) ^ ((20 : ℤ) + (e - 20)) := by congr 1; omega
    rw [this, zpow_add₀ (by norm_num)]
    norm_num
  have e2 : (2 : ℝ) ^ (e + 1) = 2097152 * (2 : ℝ) ^ (e - 20) := by
    have : (2 : ℝ) ^ (e + 1) = (2 : ℝ) ^ ((21 : ℤ) + (e - 20)) := by congr 1; omega
    rw [this, zpow_add₀ (by norm_num)]
    norm_num
  refine ⟨(⌊x / (2 : ℝ) ^ (e - 20)⌋ : ℤ) * (2 : ℝ) ^ (e - 20), rep_zpow _ _ ?_ (by omega), ?_, ?_⟩
  · have g1 : 0 ≤ ⌊x / (2 : ℝ) ^ (e - 20)⌋ := Int.floor_nonneg.2 (by positivity)
    rw [abs_of_nonneg g1]
    have g2 : ((⌊x / (2 : ℝ) ^ (e - 20)⌋ : ℤ) : ℝ) ≤ 2097152 :=
      (Int.floor_le _).trans ((div_le_iff₀ hp).2 (by rw [← e2]; exact h2.le))
    have : ⌊x / (2 : ℝ) ^ (e - 20)⌋ ≤ 2097152 := by exact_mod_cast g2
    omega
  · have g := Int.lt_floor_add_one (x / (2 : ℝ) ^ (e - 20))
    rw [div_lt_iff₀ hp] at g
    rw [e1] at h1
    nlinarith
  · have g := Int.floor_le (x / (2 : ℝ) ^ (e - 20))
    rwa [le_div_iff₀ hp] at g

/-- The integers that are representable numbers in units of `tiny`. -/
def RepInt (m : ℤ) : Prop := ∃ (n : ℤ) (k : ℕ), |n| ≤ 2 ^ 53 ∧ m = n * 2 ^ k

theorem rep_iff (x : ℝ) : Rep x ↔ ∃ m : ℤ, RepInt m ∧ x = m * tiny := by
  constructor
  · rintro ⟨n, k, hn, rfl⟩
    exact ⟨n * 2 ^ k, ⟨n, k, hn, rfl⟩, by push_cast; ring⟩
  · rintro ⟨m, ⟨n, k, hn, rfl⟩, rfl⟩
    exact ⟨n, k, hn, by push_cast; ring⟩

theorem exists_down (x : ℝ) : ∃ m : ℤ, (RepInt m ∧ (m : ℝ) * tiny ≤ x) ∧ ∀ z : ℤ, RepInt z ∧ (z : ℝ) * tiny ≤ x → z ≤ m := by
  classical
  refine Int.exists_greatest_of_bdd ⟨⌊x / tiny⌋, fun z hz => Int.le_floor.2 ((le_div_iff₀ tiny_pos).2 hz.2)⟩ ?_
  -- a power of two below
  obtain ⟨k, hk⟩ := pow_unbounded_of_one_lt (-(x / tiny)) (by norm_num : (1 : ℝ) < 2)
  refine ⟨-2 ^ k, ⟨-1, k, by norm_num, by ring⟩, ?_⟩
  have : (-2 ^ k : ℝ) ≤ x / tiny := by linarith
  rw [le_div_iff₀ tiny_pos] at this
  push_cast
  exact this

/-- Rounding down. -/
noncomputable def down : Arith where
  rnd x := ((Classical.choose (exists_down x) : ℤ) : ℝ) * tiny
  mono := fun x y h => by
    have hx := Classical.choose_spec (exists_down x)
    have hy := Classical.choose_spec (exists_down y)
    have : Classical.choose (exists_down x) ≤ Classical.choose (exists_down y) := hy.2 _ ⟨hx.1.1, hx.1.2.trans h⟩
    exact mul_le_mul_of_nonneg_right (by exact_mod_cast this) tiny_pos.le
  rep := fun x => (rep_iff _).2 ⟨_, (Classical.choose_spec (exists_down x)).1.1, rfl⟩
  fix := fun x hx => by
    obtain ⟨m, hm, rfl⟩ := (rep_iff x).1 hx
    have h := Classical.choose_spec (exists_down ((m : ℝ) * tiny))
    have h1 := h.2 m ⟨hm, le_rfl⟩
    have h2 := le_of_mul_le_mul_right h.1.2 tiny_pos
    have : Classical.choose (exists_down ((m : ℝ) * tiny)) = m := le_antisymm (by exact_mod_cast h2) h1
    rw [this]

theorem exp_lower {x : ℝ} (h : -700 ≤ x) : (2 : ℝ) ^ (-1011 : ℤ) ≤ Real.exp x := by
  have h2 : (2 : ℝ) ^ (-1011 : ℤ) = Real.exp (-1011 * Real.log 2) := by
    rw [mul_comm, Real.exp_mul, Real.exp_log (by norm_num), ← Real.rpow_intCast]
    norm_num
  rw [h2]
  refine Real.exp_le_exp.2 (le_trans ?_ h)
  have := Real.log_two_gt_d9
  nlinarith

theorem log_bound {x : ℝ} (h : Rep x) (h0 : 0 < x) (h1 : x ≤ big) : |Real.log x| ≤ 999 := by
  have hl := Real.log_two_lt_d9
  have hl0 : 0 < Real.log 2 := Real.log_pos (by norm_num)
  rw [abs_le]
  constructor
  · obtain ⟨m, -, rfl⟩ := (rep_iff x).1 h
    have hm : (1 : ℝ) ≤ m := by
      have : (0 : ℝ) < m := pos_of_mul_pos_left h0 tiny_pos.le
      exact_mod_cast Int.add_one_le_of_lt (by exact_mod_cast this : (0 : ℤ) < m)
    have : tiny ≤ m * tiny := le_mul_of_one_le_left tiny_pos.le hm
    refine le_trans ?_ (Real.log_le_log tiny_pos this)
    rw [tiny, Real.log_zpow]
    push_cast
    nlinarith
  · have h2 : x ≤ (2 : ℝ) ^ (1024 : ℤ) := by
      refine h1.trans ?_
      rw [big_eq]
      have : (2 : ℝ) ^ (1024 : ℤ) = (2 : ℝ) ^ (53 : ℤ) * (2 : ℝ) ^ (971 : ℤ) := by rw [← zpow_add₀ (by norm_num)]; norm_num
      rw [this]
      refine mul_le_mul_of_nonneg_right ?_ (by positivity)
      norm_num
    refine (Real.log_le_log h0 h2).trans ?_
    rw [Real.log_zpow]
    push_cast
    nlinarith

theorem pow10_lower {x : ℝ} (h : |x| ≤ 308) : (2 : ℝ) ^ (-1050 : ℤ) ≤ (10 : ℝ) ^ x := by
  refine le_trans ?_ (Real.rpow_le_rpow_of_exponent_le (by norm_num) (abs_le.1 h).1)
  rw [Real.rpow_neg (by norm_num), zpow_neg]
  refine inv_anti₀ (by positivity) ?_
  have h1 : (10 : ℝ) ^ (308 : ℝ) = (10 : ℝ) ^ (308 : ℕ) := by rw [← Real.rpow_natCast]; norm_num
  have h2 : (2 : ℝ) ^ (1050 : ℤ) = (2 : ℝ) ^ (1050 : ℕ) := by rw [← zpow_natCast]; norm_num
  rw [h1, h2]
  calc (10 : ℝ) ^ 308 = ((10 : ℝ) ^ 44) ^ 7 := by rw [← pow_mul]
    _ ≤ ((2 : ℝ) ^ 150) ^ 7 := pow_le_pow_left₀ (by positivity) (by norm_num) 7
    _ = (2 : ℝ) ^ 1050 := by rw [← pow_mul]

/-- Elementary functions that meet the bounds: numbers just below the exact ones, and integer parts of logarithms. -/
noncomputable def lib : Lib where
  exp x := if h : -700 ≤ x then
      .fin (Classical.choose (rep_dense (x := Real.exp x) ((zpow_le_zpow_right₀ (by norm_num) (by norm_num)).trans (exp_lower h)))) else .fin 0
  exp_le := fun x hx => by
    split
    · next h =>
      have hs := Classical.choose_spec (rep_dense (x := Real.exp x) ((zpow_le_zpow_right₀ (by norm_num) (by norm_num)).trans (exp_lower h)))
      refine ⟨_, rfl, le_trans ?_ hs.2.1, hs.2.2.trans (Real.exp_le_one_iff.2 hx), hs.1⟩
      have := Real.exp_pos x
      nlinarith
    · exact ⟨0, rfl, le_rfl, by norm_num, rep_zero⟩
  exp_pos := fun x h hx => by
    rw [dif_pos h]
    have hs := Classical.choose_spec (rep_dense (x := Real.exp x) ((zpow_le_zpow_right₀ (by norm_num) (by norm_num)).trans (exp_lower h)))
    refine ⟨_, rfl, le_trans ?_ hs.2.1⟩
    have h1 := exp_lower h
    have h2 : (2 : ℝ) ^ (-1011 : ℤ) = 512 * (2 : ℝ) ^ (-1020 : ℤ) := by
      have : (2 : ℝ) ^ (-1011 : ℤ) = (2 : ℝ) ^ ((9 : ℤ) + (-1020 : ℤ)) := by norm_num
      rw [this, zpow_add₀ (by norm_num)]
      norm_num
    have h3 : (0 : ℝ) < (2 : ℝ) ^ (-1020 : ℤ) := by positivity
    rw [h2] at h1
    nlinarith
  exp_zero := fun x hx => by rw [dif_neg (by linarith)]
  log x := ((⌊Real.log x⌋ : ℤ) : ℝ)
  log_rep := fun x h h0 h1 => by
    have hb := abs_le.1 (log_bound h h0 h1)
    have g1 := Int.floor_le (Real.log x)
    have g2 := Int.lt_floor_add_one (Real.log x)
    have g3 : |((⌊Real.log x⌋ : ℤ) : ℝ)| ≤ 1000 := abs_le.2 ⟨by linarith, by linarith⟩
    refine ⟨g3, rep_int _ ?_⟩
    have : |⌊Real.log x⌋| ≤ 1000 := by exact_mod_cast g3
    exact this.trans (by norm_num)
  pow10 x := if h : |x| ≤ 308 then .fin (Classical.choose (rep_dense (pow10_lower h))) else if x ≤ 0 then .fin 0 else .pinf
  pow_near := fun x h => by
    rw [dif_pos h]
    have hs := Classical.choose_spec (rep_dense (pow10_lower h))
    refine ⟨_, rfl, hs.1, hs.2.1, hs.2.2.trans ?_⟩
    have : (0 : ℝ) < (10 : ℝ) ^ x := by positivity
    nlinarith
  pow_low := fun x hx => by
    split
    · next h =>
      have hs := Classical.choose_spec (rep_dense (pow10_lower h))
      refine ⟨_, rfl, le_trans ?_ hs.2.1, hs.2.2.trans (Real.rpow_le_one_of_one_le_of_nonpos (by norm_num) (by linarith)), hs.1⟩
      have : (0 : ℝ) < (10 : ℝ) ^ x := by positivity
      nlinarith
    · rw [if_pos (by linarith)]
      exact ⟨0, rfl, le_rfl, by norm_num, rep_zero⟩
  pow_over := fun x hx => by
    rw [dif_neg (by rw [abs_of_nonneg (by linarith)]; linarith), if_neg (by linarith)]
  ln10 := 2
  ln10_rep := ⟨by simpa using rep_nat 2 (by norm_num), by norm_num, by norm_num⟩
  pi := 3
  pi_rep := ⟨by simpa using rep_nat 3 (by norm_num), by norm_num, by norm_num⟩

end Verif.Ieee
