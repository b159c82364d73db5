import Verif.Lemmas.IeeeErr
import Verif.Props.Spectra

/-!
# Variances of noise processes in floating-point arithmetic

C141: variances are computed to nearly full precision.
-/

namespace Verif.Ieee

open Verif

variable (A : Arith) (P : Powers)

/-! ## Logarithms of the constants -/

theorem log_ten : |Real.log 10| ≤ 3 := by
  have h : Real.log 10 ≤ 4 * Real.log 2 := by
    rw [← Real.log_rpow (by norm_num)]
    exact Real.log_le_log (by norm_num) (by norm_num)
  have h0 : 0 ≤ Real.log 10 := Real.log_nonneg (by norm_num)
  rw [abs_of_nonneg h0]
  linarith [Real.log_two_lt_d9]

theorem log_year : |Real.log 31557600| ≤ 18 := by
  have h : Real.log 31557600 ≤ 25 * Real.log 2 := by
    rw [← Real.log_rpow (by norm_num)]
    exact Real.log_le_log (by norm_num) (by norm_num)
  have h0 : 0 ≤ Real.log 31557600 := Real.log_nonneg (by norm_num)
  rw [abs_of_nonneg h0]
  linarith [Real.log_two_lt_d9]

theorem log_nat {n : ℝ} {j : ℕ} (h1 : 1 ≤ n) (h2 : n ≤ 2 ^ j) : |Real.log n| ≤ j := by
  have h : Real.log n ≤ j * Real.log 2 := by
    rw [← Real.log_pow]
    exact Real.log_le_log (by linarith) h2
  rw [abs_of_nonneg (Real.log_nonneg h1)]
  have : (j : ℝ) * Real.log 2 ≤ j * 1 := mul_le_mul_of_nonneg_left (by linarith [Real.log_two_lt_d9]) (by positivity)
  linarith

theorem off_pi : Off 1 2 P.pi Real.pi := by
  refine ⟨P.pi_acc.1, Real.pi_pos, by simpa using P.pi_acc.2, ?_⟩
  exact_mod_cast log_nat (j := 2) (by linarith [Real.pi_gt_three]) (by linarith [Real.pi_lt_four])

/-- Numbers of moderate size are rounded to within `2 * eps`. -/
theorem rnd_abs {x : ℝ} (h : |x| ≤ 4) : |A.rnd x - x| ≤ 2 * eps := by
  have e : 2 * eps = (2 : ℝ) ^ (-50 : ℤ) := by
    have : (2 : ℝ) ^ (-50 : ℤ) = (2 : ℝ) ^ ((1 : ℤ) + (-51 : ℤ)) := by norm_num
    rw [eps, this, zpow_add₀ (by norm_num), zpow_one]
  have hu : (0 : ℝ) < (2 : ℝ) ^ (-50 : ℤ) := by positivity
  have e2 : (4 : ℝ) = 2 ^ 52 * (2 : ℝ) ^ (-50 : ℤ) := by norm_num
  rw [e]
  obtain ⟨h1, h2⟩ := abs_le.1 h
  obtain ⟨n, hn⟩ : ∃ n : ℤ, n = ⌊x / (2 : ℝ) ^ (-50 : ℤ)⌋ := ⟨_, rfl⟩
  have hn1 : (n : ℝ) * (2 : ℝ) ^ (-50 : ℤ) ≤ x := by
    rw [← le_div_iff₀ hu, hn]
    exact Int.floor_le _
  have hn2 : x < ((n + 1 : ℤ) : ℝ) * (2 : ℝ) ^ (-50 : ℤ) := by
    rw [← div_lt_iff₀ hu, hn]
    push_cast
    exact Int.lt_floor_add_one _
  have hn3 : n ≤ 2 ^ 52 := by
    have : (n : ℝ) * (2 : ℝ) ^ (-50 : ℤ) ≤ 2 ^ 52 * (2 : ℝ) ^ (-50 : ℤ) := by rw [← e2]; exact hn1.trans h2
    have := le_of_mul_le_mul_right this hu
    exact_mod_cast this
  have hn4 : -(2 ^ 52) - 1 < n := by
    have h3 : -(2 ^ 52 : ℝ) * (2 : ℝ) ^ (-50 : ℤ) < ((n + 1 : ℤ) : ℝ) * (2 : ℝ) ^ (-50 : ℤ) := by
      rw [neg_mul, ← e2]
      exact h1.trans_lt hn2
    have h4 := lt_of_mul_lt_mul_right h3 hu.le
    have h5 : -(2 ^ 52) < n + 1 := by exact_mod_cast h4
    omega
  have r1 : Rep ((n : ℝ) * (2 : ℝ) ^ (-50 : ℤ)) := rep_zpow n _ (abs_le.2 ⟨by omega, by omega⟩) (by norm_num)
  have r2 : Rep (((n + 1 : ℤ) : ℝ) * (2 : ℝ) ^ (-50 : ℤ)) := rep_zpow (n + 1) _ (abs_le.2 ⟨by omega, by omega⟩) (by norm_num)
  have g1 := A.mono hn1
  rw [A.fix _ r1] at g1
  have g2 := A.mono hn2.le
  rw [A.fix _ r2] at g2
  have e4 : ((n + 1 : ℤ) : ℝ) * (2 : ℝ) ^ (-50 : ℤ) = n * (2 : ℝ) ^ (-50 : ℤ) + (2 : ℝ) ^ (-50 : ℤ) := by push_cast; ring
  rw [e4] at hn2 g2
  generalize (2 : ℝ) ^ (-50 : ℤ) = p at *
  rw [abs_le]
  constructor <;> linarith

/-! ## Power laws -/

/-- One element of a power law, for a frequency and a width that are nearly right. -/
theorem powerlawAt_off {a g f F w W s : ℝ} (ha : |a| ≤ 30) (hg0 : 0 ≤ g) (hg : g ≤ 7) (hf : Off 1 40 f F) (hw : Off s 40 w W) (hs : s ≤ 2 ^ 44) :
    ∃ z, powerlawAt A P (.fin a) (.fin g) (.fin f) (.fin w) = .fin z ∧
      Off (s + 80) 600 z (((10 : ℝ) ^ a) ^ 2 / 12 / Real.pi ^ 2 * Spectra.fyr ^ (g - 3) * F ^ (-g) * W) := by
  have hs2 : s + 80 ≤ 2 ^ 45 := by norm_num at hs ⊢; linarith
  have o10 : Off 0 3 10 10 := .exact (by norm_num) log_ten
  obtain ⟨z1, e1, o1⟩ := o10.pow P (y := a) (Y := a) (s := 0) (by simp) (by norm_num) (by linarith [abs_nonneg a])
  have o1' : Off 4 90 z1 ((10 : ℝ) ^ a) := o1.mono (by linarith) (by linarith)
  obtain ⟨z2, e2, o2⟩ := o1'.pow P (y := 2) (Y := 2) (s := 0) (by simp) (by norm_num) (by norm_num)
  have o2' : Off 12 180 z2 (((10 : ℝ) ^ a) ^ 2) := by
    rw [← Real.rpow_natCast]
    exact o2.mono (by norm_num) (by norm_num)
  have o12 : Off 0 4 12 12 := .exact (by norm_num) (by exact_mod_cast log_nat (n := 12) (j := 4) (by norm_num) (by norm_num))
  obtain ⟨z3, e3, o3⟩ := o2'.div A o12 (by norm_num) (by norm_num)
  obtain ⟨z4, e4, o4⟩ := (off_pi P).pow P (y := 2) (Y := 2) (s := 0) (by simp) (by norm_num) (by norm_num)
  have o4' : Off 6 4 z4 (Real.pi ^ 2) := by
    rw [← Real.rpow_natCast]
    exact o4.mono (by norm_num) (by norm_num)
  obtain ⟨z5, e5, o5⟩ := o3.div A o4' (by norm_num) (by norm_num)
  have o1x : Off 0 0 1 1 := .exact (by norm_num) (by simp)
  have oy : Off 0 18 31557600 31557600 := .exact (by norm_num) log_year
  obtain ⟨y, ey, of⟩ := o1x.div A oy (by norm_num) (by norm_num)
  have of' : Off 1 18 y Spectra.fyr := of.mono (by norm_num) (by norm_num)
  have hg3 : |g + -3| ≤ 4 := abs_le.2 ⟨by linarith, by linarith⟩
  have hr := rnd_abs A hg3
  have heps : 2 * eps ≤ 1 := eps_small (by norm_num)
  have hq : |A.rnd (g + -3)| ≤ 5 := by
    have : |A.rnd (g + -3)| ≤ |A.rnd (g + -3) - (g + -3)| + |g + -3| := by simpa using abs_add_le (A.rnd (g + -3) - (g + -3)) (g + -3)
    linarith
  have esub : sub A (.fin g) (.fin 3) = .fin (A.rnd (g + -3)) := by
    have hb : (5 : ℝ) ≤ big := by simpa using nat_le_big (n := 5) (by norm_num)
    obtain ⟨q1, q2⟩ := abs_le.1 hq
    simp only [sub, neg, add, Arith.round]
    rw [if_neg (by linarith), if_neg (by linarith)]
  obtain ⟨z6, e6, o6⟩ := of'.pow P (y := A.rnd (g + -3)) (Y := g - 3) (s := 36) (by rw [sub_eq_add_neg g 3]; linarith) (by norm_num; linarith)
    (by rw [sub_eq_add_neg g 3]; linarith)
  have o6' : Off 45 72 z6 (Spectra.fyr ^ (g - 3)) := o6.mono (by linarith) (by rw [sub_eq_add_neg g 3]; linarith)
  obtain ⟨z7, e7, o7⟩ := o5.mul A o6' (by norm_num) (by norm_num)
  have hng : |-g| ≤ 7 := by rw [abs_neg, abs_of_nonneg hg0]; exact hg
  obtain ⟨z8, e8, o8⟩ := hf.pow P (y := -g) (Y := -g) (s := 0) (by simp) (by rw [abs_neg, abs_of_nonneg hg0]; norm_num; linarith) (by linarith)
  have o8' : Off 11 280 z8 (F ^ (-g)) := o8.mono (by linarith) (by linarith)
  obtain ⟨z9, e9, o9⟩ := o7.mul A o8' (by norm_num) (by norm_num)
  obtain ⟨z, ez, oz⟩ := o9.mul A hw (by norm_num at hs ⊢; linarith) (by norm_num)
  refine ⟨z, ?_, oz.mono (by linarith) (by norm_num)⟩
  simp only [powerlawAt, e1, e2, e3, e4, e5, fyrF, ey, esub, e6, e7, neg, e8, e9, ez]

/-- Relative errors. -/
theorem Off.near {r m x X : ℝ} (h : Off r m x X) (hr : r ≤ 2 ^ 45) : |x - X| ≤ 2 * (r * eps) * X := by
  have h1 := eps_small hr
  have h2 := Real.abs_exp_sub_one_le (h.err.trans h1)
  rw [Real.exp_sub, Real.exp_log h.pos, Real.exp_log h.pos'] at h2
  have hX := h.pos'
  have e : x - X = (x / X - 1) * X := by field_simp
  rw [e, abs_mul, abs_of_pos hX]
  refine mul_le_mul_of_nonneg_right (h2.trans ?_) hX.le
  linarith [h.err]

theorem stepsF_get (l : List Fl) (p : Fl) (j : ℕ) (x : Fl) (h : l[j]? = some x) : (stepsF A p l)[j]? = some (sub A x ((p :: l).getD j .nan)) := by
  induction l generalizing p j with
  | nil => simp at h
  | cons y ys ih =>
    cases j with
    | zero =>
      simp only [List.getElem?_cons_zero, Option.some.injEq] at h
      subst h
      simp [stepsF]
    | succ j =>
      simp only [List.getElem?_cons_succ] at h
      have := ih y j h
      simpa [stepsF] using this

theorem stepsF_length (p : Fl) (l : List Fl) : (stepsF A p l).length = l.length := by
  induction l generalizing p with
  | nil => rfl
  | cons y ys ih => simp [stepsF, ih]

/-- A harmonic. -/
theorem harmonic_off {T : ℝ} (h1 : 1 ≤ T) (h2 : T ≤ 2 ^ 50) {j : ℕ} (hj : j < 2 ^ 40) :
    ∃ f, div A (mul A (.fin 1) (.fin ((j : ℝ) + 1))) (.fin T) = .fin f ∧ Off 1 40 f (((j : ℝ) + 1) / T) := by
  have hj1 : (j : ℝ) + 1 ≤ 2 ^ 40 := by
    have : j + 1 ≤ 2 ^ 40 := hj
    exact_mod_cast this
  have hj0 : (1 : ℝ) ≤ (j : ℝ) + 1 := by linarith [Nat.cast_nonneg (α := ℝ) j]
  have hm : mul A (.fin 1) (.fin ((j : ℝ) + 1)) = .fin ((j : ℝ) + 1) := by
    have hr : Rep ((j + 1 : ℕ) : ℝ) := rep_nat _ (by omega)
    have hb : ((j + 1 : ℕ) : ℝ) ≤ big := nat_le_big (by omega)
    push_cast at hr hb
    simp only [mul, one_mul]
    exact round_rep A hr (by rw [abs_of_pos (by linarith)]; exact hb)
  have o1 : Off 0 300 ((j : ℝ) + 1) ((j : ℝ) + 1) := .exact (by linarith) ((log_nat hj0 hj1).trans (by norm_num))
  have o2 : Off 0 300 T T := .exact (by linarith) ((log_nat h1 h2).trans (by norm_num))
  obtain ⟨f, hf, of⟩ := o1.div A o2 (by norm_num) (by norm_num)
  refine ⟨f, by rw [hm, hf], of.pos, of.pos', by simpa using of.err, ?_⟩
  have l1 : Real.log ((j : ℝ) + 1) ≤ 40 * Real.log 2 := by
    rw [← Real.log_rpow (by norm_num)]
    exact Real.log_le_log (by linarith) (by exact_mod_cast hj1)
  have l2 : Real.log T ≤ 50 * Real.log 2 := by
    rw [← Real.log_rpow (by norm_num)]
    exact Real.log_le_log (by linarith) (by exact_mod_cast h2)
  have l3 := Real.log_nonneg hj0
  have l4 := Real.log_nonneg h1
  have l5 := Real.log_two_lt_d9
  rw [Real.log_div (by linarith) (by linarith), abs_le]
  constructor <;> linarith

/-- The difference of two harmonics that follow each other. -/
theorem step_off {T x y : ℝ} (h1 : 1 ≤ T) (h2 : T ≤ 2 ^ 50) {j : ℕ} (hj : j < 2 ^ 40) (hx : Off 1 40 x (((j : ℝ) + 1) / T))
    (hy : |y - j / T| ≤ 2 * eps * (j / T)) : ∃ w, sub A (.fin x) (.fin y) = .fin w ∧ Off (8 * j + 5) 40 w (1 / T) := by
  have hx' := hx.near (by norm_num)
  have he := eps_pos
  have hT : 0 < T := by linarith
  have hj1 : (j : ℝ) + 1 ≤ 2 ^ 40 := by
    have : j + 1 ≤ 2 ^ 40 := hj
    exact_mod_cast this
  have hj0 : (0 : ℝ) ≤ j := Nat.cast_nonneg j
  have hd : |x - y - 1 / T| ≤ (2 * (2 * j + 1) * eps) * (1 / T) := by
    have e : x - y - 1 / T = (x - ((j : ℝ) + 1) / T) - (y - j / T) := by field_simp; ring
    rw [e]
    refine (abs_sub _ _).trans ?_
    have e2 : (2 * (2 * (j : ℝ) + 1) * eps) * (1 / T) = 2 * (1 * eps) * (((j : ℝ) + 1) / T) + 2 * eps * (j / T) := by field_simp; ring
    rw [e2]
    linarith
  obtain ⟨d, hd0⟩ : ∃ d, d = 2 * (2 * (j : ℝ) + 1) * eps := ⟨_, rfl⟩
  rw [← hd0] at hd
  have hdp : 0 ≤ d := by rw [hd0]; positivity
  have hd1 : 2 * d ≤ 1 := by
    have := eps_small (r := 8 * j + 4) (by norm_num at hj1 ⊢; linarith)
    rw [hd0]
    linarith
  have hi : 0 < 1 / T := by positivity
  obtain ⟨g1, g2⟩ := abs_le.1 hd
  have hpos : 0 < x - y := by nlinarith
  have hoff : Off (8 * j + 4) 40 (x - y) (1 / T) := by
    refine ⟨hpos, hi, ?_, ?_⟩
    · rw [← Real.log_div hpos.ne' hi.ne']
      have u1 : (x - y) / (1 / T) ≤ 1 + d := by rw [div_le_iff₀ hi]; linarith
      have u2 : 1 - d ≤ (x - y) / (1 / T) := by rw [le_div_iff₀ hi]; linarith
      have hq : 0 < (x - y) / (1 / T) := by positivity
      have e : (8 * (j : ℝ) + 4) * eps = 2 * d := by rw [hd0]; ring
      rw [e, abs_le]
      constructor
      · have := Real.one_sub_inv_le_log_of_pos hq
        have h3 : ((x - y) / (1 / T))⁻¹ ≤ 1 + 2 * d := by
          refine (inv_anti₀ (by linarith) u2).trans ?_
          rw [inv_le_iff_one_le_mul₀ (by linarith)]
          nlinarith
        linarith
      · have := Real.log_le_sub_one_of_pos hq
        linarith
    · rw [one_div, Real.log_inv, abs_neg]
      have l2 : Real.log T ≤ 50 * Real.log 2 := by
        rw [← Real.log_rpow (by norm_num)]
        exact Real.log_le_log (by linarith) (by exact_mod_cast h2)
      have l5 := Real.log_two_lt_d9
      rw [abs_of_nonneg (Real.log_nonneg h1)]
      linarith
  obtain ⟨w, hw, ow⟩ := hoff.round A (by norm_num at hj1 ⊢; linarith) (by norm_num)
  refine ⟨w, ?_, ow.mono (by linarith) le_rfl⟩
  simp only [sub, neg, add, ← sub_eq_add_neg, hw]

/-- The variance of the modes at the frequency `(j + 1) / T` of a power law with amplitude `10 ** a` and slope `g`, in exact arithmetic. -/
noncomputable def law (T a g : ℝ) (j : ℕ) : ℝ :=
  ((10 : ℝ) ^ a) ^ 2 / (12 * Real.pi ^ 2) * (1 / 31557600) ^ (g - 3) * ((j + 1) / T) ^ (-g) / T

/-- The amplitudes and slopes of the usual priors, and more. -/
def Usual (a g : ℝ) : Prop := |a| ≤ 30 ∧ 0 ≤ g ∧ g ≤ 7

theorem two_eps : (2 : ℝ) ^ (-50 : ℤ) = 2 * eps := by
  have : (2 : ℝ) ^ (-50 : ℤ) = (2 : ℝ) ^ ((1 : ℤ) + (-51 : ℤ)) := by norm_num
  rw [eps, this, zpow_add₀ (by norm_num), zpow_one]

theorem Off.rel {r m x X s : ℝ} (h : Off r m x X) (hs : s ≤ 2 ^ 45) (hr : r ≤ s) : 0 < x ∧ |x - X| ≤ s * (2 : ℝ) ^ (-50 : ℤ) * X := by
  refine ⟨h.pos, (h.near (hr.trans hs)).trans (mul_le_mul_of_nonneg_right ?_ h.pos'.le)⟩
  have := mul_le_mul_of_nonneg_right hr eps_pos.le
  rw [two_eps]
  linarith

theorem powerlaw_off {n : ℕ} (hn : n ≤ 2 ^ 40) {T a g : ℝ} (h1 : 1 ≤ T) (h2 : T ≤ 2 ^ 50) (hu : Usual a g) {c : ℕ} (hc : 0 < c) :
    ∃ l, powerlawF A P (Bases.rep c (harmonicsF A n (.fin T))) (.fin a) (.fin g) c = .ok l ∧ l.length = c * n ∧
      ∀ j < n, ∀ k < c, ∃ z, l[c * j + k]? = some (.fin z) ∧ Off (8 * j + 85) 600 z (law T a g j) := by
  obtain ⟨hs, hhs⟩ : ∃ hs, hs = harmonicsF A n (.fin T) := ⟨_, rfl⟩
  have hlen : hs.length = n := by rw [hhs]; simp [harmonicsF]
  have hget : ∀ j < n, ∃ f, hs[j]? = some (.fin f) ∧ Off 1 40 f (((j : ℝ) + 1) / T) := by
    intro j hj
    obtain ⟨f, hf, of⟩ := harmonic_off A h1 h2 (j := j) (lt_of_lt_of_le hj hn)
    refine ⟨f, ?_, of⟩
    rw [hhs, harmonicsF, List.getElem?_map, List.getElem?_range hj]
    simp only [Option.map_some, hf]
  have hl : (Bases.rep c hs).length = (Bases.rep c (stepsF A (.fin 0) hs)).length := by
    rw [Bases.rep_length, Bases.rep_length, stepsF_length]
  refine ⟨List.zipWith (powerlawAt A P (.fin a) (.fin g)) (Bases.rep c hs) (Bases.rep c (stepsF A (.fin 0) hs)), ?_, ?_, ?_⟩
  · rw [← hhs, powerlawF, if_neg hc.ne', Spectra.every_rep c hc]
    unfold Spectra.bc
    rw [if_pos hl]
  · rw [List.length_zipWith, ← hl, min_self, Bases.rep_length, hlen]
  · intro j hj k hk
    obtain ⟨f, hf, of⟩ := hget j hj
    obtain ⟨y, hy, hy'⟩ : ∃ y, ((.fin 0 : Fl) :: hs).getD j .nan = .fin y ∧ |y - (j : ℝ) / T| ≤ 2 * eps * ((j : ℝ) / T) := by
      cases j with
      | zero => exact ⟨0, rfl, by simp⟩
      | succ i =>
        obtain ⟨y, hy, oy⟩ := hget i (by omega)
        refine ⟨y, ?_, ?_⟩
        · rw [List.getD_cons_succ, List.getD_eq_getElem?_getD, hy]
          rfl
        · have := oy.near (by norm_num)
          push_cast
          simpa using this
    obtain ⟨w, hw, ow⟩ := step_off A h1 h2 (lt_of_lt_of_le hj hn) of hy'
    have hj1 : (j : ℝ) ≤ 2 ^ 40 := by
      have : j ≤ 2 ^ 40 := by omega
      exact_mod_cast this
    obtain ⟨z, hz, oz⟩ := powerlawAt_off A P hu.1 hu.2.1 hu.2.2 of ow (by linarith)
    have hst := stepsF_get A hs (.fin 0) j _ hf
    rw [hy, hw] at hst
    refine ⟨z, ?_, ?_⟩
    · rw [List.getElem?_zipWith, Bases.rep_get c hs j k hk, Bases.rep_get c _ j k hk, hf, hst]
      simp only [hz]
    · have e1 : law T a g j = ((10 : ℝ) ^ a) ^ 2 / 12 / Real.pi ^ 2 * Spectra.fyr ^ (g - 3) * ((j + 1) / T) ^ (-g) * (1 / T) := by
        rw [law, Spectra.fyr]
        field_simp
      rw [e1]
      exact oz.mono (by linarith) le_rfl

theorem mode_bound {j n : ℕ} (hn : n ≤ 2 ^ 40) (hj : j < n) : 8 * (j : ℝ) + 100 ≤ 2 ^ 45 := by
  have h : (j : ℝ) ≤ 2 ^ 40 := by
    have : j ≤ 2 ^ 40 := by omega
    exact_mod_cast this
  linarith

/-- C141 for power laws at the harmonics of a time span: whatever the rounding rule, each variance is the exact one up to rounding errors of a few units
in the last place, and some more in high modes; so is its inverse. -/
theorem C141_powerlaw {n : ℕ} (hn : n ≤ 2 ^ 40) {T a g : ℝ} (h1 : 1 ≤ T) (h2 : T ≤ 2 ^ 50) (hu : Usual a g) {c : ℕ} (hc : 0 < c) :
    ∃ l, powerlawF A P (Bases.rep c (harmonicsF A n (.fin T))) (.fin a) (.fin g) c = .ok l ∧ l.length = c * n ∧ (invF A l).length = c * n ∧
      ∀ j < n, ∀ k < c, ∃ z y, l[c * j + k]? = some (.fin z) ∧ (0 < z ∧ |z - law T a g j| ≤ (8 * j + 100) * (2 : ℝ) ^ (-50 : ℤ) * law T a g j) ∧
        (invF A l)[c * j + k]? = some (.fin y) ∧ 0 < y ∧ |y - 1 / law T a g j| ≤ (8 * j + 100) * (2 : ℝ) ^ (-50 : ℤ) * (1 / law T a g j) := by
  obtain ⟨l, e, hl, h⟩ := powerlaw_off A P hn h1 h2 hu hc
  refine ⟨l, e, hl, by simp [invF, hl], fun j hj k hk => ?_⟩
  obtain ⟨z, hz, oz⟩ := h j hj k hk
  have hb := mode_bound hn hj
  have o1 : Off 0 0 1 1 := .exact (by norm_num) (by simp)
  obtain ⟨y, hy, oy⟩ := o1.div A oz (by linarith) (by norm_num)
  refine ⟨z, y, hz, oz.rel hb (by linarith), ?_, oy.rel hb (by linarith)⟩
  rw [invF, List.getElem?_map, hz, Option.map_some, hy]

/-- C141 for two processes on the same basis: the sum of their variances, and its inverse. -/
theorem C141_shared {n : ℕ} (hn : n ≤ 2 ^ 40) {T a g b h : ℝ} (h1 : 1 ≤ T) (h2 : T ≤ 2 ^ 50) (hu : Usual a g) (hv : Usual b h) {c : ℕ} (hc : 0 < c) :
    ∃ l m, powerlawF A P (Bases.rep c (harmonicsF A n (.fin T))) (.fin a) (.fin g) c = .ok l ∧
      powerlawF A P (Bases.rep c (harmonicsF A n (.fin T))) (.fin b) (.fin h) c = .ok m ∧ (addF A l m).length = c * n ∧
      ∀ j < n, ∀ k < c, ∃ z y, (addF A l m)[c * j + k]? = some (.fin z) ∧
        (0 < z ∧ |z - (law T a g j + law T b h j)| ≤ (8 * j + 100) * (2 : ℝ) ^ (-50 : ℤ) * (law T a g j + law T b h j)) ∧
        (invF A (addF A l m))[c * j + k]? = some (.fin y) ∧ 0 < y ∧
        |y - 1 / (law T a g j + law T b h j)| ≤ (8 * j + 100) * (2 : ℝ) ^ (-50 : ℤ) * (1 / (law T a g j + law T b h j)) := by
  obtain ⟨l, e, hl, h⟩ := powerlaw_off A P hn h1 h2 hu hc
  obtain ⟨m, e', hm, h'⟩ := powerlaw_off A P hn h1 h2 hv hc
  refine ⟨l, m, e, e', by simp [addF, hl, hm], fun j hj k hk => ?_⟩
  obtain ⟨x, hx, ox⟩ := h j hj k hk
  obtain ⟨x', hx', ox'⟩ := h' j hj k hk
  have hb := mode_bound hn hj
  obtain ⟨z, hz, oz⟩ := ox.add A ox' (by linarith) (by norm_num)
  have o1 : Off 0 0 1 1 := .exact (by norm_num) (by simp)
  obtain ⟨y, hy, oy⟩ := o1.div A oz (by linarith) (by norm_num)
  have hg : (addF A l m)[c * j + k]? = some (.fin z) := by
    rw [addF, List.getElem?_zipWith, hx, hx']
    simp only [hz]
  refine ⟨z, y, hg, oz.rel hb (by linarith), ?_, oy.rel hb (by linarith)⟩
  rw [invF, List.getElem?_map, hg, Option.map_some, hy]

/-- Twice a representable number. -/
theorem rep_twice {x : ℝ} (h : Rep x) : Rep (2 * x) := by
  obtain ⟨n, k, hn, rfl⟩ := h
  exact ⟨n, k + 1, hn, by ring⟩

theorem squared_off {q : ℝ} (hr : Rep q) (hq : |q| ≤ 30) : ∃ z, squaredF A P (.fin q) = .fin z ∧ Off 4 180 z ((10 : ℝ) ^ (2 * q)) := by
  have hb : |2 * q| ≤ 60 := by rw [abs_mul]; norm_num; linarith
  have e : mul A (.fin 2) (.fin q) = .fin (2 * q) := by
    have : (60 : ℝ) ≤ big := by simpa using nat_le_big (n := 60) (by norm_num)
    exact round_rep A (rep_twice hr) (hb.trans this)
  have o10 : Off 0 3 10 10 := .exact (by norm_num) log_ten
  obtain ⟨z, hz, oz⟩ := o10.pow P (y := 2 * q) (Y := 2 * q) (s := 0) (by simp) (by norm_num) (by linarith)
  exact ⟨z, by rw [squaredF, e, hz], oz.mono (by linarith) (by linarith)⟩

/-- C141 for EQUAD, ECORR and free spectra. -/
theorem C141_squared {q : ℝ} (hr : Rep q) (hq : |q| ≤ 30) :
    ∃ z, squaredF A P (.fin q) = .fin z ∧ 0 < z ∧ |z - (10 : ℝ) ^ (2 * q)| ≤ 4 * (2 : ℝ) ^ (-50 : ℤ) * (10 : ℝ) ^ (2 * q) := by
  obtain ⟨z, hz, oz⟩ := squared_off A P hr hq
  exact ⟨z, hz, oz.rel (by norm_num) le_rfl⟩

/-- C141 for the variance of one TOA. -/
theorem C141_white {s e q : ℝ} (hs0 : 0 < s) (hs : |Real.log s| ≤ 100) (he0 : 0 < e) (he : |Real.log e| ≤ 100) (hr : Rep q) (hq : |q| ≤ 30) :
    (∃ z, ndiagF A P (.fin s) (.fin e) none = .fin z ∧ 0 < z ∧ |z - e ^ 2 * s ^ 2| ≤ 10 * (2 : ℝ) ^ (-50 : ℤ) * (e ^ 2 * s ^ 2)) ∧
    ∃ z, ndiagF A P (.fin s) (.fin e) (some (.fin q)) = .fin z ∧ 0 < z ∧
      |z - e ^ 2 * (s ^ 2 + (10 : ℝ) ^ (2 * q))| ≤ 10 * (2 : ℝ) ^ (-50 : ℤ) * (e ^ 2 * (s ^ 2 + (10 : ℝ) ^ (2 * q))) := by
  have sq : ∀ {x : ℝ}, 0 < x → |Real.log x| ≤ 100 → ∃ z, npPow P (.fin x) (.fin 2) = .fin z ∧ Off 4 200 z (x ^ 2) := by
    intro x h0 h
    obtain ⟨z, hz, oz⟩ := (Off.exact h0 h).pow P (y := 2) (Y := 2) (s := 0) (by simp) (by norm_num) (by norm_num)
    refine ⟨z, hz, ?_⟩
    rw [← Real.rpow_natCast]
    exact oz.mono (by norm_num) (by norm_num)
  obtain ⟨u, hu, ou⟩ := sq hs0 hs
  obtain ⟨v, hv, ov⟩ := sq he0 he
  obtain ⟨t, ht, ot⟩ := squared_off A P hr hq
  constructor
  · obtain ⟨z, hz, oz⟩ := ov.mul A ou (by norm_num) (by norm_num)
    exact ⟨z, by simp only [ndiagF, hu, hv, hz], oz.rel (by norm_num) (by norm_num)⟩
  · obtain ⟨w, hw, ow⟩ := ou.add A (ot.mono le_rfl (by norm_num)) (by norm_num) (by norm_num)
    obtain ⟨z, hz, oz⟩ := ov.mul A ow (by norm_num) (by norm_num)
    exact ⟨z, by simp only [ndiagF, hu, hv, ht, hw, hz], oz.rel (by norm_num) (by norm_num)⟩

/-! ## A power function and the values of a usual analysis -/

/-- The power function whose results are rounded down. -/
noncomputable def floorPowers : Powers where
  pow x y := down.round (x ^ y)
  acc x y hx h := by
    obtain ⟨z, hz, h0, h1⟩ := round_log down (Real.rpow_pos_of_pos hx y) (h.trans (by norm_num))
    exact ⟨z, hz, h0, h1.trans (by linarith [eps_pos])⟩
  pi := down.rnd Real.pi
  pi_acc := by
    have h : |Real.log Real.pi| ≤ 2 := by
      exact_mod_cast log_nat (j := 2) (by linarith [Real.pi_gt_three]) (by linarith [Real.pi_lt_four])
    obtain ⟨z, hz, h0, h1⟩ := round_log down Real.pi_pos (h.trans (by norm_num))
    have : z = down.rnd Real.pi := by
      unfold Arith.round at hz
      split_ifs at hz
      exact (Fl.fin.inj hz).symm
    rw [← this]
    exact ⟨h0, h1⟩

/-- Thirty frequencies of ten years, an amplitude of `10 ** -14` and a slope of 13/3. -/
example : (30 : ℕ) ≤ 2 ^ 40 ∧ (1 : ℝ) ≤ 315576000 ∧ (315576000 : ℝ) ≤ 2 ^ 50 ∧ Usual (-14) (13 / 3) ∧ 0 < law 315576000 (-14) (13 / 3) 29 := by
  refine ⟨by norm_num, by norm_num, by norm_num, ⟨by norm_num, by norm_num, by norm_num⟩, ?_⟩
  unfold law
  positivity

/-- A TOA with an error of a microsecond, or nearly. -/
example : Rep (-7) ∧ |(-7 : ℝ)| ≤ 30 ∧ |Real.log ((2 : ℝ) ^ (-20 : ℤ))| ≤ 100 := by
  refine ⟨by simpa using rep_int (-7) (by norm_num), by norm_num, ?_⟩
  rw [Real.log_zpow, abs_mul, abs_of_pos (Real.log_pos (by norm_num))]
  norm_num
  linarith [Real.log_two_lt_d9]

end Verif.Ieee
