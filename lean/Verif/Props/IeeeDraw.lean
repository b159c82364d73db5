import Verif.Model.IeeeDraw
import Verif.Props.Ieee
import Verif.Props.IeeeToas

/-!
# Drawing values and percent points in floating-point arithmetic

C140: values that are drawn, and percent points, lie in the support of the prior.
-/

namespace Verif.Ieee

open Verif

/-! ## Roundings of a difference -/

/-- A positive representable number with its leading bits: as many as there can be, unless it is a small multiple of `tiny`. -/
theorem normalize {w : ℝ} (h : Rep w) (h0 : 0 < w) : ∃ (n : ℤ) (k : ℕ), 0 < n ∧ n ≤ 2 ^ 53 ∧ (k = 0 ∨ 2 ^ 52 < n) ∧ w = (n : ℝ) * 2 ^ k * tiny := by
  obtain ⟨n, k, hn, rfl⟩ := h
  have hn0 : 0 < n := by
    have h1 : (0 : ℝ) < 2 ^ k * tiny := mul_pos (by positivity) tiny_pos
    have : (0 : ℝ) < n := by
      rw [mul_assoc] at h0
      exact (pos_iff_pos_of_mul_pos h0).2 h1
    exact_mod_cast this
  have hn1 : n ≤ 2 ^ 53 := (le_abs_self n).trans hn
  clear hn h0
  induction k generalizing n with
  | zero => exact ⟨n, 0, hn0, hn1, .inl rfl, rfl⟩
  | succ k ih =>
    by_cases h : 2 ^ 52 < n
    · exact ⟨n, k + 1, hn0, hn1, .inr h, rfl⟩
    · obtain ⟨m, l, h1, h2, h3, h4⟩ := ih (2 * n) (by omega) (by omega)
      refine ⟨m, l, h1, h2, h3, ?_⟩
      rw [← h4]
      push_cast
      ring

variable {A : Arith}

/-- No representable number lies between a number and its rounding. -/
theorem Nearest.below (hA : Nearest A) {d r : ℝ} (hr : Rep r) (h : r < A.rnd d) : r ≤ d := by
  by_contra hc
  push Not at hc
  have := hA d r hr
  rw [abs_of_pos (by linarith), abs_of_pos (by linarith)] at this
  linarith

theorem rnd_nonneg (A : Arith) {x : ℝ} (h : 0 ≤ x) : 0 ≤ A.rnd x := by
  have := A.mono h
  rwa [A.fix 0 rep_zero] at this

/-- The difference of two representable numbers, as a multiple of `tiny`. -/
theorem sub_tiny {a b : ℝ} (ha : Rep a) (hb : Rep b) : ∃ m : ℤ, b - a = m * tiny := by
  obtain ⟨n, k, -, rfl⟩ := ha
  obtain ⟨m, l, -, rfl⟩ := hb
  exact ⟨m * 2 ^ l - n * 2 ^ k, by push_cast; ring⟩

/-- A fraction below one of the rounded difference is not above the difference, even after rounding. -/
theorem draw_le (hA : Nearest A) {a b u : ℝ} (ha : Rep a) (hb : Rep b) (hab : a ≤ b) (hu0 : 0 ≤ u) (hu : u ≤ 1 - (2 : ℝ) ^ (-53 : ℤ)) :
    A.rnd (b - a) * u ≤ b - a ∧ A.rnd (A.rnd (b - a) * u) ≤ b - a := by
  have hp : (0 : ℝ) < (2 : ℝ) ^ (-53 : ℤ) := by positivity
  have e52 : (2 : ℝ) ^ (-53 : ℤ) * 2 ^ 52 = 1 / 2 := by norm_num
  generalize (2 : ℝ) ^ (-53 : ℤ) = p at hu hp e52
  have hw0 : 0 ≤ A.rnd (b - a) := rnd_nonneg A (by linarith)
  have hwu : A.rnd (b - a) * u ≤ A.rnd (b - a) := mul_le_of_le_one_right hw0 (by linarith)
  rcases le_or_gt (A.rnd (b - a)) (b - a) with h | h
  · refine ⟨hwu.trans h, le_trans ?_ h⟩
    have := A.mono hwu
    rwa [A.fix _ (A.rep (b - a))] at this
  · obtain ⟨n, k, hn0, hn1, hk, hw⟩ := normalize (A.rep (b - a)) (by linarith)
    have ht := tiny_pos
    obtain ⟨q, hq⟩ : ∃ q : ℝ, q = 2 ^ k * tiny := ⟨_, rfl⟩
    have hq0 : 0 < q := by rw [hq]; positivity
    have hw' : A.rnd (b - a) = n * q := by rw [hw, hq]; ring
    have hpred : Rep ((n - 1 : ℝ) * q) := ⟨n - 1, k, abs_le.2 ⟨by omega, by omega⟩, by rw [hq]; push_cast; ring⟩
    have hpd : (n - 1 : ℝ) * q ≤ b - a := hA.below hpred (by rw [hw']; nlinarith)
    have hk2 : 2 ^ 52 < n := by
      refine hk.resolve_left fun hk0 => ?_
      subst hk0
      rw [pow_zero, one_mul] at hq
      obtain ⟨m, hm⟩ := sub_tiny ha hb
      rw [hm, hq] at hpd
      rw [hm] at h
      rw [hm, hq] at hw'
      rw [hw'] at h
      have h1 : ((n - 1 : ℤ) : ℝ) ≤ m := by push_cast; exact le_of_mul_le_mul_right hpd ht
      have h2 : (m : ℝ) < n := lt_of_mul_lt_mul_right h ht.le
      have h1' : n - 1 ≤ m := by exact_mod_cast h1
      have h2' : m < n := by exact_mod_cast h2
      have hme : m = n - 1 := by omega
      have hrep : Rep ((m : ℝ) * tiny) := ⟨m, 0, by rw [hme]; exact abs_le.2 ⟨by omega, by omega⟩, by ring⟩
      rw [A.fix _ hrep] at hw'
      exact absurd hw' h.ne
    have hn2 : (2 : ℝ) ^ 52 < n := by exact_mod_cast hk2
    have hhalf : q / 2 < n * q * p := by
      have h1 : p * 2 ^ 52 < p * n := mul_lt_mul_of_pos_left hn2 hp
      rw [e52] at h1
      have h2 := mul_lt_mul_of_pos_left h1 hq0
      linarith
    clear hn2 e52
    have hnear := hA (b - a) _ hpred
    rw [abs_of_pos (by linarith), abs_of_nonpos (by linarith), hw'] at hnear
    have hT : n * q * u ≤ n * q - n * q * p := by
      have : n * q * u ≤ n * q * (1 - p) := mul_le_mul_of_nonneg_left hu (by rw [← hw']; exact hw0)
      linarith
    rw [hw']
    refine ⟨by linarith, hA.below (A.rep _) ?_⟩
    rw [hw']
    rcases le_or_gt (n * q * u) ((n - 1 : ℝ) * q) with h3 | h3
    · have := A.mono h3
      rw [A.fix _ hpred] at this
      linarith
    · have := hA (n * q * u) _ hpred
      rw [abs_of_neg (a := (n - 1 : ℝ) * q - n * q * u) (by linarith)] at this
      have := (abs_le.1 this).2
      linarith

/-- Every representable number below one is a step of `2 ** -53` below it. -/
theorem below_one {u : ℝ} (h : Rep u) (h1 : u < 1) : u ≤ 1 - (2 : ℝ) ^ (-53 : ℤ) := by
  rcases le_or_gt u (1 / 2) with h2 | h2
  · have : (2 : ℝ) ^ (-53 : ℤ) ≤ 1 / 2 := by
      have : (2 : ℝ) ^ (-53 : ℤ) ≤ (2 : ℝ) ^ (-1 : ℤ) := zpow_le_zpow_right₀ (by norm_num) (by norm_num)
      simpa using this
    refine h2.trans (le_sub_comm.1 (this.trans (le_of_eq (by norm_num))))
  · obtain ⟨m, hm⟩ := rep_spacing (j := -54) h (by
      rw [abs_of_pos (by linarith)]
      refine lt_of_eq_of_lt ?_ h2
      norm_num)
    have e : (2 : ℝ) ^ (-54 + 1 : ℤ) = (2 : ℝ) ^ (-53 : ℤ) := by norm_num
    rw [e] at hm
    have hp : (0 : ℝ) < (2 : ℝ) ^ (-53 : ℤ) := by positivity
    have e2 : (2 : ℝ) ^ 53 * (2 : ℝ) ^ (-53 : ℤ) = 1 := by norm_num
    have h3 : (m : ℝ) < 2 ^ 53 := by
      refine lt_of_mul_lt_mul_right ?_ hp.le
      rw [e2, ← hm]
      exact h1
    have h4 : m < 2 ^ 53 := by exact_mod_cast h3
    have h5 : m ≤ 2 ^ 53 - 1 := by omega
    have h6 : (m : ℝ) ≤ 2 ^ 53 - 1 := by exact_mod_cast h5
    rw [hm]
    calc (m : ℝ) * (2 : ℝ) ^ (-53 : ℤ) ≤ (2 ^ 53 - 1) * (2 : ℝ) ^ (-53 : ℤ) := mul_le_mul_of_nonneg_right h6 hp.le
      _ = 1 - (2 : ℝ) ^ (-53 : ℤ) := by rw [sub_mul, e2, one_mul]

theorem unit_bounds {k : ℕ} (hk : k < 2 ^ 53) : 0 ≤ unit k ∧ unit k ≤ 1 - (2 : ℝ) ^ (-53 : ℤ) := by
  have hp : (0 : ℝ) < (2 : ℝ) ^ (-53 : ℤ) := by positivity
  have e2 : (2 : ℝ) ^ 53 * (2 : ℝ) ^ (-53 : ℤ) = 1 := by norm_num
  have h : k ≤ 2 ^ 53 - 1 := by omega
  have h1 : (k : ℝ) ≤ 2 ^ 53 - 1 := by
    have : k + 1 ≤ 2 ^ 53 := hk
    have : (k : ℝ) + 1 ≤ 2 ^ 53 := by exact_mod_cast this
    linarith
  refine ⟨by unfold unit; positivity, ?_⟩
  unfold unit
  calc (k : ℝ) * (2 : ℝ) ^ (-53 : ℤ) ≤ (2 ^ 53 - 1) * (2 : ℝ) ^ (-53 : ℤ) := mul_le_mul_of_nonneg_right h1 hp.le
    _ = 1 - (2 : ℝ) ^ (-53 : ℤ) := by rw [sub_mul, e2, one_mul]

/-! ## Uniform parameters -/

/-- `np.random.uniform`, whatever the processor: a number from `low` to `high`, both included. -/
theorem rngUniform_in (hA : Nearest A) (fused : Bool) {k : ℕ} (hk : k < 2 ^ 53) {a b : ℝ} (ha : Rep a) (hb : Rep b) (hab : a ≤ b) (ha' : |a| ≤ big)
    (hb' : |b| ≤ big) (hd : b - a ≤ big) : ∃ s, rngUniform A fused k (.fin a) (.fin b) = .ok (.fin s) ∧ a ≤ s ∧ s ≤ b ∧ Rep s := by
  obtain ⟨hu0, hu1⟩ := unit_bounds hk
  obtain ⟨h1, h2⟩ := draw_le hA ha hb hab hu0 hu1
  obtain ⟨w, hw, hw0, hw1, -⟩ := round_between A (x := b + -a) (lo := 0) (hi := big) (by linarith) (by linarith) rep_zero rep_big
    (by linarith [big_nonneg]) le_rfl
  have hwr : A.rnd (b - a) = w := by
    rw [Arith.round] at hw
    split at hw
    · cases hw
    · split at hw
      · cases hw
      · rw [sub_eq_add_neg]; injection hw
  rw [hwr] at h1 h2
  have hu2 : unit k ≤ 1 := by
    have hp : (0 : ℝ) < (2 : ℝ) ^ (-53 : ℤ) := by positivity
    linarith
  have hwu : 0 ≤ w * unit k := by positivity
  cases fused with
  | true =>
    obtain ⟨s, hs, hs1, hs2, hs3⟩ := round_between A (x := a + w * unit k) (lo := a) (hi := b) (by linarith) (by linarith) ha hb
      (abs_le.1 ha').1 (abs_le.1 hb').2
    exact ⟨s, by simp only [rngUniform, sub, neg, add, hw, addMul, if_true, hs], hs1, hs2, hs3⟩
  | false =>
    have hr : A.round (w * unit k) = .fin (A.rnd (w * unit k)) := by
      rw [Arith.round, if_neg (not_lt.2 (h2.trans hd)), if_neg]
      have := rnd_nonneg A hwu
      linarith [big_nonneg]
    obtain ⟨s, hs, hs1, hs2, hs3⟩ := round_between A (x := a + A.rnd (w * unit k)) (lo := a) (hi := b) (by linarith [rnd_nonneg A hwu])
      (by linarith) ha hb (abs_le.1 ha').1 (abs_le.1 hb').2
    exact ⟨s, by simp only [rngUniform, sub, neg, add, hw, addMul, Bool.false_eq_true, if_false, mul, hr, hs], hs1, hs2, hs3⟩

/-- C140 for values drawn from Uniform parameters: each lies in the support and its log prior is finite. -/
theorem C140_uniform (hA : Nearest A) (L : Lib) (fused : Bool) {k : ℕ} (hk : k < 2 ^ 53) {a b : ℝ} (ha : Rep a) (hb : Rep b) (ha' : |a| ≤ big)
    (hb' : |b| ≤ big) (h1 : (2 : ℝ) ^ (-1000 : ℤ) ≤ b - a) (h2 : b - a ≤ (2 : ℝ) ^ (1000 : ℤ)) :
    ∃ s c, uniformSampler A fused k (.fin a) (.fin b) = .ok s ∧ In (Set.Icc a b) s ∧ npLog L (uniformPrior A s (.fin a) (.fin b)) = .fin c := by
  have hp : (0 : ℝ) < (2 : ℝ) ^ (-1000 : ℤ) := by positivity
  obtain ⟨s, hs, hs1, hs2, -⟩ := rngUniform_in hA fused hk ha hb (by linarith) ha' hb' (h2.trans (pow_le_big le_rfl))
  obtain ⟨c, -, hc⟩ := C137_uniform A L h1 h2
  have hin : In (Set.Icc a b) (.fin s) := ⟨s, rfl, hs1, hs2⟩
  exact ⟨_, c, hs, hin, (hc _).1 hin⟩

/-- C140, ranges that are too wide: `OverflowError`. -/
theorem C140_overflow (A : Arith) (fused : Bool) (k : ℕ) {a b : ℝ} (h : big < A.rnd (b - a)) : uniformSampler A fused k (.fin a) (.fin b) = .error .other := by
  rw [sub_eq_add_neg] at h
  simp only [uniformSampler, rngUniform, sub, neg, add, Arith.round, if_pos h]

/-- The width of a range of finite size. -/
theorem width (A : Arith) {a b : ℝ} (hab : a < b) (ha : Rep a) (hb : Rep b) (hd : b - a ≤ big) : sub A (.fin b) (.fin a) = .fin (A.rnd (b - a)) ∧
    0 < A.rnd (b - a) ∧ A.rnd (b - a) ≤ big := by
  have ht := tiny_pos
  have h1 : tiny ≤ b - a := by
    obtain ⟨m, hm⟩ := sub_tiny ha hb
    have h0 : 0 < (m : ℝ) * tiny := by rw [← hm]; linarith
    have h0' : (0 : ℝ) < m := (pos_iff_pos_of_mul_pos h0).2 ht
    have h0'' : 1 ≤ m := by
      have : 0 < m := by exact_mod_cast h0'
      omega
    have : (1 : ℝ) ≤ m := by exact_mod_cast h0''
    rw [hm]
    nlinarith
  have rt : Rep tiny := ⟨1, 0, by norm_num, by simp⟩
  have h2 : tiny ≤ A.rnd (b - a) := by
    have := A.mono h1
    rwa [A.fix _ rt] at this
  have h3 : A.rnd (b - a) ≤ big := by
    have := A.mono hd
    rwa [A.fix _ rep_big] at this
  refine ⟨?_, by linarith, h3⟩
  simp only [sub, neg, add]
  rw [← sub_eq_add_neg, Arith.round, if_neg (not_lt.2 h3), if_neg]
  linarith [big_nonneg]

/-- A percent point of a Uniform parameter, computed. -/
theorem uniformPPF_eq (A : Arith) {a b q : ℝ} (hab : a < b) (ha : Rep a) (hb : Rep b) (hd : b - a ≤ big) (hq0 : 0 ≤ q) (hq1 : q ≤ 1) :
    uniformPPF A (.fin q) (.fin a) (.fin b) = A.round (A.rnd (q * A.rnd (b - a)) + a) ∧ 0 ≤ A.rnd (q * A.rnd (b - a)) := by
  obtain ⟨h1, h2, h3⟩ := width A hab ha hb hd
  have h4 : q * A.rnd (b - a) ≤ A.rnd (b - a) := mul_le_of_le_one_left h2.le hq1
  have h5 : A.rnd (q * A.rnd (b - a)) ≤ big := by
    have := A.mono (h4.trans h3)
    rwa [A.fix _ rep_big] at this
  have h6 : 0 ≤ A.rnd (q * A.rnd (b - a)) := rnd_nonneg A (by positivity)
  have h7 : A.round (q * A.rnd (b - a)) = .fin (A.rnd (q * A.rnd (b - a))) := by
    rw [Arith.round, if_neg (not_lt.2 h5), if_neg]
    linarith [big_nonneg]
  refine ⟨?_, h6⟩
  simp only [uniformPPF, h1, statsPPF, lt, le, h2, hq0, hq1, decide_true, Bool.and_self, if_true, mul, h7, add]

/-- C140 for percent points of Uniform parameters, the part that holds: for all percentages below one hundred they lie in the support. -/
theorem C140_ppf_partial (hA : Nearest A) {a b q : ℝ} (hab : a < b) (ha : Rep a) (hb : Rep b) (ha' : |a| ≤ big) (hb' : |b| ≤ big) (hd : b - a ≤ big)
    (hq : Rep q) (hq0 : 0 ≤ q) (hq1 : q < 1) : In (Set.Icc a b) (uniformPPF A (.fin q) (.fin a) (.fin b)) := by
  obtain ⟨h1, h2⟩ := uniformPPF_eq A hab ha hb hd hq0 hq1.le
  obtain ⟨-, h3⟩ := draw_le hA ha hb hab.le hq0 (below_one hq hq1)
  rw [mul_comm] at h3
  obtain ⟨s, hs, hs1, hs2, -⟩ := round_between A (x := A.rnd (q * A.rnd (b - a)) + a) (lo := a) (hi := b) (by linarith) (by linarith) ha hb
    (abs_le.1 ha').1 (abs_le.1 hb').2
  exact ⟨s, h1.trans hs, hs1, hs2⟩

theorem round_mono (A : Arith) {x y : ℝ} (h : A.rnd x ≤ A.rnd y) : lt (A.round y) (A.round x) = false := by
  unfold Arith.round
  split <;> split <;> try split
  all_goals first | rfl | (split <;> first | rfl | (simp only [lt, decide_eq_false_iff_not]; linarith) | (exfalso; linarith [big_nonneg])) | (exfalso; linarith [big_nonneg]) | (simp only [lt, decide_eq_false_iff_not]; linarith)

/-- C140 for percent points of Uniform parameters: they begin at `pmin`, do not decrease, and end at `pmax` if the difference of the bounds is
representable. -/
theorem C140_ppf_mono (A : Arith) {a b : ℝ} (hab : a < b) (ha : Rep a) (hb : Rep b) (ha' : |a| ≤ big) (hb' : |b| ≤ big) (hd : b - a ≤ big) :
    uniformPPF A (.fin 0) (.fin a) (.fin b) = .fin a ∧ (Rep (b - a) → uniformPPF A (.fin 1) (.fin a) (.fin b) = .fin b) ∧
      ∀ q q', 0 ≤ q → q ≤ q' → q' ≤ 1 → lt (uniformPPF A (.fin q') (.fin a) (.fin b)) (uniformPPF A (.fin q) (.fin a) (.fin b)) = false := by
  refine ⟨?_, fun hr => ?_, fun q q' h0 h h1 => ?_⟩
  · rw [(uniformPPF_eq A hab ha hb hd le_rfl zero_le_one).1, zero_mul, A.fix 0 rep_zero, zero_add, round_rep A ha ha']
  · rw [(uniformPPF_eq A hab ha hb hd zero_le_one le_rfl).1, one_mul, A.fix _ (A.rep _), A.fix _ hr, sub_add_cancel, round_rep A hb hb']
  · rw [(uniformPPF_eq A hab ha hb hd h0 (h.trans h1)).1, (uniformPPF_eq A hab ha hb hd (h0.trans h) h1).1]
    obtain ⟨-, hw, -⟩ := width A hab ha hb hd
    have hm : A.rnd (A.rnd (q * A.rnd (b - a)) + a) ≤ A.rnd (A.rnd (q' * A.rnd (b - a)) + a) :=
      A.mono (by linarith [A.mono (mul_le_mul_of_nonneg_right h hw.le)])
    exact round_mono A hm

/-- C140 is false of percent points of Uniform parameters at one hundred percent: the difference of the bounds is rounded up, and the percent point is
above `pmax`.  The log prior there is `-inf`. -/
theorem C140_ppf_false (hA : Nearest A) (L : Lib) : ∃ a b : ℝ, Rep a ∧ Rep b ∧ (2 : ℝ) ^ (-1000 : ℤ) ≤ b - a ∧ b - a ≤ (2 : ℝ) ^ (1000 : ℤ) ∧
    ∃ s : ℝ, uniformPPF A (.fin 1) (.fin a) (.fin b) = .fin s ∧ b < s ∧ npLog L (uniformPrior A (.fin s) (.fin a) (.fin b)) = .ninf := by
  have hp : (0 : ℝ) < (2 : ℝ) ^ (-54 : ℤ) := by positivity
  have e1 : (2 : ℝ) ^ (-52 : ℤ) = 4 * (2 : ℝ) ^ (-54 : ℤ) := by
    have : (2 : ℝ) ^ (-52 : ℤ) = (2 : ℝ) ^ ((2 : ℤ) + (-54 : ℤ)) := by norm_num
    rw [this, zpow_add₀ (by norm_num)]
    norm_num
  have e2 : ((3 * 2 ^ 51 + 1 : ℤ) : ℝ) * (2 : ℝ) ^ (-52 : ℤ) = 3 / 2 + (2 : ℝ) ^ (-52 : ℤ) := by
    norm_num
  have e3 : (2 : ℝ) ^ 53 * (2 : ℝ) ^ (-52 - 1 : ℤ) = 1 := by norm_num
  have ha : Rep (-(3 / 2)) := by
    have := (rep_zpow 3 (-1) (by norm_num) (by norm_num)).neg
    norm_num at this ⊢
    exact this
  have hb : Rep (((3 : ℤ) : ℝ) * (2 : ℝ) ^ (-54 : ℤ)) := rep_zpow 3 (-54) (by norm_num) (by norm_num)
  rw [Int.cast_ofNat] at hb
  have hs : Rep ((2 : ℝ) ^ (-52 : ℤ)) := rep_pow (-52) (by norm_num)
  have hp1 : (2 : ℝ) ^ (-54 : ℤ) ≤ 1 / 16 := by
    have : (2 : ℝ) ^ (-54 : ℤ) ≤ (2 : ℝ) ^ (-4 : ℤ) := zpow_le_zpow_right₀ (by norm_num) (by norm_num)
    refine this.trans (le_of_eq (by norm_num))
  have hr := hA.eq (z := 3 * (2 : ℝ) ^ (-54 : ℤ) - -(3 / 2)) (j := -52) (3 * 2 ^ 51 + 1) (by norm_num) (by norm_num)
    (by
      rw [e3, e1]
      generalize (2 : ℝ) ^ (-54 : ℤ) = p at *
      linarith)
    (by
      rw [e2, e1]
      generalize (2 : ℝ) ^ (-54 : ℤ) = p at *
      rw [abs_lt]
      constructor <;> linarith)
  rw [e2] at hr
  have h1 : (2 : ℝ) ^ (-1000 : ℤ) ≤ 3 * (2 : ℝ) ^ (-54 : ℤ) - -(3 / 2) := by
    have : (2 : ℝ) ^ (-1000 : ℤ) ≤ (2 : ℝ) ^ (0 : ℤ) := zpow_le_zpow_right₀ (by norm_num) (by norm_num)
    rw [zpow_zero] at this
    refine this.trans ?_
    generalize (2 : ℝ) ^ (-54 : ℤ) = p at *
    linarith
  have h2 : 3 * (2 : ℝ) ^ (-54 : ℤ) - -(3 / 2) ≤ (2 : ℝ) ^ (1000 : ℤ) := by
    have : (2 : ℝ) ^ (1 : ℤ) ≤ (2 : ℝ) ^ (1000 : ℤ) := zpow_le_zpow_right₀ (by norm_num) (by norm_num)
    rw [zpow_one] at this
    refine le_trans ?_ this
    generalize (2 : ℝ) ^ (-54 : ℤ) = p at *
    linarith
  have hlt : 3 * (2 : ℝ) ^ (-54 : ℤ) < (2 : ℝ) ^ (-52 : ℤ) := by
    rw [e1]
    generalize (2 : ℝ) ^ (-54 : ℤ) = p at *
    linarith
  refine ⟨-(3 / 2), 3 * (2 : ℝ) ^ (-54 : ℤ), ha, hb, h1, h2, (2 : ℝ) ^ (-52 : ℤ), ?_, hlt, ?_⟩
  · rw [(uniformPPF_eq A (by generalize (2 : ℝ) ^ (-54 : ℤ) = p at *; linarith) ha hb (h2.trans (pow_le_big le_rfl)) zero_le_one le_rfl).1, one_mul,
      A.fix _ (A.rep _), hr]
    have : 3 / 2 + (2 : ℝ) ^ (-52 : ℤ) + -(3 / 2) = (2 : ℝ) ^ (-52 : ℤ) := by ring
    rw [this, round_rep A hs]
    rw [abs_of_pos (by positivity)]
    exact pow_le_big (by norm_num)
  · obtain ⟨c, -, hc⟩ := C137_uniform A L h1 h2
    refine (hc _).2 ?_
    rintro ⟨x, hx, -, hx2⟩
    injection hx with hx
    rw [← hx] at hx2
    exact absurd hlt (not_lt.2 hx2)

/-! ## LinearExp parameters -/

/-- The powers of ten at the ends of a range. -/
theorem powers (L : Lib) {a b : ℝ} (ha : -100 ≤ a) (hab : a + 1 ≤ b) (hb : b ≤ 100) : ∃ y z, L.pow10 a = .fin y ∧ L.pow10 b = .fin z ∧ Rep y ∧ Rep z ∧
    0 < y ∧ y < z ∧ z ≤ big := by
  obtain ⟨z, hz, rz, hz1, hz2⟩ := L.pow_near b (abs_le.2 ⟨by linarith, by linarith⟩)
  obtain ⟨y, hy, ry, hy1, hy2⟩ := L.pow_near a (abs_le.2 ⟨by linarith, by linarith⟩)
  have h1 : (10 : ℝ) ^ a * 10 ≤ (10 : ℝ) ^ b := by
    have : (10 : ℝ) ^ a * 10 = (10 : ℝ) ^ (a + 1) := by rw [Real.rpow_add (by norm_num), Real.rpow_one]
    rw [this]
    exact Real.rpow_le_rpow_of_exponent_le (by norm_num) hab
  obtain ⟨-, b2⟩ := pow10_bounds (x := b) (by linarith) hb
  have hp : (0 : ℝ) < (10 : ℝ) ^ a := by positivity
  have e2 : (2 : ℝ) ^ (334 : ℤ) = 2 * (2 : ℝ) ^ (333 : ℤ) := by
    have : (2 : ℝ) ^ (334 : ℤ) = (2 : ℝ) ^ ((1 : ℤ) + (333 : ℤ)) := by norm_num
    rw [this, zpow_add₀ (by norm_num), zpow_one]
  have hbig : (2 : ℝ) ^ (334 : ℤ) ≤ big := pow_le_big (by norm_num)
  refine ⟨y, z, hy, hz, ry, rz, by linarith, by linarith, le_trans ?_ hbig⟩
  rw [e2]
  clear e2 hbig
  have hq : (0 : ℝ) < (10 : ℝ) ^ b := by positivity
  generalize (2 : ℝ) ^ (333 : ℤ) = c at *
  linarith

/-- C140 for values drawn from LinearExp parameters, the part that holds: each lies in the support if `log10` is monotone and does not lead out of
the range at its ends, `log10(10 ** pmin) >= pmin` and `log10(10 ** pmax) <= pmax`. -/
theorem C140_linexp_partial (hA : Nearest A) (L : Lib) (g : ℝ → ℝ) (hg : ∀ x y, 0 < x → x ≤ y → g x ≤ g y) (fused : Bool) {k : ℕ} (hk : k < 2 ^ 53)
    {a b : ℝ} (ha : -100 ≤ a) (hab : a + 1 ≤ b) (hb : b ≤ 100) (h1 : ∀ y, L.pow10 a = .fin y → a ≤ g y) (h2 : ∀ z, L.pow10 b = .fin z → g z ≤ b) :
    ∃ s p c, linearExpSampler A fused L g k (.fin a) (.fin b) = .ok s ∧ In (Set.Icc a b) s ∧ linearExpPrior A L s (.fin a) (.fin b) = .ok p ∧
      npLog L p = .fin c := by
  obtain ⟨y, z, hy, hz, ry, rz, h0, hlt, hbig⟩ := powers L ha hab hb
  obtain ⟨s, hs, hs1, hs2, -⟩ := rngUniform_in hA fused hk ry rz hlt.le (by rw [abs_of_pos h0]; linarith) (by rw [abs_of_pos (by linarith)]; exact hbig)
    (by linarith)
  have hle : le (.fin b) (.fin a) = false := by simp [le]; linarith
  have hin : In (Set.Icc a b) (.fin (g s)) := ⟨g s, rfl, (h1 y hy).trans (hg y s h0 hs1), (hg s z (by linarith) hs2).trans (h2 z hz)⟩
  obtain ⟨p, hp, hc, -⟩ := C137_linexp_partial A L ha hab hb (.fin (g s))
  obtain ⟨c, hc, -⟩ := hc hin
  refine ⟨.fin (g s), p, c, ?_, hin, hp, hc⟩
  simp only [linearExpSampler, hle, Bool.false_eq_true, if_false, npPow10, hy, hz, hs, npLog10, lt_of_lt_of_le h0 hs1, if_true]

/-- C140 is false of LinearExp parameters if `log10(10 ** pmin)` is below `pmin`, as happens with the usual libraries for numbers like -0.3: then the
smallest value drawn and the first percent point are outside the support, and the log prior there is `-inf`. -/
theorem C140_linexp_false (A : Arith) (L : Lib) (g : ℝ → ℝ) (fused : Bool) {a b : ℝ} (ha : -100 ≤ a) (hab : a + 1 ≤ b) (hb : b ≤ 100)
    (h1 : ∀ y, L.pow10 a = .fin y → g y < a) :
    ∃ s p, linearExpSampler A fused L g 0 (.fin a) (.fin b) = .ok (.fin s) ∧ linearExpPPF A L g (.fin 0) (.fin a) (.fin b) = .fin s ∧ s < a ∧
      linearExpPrior A L (.fin s) (.fin a) (.fin b) = .ok p ∧ npLog L p = .ninf := by
  obtain ⟨y, z, hy, hz, ry, rz, h0, hlt, hbig⟩ := powers L ha hab hb
  have hle : le (.fin b) (.fin a) = false := by simp [le]; linarith
  obtain ⟨hw, hw0, -⟩ := width A hlt ry rz (by linarith)
  obtain ⟨p, hp, -, hc⟩ := C137_linexp_partial A L ha hab hb (.fin (g y))
  have hyb : A.round y = .fin y := round_rep A ry (by rw [abs_of_pos h0]; linarith)
  have hlow := h1 y hy
  refine ⟨g y, p, ?_, ?_, hlow, hp, hc ?_ (.inr ⟨g y, rfl, ?_⟩)⟩
  · cases fused <;>
      simp [linearExpSampler, hle, npPow10, hy, hz, rngUniform, hw, addMul, unit, mul, round_zero, add, hyb, npLog10, h0]
  · simp [linearExpPPF, npPow10, hy, hz, hw, statsPPF, lt, le, hw0, mul, round_zero, add, hyb, npLog10, h0]
  · rintro ⟨x, hx, hx1, -⟩
    injection hx with hx
    linarith
  · show g y ≤ 308
    linarith

/-! ## TruncNormal parameters -/

/-- C140 for values drawn from TruncNormal parameters, the part that holds: each lies in the closed interval, unless the generator returned NaN. -/
theorem C140_trunc_partial {a b : ℝ} : ∀ (draws : List Fl) {s : Fl}, truncNormalSampler (.fin a) (.fin b) draws = some s →
    s ∈ draws ∧ (s = .nan ∨ In (Set.Icc a b) s)
  | [], _, h => by cases h
  | x :: draws, s, h => by
    rw [truncNormalSampler] at h
    split at h
    · obtain ⟨h1, h2⟩ := C140_trunc_partial draws h
      exact ⟨List.mem_cons_of_mem _ h1, h2⟩
    · next hc =>
      injection h with h
      subst h
      refine ⟨List.mem_cons_self, ?_⟩
      cases x with
      | nan => exact .inl rfl
      | pinf => exact absurd rfl hc
      | ninf => exact absurd rfl hc
      | fin x =>
        simp only [lt, Bool.or_eq_true, decide_eq_true_eq, not_or, not_lt] at hc
        exact .inr ⟨x, rfl, hc.2, hc.1⟩

/-- C140 is false of TruncNormal parameters at the bounds: the loop accepts them, but the prior there is zero. -/
theorem C140_trunc_false (A : Arith) (L : Lib) {m s n a b : ℝ} (hs : 0 < s) (hn0 : 0 ≤ n) (hn : n ≤ (2 : ℝ) ^ (500 : ℤ)) (hab : a ≤ b) (draws : List Fl)
    {v : ℝ} (hv : v = a ∨ v = b) : truncNormalSampler (.fin a) (.fin b) (.fin v :: draws) = some (.fin v) ∧
      npLog L (truncNormalPrior A L (.fin v) (.fin m) (.fin s) (.fin a) (.fin b) (.fin n)) = .ninf := by
  constructor
  · rw [truncNormalSampler, if_neg]
    simp only [lt, Bool.or_eq_true, decide_eq_true_eq, not_or, not_lt]
    rcases hv with rfl | rfl
    · exact ⟨hab, le_rfl⟩
    · exact ⟨le_rfl, hab⟩
  · refine (C137_trunc_partial A L hs hn0 hn m a b (by simp)).2 ?_
    rintro ⟨x, hx, hx1, hx2⟩
    injection hx with hx
    subst hx
    rcases hv with rfl | rfl
    · exact lt_irrefl _ hx1
    · exact lt_irrefl _ hx2

/-! ## The hypotheses can be met -/

theorem rep_small {n : ℤ} (hn : |n| ≤ 2 ^ 10) : |(n : ℝ)| ≤ big := by
  have h : (n.natAbs : ℝ) ≤ big := nat_le_big (by
    have : (n.natAbs : ℤ) ≤ 2 ^ 10 := by rwa [Int.natCast_natAbs]
    have : n.natAbs ≤ 2 ^ 10 := by exact_mod_cast this
    omega)
  rwa [Nat.cast_natAbs, Int.cast_abs] at h

/-- A spectral index drawn from `Uniform(0, 7)` and the median of `Uniform(-20, -11)`. -/
example : (∃ s c, uniformSampler near true (2 ^ 53 - 1) (.fin ((0 : ℤ) : ℝ)) (.fin ((7 : ℤ) : ℝ)) = .ok s ∧ In (Set.Icc ((0 : ℤ) : ℝ) ((7 : ℤ) : ℝ)) s ∧
      npLog lib (uniformPrior near s (.fin ((0 : ℤ) : ℝ)) (.fin ((7 : ℤ) : ℝ))) = .fin c) ∧
    In (Set.Icc ((-20 : ℤ) : ℝ) ((-11 : ℤ) : ℝ)) (uniformPPF near (.fin ((2 : ℝ) ^ (-1 : ℤ))) (.fin ((-20 : ℤ) : ℝ)) (.fin ((-11 : ℤ) : ℝ))) := by
  constructor
  · refine C140_uniform near_nearest lib true (by norm_num) (rep_int 0 (by norm_num)) (rep_int 7 (by norm_num)) (rep_small (by norm_num))
      (rep_small (by norm_num)) ?_ ?_
    · have : (2 : ℝ) ^ (-1000 : ℤ) ≤ (2 : ℝ) ^ (0 : ℤ) := zpow_le_zpow_right₀ (by norm_num) (by norm_num)
      exact this.trans (by norm_num)
    · have : (2 : ℝ) ^ (3 : ℤ) ≤ (2 : ℝ) ^ (1000 : ℤ) := zpow_le_zpow_right₀ (by norm_num) (by norm_num)
      exact le_trans (by norm_num) this
  · refine C140_ppf_partial near_nearest (by norm_num) (rep_int _ (by norm_num)) (rep_int _ (by norm_num)) (rep_small (by norm_num))
      (rep_small (by norm_num)) ?_ (rep_pow _ (by norm_num)) (by positivity) (by norm_num)
    have : ((9 : ℕ) : ℝ) ≤ big := nat_le_big (by norm_num)
    exact le_trans (by norm_num) this

/-- Amplitudes drawn from `LinearExp(-18, -11)`: the hypotheses hold for a logarithm that is right at the integers. -/
example : (∀ y, lib.pow10 (-18) = .fin y → (-18 : ℝ) ≤ (round (Real.logb 10 y) : ℤ)) ∧ (∀ y, lib.pow10 (-11) = .fin y → ((round (Real.logb 10 y) : ℤ) : ℝ) ≤ -11) ∧
    ∀ x y : ℝ, 0 < x → x ≤ y → ((round (Real.logb 10 x) : ℤ) : ℝ) ≤ (round (Real.logb 10 y) : ℤ) := by
  have key : ∀ (e : ℤ), |(e : ℝ)| ≤ 308 → ∀ y, lib.pow10 e = .fin y → round (Real.logb 10 y) = e := by
    intro e he y hy
    obtain ⟨y', hy', -, h1, h2⟩ := lib.pow_near e he
    rw [hy] at hy'
    injection hy' with hy'
    subst hy'
    have hp : (0 : ℝ) < (10 : ℝ) ^ (e : ℝ) := by positivity
    have hy0 : 0 < y := by linarith
    have hten : (1 : ℝ) < 10 := by norm_num
    have e1 : (10 : ℝ) ^ ((1 : ℝ) / 4) ≥ 1 + 1 / 100 := by
      have h3 : ((10 : ℝ) ^ ((1 : ℝ) / 4)) ^ 4 = 10 := by
        rw [← Real.rpow_natCast, ← Real.rpow_mul (by norm_num)]
        norm_num
      by_contra hc
      push Not at hc
      have h4 : ((10 : ℝ) ^ ((1 : ℝ) / 4)) ^ 4 ≤ (1 + 1 / 100) ^ 4 := pow_le_pow_left₀ (by positivity) hc.le 4
      rw [h3] at h4
      norm_num at h4
    have u : Real.logb 10 y ≤ e + 1 / 4 := by
      rw [Real.logb_le_iff_le_rpow hten hy0, Real.rpow_add (by norm_num)]
      nlinarith
    have l : (e : ℝ) - 1 / 4 ≤ Real.logb 10 y := by
      rw [Real.le_logb_iff_rpow_le hten hy0, Real.rpow_sub (by norm_num), div_le_iff₀ (by positivity)]
      nlinarith
    rw [round_eq, Int.floor_eq_iff]
    constructor <;> linarith
  refine ⟨fun y hy => ?_, fun y hy => ?_, fun x y h0 h => ?_⟩
  · have := key (-18) (by norm_num) y (by push_cast; exact hy)
    rw [this]
    norm_num
  · have := key (-11) (by norm_num) y (by push_cast; exact hy)
    rw [this]
    norm_num
  · have : round (Real.logb 10 x) ≤ round (Real.logb 10 y) := by
      rw [round_eq, round_eq]
      exact Int.floor_le_floor (by linarith [(Real.logb_le_logb (b := 10) (by norm_num) h0 (by linarith)).2 h])
    exact_mod_cast this

/-- A TruncNormal parameter: two numbers are refused, the third is taken. -/
example : truncNormalSampler (.fin (-2)) (.fin 2) [.fin 3, .ninf, .fin 1, .fin 0] = some (.fin 1) := by
  norm_num [truncNormalSampler, lt]

end Verif.Ieee
