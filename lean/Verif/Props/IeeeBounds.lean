import Verif.Props.IeeeDraw

/-!
# Bounds in the wrong order

C162: what priors do when `pmin >= pmax`, in floating-point arithmetic on numpy numbers.
-/

namespace Verif.Ieee

open Verif

variable (A : Arith) (L : Lib)

theorem rnd_neg_diff {a b : ℝ} (ha : Rep a) (hb : Rep b) (hab : b < a) : A.rnd (b - a) < 0 := by
  obtain ⟨m, hm⟩ := sub_tiny ha hb
  have ht : 0 < tiny := zpow_pos (by norm_num) _
  have hm0 : m ≤ -1 := by
    by_contra h
    have : (0 : ℝ) ≤ m := by exact_mod_cast (by omega : 0 ≤ m)
    have := mul_nonneg this ht.le
    linarith
  have h1 : b - a ≤ -tiny := by
    have : (m : ℝ) ≤ -1 := by exact_mod_cast hm0
    nlinarith
  have hr : Rep (-tiny) := ⟨-1, 0, by norm_num, by norm_num⟩
  have := A.mono h1
  rw [A.fix _ hr] at this
  linarith

/-- C162 for `LinearExp`: the density and the sampler raise a ValueError, for every value and every random number. -/
theorem C162_linexp_partial {a b : ℝ} (hab : b ≤ a) (g : ℝ → ℝ) (fused : Bool) (v : Fl) (k : ℕ) :
    linearExpPrior A L v (.fin a) (.fin b) = .error .valueError ∧ linearExpSampler A fused L g k (.fin a) (.fin b) = .error .valueError := by
  have h : le (.fin b) (.fin a) = true := decide_eq_true hab
  exact ⟨if_pos h, if_pos h⟩

/-- C162 fails for `Uniform` with `pmin > pmax`: no value is refused, each has the logarithm of density -inf, also those that the sampler draws, and percent points are NaN. -/
theorem C162_uniform_false {a b : ℝ} (ha : Rep a) (hb : Rep b) (hab : b < a) :
    (∀ v, npLog L (uniformPrior A v (.fin a) (.fin b)) = .ninf) ∧ (∀ q, uniformPPF A q (.fin a) (.fin b) = .nan) ∧
      (-big ≤ A.rnd (b - a) → ∀ fused k, ∃ x, uniformSampler A fused k (.fin a) (.fin b) = .ok x) := by
  have hw := rnd_neg_diff A ha hb hab
  have hbig : (0 : ℝ) ≤ big := by simpa using nat_le_big (n := 0) (by norm_num)
  have e : sub A (.fin b) (.fin a) = if A.rnd (b - a) < -big then .ninf else .fin (A.rnd (b - a)) := by
    show A.round (b + -a) = _
    rw [← sub_eq_add_neg, Arith.round, if_neg (by linarith)]
  refine ⟨fun v => ?_, fun q => ?_, fun h fused k => ?_⟩
  · have hin : (le (.fin a) v && le v (.fin b)) = false := by
      cases v with
      | fin x =>
        show (decide (a ≤ x) && decide (x ≤ b)) = false
        by_cases h : a ≤ x
        · have : ¬ x ≤ b := by linarith
          simp [this]
        · simp [h]
      | _ => simp [le]
    have h0 : uniformPrior A v (.fin a) (.fin b) = .fin 0 := by
      rw [uniformPrior, hin, e]
      split_ifs with h
      · rfl
      · show (if A.rnd (b - a) = 0 then infSign _ else A.round ((if false = true then 1 else 0) / A.rnd (b - a))) = .fin 0
        rw [if_neg hw.ne, if_neg (by simp), zero_div, round_zero]
    rw [h0, npLog_zero]
  · rw [uniformPPF, e, statsPPF]
    have : lt (.fin 0) (if A.rnd (b - a) < -big then .ninf else .fin (A.rnd (b - a))) = false := by
      split_ifs with h
      · rfl
      · exact decide_eq_false (by linarith)
    rw [this]
    rfl
  · rw [uniformSampler, rngUniform, e, if_neg (not_lt.2 h)]
    exact ⟨_, rfl⟩

/-- C162 fails for `Uniform` with `pmin = pmax`: the logarithm of the density is +inf there and NaN at all other values; the sampler returns that value; percent points are NaN. -/
theorem C162_point_false {a : ℝ} (ha : Rep a) (hb : |a| ≤ big) :
    npLog L (uniformPrior A (.fin a) (.fin a) (.fin a)) = .pinf ∧ (∀ v, v ≠ .fin a → npLog L (uniformPrior A v (.fin a) (.fin a)) = .nan) ∧
      (∀ fused k, uniformSampler A fused k (.fin a) (.fin a) = .ok (.fin a)) ∧ ∀ q, uniformPPF A q (.fin a) (.fin a) = .nan := by
  have e : sub A (.fin a) (.fin a) = .fin 0 := by
    show A.round (a + -a) = _
    rw [add_neg_cancel, round_zero]
  refine ⟨?_, fun v hv => ?_, fun fused k => ?_, fun q => ?_⟩
  · have h : uniformPrior A (.fin a) (.fin a) (.fin a) = .pinf := by
      rw [uniformPrior, e]
      simp [le, ofBool, div, infSign]
    rw [h]
    rfl
  · have hin : (le (.fin a) v && le v (.fin a)) = false := by
      cases v with
      | fin x =>
        show (decide (a ≤ x) && decide (x ≤ a)) = false
        by_cases h : a ≤ x
        · have : ¬ x ≤ a := fun h' => hv (by rw [le_antisymm h' h])
          simp [this]
        · simp [h]
      | _ => simp [le]
    have h : uniformPrior A v (.fin a) (.fin a) = .nan := by
      rw [uniformPrior, e, hin]
      simp [ofBool, div, infSign]
    rw [h]
    rfl
  · have e1 : addMul A fused (.fin a) (.fin 0) (.fin (unit k)) = .fin a := by
      cases fused with
      | true =>
        show A.round (a + 0 * unit k) = _
        rw [zero_mul, add_zero, round_rep A ha hb]
      | false =>
        show add A (.fin a) (A.round (0 * unit k)) = _
        rw [zero_mul, round_zero]
        show A.round (a + 0) = _
        rw [add_zero, round_rep A ha hb]
    rw [uniformSampler, rngUniform, e]
    exact congrArg _ e1
  · rw [uniformPPF, e, statsPPF]
    have : lt (.fin 0) (.fin 0) = false := decide_eq_false (by norm_num)
    rw [this]
    rfl

/-- C162 fails for `TruncNormal` with `pmin > pmax`: the sampler rejects whatever numbers it draws, and goes on. -/
theorem C162_trunc_false {a b : ℝ} (hab : b < a) : ∀ draws : List Fl, (∀ x ∈ draws, x ≠ .nan) → truncNormalSampler (.fin a) (.fin b) draws = none
  | [], _ => rfl
  | x :: t, h => by
    have hout : (lt (.fin b) x || lt x (.fin a)) = true := by
      cases x with
      | fin x =>
        show (decide (b < x) || decide (x < a)) = true
        by_cases h' : b < x
        · simp [h']
        · have : x < a := by linarith
          simp [this]
      | nan => exact absurd rfl (h _ List.mem_cons_self)
      | _ => simp [lt]
    rw [truncNormalSampler, if_pos hout]
    exact C162_trunc_false hab t fun y hy => h y (List.mem_cons_of_mem _ hy)

/-- C162 fails for `TruncNormal` with `pmin = pmax`: the density is NaN at every value. -/
theorem C162_trunc_point_false (erf : ℝ → ℝ) (v mu sigma p : Fl) : truncNormalPrior A L v mu sigma p p (truncNorm A L erf mu sigma p p) = .nan := by
  have hn : ∀ x, truncNorm A L erf mu sigma p p ≠ .fin x := by
    intro x h
    rw [truncNorm] at h
    simp only at h
    generalize div A (div A (.fin 2) (npSqrt A (mul A (.fin 2) (.fin L.pi)))) sigma = c at h
    generalize div A (div A (sub A p mu) sigma) (npSqrt A (.fin 2)) = d at h
    have hd : sub A (npErf erf d) (npErf erf d) = .nan ∨ sub A (npErf erf d) (npErf erf d) = .fin 0 := by
      have e : ∀ y : ℝ, sub A (.fin y) (.fin y) = .fin 0 := fun y => by
        show A.round (y + -y) = _
        rw [add_neg_cancel, round_zero]
      cases d with
      | nan => exact .inl rfl
      | pinf => exact .inr (e _)
      | ninf => exact .inr (e _)
      | fin y => exact .inr (e _)
    rcases hd with hd | hd
    · rw [hd] at h
      cases c <;> simp [div] at h
    · rw [hd] at h
      cases c <;> simp only [div, infSign, lt_irrefl, if_true, if_false] at h
      · cases h
      · cases h
      · cases h
      · split_ifs at h
  have h0 : (lt p v && lt v p) = false := by
    cases p <;> cases v <;> simp [lt]
    exact fun h => h.le
  have hm : ∀ a : Fl, (∀ x, a ≠ .fin x) → mul A a (.fin 0) = .nan := by
    intro a ha
    cases a with
    | fin x => exact absurd rfl (ha x)
    | _ => simp [mul, infSign]
  rw [truncNormalPrior, h0]
  show mul A (mul A (truncNorm A L erf mu sigma p p) _) (.fin (if false = true then 1 else 0)) = .nan
  rw [if_neg (by simp)]
  refine hm _ fun x => ?_
  generalize npExp L _ = w
  generalize truncNorm A L erf mu sigma p p = n at hn
  cases n with
  | fin y => exact absurd rfl (hn y)
  | _ =>
    cases w <;> simp only [mul, infSign, ne_eq, reduceCtorEq, not_false_eq_true]
    all_goals try split_ifs
    all_goals simp

/-- Each of these for bounds 2 and 1, or 1 and 1. -/
example : npLog L (uniformPrior A (.fin (3 / 2)) (.fin 2) (.fin 1)) = .ninf :=
  (C162_uniform_false A L (a := 2) (b := 1) (by simpa using rep_int 2 (by norm_num)) rep_one (by norm_num)).1 _

example : npLog L (uniformPrior A (.fin 2) (.fin 1) (.fin 1)) = .nan :=
  (C162_point_false A L (a := 1) rep_one (by rw [abs_one]; simpa using nat_le_big (n := 1) (by norm_num))).2.1 _ (by simp)

example : truncNormalSampler (.fin 2) (.fin 1) [.fin 0, .fin 3, .fin (3 / 2)] = none :=
  C162_trunc_false (by norm_num) _ (by simp)

example (v : Fl) : linearExpPrior A L v (.fin 2) (.fin 1) = .error .valueError := (C162_linexp_partial A L (by norm_num) (fun x => x) true v 0).1

end Verif.Ieee
