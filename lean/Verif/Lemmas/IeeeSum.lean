import Verif.Lemmas.IeeeErr
import Verif.Model.IeeeWhite
import Mathlib.Data.List.Perm.Basic
import Mathlib.Data.List.Forall2

/-! # Errors of sums, for C143 -/

namespace Verif.Ieee

open Verif

/-- Rounding changes a number by no more than the spacing of the representable numbers there. -/
theorem rnd_spacing (A : Arith) {x : ℝ} {j : ℤ} (hj : -1074 ≤ j) (h : |x| ≤ 2 ^ 53 * (2 : ℝ) ^ j) : |A.rnd x - x| ≤ (2 : ℝ) ^ j := by
  have hu : (0 : ℝ) < (2 : ℝ) ^ j := by positivity
  obtain ⟨h1, h2⟩ := abs_le.1 h
  obtain ⟨n, hn⟩ : ∃ n : ℤ, n = ⌊x / (2 : ℝ) ^ j⌋ := ⟨_, rfl⟩
  have hn1 : (n : ℝ) * (2 : ℝ) ^ j ≤ x := by
    rw [← le_div_iff₀ hu, hn]
    exact Int.floor_le _
  have hn2 : x < ((n + 1 : ℤ) : ℝ) * (2 : ℝ) ^ j := by
    rw [← div_lt_iff₀ hu, hn]
    push_cast
    exact Int.lt_floor_add_one _
  have hn3 : n ≤ 2 ^ 53 := by
    have := le_of_mul_le_mul_right (hn1.trans h2) hu
    exact_mod_cast this
  have hn0 : -2 ^ 53 ≤ n := by
    rw [hn, Int.le_floor, le_div_iff₀ hu]
    push_cast
    linarith
  have r1 : Rep ((n : ℝ) * (2 : ℝ) ^ j) := rep_zpow n _ (abs_le.2 ⟨hn0, hn3⟩) hj
  rcases lt_or_eq_of_le hn3 with hlt | heq
  · have r2 : Rep (((n + 1 : ℤ) : ℝ) * (2 : ℝ) ^ j) := rep_zpow (n + 1) _ (abs_le.2 ⟨by omega, by omega⟩) hj
    have g1 := A.mono hn1
    rw [A.fix _ r1] at g1
    have g2 := A.mono hn2.le
    rw [A.fix _ r2] at g2
    have e4 : ((n + 1 : ℤ) : ℝ) * (2 : ℝ) ^ j = n * (2 : ℝ) ^ j + (2 : ℝ) ^ j := by push_cast; ring
    rw [e4] at hn2 g2
    rw [abs_le]
    constructor <;> linarith
  · have hx : x = (n : ℝ) * (2 : ℝ) ^ j := by
      refine le_antisymm ?_ hn1
      rw [heq]
      push_cast
      linarith
    rw [hx, A.fix _ r1]
    simpa using hu.le

/-- Rounding changes a number by less than `2 ** -52` of it, or by less than the smallest number. -/
theorem rnd_err (A : Arith) (x : ℝ) : |A.rnd x - x| ≤ eps / 2 * |x| + tiny := by
  have ht := tiny_pos
  have he := eps_pos
  have e52 : eps / 2 = (2 : ℝ) ^ (-52 : ℤ) := by
    have : (2 : ℝ) ^ (-51 : ℤ) = (2 : ℝ) ^ ((1 : ℤ) + (-52 : ℤ)) := by norm_num
    rw [eps, this, zpow_add₀ (by norm_num), zpow_one]
    ring
  rcases eq_or_ne x 0 with rfl | hx
  · rw [A.fix 0 rep_zero]
    simpa using ht.le
  obtain ⟨k, hk1, hk2⟩ := exists_mem_Ico_zpow (y := (2 : ℝ)) (abs_pos.2 hx) (by norm_num)
  rcases le_or_gt (-1022) k with hk | hk
  · have e2 : (2 : ℝ) ^ (k + 1) = 2 ^ 53 * (2 : ℝ) ^ (k - 52) := by
      rw [← zpow_natCast, ← zpow_add₀ (by norm_num)]
      congr 1
      push_cast
      ring
    have e3 : (2 : ℝ) ^ (k - 52) = (2 : ℝ) ^ (-52 : ℤ) * (2 : ℝ) ^ k := by
      rw [← zpow_add₀ (by norm_num)]
      congr 1
      ring
    have := rnd_spacing A (x := x) (j := k - 52) (by omega) (by rw [← e2]; exact hk2.le)
    rw [e3] at this
    rw [e52]
    have h5 := mul_le_mul_of_nonneg_left hk1 (by positivity : (0 : ℝ) ≤ (2 : ℝ) ^ (-52 : ℤ))
    linarith
  · have e2 : (2 : ℝ) ^ (-1021 : ℤ) = 2 ^ 53 * (2 : ℝ) ^ (-1074 : ℤ) := by
      rw [← zpow_natCast, ← zpow_add₀ (by norm_num)]
      norm_num
    have h3 : (2 : ℝ) ^ (k + 1) ≤ (2 : ℝ) ^ (-1021 : ℤ) := zpow_le_zpow_right₀ (by norm_num) (by omega)
    have := rnd_spacing A (x := x) (j := -1074) (by norm_num) (by rw [← e2]; exact hk2.le.trans h3)
    have h4 : (0 : ℝ) ≤ eps / 2 * |x| := by positivity
    have e : tiny = (2 : ℝ) ^ (-1074 : ℤ) := by
      unfold tiny
      norm_num
    rw [e]
    linarith

/-- A number `x` that stands for `X`, which is at most `W`: the difference is at most `k * eps * W`, and some smallest numbers. -/
structure Acc (k m W x X : ℝ) : Prop where
  err : |x - X| ≤ k * eps * W + m * tiny
  size : |X| ≤ W

theorem Acc.nonneg {k m W x X : ℝ} (h : Acc k m W x X) : 0 ≤ W := (abs_nonneg _).trans h.size

theorem Acc.mono {k m W x X k' m' : ℝ} (h : Acc k m W x X) (hk : k ≤ k') (hm : m ≤ m') : Acc k' m' W x X := by
  refine ⟨h.err.trans (add_le_add ?_ (mul_le_mul_of_nonneg_right hm tiny_pos.le)), h.size⟩
  exact mul_le_mul_of_nonneg_right (mul_le_mul_of_nonneg_right hk eps_pos.le) h.nonneg

theorem tiny_small : (2 : ℝ) ^ 60 * tiny ≤ 1 := by
  have e : tiny = (2 : ℝ) ^ (-1074 : ℤ) := by
    unfold tiny
    norm_num
  have : (2 : ℝ) ^ (-1074 : ℤ) ≤ (2 : ℝ) ^ (-60 : ℤ) := zpow_le_zpow_right₀ (by norm_num) (by norm_num)
  rw [e]
  refine (mul_le_mul_of_nonneg_left this (by positivity)).trans (le_of_eq ?_)
  norm_num

theorem Acc.abs_le {k m W x X : ℝ} (h : Acc k m W x X) (hk : k ≤ 2 ^ 45) : |x| ≤ 2 * W + m * tiny := by
  have h1 := eps_small hk
  have h2 : |x| ≤ |x - X| + |X| := by simpa using abs_add_le (x - X) X
  have h3 := mul_le_mul_of_nonneg_right h1 h.nonneg
  linarith [h.err, h.size]

theorem round_fin (A : Arith) {x : ℝ} (h : |x| ≤ (2 : ℝ) ^ (1000 : ℤ)) : A.round x = .fin (A.rnd x) := by
  obtain ⟨h1, h2⟩ := _root_.abs_le.1 h
  have hb : Rep ((2 : ℝ) ^ (1000 : ℤ)) := rep_pow 1000 (by norm_num)
  have g1 := A.mono h1
  have g2 := A.mono h2
  rw [A.fix _ hb.neg] at g1
  rw [A.fix _ hb] at g2
  have := pow_le_big (j := 1000) le_rfl
  rw [Arith.round, if_neg (by linarith), if_neg (by linarith)]

/-- Rounding. -/
theorem Acc.round (A : Arith) {k m W x X : ℝ} (h : Acc k m W x X) (hk : k ≤ 2 ^ 45) (hm0 : 0 ≤ m) (hm : m ≤ 2 ^ 50) (hW : W ≤ (2 : ℝ) ^ (990 : ℤ)) :
    ∃ z, A.round x = .fin z ∧ Acc (k + 1) (m + 2) W z X := by
  have h1 := h.abs_le hk
  have h2 := rnd_err A x
  have he := eps_pos
  have ht := tiny_pos
  have hb : |x| ≤ (2 : ℝ) ^ (1000 : ℤ) := by
    have h3 : m * tiny ≤ 1 := (mul_le_mul_of_nonneg_right (hm.trans (by norm_num : (2 : ℝ) ^ 50 ≤ 2 ^ 60)) ht.le).trans tiny_small
    have e : (2 : ℝ) ^ (1000 : ℤ) = 1024 * (2 : ℝ) ^ (990 : ℤ) := by
      have : (2 : ℝ) ^ (1000 : ℤ) = (2 : ℝ) ^ ((10 : ℤ) + (990 : ℤ)) := by norm_num
      rw [this, zpow_add₀ (by norm_num)]
      norm_num
    have h1' : (1 : ℝ) ≤ (2 : ℝ) ^ (990 : ℤ) := one_le_zpow₀ (by norm_num) (by norm_num)
    rw [e]
    clear e hm hk
    generalize (2 : ℝ) ^ (990 : ℤ) = p at *
    linarith
  refine ⟨A.rnd x, round_fin A hb, ?_, h.size⟩
  have e : A.rnd x - X = (A.rnd x - x) + (x - X) := by ring
  rw [e]
  refine (abs_add_le _ _).trans ?_
  have h4 : eps / 2 * |x| ≤ eps / 2 * (2 * W + m * tiny) := mul_le_mul_of_nonneg_left h1 (by positivity)
  have h5 : eps / 2 * m ≤ 1 := by
    have : (2 : ℝ) ^ 45 * eps ≤ 1 := eps_small le_rfl
    have h6 : eps * (2 : ℝ) ^ 50 ≤ 1 := by
      unfold eps
      norm_num
    have := mul_le_mul_of_nonneg_left hm he.le
    linarith
  have h6 := mul_le_mul_of_nonneg_right h5 ht.le
  linarith [h.err]

/-- Sums before rounding. -/
theorem Acc.add' {k m W x X n V y Y : ℝ} (h : Acc k m W x X) (g : Acc k n V y Y) : Acc k (m + n) (W + V) (x + y) (X + Y) := by
  constructor
  · have e : x + y - (X + Y) = (x - X) + (y - Y) := by ring
    rw [e]
    refine (abs_add_le _ _).trans ?_
    linarith [h.err, g.err]
  · exact (abs_add_le _ _).trans (add_le_add h.size g.size)

/-- The floating-point number `a` stands for `p.1`, which is at most `p.2`. -/
def Stands (k m : ℝ) (a : Fl) (p : ℝ × ℝ) : Prop := ∃ x, a = .fin x ∧ Acc k m p.2 x p.1

theorem forall₂_split {α β : Type} {R : α → β → Prop} {l m : List α} {s : List β} (h : List.Forall₂ R (l ++ m) s) :
    ∃ u v, s = u ++ v ∧ List.Forall₂ R l u ∧ List.Forall₂ R m v := by
  induction l generalizing s with
  | nil => exact ⟨[], s, rfl, .nil, h⟩
  | cons a l ih =>
    cases h with
    | cons h1 h2 =>
      obtain ⟨u, v, rfl, hu, hv⟩ := ih h2
      exact ⟨_ :: u, v, rfl, .cons h1 hu, hv⟩

/-- The exact sum and the sum of the bounds. -/
noncomputable def total (s : List (ℝ × ℝ)) : ℝ × ℝ := ((s.map Prod.fst).sum, (s.map Prod.snd).sum)

theorem total_append (s t : List (ℝ × ℝ)) : total (s ++ t) = ((total s).1 + (total t).1, (total s).2 + (total t).2) := by
  simp [total]

theorem leaves_pos (t : Tree) : 0 < t.leaves.length := by
  induction t with
  | leaf a => simp [Tree.leaves]
  | node s t ihs iht => simp only [Tree.leaves, List.length_append]; omega

/-- Sums in any bracketing. -/
theorem tree_acc (A : Arith) {k m : ℝ} (hm0 : 0 ≤ m) (t : Tree) : ∀ (s : List (ℝ × ℝ)), List.Forall₂ (Stands k m) t.leaves s → k + s.length ≤ 2 ^ 45 →
    s.length * (m + 2) ≤ 2 ^ 50 → (total s).2 ≤ (2 : ℝ) ^ (990 : ℤ) → Stands (k + s.length) (s.length * (m + 2) - 2) (t.eval A) (total s) := by
  induction t with
  | leaf a =>
    intro s hs _ _ _
    cases hs with
    | cons h1 h2 =>
      cases h2
      obtain ⟨x, rfl, hx⟩ := h1
      refine ⟨x, rfl, ?_⟩
      simpa [total] using hx.mono (by simp) (by simp)
  | node a b iha ihb =>
    intro s hs hk hm hW
    obtain ⟨u, v, rfl, hu, hv⟩ := forall₂_split hs
    have lu : 1 ≤ u.length := by rw [← hu.length_eq]; exact leaves_pos a
    have lv : 1 ≤ v.length := by rw [← hv.length_eq]; exact leaves_pos b
    have lu' : (1 : ℝ) ≤ u.length := by exact_mod_cast lu
    have lv' : (1 : ℝ) ≤ v.length := by exact_mod_cast lv
    rw [List.length_append] at hk hm ⊢
    push_cast at hk hm ⊢
    rw [total_append] at hW ⊢
    have W0 : ∀ (l : List Fl) (w : List (ℝ × ℝ)), List.Forall₂ (Stands k m) l w → 0 ≤ (total w).2 := by
      intro l w h
      induction h with
      | nil => simp [total]
      | cons h1 h2 ih =>
        obtain ⟨x, -, hx⟩ := h1
        have := hx.nonneg
        simp only [total, List.map_cons, List.sum_cons] at ih ⊢
        linarith
    have Wu := W0 _ _ hu
    have Wv := W0 _ _ hv
    have m2 : 0 < m + 2 := by linarith
    simp only at hW
    obtain ⟨x, ex, hx⟩ := iha u hu (by linarith) (by nlinarith) (by linarith)
    obtain ⟨y, ey, hy⟩ := ihb v hv (by linarith) (by nlinarith) (by linarith)
    have o := (hx.mono (k' := k + (u.length + v.length) - 1) (by linarith) le_rfl).add' (hy.mono (k' := k + (u.length + v.length) - 1) (by linarith) le_rfl)
    obtain ⟨z, ez, hz⟩ := o.round A (by linarith) (by nlinarith) (by linarith) hW
    refine ⟨z, by rw [Tree.eval, ex, ey]; exact ez, ?_⟩
    exact hz.mono (by linarith) (by linarith)

theorem total_perm {s t : List (ℝ × ℝ)} (h : s.Perm t) : total s = total t := by
  rw [total, total, (h.map Prod.fst).sum_eq, (h.map Prod.snd).sum_eq]

/-- `np.sum`. -/
theorem sum_acc (A : Arith) {k m : ℝ} (hk0 : 0 ≤ k) (hm0 : 0 ≤ m) {l : List Fl} {s : List (ℝ × ℝ)} (hs : List.Forall₂ (Stands k m) l s) (hk : k + s.length ≤ 2 ^ 45)
    (hm : s.length * (m + 2) ≤ 2 ^ 50) (hW : (total s).2 ≤ (2 : ℝ) ^ (990 : ℤ)) {r : Fl} (hr : IsSum A l r) :
    Stands (k + s.length) (s.length * (m + 2)) r (total s) := by
  rcases hr with ⟨rfl, rfl⟩ | ⟨t, ht, rfl⟩
  · cases hs
    exact ⟨0, rfl, by simp [total], by simp [total]⟩
  · obtain ⟨u, hu, hp⟩ := List.perm_comp_forall₂ ht hs
    have hl := hp.length_eq
    rw [← hl] at hk hm ⊢
    rw [← total_perm hp] at hW ⊢
    obtain ⟨x, ex, hx⟩ := tree_acc A hm0 t u hu hk hm hW
    exact ⟨x, ex, hx.mono le_rfl (by linarith)⟩

theorem dot_leaves_pos (t : DotTree) : 0 < t.leaves.length := by
  induction t with
  | prod x y => simp [DotTree.leaves]
  | fma t x y ih => simp [DotTree.leaves]
  | node s t ihs iht => simp only [DotTree.leaves, List.length_append]; omega

/-- The exact product of the floating-point numbers `a` stands for `p.1`, which is at most `p.2`. -/
def Times (k m : ℝ) (a : Fl × Fl) (p : ℝ × ℝ) : Prop := ∃ x y, a = (.fin x, .fin y) ∧ Acc k m p.2 (x * y) p.1

theorem times_nonneg {k m : ℝ} (l : List (Fl × Fl)) (w : List (ℝ × ℝ)) (h : List.Forall₂ (Times k m) l w) : 0 ≤ (total w).2 := by
  induction h with
  | nil => simp [total]
  | cons h1 h2 ih =>
    obtain ⟨x, y, -, hx⟩ := h1
    have := hx.nonneg
    simp only [total, List.map_cons, List.sum_cons] at ih ⊢
    linarith

/-- Scalar products in any order, with fused operations or not. -/
theorem dot_tree_acc (A : Arith) {k m : ℝ} (hm0 : 0 ≤ m) (t : DotTree) : ∀ (s : List (ℝ × ℝ)), List.Forall₂ (Times k m) t.leaves s → k + s.length ≤ 2 ^ 45 →
    s.length * (m + 4) ≤ 2 ^ 50 → (total s).2 ≤ (2 : ℝ) ^ (990 : ℤ) → Stands (k + s.length) (s.length * (m + 4) - 2) (t.eval A) (total s) := by
  induction t with
  | prod a b =>
    intro s hs hk hm hW
    cases hs with
    | cons h1 h2 =>
      cases h2
      obtain ⟨x, y, e, hx⟩ := h1
      cases e
      simp only [total, List.map_cons, List.map_nil, List.sum_cons, List.sum_nil, add_zero, List.length_cons, List.length_nil, zero_add, Nat.cast_one, one_mul] at hk hm hW ⊢
      obtain ⟨z, ez, hz⟩ := hx.round A (by linarith) hm0 (by linarith) hW
      exact ⟨z, ez, hz.mono le_rfl (by linarith)⟩
  | fma a b c iha =>
    intro s hs hk hm hW
    obtain ⟨u, v, rfl, hu, hv⟩ := forall₂_split hs
    have lu' : (1 : ℝ) ≤ u.length := by
      have : 1 ≤ u.length := by rw [← hu.length_eq]; exact dot_leaves_pos a
      exact_mod_cast this
    cases hv with
    | cons h1 h2 =>
      cases h2
      obtain ⟨p, q, e, hpq⟩ := h1
      cases e
      have Wu := times_nonneg _ _ hu
      have Wv := hpq.nonneg
      rw [List.length_append] at hk hm ⊢
      rw [total_append] at hW ⊢
      simp only [total, List.map_cons, List.map_nil, List.sum_cons, List.sum_nil, add_zero, List.length_cons, List.length_nil, zero_add, Nat.cast_add, Nat.cast_one] at hk hm hW Wu ⊢
      obtain ⟨x, ex, hx⟩ := iha u hu (by linarith) (by linarith) (by simp only [total]; linarith)
      have o := (hx.mono (k' := k + u.length) le_rfl le_rfl).add' (hpq.mono (k' := k + u.length) (by linarith) le_rfl)
      obtain ⟨z, ez, hz⟩ := o.round A (by linarith) (by nlinarith) (by linarith) hW
      refine ⟨z, ?_, hz.mono (by linarith) (by linarith)⟩
      rw [DotTree.eval, ex]
      simp only [addMul, if_true, ez]
  | node a b iha ihb =>
    intro s hs hk hm hW
    obtain ⟨u, v, rfl, hu, hv⟩ := forall₂_split hs
    have lu' : (1 : ℝ) ≤ u.length := by
      have : 1 ≤ u.length := by rw [← hu.length_eq]; exact dot_leaves_pos a
      exact_mod_cast this
    have lv' : (1 : ℝ) ≤ v.length := by
      have : 1 ≤ v.length := by rw [← hv.length_eq]; exact dot_leaves_pos b
      exact_mod_cast this
    have Wu := times_nonneg _ _ hu
    have Wv := times_nonneg _ _ hv
    rw [List.length_append] at hk hm ⊢
    push_cast at hk hm ⊢
    rw [total_append] at hW ⊢
    simp only at hW
    have m2 : 0 < m + 4 := by linarith
    obtain ⟨x, ex, hx⟩ := iha u hu (by linarith) (by nlinarith) (by linarith)
    obtain ⟨y, ey, hy⟩ := ihb v hv (by linarith) (by nlinarith) (by linarith)
    have o := (hx.mono (k' := k + (u.length + v.length) - 1) (by linarith) le_rfl).add' (hy.mono (k' := k + (u.length + v.length) - 1) (by linarith) le_rfl)
    obtain ⟨z, ez, hz⟩ := o.round A (by linarith) (by nlinarith) (by linarith) hW
    refine ⟨z, by rw [DotTree.eval, ex, ey]; exact ez, ?_⟩
    exact hz.mono (by linarith) (by linarith)

/-- `np.dot`. -/
theorem dot_acc (A : Arith) {k m : ℝ} (hk0 : 0 ≤ k) (hm0 : 0 ≤ m) {l : List (Fl × Fl)} {s : List (ℝ × ℝ)} (hs : List.Forall₂ (Times k m) l s)
    (hk : k + s.length ≤ 2 ^ 45) (hm : s.length * (m + 4) ≤ 2 ^ 50) (hW : (total s).2 ≤ (2 : ℝ) ^ (990 : ℤ)) {r : Fl} (hr : IsDot A l r) :
    Stands (k + s.length) (s.length * (m + 4)) r (total s) := by
  rcases hr with ⟨rfl, rfl⟩ | ⟨t, ht, rfl⟩
  · cases hs
    exact ⟨0, rfl, by simp [total], by simp [total]⟩
  · obtain ⟨u, hu, hp⟩ := List.perm_comp_forall₂ ht hs
    have hl := hp.length_eq
    rw [← hl] at hk hm ⊢
    rw [← total_perm hp] at hW ⊢
    obtain ⟨x, ex, hx⟩ := dot_tree_acc A hm0 t u hu hk hm hW
    exact ⟨x, ex, hx.mono le_rfl (by linarith)⟩

end Verif.Ieee
