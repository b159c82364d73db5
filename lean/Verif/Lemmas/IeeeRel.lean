import Verif.Lemmas.IeeeSum
import Verif.Model.IeeeEcorr

/-! # Errors of sums relative to the size of their terms, for C144 -/

namespace Verif.Ieee

open Verif

/-- A number `x` that stands for `X`, which is at most `W`: the difference is at most `k * eps * W`.  `W` is neither huge nor tiny. -/
structure Rel (k W x X : ℝ) : Prop where
  err : |x - X| ≤ k * eps * W
  size : |X| ≤ W
  low : (2 : ℝ) ^ (-900 : ℤ) ≤ W

theorem Rel.pos {k W x X : ℝ} (h : Rel k W x X) : 0 < W := lt_of_lt_of_le (by positivity) h.low

theorem Rel.mono {k W x X k' : ℝ} (h : Rel k W x X) (hk : k ≤ k') : Rel k' W x X :=
  ⟨h.err.trans (mul_le_mul_of_nonneg_right (mul_le_mul_of_nonneg_right hk eps_pos.le) h.pos.le), h.size, h.low⟩

theorem Rel.abs_le {k W x X : ℝ} (h : Rel k W x X) (hk : k ≤ 2 ^ 45) : |x| ≤ 2 * W := by
  have h1 := eps_small hk
  have h2 : |x| ≤ |x - X| + |X| := by simpa using abs_add_le (x - X) X
  have h3 := mul_le_mul_of_nonneg_right h1 h.pos.le
  linarith [h.err, h.size]

theorem tiny_le {W : ℝ} (h : (2 : ℝ) ^ (-900 : ℤ) ≤ W) : tiny ≤ eps * W := by
  have e : tiny = (2 : ℝ) ^ (-1074 : ℤ) := by
    unfold tiny
    norm_num
  have e2 : (2 : ℝ) ^ (-951 : ℤ) = eps * (2 : ℝ) ^ (-900 : ℤ) := by
    rw [eps, ← zpow_add₀ (by norm_num)]
    norm_num
  rw [e]
  refine le_trans (zpow_le_zpow_right₀ (by norm_num) (by norm_num)) (e2.le.trans (mul_le_mul_of_nonneg_left h eps_pos.le))

/-- Rounding. -/
theorem Rel.round (A : Arith) {k W x X : ℝ} (h : Rel k W x X) (hk : k ≤ 2 ^ 45) (hW : W ≤ (2 : ℝ) ^ (990 : ℤ)) : ∃ z, A.round x = .fin z ∧ Rel (k + 2) W z X := by
  have h1 := h.abs_le hk
  have h2 := rnd_err A x
  have he := eps_pos
  have ht := tiny_le h.low
  have hb : |x| ≤ (2 : ℝ) ^ (1000 : ℤ) := by
    have e : (2 : ℝ) ^ (1000 : ℤ) = 1024 * (2 : ℝ) ^ (990 : ℤ) := by
      have : (2 : ℝ) ^ (1000 : ℤ) = (2 : ℝ) ^ ((10 : ℤ) + (990 : ℤ)) := by norm_num
      rw [this, zpow_add₀ (by norm_num)]
      norm_num
    have h0 := h.pos
    rw [e]
    refine h1.trans (mul_le_mul (by norm_num) hW h0.le (by norm_num))
  refine ⟨A.rnd x, round_fin A hb, ?_, h.size, h.low⟩
  have e : A.rnd x - X = (A.rnd x - x) + (x - X) := by ring
  rw [e]
  refine (abs_add_le _ _).trans ?_
  have h4 : eps / 2 * |x| ≤ eps / 2 * (2 * W) := mul_le_mul_of_nonneg_left h1 (by positivity)
  linarith [h.err]

theorem Rel.add' {k W x X V y Y : ℝ} (h : Rel k W x X) (g : Rel k V y Y) : Rel k (W + V) (x + y) (X + Y) := by
  refine ⟨?_, (abs_add_le _ _).trans (add_le_add h.size g.size), by linarith [h.low, g.pos]⟩
  have e : x + y - (X + Y) = (x - X) + (y - Y) := by ring
  rw [e]
  refine (abs_add_le _ _).trans ?_
  linarith [h.err, g.err]

theorem Rel.neg {k W x X : ℝ} (h : Rel k W x X) : Rel k W (-x) (-X) := by
  refine ⟨?_, by rw [abs_neg]; exact h.size, h.low⟩
  have e : -x - -X = -(x - X) := by ring
  rw [e, abs_neg]
  exact h.err

/-- Sums. -/
theorem Rel.add (A : Arith) {k W x X V y Y : ℝ} (h : Rel k W x X) (g : Rel k V y Y) (hk : k ≤ 2 ^ 45) (hW : W + V ≤ (2 : ℝ) ^ (990 : ℤ)) :
    ∃ z, Ieee.add A (.fin x) (.fin y) = .fin z ∧ Rel (k + 2) (W + V) z (X + Y) := (h.add' g).round A hk hW

/-- Differences. -/
theorem Rel.sub (A : Arith) {k W x X V y Y : ℝ} (h : Rel k W x X) (g : Rel k V y Y) (hk : k ≤ 2 ^ 45) (hW : W + V ≤ (2 : ℝ) ^ (990 : ℤ)) :
    ∃ z, Ieee.sub A (.fin x) (.fin y) = .fin z ∧ Rel (k + 2) (W + V) z (X - Y) := by
  obtain ⟨z, hz, o⟩ := h.add A g.neg hk hW
  exact ⟨z, hz, by rw [sub_eq_add_neg]; exact o⟩

theorem Rel.mul' {k W x X l V y Y : ℝ} (h : Rel k W x X) (g : Rel l V y Y) (hk : k ≤ 2 ^ 45) (hl : 0 ≤ l) (hWV : (2 : ℝ) ^ (-900 : ℤ) ≤ W * V) :
    Rel (k + 2 * l) (W * V) (x * y) (X * Y) := by
  have he := eps_pos
  refine ⟨?_, ?_, hWV⟩
  · have e : x * y - X * Y = x * (y - Y) + (x - X) * Y := by ring
    rw [e]
    refine (abs_add_le _ _).trans ?_
    rw [abs_mul, abs_mul]
    have h1 := mul_le_mul (h.abs_le hk) g.err (abs_nonneg _) (by linarith [h.pos])
    have h2 := mul_le_mul h.err g.size (abs_nonneg _) (le_trans (abs_nonneg _) h.err)
    linarith
  · rw [abs_mul]
    exact mul_le_mul h.size g.size (abs_nonneg _) h.pos.le

/-- Products. -/
theorem Rel.mul (A : Arith) {k W x X l V y Y : ℝ} (h : Rel k W x X) (g : Rel l V y Y) (hk : k + 2 * l ≤ 2 ^ 45) (hl : 0 ≤ l)
    (hWV : (2 : ℝ) ^ (-900 : ℤ) ≤ W * V) (hW : W * V ≤ (2 : ℝ) ^ (990 : ℤ)) :
    ∃ z, Ieee.mul A (.fin x) (.fin y) = .fin z ∧ Rel (k + 2 * l + 2) (W * V) z (X * Y) :=
  (h.mul' g (by linarith) hl hWV).round A hk hW

/-- Bounds by powers of two. -/
theorem zpow_bounds {x m : ℝ} {j : ℤ} (h0 : 0 < x) (h : |Real.log x| ≤ m) (hj : m ≤ j * (69 / 100)) (hj0 : 0 ≤ j) : (2 : ℝ) ^ (-j) ≤ x ∧ x ≤ (2 : ℝ) ^ j := by
  have hl := Real.log_two_gt_d9
  have hj' : (0 : ℝ) ≤ j := by exact_mod_cast hj0
  have h2 : (j : ℝ) * (69 / 100) ≤ j * Real.log 2 := mul_le_mul_of_nonneg_left (by linarith) hj'
  obtain ⟨g1, g2⟩ := _root_.abs_le.1 h
  constructor
  · rw [← Real.log_le_log_iff (by positivity) h0, Real.log_zpow]
    push_cast
    linarith
  · rw [← Real.log_le_log_iff h0 (by positivity), Real.log_zpow]
    linarith

theorem Off.toRel {r m x X : ℝ} (h : Off r m x X) (hr : r ≤ 2 ^ 45) (hm : m ≤ 600) : Rel (2 * r) X x X := by
  have h1 : |x - X| ≤ 2 * (r * eps) * X := by
    have h1 := eps_small hr
    have h2 := Real.abs_exp_sub_one_le (h.err.trans h1)
    rw [Real.exp_sub, Real.exp_log h.pos, Real.exp_log h.pos'] at h2
    have hX := h.pos'
    have e : x - X = (x / X - 1) * X := by field_simp
    rw [e, abs_mul, abs_of_pos hX]
    refine mul_le_mul_of_nonneg_right (h2.trans ?_) hX.le
    linarith [h.err]
  refine ⟨by linarith, (abs_of_pos h.pos').le, ?_⟩
  exact (zpow_bounds (j := 900) h.pos' h.size (by push_cast; linarith) (by norm_num)).1

theorem Rel.toOff {k x X m : ℝ} (h : Rel k X x X) (hk0 : 0 ≤ k) (hk : k ≤ 2 ^ 44) (hm : |Real.log X| ≤ m) : Off (2 * k) m x X := by
  have hX := h.pos
  have he := eps_pos
  have h1 : 2 * (k * eps) ≤ 1 := by
    have := eps_small (r := 2 * k) (by linarith)
    linarith
  obtain ⟨d, hd⟩ : ∃ d, d = k * eps := ⟨_, rfl⟩
  have hd0 : 0 ≤ d := by rw [hd]; positivity
  have h2 := h.err
  rw [← hd] at h1 h2
  obtain ⟨g1, g2⟩ := _root_.abs_le.1 h2
  have hpos : 0 < x := by nlinarith
  refine ⟨hpos, hX, ?_, hm⟩
  rw [← Real.log_div hpos.ne' hX.ne']
  have u1 : x / X ≤ 1 + d := by rw [div_le_iff₀ hX]; linarith
  have u2 : 1 - d ≤ x / X := by rw [le_div_iff₀ hX]; linarith
  have hq : 0 < x / X := by positivity
  have e : 2 * k * eps = 2 * d := by rw [hd]; ring
  rw [e, _root_.abs_le]
  constructor
  · have := Real.one_sub_inv_le_log_of_pos hq
    have h3 : (x / X)⁻¹ ≤ 1 + 2 * d := by
      refine (inv_anti₀ (by linarith) u2).trans ?_
      rw [inv_le_iff_one_le_mul₀ (by linarith)]
      nlinarith
    linarith
  · have := Real.log_le_sub_one_of_pos hq
    linarith

/-- The floating-point number `a` stands for `p.1`, which is at most `p.2`. -/
def Near (k : ℝ) (a : Fl) (p : ℝ × ℝ) : Prop := ∃ x, a = .fin x ∧ Rel k p.2 x p.1

theorem near_nonneg {k : ℝ} (l : List Fl) (w : List (ℝ × ℝ)) (h : List.Forall₂ (Near k) l w) : 0 ≤ (total w).2 := by
  induction h with
  | nil => simp [total]
  | cons h1 h2 ih =>
    obtain ⟨x, -, hx⟩ := h1
    have := hx.pos
    simp only [total, List.map_cons, List.sum_cons] at ih ⊢
    linarith

/-- Sums in any bracketing. -/
theorem tree_rel (A : Arith) {k : ℝ} (t : Tree) : ∀ (s : List (ℝ × ℝ)), List.Forall₂ (Near k) t.leaves s → k + 2 * s.length ≤ 2 ^ 45 →
    (total s).2 ≤ (2 : ℝ) ^ (990 : ℤ) → Near (k + 2 * s.length) (t.eval A) (total s) := by
  induction t with
  | leaf a =>
    intro s hs _ _
    cases hs with
    | cons h1 h2 =>
      cases h2
      obtain ⟨x, rfl, hx⟩ := h1
      refine ⟨x, rfl, ?_⟩
      simpa [total] using hx.mono (by simp)
  | node a b iha ihb =>
    intro s hs hk hW
    obtain ⟨u, v, rfl, hu, hv⟩ := forall₂_split hs
    have lu' : (1 : ℝ) ≤ u.length := by
      have : 1 ≤ u.length := by rw [← hu.length_eq]; exact leaves_pos a
      exact_mod_cast this
    have lv' : (1 : ℝ) ≤ v.length := by
      have : 1 ≤ v.length := by rw [← hv.length_eq]; exact leaves_pos b
      exact_mod_cast this
    rw [List.length_append] at hk ⊢
    push_cast at hk ⊢
    rw [total_append] at hW ⊢
    have Wu := near_nonneg _ _ hu
    have Wv := near_nonneg _ _ hv
    simp only at hW
    obtain ⟨x, ex, hx⟩ := iha u hu (by linarith) (by linarith)
    obtain ⟨y, ey, hy⟩ := ihb v hv (by linarith) (by linarith)
    obtain ⟨z, ez, hz⟩ := (hx.mono (k' := k + 2 * (u.length + v.length) - 2) (by linarith)).add A (hy.mono (k' := k + 2 * (u.length + v.length) - 2) (by linarith)) (by linarith) hW
    exact ⟨z, by rw [Tree.eval, ex, ey]; exact ez, hz.mono (by linarith)⟩

/-- `np.sum` of some numbers. -/
theorem sum_rel (A : Arith) {k : ℝ} {l : List Fl} {s : List (ℝ × ℝ)} (hl : l ≠ []) (hs : List.Forall₂ (Near k) l s) (hk : k + 2 * s.length ≤ 2 ^ 45)
    (hW : (total s).2 ≤ (2 : ℝ) ^ (990 : ℤ)) {r : Fl} (hr : IsSum A l r) : Near (k + 2 * s.length) r (total s) := by
  rcases hr with ⟨rfl, rfl⟩ | ⟨t, ht, rfl⟩
  · exact absurd rfl hl
  · obtain ⟨u, hu, hp⟩ := List.perm_comp_forall₂ ht hs
    rw [← hp.length_eq] at hk ⊢
    rw [← total_perm hp] at hW ⊢
    exact tree_rel A t u hu hk hW

/-- The exact product of the floating-point numbers `a` stands for `p.1`, which is at most `p.2`. -/
def Product (k : ℝ) (a : Fl × Fl) (p : ℝ × ℝ) : Prop := ∃ x y, a = (.fin x, .fin y) ∧ Rel k p.2 (x * y) p.1

theorem product_nonneg {k : ℝ} (l : List (Fl × Fl)) (w : List (ℝ × ℝ)) (h : List.Forall₂ (Product k) l w) : 0 ≤ (total w).2 := by
  induction h with
  | nil => simp [total]
  | cons h1 h2 ih =>
    obtain ⟨x, y, -, hx⟩ := h1
    have := hx.pos
    simp only [total, List.map_cons, List.sum_cons] at ih ⊢
    linarith

/-- Scalar products in any order, with fused operations or not. -/
theorem dot_tree_rel (A : Arith) {k : ℝ} (t : DotTree) : ∀ (s : List (ℝ × ℝ)), List.Forall₂ (Product k) t.leaves s → k + 2 * s.length ≤ 2 ^ 45 →
    (total s).2 ≤ (2 : ℝ) ^ (990 : ℤ) → Near (k + 2 * s.length) (t.eval A) (total s) := by
  induction t with
  | prod a b =>
    intro s hs hk hW
    cases hs with
    | cons h1 h2 =>
      cases h2
      obtain ⟨x, y, e, hx⟩ := h1
      cases e
      simp only [total, List.map_cons, List.map_nil, List.sum_cons, List.sum_nil, add_zero, List.length_cons, List.length_nil, zero_add, Nat.cast_one] at hk hW ⊢
      obtain ⟨z, ez, hz⟩ := hx.round A (by linarith) hW
      exact ⟨z, ez, hz.mono (by linarith)⟩
  | fma a b c iha =>
    intro s hs hk hW
    obtain ⟨u, v, rfl, hu, hv⟩ := forall₂_split hs
    have lu' : (1 : ℝ) ≤ u.length := by
      have : 1 ≤ u.length := by rw [← hu.length_eq]; exact dot_leaves_pos a
      exact_mod_cast this
    cases hv with
    | cons h1 h2 =>
      cases h2
      obtain ⟨p, q, e, hpq⟩ := h1
      cases e
      have Wu := product_nonneg _ _ hu
      have Wv := hpq.pos
      rw [List.length_append] at hk ⊢
      rw [total_append] at hW ⊢
      simp only [total, List.map_cons, List.map_nil, List.sum_cons, List.sum_nil, add_zero, List.length_cons, List.length_nil, zero_add, Nat.cast_add, Nat.cast_one] at hk hW Wu ⊢
      obtain ⟨x, ex, hx⟩ := iha u hu (by linarith) (by simp only [total]; linarith)
      obtain ⟨z, ez, hz⟩ := (hx.add' (hpq.mono (k' := k + 2 * u.length) (by linarith))).round A (by linarith) hW
      refine ⟨z, ?_, hz.mono (by linarith)⟩
      rw [DotTree.eval, ex]
      simp only [addMul, if_true, ez]
  | node a b iha ihb =>
    intro s hs hk hW
    obtain ⟨u, v, rfl, hu, hv⟩ := forall₂_split hs
    have lu' : (1 : ℝ) ≤ u.length := by
      have : 1 ≤ u.length := by rw [← hu.length_eq]; exact dot_leaves_pos a
      exact_mod_cast this
    have lv' : (1 : ℝ) ≤ v.length := by
      have : 1 ≤ v.length := by rw [← hv.length_eq]; exact dot_leaves_pos b
      exact_mod_cast this
    have Wu := product_nonneg _ _ hu
    have Wv := product_nonneg _ _ hv
    rw [List.length_append] at hk ⊢
    push_cast at hk ⊢
    rw [total_append] at hW ⊢
    simp only at hW
    obtain ⟨x, ex, hx⟩ := iha u hu (by linarith) (by linarith)
    obtain ⟨y, ey, hy⟩ := ihb v hv (by linarith) (by linarith)
    obtain ⟨z, ez, hz⟩ := (hx.mono (k' := k + 2 * (u.length + v.length) - 2) (by linarith)).add A (hy.mono (k' := k + 2 * (u.length + v.length) - 2) (by linarith)) (by linarith) hW
    exact ⟨z, by rw [DotTree.eval, ex, ey]; exact ez, hz.mono (by linarith)⟩

/-- `np.dot` of some numbers. -/
theorem dot_rel (A : Arith) {k : ℝ} {l : List (Fl × Fl)} {s : List (ℝ × ℝ)} (hl : l ≠ []) (hs : List.Forall₂ (Product k) l s) (hk : k + 2 * s.length ≤ 2 ^ 45)
    (hW : (total s).2 ≤ (2 : ℝ) ^ (990 : ℤ)) {r : Fl} (hr : IsDot A l r) : Near (k + 2 * s.length) r (total s) := by
  rcases hr with ⟨rfl, rfl⟩ | ⟨t, ht, rfl⟩
  · exact absurd rfl hl
  · obtain ⟨u, hu, hp⟩ := List.perm_comp_forall₂ ht hs
    rw [← hp.length_eq] at hk ⊢
    rw [← total_perm hp] at hW ⊢
    exact dot_tree_rel A t u hu hk hW

end Verif.Ieee
