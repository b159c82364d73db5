import Mathlib.Algebra.Order.Star.Real
import Mathlib.Analysis.Matrix.PosDef
import Verif.Lemmas.IeeeRel
import Verif.Model.IeeeTm
import Verif.Props.IeeeToas

/-!
# The columns of the timing model in floating-point arithmetic

C147: columns are normalised accurately, unless their squares overflow or underflow.
C148: the prior of the timing model is lost in the matrix `Sigma`.
-/

namespace Verif.Ieee

open Verif

variable (A : Arith)

/-- The length of a column in exact arithmetic. -/
noncomputable def len (xs : List ℝ) : ℝ := Real.sqrt (xs.map fun x => x ^ 2).sum

/-! ## Lemmas -/

theorem tiny_zpow : tiny = (2 : ℝ) ^ (-1074 : ℤ) := by unfold tiny; norm_num

theorem rep_small_zero {y : ℝ} (h : Rep y) (h0 : 0 ≤ y) (h1 : y < tiny) : y = 0 := by
  obtain ⟨m, -, rfl⟩ := (rep_iff y).1 h
  have ht := tiny_pos
  have h2 : (m : ℝ) < 1 := by
    by_contra hc
    push Not at hc
    nlinarith
  have h3 : (0 : ℝ) ≤ m := by
    by_contra hc
    push Not at hc
    nlinarith
  have : m = 0 := by
    have h2' : m < 1 := by exact_mod_cast h2
    have h3' : 0 ≤ m := by exact_mod_cast h3
    omega
  simp [this]

theorem many_tiny_le {n W : ℝ} (hn : n ≤ 2 ^ 60) (h : (2 : ℝ) ^ (-900 : ℤ) ≤ W) : n * tiny ≤ eps * W := by
  have e2 : (2 : ℝ) ^ (-951 : ℤ) = eps * (2 : ℝ) ^ (-900 : ℤ) := by
    rw [eps, ← zpow_add₀ (by norm_num)]
    norm_num
  have e3 : (2 : ℝ) ^ 60 * tiny = (2 : ℝ) ^ (-1014 : ℤ) := by
    rw [tiny_zpow, ← zpow_natCast, ← zpow_add₀ (by norm_num)]
    norm_num
  have h1 := mul_le_mul_of_nonneg_right hn tiny_pos.le
  rw [e3] at h1
  exact h1.trans ((zpow_le_zpow_right₀ (by norm_num) (by norm_num)).trans (e2.le.trans (mul_le_mul_of_nonneg_left h eps_pos.le)))

theorem sum_sq_ge {xs : List ℝ} {x : ℝ} (h : x ∈ xs) : x ^ 2 ≤ (xs.map fun x => x ^ 2).sum :=
  List.single_le_sum (fun y hy => by obtain ⟨z, -, rfl⟩ := List.mem_map.1 hy; positivity) _ (List.mem_map.2 ⟨x, h, rfl⟩)

theorem squares_stand (xs : List ℝ) (h : ∀ x ∈ xs, x ^ 2 ≤ (2 : ℝ) ^ (980 : ℤ)) :
    List.Forall₂ (Stands 1 2) ((xs.map Fl.fin).map fun x => mul A x x) (xs.map fun x => (x ^ 2, x ^ 2)) := by
  induction xs with
  | nil => exact .nil
  | cons x xs ih =>
    refine .cons ?_ (ih fun y hy => h y (List.mem_cons_of_mem _ hy))
    have h1 : Acc 0 0 (x ^ 2) (x * x) (x ^ 2) := ⟨by simp [sq], by rw [abs_of_nonneg (sq_nonneg x)]⟩
    obtain ⟨z, hz, az⟩ := h1.round A (by norm_num) le_rfl (by norm_num)
      ((h x (by simp)).trans (zpow_le_zpow_right₀ (by norm_num) (by norm_num)))
    exact ⟨z, by simp only [mul, hz], by simpa using az⟩

/-- The computed length. -/
theorem norm_near {xs : List ℝ} (hn : xs.length ≤ 2 ^ 40) (h0 : (2 : ℝ) ^ (-900 : ℤ) ≤ (xs.map fun x => x ^ 2).sum)
    (h1 : (xs.map fun x => x ^ 2).sum ≤ (2 : ℝ) ^ (980 : ℤ)) {v : Fl} (hv : IsColNorm A (xs.map Fl.fin) v) :
    ∃ w, v = .fin w ∧ |w - len xs| ≤ (xs.length + 3) * eps * len xs := by
  obtain ⟨s, hs, rfl⟩ := hv
  have hn' : (xs.length : ℝ) ≤ 2 ^ 40 := by exact_mod_cast hn
  have hn0 : (0 : ℝ) ≤ xs.length := by positivity
  have he := eps_pos
  obtain ⟨S, hS⟩ : ∃ S, S = (xs.map fun x => x ^ 2).sum := ⟨_, rfl⟩
  have tot : total (xs.map fun x => (x ^ 2, x ^ 2)) = (S, S) := by
    simp only [total, List.map_map, hS]
    rfl
  have h := sum_acc A (by norm_num) (by norm_num) (squares_stand A xs fun x hx => (sum_sq_ge hx).trans h1)
    (by rw [List.length_map]; linarith) (by rw [List.length_map]; linarith)
    (by rw [tot, hS]; exact h1.trans (zpow_le_zpow_right₀ (by norm_num) (by norm_num))) hs
  rw [tot, List.length_map] at h
  obtain ⟨y, rfl, hy⟩ := h
  rw [← hS] at h0 h1
  have hSp : 0 < S := lt_of_lt_of_le (by positivity) h0
  have ht := many_tiny_le (n := xs.length * (2 + 2)) (by linarith) h0
  have herr : |y - S| ≤ (xs.length + 2) * eps * S := by
    have := hy.err
    simp only at this
    linarith
  have hsmall : (xs.length + 3) * eps ≤ 1 / 4 := by
    have := eps_small (r := 4 * (xs.length + 3)) (by linarith)
    linarith
  have hy0 : S / 2 ≤ y := by
    have := (abs_le.1 herr).1
    nlinarith
  have hyp : 0 < y := by linarith
  have hL : len xs = Real.sqrt S := by rw [len, hS]
  have hLp : 0 < Real.sqrt S := Real.sqrt_pos.2 hSp
  have hLs : Real.sqrt S * Real.sqrt S = S := Real.mul_self_sqrt hSp.le
  have hys : Real.sqrt y * Real.sqrt y = y := Real.mul_self_sqrt hyp.le
  have hyq : 0 < Real.sqrt y := Real.sqrt_pos.2 hyp
  have hd : |Real.sqrt y - Real.sqrt S| ≤ (xs.length + 2) * eps * Real.sqrt S := by
    have e : |Real.sqrt y - Real.sqrt S| * (Real.sqrt y + Real.sqrt S) = |y - S| := by
      rw [← abs_of_pos (by positivity : 0 < Real.sqrt y + Real.sqrt S), ← abs_mul]
      congr 1
      nlinarith
    have h2 : |Real.sqrt y - Real.sqrt S| * Real.sqrt S ≤ (xs.length + 2) * eps * Real.sqrt S * Real.sqrt S := by
      rw [mul_assoc _ (Real.sqrt S), hLs]
      refine le_trans ?_ (e.le.trans herr)
      exact mul_le_mul_of_nonneg_left (by linarith) (abs_nonneg _)
    exact le_of_mul_le_mul_right h2 hLp
  have hy2 : y ≤ 2 * S := by
    have := (abs_le.1 herr).2
    nlinarith
  have hlow : (2 : ℝ) ^ (-1000 : ℤ) ≤ Real.sqrt y := by
    refine Real.le_sqrt_of_sq_le (le_trans ?_ hy0)
    rw [le_div_iff₀ (by norm_num)]
    refine le_trans ?_ h0
    rw [← zpow_natCast, ← zpow_mul]
    have e : (2 : ℝ) ^ ((-1000 : ℤ) * ((2 : ℕ) : ℤ)) * 2 = (2 : ℝ) ^ (-1999 : ℤ) := by
      have : (2 : ℝ) ^ (-1999 : ℤ) = (2 : ℝ) ^ ((-1000 : ℤ) * ((2 : ℕ) : ℤ) + 1) := by norm_num
      rw [this, zpow_add₀ (by norm_num), zpow_one]
    rw [e]
    exact zpow_le_zpow_right₀ (by norm_num) (by norm_num)
  have hhigh : |Real.sqrt y| ≤ (2 : ℝ) ^ (1000 : ℤ) := by
    rw [abs_of_pos hyq]
    refine Real.sqrt_le_iff.2 ⟨by positivity, hy2.trans ?_⟩
    rw [← zpow_natCast, ← zpow_mul]
    have e : 2 * (2 : ℝ) ^ (980 : ℤ) = (2 : ℝ) ^ (981 : ℤ) := by
      have : (2 : ℝ) ^ (981 : ℤ) = (2 : ℝ) ^ (1 + (980 : ℤ)) := by norm_num
      rw [this, zpow_add₀ (by norm_num), zpow_one]
    refine (mul_le_mul_of_nonneg_left h1 (by norm_num)).trans ?_
    rw [e]
    exact zpow_le_zpow_right₀ (by norm_num) (by norm_num)
  have hr := rnd_rel A hlow
  refine ⟨A.rnd (Real.sqrt y), by simp only [npSqrt, not_lt.2 hyp.le, if_false, round_fin A hhigh], ?_⟩
  rw [hL]
  have e52 : eps / 2 = (2 : ℝ) ^ (-52 : ℤ) := by
    have : (2 : ℝ) ^ (-51 : ℤ) = (2 : ℝ) ^ ((1 : ℤ) + (-52 : ℤ)) := by norm_num
    rw [eps, this, zpow_add₀ (by norm_num), zpow_one]
    ring
  rw [← e52] at hr
  have e : A.rnd (Real.sqrt y) - Real.sqrt S = (A.rnd (Real.sqrt y) - Real.sqrt y) + (Real.sqrt y - Real.sqrt S) := by ring
  rw [e]
  refine (abs_add_le _ _).trans ?_
  have h3 : Real.sqrt y ≤ 2 * Real.sqrt S := by
    have := (abs_le.1 hd).2
    nlinarith
  have h4 := mul_le_mul_of_nonneg_right h3 (by positivity : (0 : ℝ) ≤ eps / 2)
  linarith

/-- `np.sum` of numbers that are not negative: not below any of them. -/
def Above (lo : ℝ) (a : Fl) : Prop := a = .pinf ∨ ∃ y, lo ≤ y ∧ Rep y ∧ a = .fin y

theorem round_above {x lo : ℝ} (h : lo ≤ x) (r : Rep lo) (h0 : 0 ≤ lo) : Above lo (A.round x) := by
  have hm := A.mono h
  rw [A.fix _ r] at hm
  unfold Arith.round
  split
  · exact .inl rfl
  · split
    · next h1 =>
      exfalso
      linarith [big_nonneg]
    · exact .inr ⟨_, hm, A.rep x, rfl⟩

theorem Above.mono {lo lo' : ℝ} {a : Fl} (h : Above lo a) (hl : lo' ≤ lo) : Above lo' a := by
  rcases h with h | ⟨y, h1, h2, h3⟩
  · exact .inl h
  · exact .inr ⟨y, hl.trans h1, h2, h3⟩

theorem Above.add {lo lo' : ℝ} {a b : Fl} (h : Above lo a) (g : Above lo' b) (h0 : 0 ≤ lo) (h0' : 0 ≤ lo') (r : Rep lo) : Above lo (add A a b) := by
  rcases h with rfl | ⟨x, hx, -, rfl⟩ <;> rcases g with rfl | ⟨y, hy, -, rfl⟩
  · exact .inl rfl
  · exact .inl rfl
  · exact .inl rfl
  · exact round_above A (by linarith) r h0

theorem Above.add' {lo lo' : ℝ} {a b : Fl} (h : Above lo a) (g : Above lo' b) (h0 : 0 ≤ lo) (h0' : 0 ≤ lo') (r : Rep lo') : Above lo' (Ieee.add A a b) := by
  rcases h with rfl | ⟨x, hx, -, rfl⟩ <;> rcases g with rfl | ⟨y, hy, -, rfl⟩
  · exact .inl rfl
  · exact .inl rfl
  · exact .inl rfl
  · exact round_above A (by linarith) r h0'

theorem tree_above {lo : ℝ} (h0 : 0 ≤ lo) (r : Rep lo) (t : Tree) (h : ∀ a ∈ t.leaves, Above 0 a) :
    Above 0 (t.eval A) ∧ ((∃ a ∈ t.leaves, Above lo a) → Above lo (t.eval A)) := by
  induction t with
  | leaf a =>
    refine ⟨h a (by simp [Tree.leaves]), ?_⟩
    rintro ⟨b, hb, hb'⟩
    simp only [Tree.leaves, List.mem_singleton] at hb
    exact hb ▸ hb'
  | node s t ihs iht =>
    have hs := ihs fun a ha => h a (by simp [Tree.leaves, ha])
    have ht := iht fun a ha => h a (by simp [Tree.leaves, ha])
    refine ⟨hs.1.add A ht.1 le_rfl le_rfl rep_zero, ?_⟩
    rintro ⟨b, hb, hb'⟩
    rcases List.mem_append.1 hb with hb | hb
    · exact (hs.2 ⟨b, hb, hb'⟩).add A ht.1 h0 le_rfl r
    · exact hs.1.add' A (ht.2 ⟨b, hb, hb'⟩) le_rfl h0 r

theorem sq_above (x : ℝ) : Above 0 (mul A (.fin x) (.fin x)) := round_above A (mul_self_nonneg x) rep_zero le_rfl

/-- The sum of the squares is not below any of them. -/
theorem sum_above {lo : ℝ} (h0 : 0 ≤ lo) (r : Rep lo) {xs : List ℝ} {s : Fl} (hs : IsSum A ((xs.map Fl.fin).map fun x => mul A x x) s) :
    Above 0 s ∧ ((∃ x ∈ xs, lo ≤ x * x) → Above lo s) := by
  rcases hs with ⟨h1, rfl⟩ | ⟨t, ht, rfl⟩
  · have : xs = [] := by simpa using h1
    subst this
    exact ⟨.inr ⟨0, le_rfl, rep_zero, rfl⟩, by simp⟩
  · have h := tree_above A h0 r t fun a ha => by
      have := ht.subset ha
      simp only [List.map_map, List.mem_map, Function.comp] at this
      obtain ⟨x, -, rfl⟩ := this
      exact sq_above A x
    refine ⟨h.1, ?_⟩
    rintro ⟨x, hx, hx'⟩
    refine h.2 ⟨mul A (.fin x) (.fin x), ht.symm.subset ?_, round_above A hx' r h0⟩
    simp only [List.map_map, List.mem_map, Function.comp]
    exact ⟨x, hx, rfl⟩

theorem sqrt_above {s : Fl} (h : Above 0 s) : Above 0 (npSqrt A s) ∧ ∀ lo, 0 ≤ lo → Rep lo → Above (lo ^ 2) s → Above lo (npSqrt A s) := by
  rcases h with rfl | ⟨y, hy, -, rfl⟩
  · exact ⟨.inl rfl, fun _ _ _ _ => .inl rfl⟩
  · simp only [npSqrt, not_lt.2 hy, if_false]
    refine ⟨round_above A (Real.sqrt_nonneg y) rep_zero le_rfl, fun lo h0 r h => round_above A (Real.le_sqrt_of_sq_le ?_) r h0⟩
    rcases h with h | ⟨z, hz, -, h⟩
    · cases h
    · cases h
      exact hz

theorem exact_unit {xs : List ℝ} (hSp : 0 < (xs.map fun x => x ^ 2).sum) : (xs.map fun x => (x / len xs) ^ 2).sum = 1 := by
  have hLp : 0 < len xs := Real.sqrt_pos.2 hSp
  have e : ∀ l : List ℝ, (l.map fun x => (x / len xs) ^ 2).sum = (l.map fun x => x ^ 2).sum / len xs ^ 2 := by
    intro l
    induction l with
    | nil => simp
    | cons x l ih =>
      simp only [List.map_cons, List.sum_cons, ih]
      field_simp
  rw [e, len, Real.sq_sqrt hSp.le, div_self hSp.ne']

theorem tree_pinf (t : Tree) (h : ∀ a ∈ t.leaves, Above 0 a) (hp : Fl.pinf ∈ t.leaves) : t.eval A = .pinf := by
  induction t with
  | leaf a =>
    simp only [Tree.leaves, List.mem_singleton] at hp
    exact hp.symm
  | node s t ihs iht =>
    have hs := fun a ha => h a (by simp only [Tree.leaves, List.mem_append]; exact .inl ha)
    have ht := fun a ha => h a (by simp only [Tree.leaves, List.mem_append]; exact .inr ha)
    rw [Tree.eval]
    rcases List.mem_append.1 hp with hp | hp
    · rw [ihs hs hp]
      rcases (tree_above A le_rfl rep_zero t ht).1 with e | ⟨y, -, -, e⟩ <;> rw [e] <;> rfl
    · rw [iht ht hp]
      rcases (tree_above A le_rfl rep_zero s hs).1 with e | ⟨y, -, -, e⟩ <;> rw [e] <;> rfl

theorem tree_zeros (t : Tree) (h : ∀ a ∈ t.leaves, a = .fin 0) : t.eval A = .fin 0 := by
  induction t with
  | leaf a => exact h a (by simp [Tree.leaves])
  | node s t ihs iht =>
    rw [Tree.eval, ihs fun a ha => h a (by simp [Tree.leaves, ha]), iht fun a ha => h a (by simp [Tree.leaves, ha])]
    simp only [add, add_zero, round_zero]

theorem sum_zeros {l : List Fl} {s : Fl} (hs : IsSum A l s) (h : ∀ a ∈ l, a = .fin 0) : s = .fin 0 := by
  rcases hs with ⟨-, rfl⟩ | ⟨t, ht, rfl⟩
  · rfl
  · exact tree_zeros A t fun a ha => h a (ht.subset ha)

/-! ## C147 -/

/-- C147: the computed column is the exact one, entry by entry, for any order of the additions.  Missing: columns whose squares overflow
(`C147_overflow_false`) or underflow (`C147_underflow_false`). -/
theorem C147_accurate_partial {xs : List ℝ} (hn : xs.length ≤ 2 ^ 40) (h0 : (2 : ℝ) ^ (-900 : ℤ) ≤ (xs.map fun x => x ^ 2).sum)
    (h1 : (xs.map fun x => x ^ 2).sum ≤ (2 : ℝ) ^ (980 : ℤ)) {out : List Fl} (h : IsNormedCol A none (xs.map .fin) out) :
    ∃ ys : List ℝ, out = ys.map .fin ∧
      List.Forall₂ (fun x y => |y - x / len xs| ≤ (2 * xs.length + 7) * eps * |x / len xs| + tiny) xs ys := by
  obtain ⟨v, hv, rfl⟩ := h
  obtain ⟨w, rfl, hw⟩ := norm_near A hn h0 h1 hv
  have hn' : (xs.length : ℝ) ≤ 2 ^ 40 := by exact_mod_cast hn
  have hn0 : (0 : ℝ) ≤ xs.length := by positivity
  have he := eps_pos
  have hLp : 0 < len xs := Real.sqrt_pos.2 (lt_of_lt_of_le (by positivity) h0)
  have hsmall : (xs.length + 3) * eps ≤ 1 / 2 := by
    have := eps_small (r := 2 * (xs.length + 3)) (by linarith)
    linarith
  have hw2 : len xs / 2 ≤ w := by
    have := (abs_le.1 hw).1
    nlinarith
  have hwp : 0 < w := by linarith
  refine ⟨xs.map fun x => A.rnd (x / w), ?_, ?_⟩
  · simp only [scaleCol, isZero, hwp.ne', decide_false, Bool.false_eq_true, if_false, List.map_map]
    refine List.map_congr_left fun x hx => ?_
    have hx1 : |x| ≤ len xs := Real.le_sqrt_of_sq_le (by rw [sq_abs]; exact sum_sq_ge hx)
    simp only [Function.comp, div, hwp.ne', if_false]
    refine round_fin A ?_
    rw [abs_div, abs_of_pos hwp, div_le_iff₀ hwp]
    have : (2 : ℝ) ≤ (2 : ℝ) ^ (1000 : ℤ) := by
      have := zpow_le_zpow_right₀ (a := (2 : ℝ)) (by norm_num) (by norm_num : (1 : ℤ) ≤ 1000)
      simpa using this
    have h2 := mul_le_mul_of_nonneg_right this hwp.le
    exact (hx1.trans (by linarith : len xs ≤ 2 * w)).trans h2
  · rw [List.forall₂_map_right_iff, List.forall₂_same]
    intro x hx
    have e : A.rnd (x / w) - x / len xs = (A.rnd (x / w) - x / w) + (x / w - x / len xs) := by ring
    rw [e]
    refine (abs_add_le _ _).trans ?_
    have g1 := rnd_err A (x / w)
    have g2 : |x / w| ≤ 2 * |x / len xs| := by
      rw [abs_div, abs_div, abs_of_pos hwp, abs_of_pos hLp, div_le_iff₀ hwp]
      have : |x| = |x| / len xs * len xs := by field_simp
      have hq : 0 ≤ |x| / len xs := by positivity
      nlinarith
    have g3 : |x / w - x / len xs| ≤ (2 * (xs.length + 3)) * eps * |x / len xs| := by
      have e2 : x / w - x / len xs = x / len xs * ((len xs - w) / w) := by field_simp
      rw [e2, abs_mul, mul_comm]
      refine mul_le_mul_of_nonneg_right ?_ (abs_nonneg _)
      rw [abs_div, abs_of_pos hwp, div_le_iff₀ hwp, abs_sub_comm]
      refine hw.trans ?_
      have : (0 : ℝ) ≤ (xs.length + 3) * eps := by positivity
      nlinarith
    have g4 := mul_le_mul_of_nonneg_left g2 (by positivity : (0 : ℝ) ≤ eps / 2)
    linarith

/-- C147: a column of zeros stays a column of zeros (nothing is `nan`). -/
theorem C147_zero (n : Nat) {out : List Fl} (h : IsNormedCol A none (List.replicate n (.fin 0)) out) : out = List.replicate n (.fin 0) := by
  obtain ⟨v, ⟨s, hs, rfl⟩, rfl⟩ := h
  have hs0 : s = .fin 0 := sum_zeros A hs fun a ha => by
    simp only [List.map_replicate, mul, mul_zero, round_zero] at ha
    exact (List.mem_replicate.1 ha).2
  subst hs0
  simp [npSqrt, round_zero, scaleCol, isZero]

/-- C147: whatever the finite numbers of the column are, and for any order of the additions, the entries of the result are finite numbers of size 2 at
most. -/
theorem C147_finite (xs : List ℝ) {out : List Fl} (h : IsNormedCol A none (xs.map .fin) out) :
    out.length = xs.length ∧ ∀ a ∈ out, ∃ y, a = .fin y ∧ |y| ≤ 2 := by
  obtain ⟨v, ⟨s, hs, rfl⟩, rfl⟩ := h
  constructor
  · unfold scaleCol
    split <;> simp
  intro a ha
  unfold scaleCol at ha
  split at ha
  · simp only [List.map_map, List.mem_map] at ha
    obtain ⟨x, -, rfl⟩ := ha
    exact ⟨0, rfl, by norm_num⟩
  next hz =>
  simp only [List.map_map, List.mem_map, Function.comp] at ha
  obtain ⟨x, hx, rfl⟩ := ha
  have hs0 := (sum_above A le_rfl rep_zero hs).1
  have hv0 := sqrt_above A hs0
  -- A power of two below the length and not far below `x`.
  obtain ⟨p, hp, hxp, hvp⟩ : ∃ p : ℝ, 0 < p ∧ |x| ≤ 2 * p ∧ Above p (npSqrt A s) := by
    rcases lt_or_ge (x * x) tiny with hlt | hge
    · refine ⟨(2 : ℝ) ^ (-537 : ℤ), by positivity, ?_, ?_⟩
      · have hp : (0 : ℝ) < (2 : ℝ) ^ (-537 : ℤ) := by positivity
        have : |x| ≤ (2 : ℝ) ^ (-537 : ℤ) := by
          refine abs_le_of_sq_le_sq ?_ hp.le
          rw [sq, ← zpow_natCast, ← zpow_mul]
          refine hlt.le.trans (le_of_eq ?_)
          rw [tiny_zpow]
          norm_num
        linarith
      · refine hv0.2 _ (by positivity) (rep_pow _ (by norm_num)) ?_
        have e : ((2 : ℝ) ^ (-537 : ℤ)) ^ 2 = tiny := by
          rw [← zpow_natCast, ← zpow_mul, tiny_zpow]
          norm_num
        rw [e]
        rcases hs0 with h | ⟨y, hy, hr, rfl⟩
        · exact .inl h
        · refine .inr ⟨y, ?_, hr, rfl⟩
          by_contra hc
          push Not at hc
          have : y = 0 := rep_small_zero hr hy hc
          subst this
          exact hz (by simp [npSqrt, round_zero, isZero])
    · have hx0 : 0 < |x| := by
        rw [abs_pos]
        rintro rfl
        simp only [mul_zero] at hge
        linarith [tiny_pos]
      obtain ⟨k, hk1, hk2⟩ := exists_mem_Ico_zpow (y := (2 : ℝ)) hx0 (by norm_num)
      have hk : -537 ≤ k := by
        by_contra hc
        have h1 : |x| < (2 : ℝ) ^ (-537 : ℤ) := hk2.trans_le (zpow_le_zpow_right₀ (by norm_num) (by omega))
        have h2 : |x| * |x| < (2 : ℝ) ^ (-537 : ℤ) * (2 : ℝ) ^ (-537 : ℤ) := mul_self_lt_mul_self (abs_nonneg _) h1
        have e : (2 : ℝ) ^ (-537 : ℤ) * (2 : ℝ) ^ (-537 : ℤ) = tiny := by
          rw [tiny_zpow, ← zpow_add₀ (by norm_num)]
          congr 1
        rw [abs_mul_abs_self, e] at h2
        linarith
      have hpk : (0 : ℝ) < (2 : ℝ) ^ k := by positivity
      refine ⟨(2 : ℝ) ^ k, hpk, ?_, hv0.2 _ hpk.le (rep_pow _ (by omega)) ?_⟩
      · rw [zpow_add₀ (by norm_num), zpow_one] at hk2
        linarith
      · have e : ((2 : ℝ) ^ k) ^ 2 = (2 : ℝ) ^ (2 * k) := by
          rw [← zpow_natCast, ← zpow_mul]
          congr 1
          push_cast
          ring
        rw [e]
        refine (sum_above A (by positivity) (rep_pow _ (by omega)) hs).2 ⟨x, hx, ?_⟩
        rw [← e, ← abs_mul_abs_self x, ← sq]
        exact pow_le_pow_left₀ hpk.le hk1 2
  rcases hvp with hv | ⟨w, hw, -, hv⟩
  · rw [hv]
    exact ⟨0, rfl, by norm_num⟩
  · have hwp : 0 < w := by linarith
    rw [hv]
    simp only [div, hwp.ne', if_false]
    have hq : |x / w| ≤ 2 := by
      rw [abs_div, abs_of_pos hwp, div_le_iff₀ hwp]
      linarith
    have r2 : Rep 2 := by simpa using rep_nat 2 (by norm_num)
    have b2 : (2 : ℝ) ≤ big := by simpa using nat_le_big (n := 2) (by norm_num)
    obtain ⟨z, hz1, hz2, hz3, -⟩ := round_between A (abs_le.1 hq).1 (abs_le.1 hq).2 r2.neg r2 (by linarith) b2
    exact ⟨z, hz1, abs_le.2 ⟨hz2, hz3⟩⟩

/-- C147: the computed column has length 1 up to rounding. -/
theorem C147_length_partial {xs : List ℝ} (hn : xs.length ≤ 2 ^ 40) (h0 : (2 : ℝ) ^ (-900 : ℤ) ≤ (xs.map fun x => x ^ 2).sum)
    (h1 : (xs.map fun x => x ^ 2).sum ≤ (2 : ℝ) ^ (980 : ℤ)) {out : List Fl} (h : IsNormedCol A none (xs.map .fin) out) :
    ∃ ys : List ℝ, out = ys.map .fin ∧ |(ys.map fun y => y ^ 2).sum - 1| ≤ 4 * (2 * xs.length + 7) * eps := by
  obtain ⟨ys, hout, hys⟩ := C147_accurate_partial A hn h0 h1 h
  refine ⟨ys, hout, ?_⟩
  have hn' : (xs.length : ℝ) ≤ 2 ^ 40 := by exact_mod_cast hn
  have hn0 : (0 : ℝ) ≤ xs.length := by positivity
  have he := eps_pos
  have ht := tiny_pos
  have hSp : 0 < (xs.map fun x => x ^ 2).sum := lt_of_lt_of_le (by positivity) h0
  have hLp : 0 < len xs := Real.sqrt_pos.2 hSp
  obtain ⟨k, hk⟩ : ∃ k : ℝ, k = (2 * xs.length + 7) * eps := ⟨_, rfl⟩
  have hk0 : 0 ≤ k := by rw [hk]; positivity
  have hk1 : k ≤ 1 := by rw [hk]; exact eps_small (by linarith)
  have t1 : tiny ≤ 1 := by
    have := tiny_small
    nlinarith
  have key : ∀ l : List ℝ, (∀ x ∈ l, |x / len xs| ≤ 1) → ∀ ys, List.Forall₂ (fun x y => |y - x / len xs| ≤ (2 * xs.length + 7) * eps * |x / len xs| + tiny) l ys →
      |(ys.map fun y => y ^ 2).sum - (l.map fun x => (x / len xs) ^ 2).sum| ≤ 3 * k * (l.map fun x => (x / len xs) ^ 2).sum + l.length * (5 * tiny) := by
    intro l hl ys hys
    induction hys with
    | nil => simp
    | @cons x y l ys hxy _ ih =>
      have ih' := ih fun z hz => hl z (List.mem_cons_of_mem _ hz)
      have hx := hl x (by simp)
      rw [← hk] at hxy
      obtain ⟨X, hX⟩ : ∃ X, X = x / len xs := ⟨_, rfl⟩
      rw [← hX] at hxy hx
      have hX0 := abs_nonneg X
      have hone : |y ^ 2 - X ^ 2| ≤ 3 * k * X ^ 2 + 5 * tiny := by
        have e : y ^ 2 - X ^ 2 = (y - X) * (y - X + 2 * X) := by ring
        rw [e, abs_mul]
        have g1 : |y - X + 2 * X| ≤ 3 * |X| + tiny := by
          refine (abs_add_le _ _).trans ?_
          rw [abs_mul, abs_of_pos (by norm_num : (0 : ℝ) < 2)]
          nlinarith
        refine (mul_le_mul hxy g1 (abs_nonneg _) (by positivity)).trans ?_
        rw [← sq_abs X]
        have g2 : k * |X| ≤ 1 := by nlinarith
        nlinarith
      simp only [List.map_cons, List.sum_cons, List.length_cons]
      rw [← hX]
      have e : y ^ 2 + (ys.map fun y => y ^ 2).sum - (X ^ 2 + (l.map fun x => (x / len xs) ^ 2).sum) =
        (y ^ 2 - X ^ 2) + ((ys.map fun y => y ^ 2).sum - (l.map fun x => (x / len xs) ^ 2).sum) := by ring
      rw [e]
      refine (abs_add_le _ _).trans ?_
      push_cast
      linarith
  have hone := exact_unit hSp
  have := key xs (fun x hx => by
    rw [abs_div, abs_of_pos hLp, div_le_one hLp]
    exact Real.le_sqrt_of_sq_le (by rw [sq_abs]; exact sum_sq_ge hx)) ys hys
  rw [hone] at this
  have g := many_tiny_le (n := xs.length * 5) (W := 1) (by linarith) (by
    have := zpow_le_zpow_right₀ (a := (2 : ℝ)) (by norm_num) (by norm_num : (-900 : ℤ) ≤ 0)
    simpa using this)
  have g2 : eps ≤ k := by rw [hk]; nlinarith
  have e4 : 4 * (2 * (xs.length : ℝ) + 7) * eps = 4 * k := by rw [hk]; ring
  rw [e4]
  linarith

/-- C147 with norms of the user: the exact quotients, rounded once; zeros where the norm is zero, even if the column is not. -/
theorem C147_given {xs : List ℝ} {v : ℝ} {out : List Fl} (h : IsNormedCol A (some (.fin v)) (xs.map .fin) out) :
    (v = 0 → out = xs.map fun _ => .fin 0) ∧
    (v ≠ 0 → (∀ x ∈ xs, |x / v| ≤ (2 : ℝ) ^ (1000 : ℤ)) → ∃ ys : List ℝ, out = ys.map .fin ∧
      List.Forall₂ (fun x y => |y - x / v| ≤ eps / 2 * |x / v| + tiny) xs ys) := by
  have h' : out = scaleCol A (.fin v) (xs.map .fin) := h
  subst h'
  constructor
  · rintro rfl
    simp only [scaleCol, isZero, decide_true, if_true, List.map_map]
    rfl
  · intro hv hx
    refine ⟨xs.map fun x => A.rnd (x / v), ?_, ?_⟩
    · simp only [scaleCol, isZero, hv, decide_false, Bool.false_eq_true, if_false, List.map_map]
      refine List.map_congr_left fun x hx' => ?_
      simp only [Function.comp, div, hv, if_false]
      exact round_fin A (hx x hx')
    · rw [List.forall₂_map_right_iff, List.forall₂_same]
      exact fun x _ => rnd_err A (x / v)

/-- C147 is false if a square overflows: one entry of size 2^512 (about 1.3e154), and the whole column becomes zero without a warning of `nan`, for any
rounding and any order of the additions.  The parameter is not in the model any more. -/
theorem C147_overflow_false {xs : List ℝ} (hbig : ∃ x ∈ xs, (2 : ℝ) ^ (512 : ℤ) ≤ |x|) {out : List Fl} (h : IsNormedCol A none (xs.map .fin) out) :
    out = xs.map (fun _ => .fin 0) ∧ (xs.map fun x => (x / len xs) ^ 2).sum = 1 := by
  obtain ⟨x, hx, hx1⟩ := hbig
  have hp : (0 : ℝ) < (2 : ℝ) ^ (512 : ℤ) := by positivity
  have hx2 : (2 : ℝ) ^ (1024 : ℤ) ≤ x * x := by
    have e : (2 : ℝ) ^ (1024 : ℤ) = (2 : ℝ) ^ (512 : ℤ) * (2 : ℝ) ^ (512 : ℤ) := by
      rw [← zpow_add₀ (by norm_num)]
      congr 1
    rw [e, ← abs_mul_abs_self x]
    exact mul_self_le_mul_self hp.le hx1
  constructor
  · obtain ⟨v, ⟨s, hs, rfl⟩, rfl⟩ := h
    have hbig : big < (2 : ℝ) ^ (1024 : ℤ) := by
      have e : (2 : ℝ) ^ (1024 : ℤ) = (2 : ℝ) ^ (53 : ℕ) * (2 : ℝ) ^ (971 : ℤ) := by
        rw [← zpow_natCast, ← zpow_add₀ (by norm_num)]
        congr 1
      rw [big_eq, e]
      refine mul_lt_mul_of_pos_right ?_ (by positivity)
      norm_num
    have hinf : mul A (.fin x) (.fin x) = .pinf := by
      have hm := A.mono hx2
      rw [A.fix _ (rep_pow 1024 (by norm_num))] at hm
      simp only [mul, Arith.round, hbig.trans_le hm, if_true]
    have hmem : Fl.pinf ∈ (xs.map Fl.fin).map fun x => mul A x x := by
      simp only [List.map_map, List.mem_map, Function.comp]
      exact ⟨x, hx, hinf⟩
    have hs' : s = .pinf := by
      rcases hs with ⟨h1, -⟩ | ⟨t, ht, rfl⟩
      · rw [h1] at hmem
        simp at hmem
      · refine tree_pinf A t (fun a ha => ?_) (ht.symm.subset hmem)
        have := ht.subset ha
        simp only [List.map_map, List.mem_map, Function.comp] at this
        obtain ⟨y, -, rfl⟩ := this
        exact sq_above A y
    subst hs'
    simp only [npSqrt, scaleCol, isZero, Bool.false_eq_true, if_false, List.map_map]
    rfl
  · refine exact_unit (lt_of_lt_of_le ?_ (sum_sq_ge hx))
    rw [sq]
    exact lt_of_lt_of_le (by positivity) hx2

/-- C147 is false if all squares underflow: a column of numbers below 2^-538 (about 1.1e-162), not all zero, becomes zero. -/
theorem C147_underflow_false (hA : Nearest A) {xs : List ℝ} (hsmall : ∀ x ∈ xs, |x| ≤ (2 : ℝ) ^ (-538 : ℤ)) (hne : ∃ x ∈ xs, x ≠ 0) {out : List Fl}
    (h : IsNormedCol A none (xs.map .fin) out) :
    out = xs.map (fun _ => .fin 0) ∧ (xs.map fun x => (x / len xs) ^ 2).sum = 1 := by
  constructor
  · obtain ⟨v, ⟨s, hs, rfl⟩, rfl⟩ := h
    have hs' : s = .fin 0 := sum_zeros A hs fun a ha => by
      simp only [List.map_map, List.mem_map, Function.comp] at ha
      obtain ⟨x, hx, rfl⟩ := ha
      have h1 : x * x ≤ tiny / 4 := by
        have e : tiny / 4 = (2 : ℝ) ^ (-538 : ℤ) * (2 : ℝ) ^ (-538 : ℤ) := by
          have e2 : (2 : ℝ) ^ (-1074 : ℤ) = (2 : ℝ) ^ ((-538 : ℤ) + (-538 : ℤ) + 2) := by congr 1
          rw [tiny_zpow, e2, zpow_add₀ (by norm_num), zpow_add₀ (by norm_num)]
          norm_num
        rw [e, ← abs_mul_abs_self x]
        exact mul_self_le_mul_self (abs_nonneg _) (hsmall x hx)
      have h2 : 0 ≤ x * x := mul_self_nonneg x
      have h3 := hA (x * x) 0 rep_zero
      rw [zero_sub, abs_neg, abs_of_nonneg h2] at h3
      have h4 := A.mono h2
      rw [A.fix 0 rep_zero] at h4
      have h5 : A.rnd (x * x) = 0 := rep_small_zero (A.rep _) h4 (by linarith [(abs_le.1 h3).2, tiny_pos])
      simp only [mul, Arith.round, h5]
      have := big_nonneg
      rw [if_neg (by linarith), if_neg (by linarith)]
    subst hs'
    simp only [npSqrt, lt_irrefl, if_false, Real.sqrt_zero, round_zero, scaleCol, isZero, decide_true, if_true, List.map_map]
    rfl
  · obtain ⟨x, hx, hx0⟩ := hne
    exact exact_unit (lt_of_lt_of_le (by positivity) (sum_sq_ge hx))

/-! ## C148 -/

/-- A number that binary64 has. -/
def IsFl : Fl → Prop
  | .fin x => Rep x ∧ |x| ≤ big
  | _ => True

theorem add_zero_fl {a : Fl} (h : IsFl a) : add A a (.fin 0) = a := by
  cases a with
  | fin x => simp only [add, add_zero, round_rep A h.1 h.2]
  | _ => rfl

/-- The computed inverse of the prior. -/
theorem prior_inv : ∃ c p, tmPriorF A = .fin c ∧ div A (.fin 1) (tmPriorF A) = .fin p ∧ 0 < p ∧ p ≤ 3 * (2 : ℝ) ^ (-134 : ℤ) := by
  have b1 : (10 : ℝ) ^ 40 ≤ (2 : ℝ) ^ (133 : ℤ) := by norm_num
  have b0 : 3 * (2 : ℝ) ^ (131 : ℤ) ≤ (10 : ℝ) ^ 40 := by norm_num
  have r0 : Rep (3 * (2 : ℝ) ^ (131 : ℤ)) := by simpa using rep_zpow 3 131 (by norm_num) (by norm_num)
  obtain ⟨c, hc, hc1, hc2, hcr⟩ := round_between A b0 b1 r0 (rep_pow 133 (by norm_num)) (by
    have := big_nonneg
    have : (0 : ℝ) < 3 * (2 : ℝ) ^ (131 : ℤ) := by positivity
    linarith) (pow_le_big (by norm_num))
  have hcp : 0 < c := lt_of_lt_of_le (by positivity) hc1
  have e : tmPriorF A = .fin c := by
    simp only [tmPriorF, hc, mul, one_mul]
    exact round_rep A hcr (by rw [abs_of_pos hcp]; exact hc2.trans (pow_le_big (by norm_num)))
  have q1 : (2 : ℝ) ^ (-133 : ℤ) ≤ 1 / c := by
    rw [le_div_iff₀ hcp]
    calc (2 : ℝ) ^ (-133 : ℤ) * c ≤ (2 : ℝ) ^ (-133 : ℤ) * (2 : ℝ) ^ (133 : ℤ) := mul_le_mul_of_nonneg_left hc2 (by positivity)
      _ = 1 := by rw [← zpow_add₀ (by norm_num)]; norm_num
  have q2 : 1 / c ≤ 3 * (2 : ℝ) ^ (-134 : ℤ) := by
    rw [div_le_iff₀ hcp]
    calc (1 : ℝ) ≤ 3 * (2 : ℝ) ^ (-134 : ℤ) * (3 * (2 : ℝ) ^ (131 : ℤ)) := by norm_num
      _ ≤ _ := mul_le_mul_of_nonneg_left hc1 (by positivity)
  have r1 : Rep (3 * (2 : ℝ) ^ (-134 : ℤ)) := by simpa using rep_zpow 3 (-134) (by norm_num) (by norm_num)
  have p1 : (0 : ℝ) < (2 : ℝ) ^ (-133 : ℤ) := by positivity
  obtain ⟨p, hp, hp1, hp2, -⟩ := round_between A q1 q2 (rep_pow (-133) (by norm_num)) r1 (by linarith [big_nonneg]) (by
    refine le_trans ?_ (pow_le_big (j := 1) (by norm_num))
    norm_num)
  refine ⟨c, p, e, ?_, by linarith, hp2⟩
  rw [e]
  simp only [div, hcp.ne', if_false, hp]

theorem lost {d p : ℝ} (hA : Nearest A) (hd : Rep d) (h : (2 : ℝ) ^ (-78 : ℤ) ≤ d) (hp : 0 < p) (hp' : p ≤ 3 * (2 : ℝ) ^ (-134 : ℤ)) : A.rnd (d + p) = d := by
  have h1 := hA (d + p) d hd
  have e : d - (d + p) = -p := by ring
  rw [e, abs_neg, abs_of_pos hp] at h1
  have h2 := A.mono (by linarith : d ≤ d + p)
  rw [A.fix d hd] at h2
  have hd0 : 0 < d := lt_of_lt_of_le (by positivity) h
  have hj : ∀ y, d ≤ y → (2 : ℝ) ^ 53 * (2 : ℝ) ^ (-132 : ℤ) < |y| := by
    intro y hy
    rw [abs_of_pos (by linarith)]
    refine lt_of_lt_of_le ?_ (h.trans hy)
    norm_num
  obtain ⟨a, ha⟩ := rep_spacing hd (hj d le_rfl)
  obtain ⟨b, hb⟩ := rep_spacing (A.rep (d + p)) (hj _ h2)
  have e131 : (-132 : ℤ) + 1 = -131 := by norm_num
  rw [e131] at ha hb
  have hq : (0 : ℝ) < (2 : ℝ) ^ (-131 : ℤ) := by positivity
  have h3 : A.rnd (d + p) ≤ d + 2 * p := by linarith [(abs_le.1 h1).2]
  have e134 : (2 : ℝ) ^ (-131 : ℤ) = 8 * (2 : ℝ) ^ (-134 : ℤ) := by
    have : (2 : ℝ) ^ (-131 : ℤ) = (2 : ℝ) ^ ((3 : ℤ) + (-134 : ℤ)) := by congr 1
    rw [this, zpow_add₀ (by norm_num)]
    norm_num
  have h4 : ((b - a : ℤ) : ℝ) * (2 : ℝ) ^ (-131 : ℤ) < 1 * (2 : ℝ) ^ (-131 : ℤ) := by
    push_cast
    rw [sub_mul, ← ha, ← hb]
    linarith
  have h5 : ((b - a : ℤ) : ℝ) < 1 := lt_of_mul_lt_mul_right h4 hq.le
  have h6 : 0 * (2 : ℝ) ^ (-131 : ℤ) ≤ ((b - a : ℤ) : ℝ) * (2 : ℝ) ^ (-131 : ℤ) := by
    push_cast
    rw [sub_mul, ← ha, ← hb]
    linarith
  have h7 : (0 : ℝ) ≤ ((b - a : ℤ) : ℝ) := le_of_mul_le_mul_right h6 hq
  have h8 : b - a < 1 := by exact_mod_cast h5
  have h9 : 0 ≤ b - a := by exact_mod_cast h7
  have : b = a := by omega
  rw [hb, ha, this]

/-- C148: where the numbers on the diagonal of `TNT` are not below 2^-78 (about 3e-24), adding the inverse of the prior of the timing model does not change a bit of
it: `Sigma` is the matrix of a timing model without a prior. -/
theorem C148_lost (hA : Nearest A) (tnt : Nat → Nat → Fl) (hf : ∀ i j, IsFl (tnt i j)) (hd : ∀ i, ∃ d, tnt i i = .fin d ∧ (2 : ℝ) ^ (-78 : ℤ) ≤ d) :
    sigmaF A tnt (fun _ => div A (.fin 1) (tmPriorF A)) = tnt := by
  obtain ⟨c, p, -, hp, hp0, hp1⟩ := prior_inv A
  funext i j
  unfold sigmaF
  split
  · next h =>
    subst h
    obtain ⟨d, hd1, hd2⟩ := hd i
    have hfi := hf i i
    rw [hd1] at hfi ⊢
    rw [hp]
    have e := lost A hA hfi.1 hd2 hp0 hp1
    simp only [add, Arith.round, e]
    obtain ⟨b1, b2⟩ := abs_le.1 hfi.2
    rw [if_neg (by linarith), if_neg (by linarith)]
  · exact add_zero_fl A (hf i j)

theorem dot_tree_quarters (t : DotTree) (h : ∀ a ∈ t.leaves, a = (.fin (1 / 2), .fin (1 / 2))) (hn : t.leaves.length ≤ 2 ^ 50) :
    t.eval A = .fin ((t.leaves.length : ℝ) / 4) := by
  have r : ∀ n : ℕ, n ≤ 2 ^ 50 → A.round ((n : ℝ) / 4) = .fin ((n : ℝ) / 4) := fun n hn => by
    have e : (n : ℝ) / 4 = ((n : ℤ) : ℝ) * (2 : ℝ) ^ (-2 : ℤ) := by
      rw [zpow_neg]
      norm_num
      ring
    have hn' : (n : ℝ) ≤ 2 ^ 50 := by exact_mod_cast hn
    refine round_rep A ?_ ?_
    · rw [e]
      refine rep_zpow _ _ ?_ (by norm_num)
      rw [abs_of_nonneg (by positivity)]
      have : (n : ℤ) ≤ 2 ^ 50 := by exact_mod_cast hn
      linarith
    · rw [abs_of_nonneg (by positivity)]
      have := nat_le_big (n := 2 ^ 50) (by norm_num)
      push_cast at this
      linarith
  induction t with
  | prod x y =>
    have := h (x, y) (by simp [DotTree.leaves])
    rw [Prod.mk.injEq] at this
    rw [this.1, this.2]
    have r1 := r 1 (by norm_num)
    have e : (1 / 2 : ℝ) * (1 / 2) = 1 / 4 := by norm_num
    simp only [DotTree.eval, DotTree.leaves, mul, e, List.length_singleton]
    simpa only [Nat.cast_one] using r1
  | fma t x y ih =>
    have hxy := h (x, y) (by simp [DotTree.leaves])
    rw [Prod.mk.injEq] at hxy
    simp only [DotTree.leaves, List.length_append, List.length_singleton] at hn ⊢
    rw [DotTree.eval, ih (fun a ha => h a (by simp [DotTree.leaves, ha])) (by omega), hxy.1, hxy.2]
    have e : ((t.leaves.length : ℝ)) / 4 + 1 / 2 * (1 / 2) = ((t.leaves.length + 1 : ℕ) : ℝ) / 4 := by
      push_cast
      ring
    simp only [addMul, if_true, e, r _ hn]
  | node s t ihs iht =>
    simp only [DotTree.leaves, List.length_append] at hn ⊢
    rw [DotTree.eval, ihs (fun a ha => h a (by simp [DotTree.leaves, ha])) (by omega), iht (fun a ha => h a (by simp [DotTree.leaves, ha])) (by omega)]
    have e : ((s.leaves.length : ℝ)) / 4 + (t.leaves.length : ℝ) / 4 = ((s.leaves.length + t.leaves.length : ℕ) : ℝ) / 4 := by
      push_cast
      ring
    simp only [add, e, r _ hn]

theorem minus_nil {x : ℝ} {v : Fl} (h : IsMinus A (.fin x) [] v) (hx : Rep x) (hb : |x| ≤ big) : v = .fin x := by
  rcases h with ⟨h, -⟩ | ⟨t, ht, rfl⟩
  · cases h
  · have hl := List.perm_singleton.1 ht
    cases t with
    | prod a b =>
      simp only [DotTree.leaves, List.cons.injEq, and_true, Prod.mk.injEq] at hl
      rw [DotTree.eval, hl.1, hl.2]
      simp only [mul, mul_one, round_rep A hx hb]
    | fma t a b =>
      have := congrArg List.length hl
      have h1 := dot_leaves_pos t
      simp only [DotTree.leaves, List.length_append, List.length_cons, List.length_nil, List.map_nil] at this
      omega
    | node s t =>
      have := congrArg List.length hl
      have h1 := dot_leaves_pos s
      have h2 := dot_leaves_pos t
      simp only [DotTree.leaves, List.length_append, List.length_cons, List.length_nil, List.map_nil] at this
      omega

/-- One minus one. -/
theorem minus_one {v : Fl} (h : IsMinus A (.fin 1) [(.fin 1, .fin 1)] v) : v = .fin 0 := by
  have b1 : |(1 : ℝ)| ≤ big := by simpa using nat_le_big (n := 1) (by norm_num)
  have key : ∀ t : DotTree, ∀ s : List ℝ, List.Forall₂ (fun (p : Fl × Fl) (z : ℝ) => ∃ x y, p = (.fin x, .fin y) ∧ x * y = z) t.leaves s → (s = [1] ∨ s = [-1] ∨ s = [1, -1] ∨ s = [-1, 1]) →
      t.eval A = .fin s.sum := by
    have r : ∀ x : ℝ, x = 1 ∨ x = -1 ∨ x = 0 → A.round x = .fin x := by
      intro x hx
      rcases hx with rfl | rfl | rfl
      · exact round_rep A rep_one b1
      · exact round_rep A rep_one.neg (by rwa [abs_neg])
      · exact round_zero A
    intro t
    induction t with
    | prod a b =>
      intro s hs h
      cases hs with
      | cons h1 h2 =>
        cases h2
        obtain ⟨x, y, e, rfl⟩ := h1
        cases e
        simp only [DotTree.eval, mul, List.sum_singleton]
        refine r _ ?_
        rcases h with h | h | h | h <;> simp at h
        · exact .inl h
        · exact .inr (.inl h)
    | fma t a b ih =>
      intro s hs h
      obtain ⟨u, w, rfl, hu, hw⟩ := forall₂_split hs
      have lu : 1 ≤ u.length := by rw [← hu.length_eq]; exact dot_leaves_pos t
      cases hw with
      | cons h1 h2 =>
        cases h2
        obtain ⟨x, y, e, hxy⟩ := h1
        cases e
        rcases u with _ | ⟨c, _ | ⟨c', u⟩⟩
        · simp at lu
        · rw [DotTree.eval, ih [c] hu (by simp at h; rcases h with h | h <;> simp [h.1])]
          simp only [addMul, if_true, hxy, List.sum_append, List.sum_singleton]
          refine r _ ?_
          simp at h
          rcases h with h | h <;> simp [h.1, h.2]
        · simp at h
    | node s' t ihs iht =>
      intro s hs h
      obtain ⟨u, w, rfl, hu, hw⟩ := forall₂_split hs
      have lu : 1 ≤ u.length := by rw [← hu.length_eq]; exact dot_leaves_pos s'
      have lw : 1 ≤ w.length := by rw [← hw.length_eq]; exact dot_leaves_pos t
      rcases u with _ | ⟨c, _ | ⟨c', u⟩⟩
      · simp at lu
      · rcases w with _ | ⟨d, _ | ⟨d', w⟩⟩
        · simp at lw
        · simp at h
          rw [DotTree.eval, ihs [c] hu (by rcases h with h | h <;> simp [h.1]), iht [d] hw (by rcases h with h | h <;> simp [h.2])]
          simp only [add, List.sum_append, List.sum_singleton]
          refine r _ ?_
          rcases h with h | h <;> simp [h.1, h.2]
        · simp at h
      · rcases w with _ | ⟨d, w⟩
        · simp at lw
        · simp at h
  rcases h with ⟨h, -⟩ | ⟨t, ht, rfl⟩
  · cases h
  · have hf : List.Forall₂ (fun (p : Fl × Fl) (z : ℝ) => ∃ x y, p = (.fin x, .fin y) ∧ x * y = z) ((.fin 1, .fin 1) :: [(Fl.fin 1, Fl.fin 1)].map fun p => (neg p.1, p.2)) [1, -1] :=
      .cons ⟨1, 1, rfl, by norm_num⟩ (.cons ⟨-1, 1, rfl, by norm_num⟩ .nil)
    obtain ⟨u, hu, hp⟩ := List.perm_comp_forall₂ ht hf
    have hu2 : u = [1, -1] ∨ u = [-1, 1] := by
      have hl := hp.length_eq
      rcases u with _ | ⟨a, _ | ⟨b, _ | ⟨c, u⟩⟩⟩
      · simp at hl
      · simp at hl
      · have ha : a ∈ ([1, -1] : List ℝ) := hp.subset (by simp)
        rcases List.mem_pair.1 ha with rfl | rfl
        · left
          have := List.perm_singleton.1 ((List.perm_cons 1).1 hp)
          rw [this]
        · right
          have := List.perm_singleton.1 ((List.perm_cons (-1)).1 (hp.trans (List.Perm.swap _ _ _)))
          rw [this]
      · simp at hl
    rw [key t u hu (by rcases hu2 with h | h <;> simp [h])]
    rcases hu2 with h | h <;> simp [h]

/-- C148 is false for columns that are the same: four TOAs of variance 1 and a column that occurs twice, normalised (as by `normed_tm_basis`, see the example).  The exact `Sigma` is
positive definite thanks to the prior, so that the exact likelihood is finite.  The computed one is singular and the likelihood is `-inf`, whatever the order of
the operations. -/
theorem C148_degenerate_false (hA : Nearest A) {L : Lib} {ll ldphi : Fl} {tnr : Nat → Fl} {tnt : Nat → Nat → Fl}
    (h : IsTNT A (fun _ => List.replicate 4 (.fin (1 / 2))) (List.replicate 4 (.fin 1)) tnt) {ps : List Gp} {r : Except PyErr Fl}
    (hr : IsGpLoop A L ll (⟨2, tnr, sigmaF A tnt fun _ => div A (.fin 1) (tmPriorF A), ldphi⟩ :: ps) r) :
    r = .ok .ninf ∧
    (let T : Matrix (Fin 4) (Fin 2) ℝ := Matrix.of fun _ _ => 1 / 2
     (T.transpose * T + (1 / 10 ^ 40 : ℝ) • (1 : Matrix (Fin 2) (Fin 2) ℝ)).PosDef) := by
  constructor
  · have r1 : A.round 1 = .fin 1 := round_rep A rep_one (by simpa using nat_le_big (n := 1) (by norm_num))
    have rh : A.round (1 / 2) = .fin (1 / 2) := round_rep A (by
      have := rep_pow (-1) (by norm_num)
      simpa [zpow_neg_one] using this) (by
      rw [abs_of_pos (by norm_num)]
      exact le_trans (by norm_num) (by simpa using nat_le_big (n := 1) (by norm_num) : (1 : ℝ) ≤ big))
    have ht : ∀ i j, tnt i j = .fin 1 := by
      intro i j
      have hz : ((List.replicate 4 (Fl.fin (1 / 2))).zip (List.zipWith (div A) (List.replicate 4 (Fl.fin (1 / 2))) (List.replicate 4 (Fl.fin 1)))) =
          List.replicate 4 (Fl.fin (1 / 2), Fl.fin (1 / 2)) := by
        have e : div A (.fin (1 / 2)) (.fin 1) = .fin (1 / 2) := by
          simp only [div, one_ne_zero, if_false, div_one, rh]
        simp only [List.replicate, List.zipWith, List.zip, e]
      rcases h i j with ⟨h1, -⟩ | ⟨t, h1, h2⟩
      · rw [hz] at h1
        simp at h1
      · rw [hz] at h1
        have hl : t.leaves.length = 4 := by rw [h1.length_eq, List.length_replicate]
        rw [← h2, dot_tree_quarters A t (fun a ha => (List.mem_replicate.1 (h1.subset ha)).2) (by omega), hl]
        norm_num
    rw [C148_lost A hA tnt (fun i j => by
      rw [ht]
      exact ⟨rep_one, by simpa using nat_le_big (n := 1) (by norm_num)⟩) (fun i => ⟨1, ht i i, by
      have := zpow_le_zpow_right₀ (a := (2 : ℝ)) (by norm_num) (by norm_num : (-78 : ℤ) ≤ 0)
      simpa using this⟩)] at hr
    have e1 : npSqrt A (.fin 1) = .fin 1 := by
      simp only [npSqrt, Real.sqrt_one, r1]
      norm_num
    have e2 : div A (.fin 1) (.fin 1) = .fin 1 := by simp [div, r1]
    have e3 : mul A (.fin 1) (.fin 1) = .fin 1 := by simp [mul, r1]
    -- The factorization cannot succeed.
    have hno : ∀ F, ¬ IsFactor A 2 tnt F := by
      intro F hF
      obtain ⟨-, v0, hv0, -, hF0⟩ := hF 0 (by norm_num)
      have h0 : v0 = .fin 1 := minus_nil A (by unfold IsPivot at hv0; rw [ht] at hv0; exact hv0) rep_one (by simpa using nat_le_big (n := 1) (by norm_num))
      rw [h0, e1] at hF0
      obtain ⟨hrow, v1, hv1, hlt, -⟩ := hF 1 (by norm_num)
      obtain ⟨w, hw, hq⟩ := hrow 0 (by norm_num)
      have hw1 : w = .fin 1 := minus_nil A (by rw [ht] at hw; exact hw) rep_one (by simpa using nat_le_big (n := 1) (by norm_num))
      have hF1 : F 1 0 = .fin 1 := by
        rw [hw1, hF0] at hq
        rcases hq with hq | hq <;> rw [hq]
        · exact e2
        · rw [e2, e3]
      unfold IsPivot at hv1
      rw [ht] at hv1
      simp only [List.range_succ, List.range_zero, List.nil_append, List.map_cons, List.map_nil, hF1] at hv1
      rw [minus_one A hv1] at hlt
      simp [lt] at hlt
    rcases hr with ⟨hf, -⟩ | ⟨-, ⟨-, hr⟩ | ⟨F, hF, -⟩⟩
    · exact absurd (fun i _ j _ => by simp only [ht, Fl.Finite]) hf
    · exact hr
    · exact absurd hF (hno F)
  · intro T
    refine Matrix.PosDef.posSemidef_add ?_ (Matrix.PosDef.one.smul (by positivity))
    simpa [Matrix.conjTranspose_eq_transpose_of_trivial] using Matrix.posSemidef_conjTranspose_mul_self T

/-! ## Examples -/

/-- Four TOAs and the offset: the hypotheses are met, the column becomes one half everywhere, exactly. -/
example : IsNormedCol A none ([1, 1, 1, 1].map .fin) ([1 / 2, 1 / 2, 1 / 2, 1 / 2].map .fin) ∧
    (2 : ℝ) ^ (-900 : ℤ) ≤ (([1, 1, 1, 1] : List ℝ).map fun x => x ^ 2).sum ∧ (([1, 1, 1, 1] : List ℝ).map fun x => x ^ 2).sum ≤ (2 : ℝ) ^ (980 : ℤ) := by
  have r : ∀ n : ℕ, n ≤ 4 → A.round (n : ℝ) = .fin n := fun n hn =>
    round_rep A (rep_nat n (by omega)) (by rw [abs_of_nonneg (by positivity)]; exact nat_le_big (by omega))
  have r1 : A.round 1 = .fin 1 := by simpa using r 1 (by norm_num)
  have r2 : A.round 2 = .fin 2 := by simpa using r 2 (by norm_num)
  have r4 : A.round 4 = .fin 4 := by simpa using r 4 (by norm_num)
  have s4 : Real.sqrt 4 = 2 := by
    rw [show (4 : ℝ) = 2 ^ 2 by norm_num]
    exact Real.sqrt_sq (by norm_num)
  have rh : A.round (1 / 2) = .fin (1 / 2) := round_rep A (by
      have := rep_pow (-1) (by norm_num)
      simpa [zpow_neg_one] using this) (by
      rw [abs_of_pos (by norm_num)]
      exact le_trans (by norm_num) (by simpa using nat_le_big (n := 1) (by norm_num) : (1 : ℝ) ≤ big))
  refine ⟨⟨.fin 2, ⟨.fin 4, .inr ⟨.node (.node (.leaf (.fin 1)) (.leaf (.fin 1))) (.node (.leaf (.fin 1)) (.leaf (.fin 1))), ?_, ?_⟩, ?_⟩, ?_⟩, ?_, ?_⟩
  · simp [Tree.leaves, mul, r1]
  · have e11 : (1 : ℝ) + 1 = 2 := by norm_num
    have e22 : (2 : ℝ) + 2 = 4 := by norm_num
    simp [Tree.eval, add, e11, e22, r2, r4]
  · simp [npSqrt, s4, r2]
  · simp only [scaleCol, isZero, div, List.map_cons, List.map_nil]
    norm_num
    simpa using rh.symm
  · have := zpow_le_zpow_right₀ (a := (2 : ℝ)) (by norm_num) (by norm_num : (-900 : ℤ) ≤ 0)
    refine this.trans ?_
    norm_num
  · have := zpow_le_zpow_right₀ (a := (2 : ℝ)) (by norm_num) (by norm_num : (2 : ℤ) ≤ 980)
    refine le_trans ?_ this
    norm_num

/-- A column with a huge entry, and one of small entries (`C147_overflow_false`, `C147_underflow_false`, with `near_nearest`). -/
example : (∃ x ∈ ([1, (2 : ℝ) ^ (600 : ℤ)] : List ℝ), (2 : ℝ) ^ (512 : ℤ) ≤ |x|) ∧ Nearest near ∧
    (∀ x ∈ ([(2 : ℝ) ^ (-538 : ℤ), 0] : List ℝ), |x| ≤ (2 : ℝ) ^ (-538 : ℤ)) ∧ ∃ x ∈ ([(2 : ℝ) ^ (-538 : ℤ), 0] : List ℝ), x ≠ 0 := by
  refine ⟨⟨(2 : ℝ) ^ (600 : ℤ), by simp, ?_⟩, near_nearest, fun x hx => ?_, (2 : ℝ) ^ (-538 : ℤ), by simp, by positivity⟩
  · rw [abs_of_pos (by positivity)]
    exact zpow_le_zpow_right₀ (by norm_num) (by norm_num)
  · rcases List.mem_pair.1 hx with rfl | rfl
    · rw [abs_of_pos (by positivity)]
    · rw [abs_zero]
      positivity

/-- Two columns with 1 and 1/4 on the diagonal of `TNT` (`C148_lost`). -/
example : let tnt : Nat → Nat → Fl := fun i j => .fin (if i = j then (if i = 0 then 1 else (2 : ℝ) ^ (-2 : ℤ)) else 0)
    (∀ i j, IsFl (tnt i j)) ∧ ∀ i, ∃ d, tnt i i = .fin d ∧ (2 : ℝ) ^ (-78 : ℤ) ≤ d := by
  have b0 : (1 : ℝ) ≤ big := by simpa using nat_le_big (n := 1) (by norm_num)
  have h2 : (2 : ℝ) ^ (-2 : ℤ) ≤ 1 := by norm_num
  refine ⟨fun i j => ?_, fun i => ⟨_, rfl, ?_⟩⟩
  · simp only [IsFl]
    split
    · split
      · exact ⟨rep_one, by simpa using b0⟩
      · exact ⟨rep_pow _ (by norm_num), by rw [abs_of_pos (by positivity)]; linarith⟩
    · exact ⟨rep_zero, by simpa using big_nonneg⟩
  · simp only [if_true]
    split
    · have := zpow_le_zpow_right₀ (a := (2 : ℝ)) (by norm_num) (by norm_num : (-78 : ℤ) ≤ 0)
      simpa using this
    · exact zpow_le_zpow_right₀ (by norm_num) (by norm_num)

/-- The value of `TNT` in `C148_degenerate_false` exists: sums from the left. -/
example : ∃ tnt, IsTNT A (fun _ => List.replicate 4 (.fin (1 / 2))) (List.replicate 4 (.fin 1)) tnt := by
  have rh : A.round (1 / 2) = .fin (1 / 2) := round_rep A (by
    have := rep_pow (-1) (by norm_num)
    simpa [zpow_neg_one] using this) (by
    rw [abs_of_pos (by norm_num)]
    exact le_trans (by norm_num) (by simpa using nat_le_big (n := 1) (by norm_num) : (1 : ℝ) ≤ big))
  have e : div A (.fin (1 / 2)) (.fin 1) = .fin (1 / 2) := by simp only [div, one_ne_zero, if_false, div_one, rh]
  let t : DotTree := .fma (.fma (.fma (.prod (.fin (1 / 2)) (.fin (1 / 2))) (.fin (1 / 2)) (.fin (1 / 2))) (.fin (1 / 2)) (.fin (1 / 2))) (.fin (1 / 2)) (.fin (1 / 2))
  refine ⟨fun _ _ => t.eval A, fun i j => .inr ⟨t, ?_, rfl⟩⟩
  simp only [List.replicate, List.zipWith, List.zip, e]
  exact .refl _

end Verif.Ieee
