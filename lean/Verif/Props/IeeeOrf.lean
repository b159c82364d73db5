import Verif.Model.IeeeOrf
import Verif.Props.IeeeWhite
import Verif.Props.IeeeToas
import Verif.Props.Orf

/-!
# Overlap reduction functions in floating-point arithmetic

C145: accurate and symmetric, but NaN for positions that differ by less than about 1e-8.
-/

namespace Verif.Ieee

open Verif Verif.Orf

/-- A position as computed: `p` is the unit vector `P` with errors of at most `2 ** -52` in each coordinate. -/
structure Computed (P : Pos) (p : Fin 3 → ℝ) : Prop where
  unit : IsUnit3 P
  near : ∀ c, |p c - P c| ≤ (2 : ℝ) ^ (-52 : ℤ)

/-- Coordinates as numbers of numpy. -/
def fl (p : Fin 3 → ℝ) : Fin 3 → Fl := fun c => .fin (p c)

theorem feq_fin (x y : ℝ) : feq (.fin x) (.fin y) = true ↔ x = y := by
  simp only [feq, le, Bool.and_eq_true, decide_eq_true_eq]
  exact ⟨fun h => le_antisymm h.1 h.2, fun h => ⟨h.le, h.ge⟩⟩

theorem allEq_fl (p q : Fin 3 → ℝ) : allEq (fl p) (fl q) = true ↔ p = q := by
  simp only [allEq, Bool.and_eq_true, fl, feq_fin]
  constructor
  · rintro ⟨⟨h0, h1⟩, h2⟩
    funext c
    fin_cases c <;> assumption
  · rintro rfl
    exact ⟨⟨rfl, rfl⟩, rfl⟩

theorem half_eps : (2 : ℝ) ^ (-52 : ℤ) = eps / 2 := by
  unfold eps
  rw [show (-51 : ℤ) = -52 + 1 from rfl, zpow_add₀ (by norm_num)]
  norm_num

theorem tiny_le_eps : 1000 * tiny ≤ eps := by
  unfold tiny eps
  have h : (1000 : ℝ) ≤ (2 : ℝ) ^ (1023 : ℤ) := by
    have : (2 : ℝ) ^ (10 : ℤ) ≤ (2 : ℝ) ^ (1023 : ℤ) := zpow_le_zpow_right₀ (by norm_num) (by norm_num)
    have e : (1000 : ℝ) ≤ (2 : ℝ) ^ (10 : ℤ) := by norm_num
    exact e.trans this
  rw [show (-51 : ℤ) = 1023 + -1074 from rfl, zpow_add₀ (by norm_num)]
  exact mul_le_mul_of_nonneg_right h (by positivity)

theorem eps_tiny : 1000000000000000 * eps ≤ 1 := by
  unfold eps
  norm_num

/-- Rounding numbers up to four. -/
theorem near_round (A : Arith) {k x X : ℝ} (h : |x - X| ≤ k * eps) (hX : |X| ≤ 4) (hk : k ≤ 100000) :
    ∃ z, A.round x = .fin z ∧ A.rnd x = z ∧ |z - X| ≤ (k + 3) * eps := by
  have he := eps_pos
  have hs := eps_tiny
  have ht := tiny_le_eps
  have htp := tiny_pos
  have hx : |x| ≤ 5 := by
    have h1 := abs_add_le (x - X) X
    rw [sub_add_cancel] at h1
    nlinarith
  refine ⟨A.rnd x, round_fin A (hx.trans ?_), rfl, ?_⟩
  · have h3 : (2 : ℝ) ^ (3 : ℤ) ≤ (2 : ℝ) ^ (1000 : ℤ) := zpow_le_zpow_right₀ (by norm_num) (by norm_num)
    have e3 : (5 : ℝ) ≤ (2 : ℝ) ^ (3 : ℤ) := by norm_num
    exact e3.trans h3
  · have h1 := rnd_err A x
    have h2 := abs_add_le (A.rnd x - x) (x - X)
    rw [sub_add_sub_cancel] at h2
    nlinarith

theorem Computed.le {P : Pos} {p : Fin 3 → ℝ} (h : Computed P p) (c : Fin 3) : |P c| ≤ 1 := by
  have h1 : P 0 * P 0 + P 1 * P 1 + P 2 * P 2 = 1 := by
    have := h.unit
    rwa [IsUnit3, dot, Fin.sum_univ_three] at this
  rw [abs_le]
  fin_cases c <;> simp <;> constructor <;> nlinarith [mul_self_nonneg (P 0), mul_self_nonneg (P 1), mul_self_nonneg (P 2)]

theorem factor_near {P Q : Pos} {p q : Fin 3 → ℝ} (hP : Computed P p) (hQ : Computed Q q) (c : Fin 3) : |p c * q c - P c * Q c| ≤ 3 / 2 * eps := by
  have he := eps_pos
  have hs := eps_tiny
  have h1 := hP.near c
  have h2 := hQ.near c
  rw [half_eps] at h1 h2
  have h3 := hP.le c
  have h4 := hQ.le c
  have e : p c * q c - P c * Q c = (p c - P c) * (q c - Q c) + P c * (q c - Q c) + (p c - P c) * Q c := by ring
  rw [e]
  have a1 : |(p c - P c) * (q c - Q c)| ≤ eps / 2 := by
    rw [abs_mul]
    nlinarith [abs_nonneg (p c - P c), abs_nonneg (q c - Q c)]
  have a2 : |P c * (q c - Q c)| ≤ eps / 2 := by
    rw [abs_mul]
    nlinarith [abs_nonneg (P c), abs_nonneg (q c - Q c)]
  have a3 : |(p c - P c) * Q c| ≤ eps / 2 := by
    rw [abs_mul]
    nlinarith [abs_nonneg (Q c), abs_nonneg (p c - P c)]
  have b1 := abs_add_le ((p c - P c) * (q c - Q c) + P c * (q c - Q c)) ((p c - P c) * Q c)
  have b2 := abs_add_le ((p c - P c) * (q c - Q c)) (P c * (q c - Q c))
  linarith

theorem eval_rep (A : Arith) {l : List (Fl × Fl)} {z : ℝ} (h : IsDot A l (.fin z)) (hl : ∀ a ∈ l, ∃ x y, a = (.fin x, .fin y)) : Rep z := by
  have hr : ∀ x z, A.round x = .fin z → Rep z := by
    intro x z h
    unfold Arith.round at h
    split at h
    · cases h
    · split at h
      · cases h
      · cases h
        exact A.rep x
  have ha : ∀ a b z, add A a b = .fin z → Rep z := by
    intro a b z h
    cases a <;> cases b <;> simp [add] at h
    exact hr _ _ h
  rcases h with ⟨-, h⟩ | ⟨t, ht, h⟩
  · cases h
    exact rep_zero
  · cases t with
    | prod x y =>
      obtain ⟨u, v, e⟩ := hl (x, y) (ht.subset (by simp [DotTree.leaves]))
      cases e
      exact hr _ _ h
    | fma t x y =>
      simp only [DotTree.eval] at h
      unfold addMul at h
      split at h
      · simp only [if_true] at h
        exact hr _ _ h
      · exact ha _ _ _ h
    | node s t => exact ha _ _ _ h

/-- The scalar product of two positions. -/
theorem dot_near (A : Arith) {P Q : Pos} {p q : Fin 3 → ℝ} (hP : Computed P p) (hQ : Computed Q q) {d : Fl} (hd : IsDot A (factors (fl p) (fl q)) d) :
    ∃ z, d = .fin z ∧ Rep z ∧ |z - dot P Q| ≤ 12 * eps := by
  have he := eps_pos
  have hs := eps_tiny
  have ht := tiny_le_eps
  have htp := tiny_pos
  have n0 := factor_near hP hQ 0
  have n1 := factor_near hP hQ 1
  have n2 := factor_near hP hQ 2
  have hC : |P 0 * Q 0| + |P 1 * Q 1| + |P 2 * Q 2| ≤ 1 := by
    have h1 := hP.unit
    have h2 := hQ.unit
    simp only [IsUnit3, dot, Fin.sum_univ_three] at h1 h2
    rw [abs_mul, abs_mul, abs_mul]
    nlinarith [sq_nonneg (|P 0| - |Q 0|), sq_nonneg (|P 1| - |Q 1|), sq_nonneg (|P 2| - |Q 2|), sq_abs (P 0), sq_abs (P 1), sq_abs (P 2), sq_abs (Q 0),
      sq_abs (Q 1), sq_abs (Q 2)]
  have sz : ∀ c, |p c * q c| ≤ |P c * Q c| + 3 / 2 * eps := by
    intro c
    have h1 := abs_add_le (p c * q c - P c * Q c) (P c * Q c)
    rw [sub_add_cancel] at h1
    linarith [factor_near hP hQ c]
  have s0 := sz 0
  have s1 := sz 1
  have s2 := sz 2
  have tm : ∀ c, Times 0 0 (.fin (p c), .fin (q c)) (p c * q c, |p c * q c|) := fun c => ⟨p c, q c, rfl, ⟨by simp, le_refl _⟩⟩
  have hw : (total [(p 0 * q 0, |p 0 * q 0|), (p 1 * q 1, |p 1 * q 1|), (p 2 * q 2, |p 2 * q 2|)]).2 ≤ 2 := by
    simp only [total, List.map_cons, List.map_nil, List.sum_cons, List.sum_nil]
    linarith
  have h2 : (2 : ℝ) ≤ (2 : ℝ) ^ (990 : ℤ) := by
    have := zpow_le_zpow_right₀ (a := (2 : ℝ)) (by norm_num) (show (1 : ℤ) ≤ 990 by norm_num)
    simpa using this
  obtain ⟨z, rfl, hz, -⟩ := dot_acc A le_rfl le_rfl (l := factors (fl p) (fl q)) (s := [(p 0 * q 0, |p 0 * q 0|), (p 1 * q 1, |p 1 * q 1|), (p 2 * q 2, |p 2 * q 2|)])
    (.cons (tm 0) (.cons (tm 1) (.cons (tm 2) .nil))) (by norm_num) (by norm_num) (hw.trans h2) hd
  refine ⟨z, rfl, eval_rep A hd (by
    intro a ha
    simp only [factors, List.mem_cons, List.not_mem_nil, or_false] at ha
    rcases ha with rfl | rfl | rfl <;> exact ⟨_, _, rfl⟩), ?_⟩
  simp only [total, List.map_cons, List.map_nil, List.sum_cons, List.sum_nil, List.length_cons, List.length_nil] at hz hw
  have e : z - dot P Q = (z - (p 0 * q 0 + (p 1 * q 1 + (p 2 * q 2 + 0)))) + ((p 0 * q 0 - P 0 * Q 0) + (p 1 * q 1 - P 1 * Q 1) + (p 2 * q 2 - P 2 * Q 2)) := by
    rw [dot, Fin.sum_univ_three]
    ring
  rw [e]
  have b1 := abs_add_le (z - (p 0 * q 0 + (p 1 * q 1 + (p 2 * q 2 + 0)))) ((p 0 * q 0 - P 0 * Q 0) + (p 1 * q 1 - P 1 * Q 1) + (p 2 * q 2 - P 2 * Q 2))
  have b2 := abs_add_three (p 0 * q 0 - P 0 * Q 0) (p 1 * q 1 - P 1 * Q 1) (p 2 * q 2 - P 2 * Q 2)
  push_cast at hz
  nlinarith

theorem dot_abs_le {P Q : Pos} (hP : IsUnit3 P) (hQ : IsUnit3 Q) : |dot P Q| ≤ 1 := Sphere.dot_le hP hQ

/-- There is a gap below one. -/
theorem gap_one {y : ℝ} (h : Rep y) (h1 : y < 1) : y ≤ 1 - (2 : ℝ) ^ (-53 : ℤ) := by
  have hp : (2 : ℝ) ^ (-53 : ℤ) ≤ 1 / 2 := by norm_num
  by_cases h2 : y ≤ 1 / 2
  · generalize (2 : ℝ) ^ (-53 : ℤ) = g at *
    linarith
  · push Not at h2
    obtain ⟨m, hm⟩ := rep_spacing h (j := -54) (by
      rw [abs_of_pos (by linarith)]
      have : (2 : ℝ) ^ 53 * (2 : ℝ) ^ (-54 : ℤ) = 1 / 2 := by norm_num
      rwa [this])
    have e : (-54 : ℤ) + 1 = -53 := by norm_num
    rw [e] at hm
    have e1 : (1 : ℝ) = ((2 ^ 53 : ℤ) : ℝ) * (2 : ℝ) ^ (-53 : ℤ) := by norm_num
    have hpos : (0 : ℝ) < (2 : ℝ) ^ (-53 : ℤ) := by positivity
    have hlt : m < 2 ^ 53 := by
      have : (m : ℝ) < ((2 ^ 53 : ℤ) : ℝ) := by
        by_contra hc
        push Not at hc
        have := mul_le_mul_of_nonneg_right hc hpos.le
        rw [← e1, ← hm] at this
        linarith
      exact_mod_cast this
    have hle : (m : ℝ) ≤ ((2 ^ 53 : ℤ) : ℝ) - 1 := by
      have : m ≤ 2 ^ 53 - 1 := by omega
      exact_mod_cast this
    have := mul_le_mul_of_nonneg_right hle hpos.le
    rw [sub_mul, ← e1, one_mul] at this
    linarith

/-- `x log x` at two points. -/
theorem xlogx_near {a b : ℝ} (ha : 0 < a) (hab : a ≤ b) (hb : |Real.log b| ≤ 38) : |b * Real.log b - a * Real.log a| ≤ 39 * (b - a) := by
  have hb0 : 0 < b := ha.trans_le hab
  have e : b * Real.log b - a * Real.log a = (b - a) * Real.log b + a * Real.log (b / a) := by
    rw [Real.log_div hb0.ne' ha.ne']
    ring
  have h1 : |(b - a) * Real.log b| ≤ 38 * (b - a) := by
    rw [abs_mul, abs_of_nonneg (by linarith : 0 ≤ b - a)]
    nlinarith
  have h2 : |a * Real.log (b / a)| ≤ b - a := by
    rw [abs_mul, abs_of_pos ha, abs_of_nonneg (Real.log_nonneg (by rw [le_div_iff₀ ha]; linarith))]
    have h3 := Real.log_le_sub_one_of_pos (div_pos hb0 ha)
    have h4 := mul_le_mul_of_nonneg_left h3 ha.le
    rw [mul_sub, mul_div_cancel₀ _ ha.ne', mul_one] at h4
    exact h4
  rw [e]
  have := abs_add_le ((b - a) * Real.log b) (a * Real.log (b / a))
  linarith

/-- `hd_orf` for different positions is above -1/2. -/
theorem hd_lower {x : ℝ} (h0 : 0 < x) (h1 : x ≤ 1) : -(1 / 2) ≤ 1.5 * x * Real.log x - 0.25 * x + 0.5 := by
  have h2 := Real.one_sub_inv_le_log_of_pos (by linarith : 0 < 2 * x)
  rw [Real.log_mul (by norm_num) h0.ne'] at h2
  have h3 : Real.log 2 ≤ 1 := by linarith [Real.log_two_lt_d9]
  have h4 := mul_le_mul_of_nonneg_left h2 h0.le
  rw [mul_sub, mul_inv, mul_one, show x * (2⁻¹ * x⁻¹) = 1 / 2 by field_simp] at h4
  nlinarith

variable (A : Arith) (L : Lib)

theorem omc2_fin {z : ℝ} : omc2 A (.fin z) = div A (A.round (1 - z)) (.fin 2) := rfl

/-- `omc2`. -/
theorem omc2_near {P Q : Pos} (hP : IsUnit3 P) (hQ : IsUnit3 Q) {z : ℝ} (hz : |z - dot P Q| ≤ 12 * eps) :
    ∃ u x, A.round (1 - z) = .fin u ∧ u = A.rnd (1 - z) ∧ x = A.rnd (u / 2) ∧ omc2 A (.fin z) = .fin x ∧ |x - (1 - dot P Q) / 2| ≤ 11 * eps := by
  have he := eps_pos
  have hC := abs_le.1 (dot_abs_le hP hQ)
  obtain ⟨u, hu, eu, nu⟩ := near_round A (x := 1 - z) (X := 1 - dot P Q) (k := 12) (by rwa [show 1 - z - (1 - dot P Q) = -(z - dot P Q) by ring, abs_neg])
    (by rw [abs_le]; constructor <;> linarith) (by norm_num)
  obtain ⟨x, hx, ex, nx⟩ := near_round A (x := u / 2) (X := (1 - dot P Q) / 2) (k := 15 / 2) (by
    rw [← sub_div, abs_div, abs_two]
    linarith) (by rw [abs_le]; constructor <;> linarith) (by norm_num)
  refine ⟨u, x, hu, eu.symm, ex.symm, ?_, nx.trans (by nlinarith)⟩
  rw [omc2_fin, hu]
  simp only [div]
  rw [if_neg (by norm_num), hx]

theorem hdValue_nan {x : ℝ} (h : x ≤ 0) : hdValue A L (.fin x) = .nan := by
  unfold hdValue
  have : mul A (mul A (.fin (3 / 2)) (.fin x)) (npLog L (.fin x)) = .nan := by
    rcases h.lt_or_eq with h | rfl
    · simp only [npLog]
      rw [if_neg (by linarith), if_neg h.ne]
      cases mul A (.fin (3 / 2)) (.fin x) <;> rfl
    · simp only [npLog, mul, mul_zero, round_zero]
      simp [infSign]
  rw [this]
  rfl

theorem omc2_nonpos {z u x : ℝ} (h : 1 ≤ z) (hu : u = A.rnd (1 - z)) (hx : x = A.rnd (u / 2)) : x ≤ 0 := by
  have h0 : A.rnd 0 = 0 := A.fix 0 rep_zero
  have h1 : u ≤ 0 := by
    rw [hu, ← h0]
    exact A.mono (by linarith)
  rw [hx, ← h0]
  exact A.mono (by linarith)

theorem omc2_lower {z u x : ℝ} (h : z < 1) (hr : Rep z) (hu : u = A.rnd (1 - z)) (hx : x = A.rnd (u / 2)) : (2 : ℝ) ^ (-54 : ℤ) ≤ x := by
  have h1 : (2 : ℝ) ^ (-53 : ℤ) ≤ u := by
    rw [hu, ← A.fix _ (rep_pow (-53) (by norm_num))]
    exact A.mono (by linarith [gap_one hr h])
  rw [hx, ← A.fix _ (rep_pow (-54) (by norm_num))]
  refine A.mono ?_
  have e : (2 : ℝ) ^ (-53 : ℤ) = 2 * (2 : ℝ) ^ (-54 : ℤ) := by
    rw [show (-53 : ℤ) = 1 + -54 from rfl, zpow_add₀ (by norm_num)]
    norm_num
  rw [e] at h1
  generalize (2 : ℝ) ^ (-54 : ℤ) = g at *
  linarith

theorem log_38 {x : ℝ} (h0 : (2 : ℝ) ^ (-54 : ℤ) ≤ x) (h1 : x ≤ 2) : |Real.log x| ≤ 38 := by
  have hx : 0 < x := lt_of_lt_of_le (by positivity) h0
  have h2 := Real.log_le_log (by positivity) h0
  have h3 := Real.log_le_log hx h1
  rw [Real.log_zpow] at h2
  have h4 := Real.log_two_lt_d9
  rw [abs_le]
  push_cast at h2
  constructor <;> linarith

/-- The value of `hd_orf` from a positive `omc2`. -/
theorem hdValue_near (hL : GoodLog L) {x X : ℝ} (hX0 : 0 < X) (hX1 : X ≤ 1) (h : |x - X| ≤ 11 * eps) (hx : (2 : ℝ) ^ (-54 : ℤ) ≤ x) :
    ∃ z, hdValue A L (.fin x) = .fin z ∧ |z - (1.5 * X * Real.log X - 0.25 * X + 0.5)| ≤ 900 * eps := by
  have he := eps_pos
  have hs := eps_tiny
  have hab := abs_le.1 h
  have hx0 : 0 < x := lt_of_lt_of_le (by positivity) hx
  have hx1 : x ≤ 11 / 10 := by linarith
  have hl := log_38 hx (by linarith)
  have hlX : X ≤ x ∨ |Real.log X| ≤ 38 := by
    by_cases hc : X ≤ x
    · exact .inl hc
    · exact .inr (log_38 (hx.trans (by linarith)) (by linarith))
  have hxl : |x * Real.log x - X * Real.log X| ≤ 429 * eps := by
    by_cases hc : X ≤ x
    · exact (xlogx_near hX0 hc hl).trans (by nlinarith)
    · rw [abs_sub_comm]
      exact (xlogx_near hx0 (by linarith) (hlX.resolve_left hc)).trans (by nlinarith)
  have hg := hL x hx0 (by linarith)
  generalize hℓ : L.log x = ℓ at hg
  have hg' : |ℓ - Real.log x| ≤ 39 * eps := hg.trans (by nlinarith)
  have hℓa : |ℓ| ≤ 39 := by
    have := abs_add_le (ℓ - Real.log x) (Real.log x)
    rw [sub_add_cancel] at this
    linarith
  obtain ⟨y, hy, -, ny⟩ := near_round A (x := 3 / 2 * x) (X := 3 / 2 * x) (k := 0) (by simp) (by rw [abs_of_pos (by linarith)]; linarith) (by norm_num)
  have hXl : |X * Real.log X| ≤ 1 := by
    have := Real.abs_log_mul_self_lt X hX0 hX1
    rw [mul_comm]
    exact this.le
  have hT : |y * ℓ - 1.5 * X * Real.log X| ≤ 826 * eps := by
    have e : y * ℓ - 1.5 * X * Real.log X = (y - 3 / 2 * x) * ℓ + 3 / 2 * x * (ℓ - Real.log x) + 3 / 2 * (x * Real.log x - X * Real.log X) := by ring
    rw [e]
    have a1 : |(y - 3 / 2 * x) * ℓ| ≤ 117 * eps := by
      rw [abs_mul]
      nlinarith [abs_nonneg ℓ, abs_nonneg (y - 3 / 2 * x)]
    have a2 : |3 / 2 * x * (ℓ - Real.log x)| ≤ 65 * eps := by
      rw [abs_mul, abs_of_pos (by linarith : 0 < 3 / 2 * x)]
      nlinarith [abs_nonneg (ℓ - Real.log x)]
    have a3 : |3 / 2 * (x * Real.log x - X * Real.log X)| ≤ 644 * eps := by
      rw [abs_mul, abs_of_pos (by norm_num : (0 : ℝ) < 3 / 2)]
      linarith
    have := abs_add_three ((y - 3 / 2 * x) * ℓ) (3 / 2 * x * (ℓ - Real.log x)) (3 / 2 * (x * Real.log x - X * Real.log X))
    linarith
  have hXl' := abs_le.1 hXl
  obtain ⟨a, ha, -, na⟩ := near_round A hT (by rw [mul_assoc, abs_le]; constructor <;> norm_num <;> linarith) (by norm_num)
  obtain ⟨b, hb, -, nb⟩ := near_round A (x := 1 / 4 * x) (X := 0.25 * X) (k := 3) (by
    rw [show 1 / 4 * x - 0.25 * X = 1 / 4 * (x - X) by ring, abs_mul, abs_of_pos (by norm_num : (0 : ℝ) < 1 / 4)]
    linarith) (by rw [abs_le]; constructor <;> norm_num <;> linarith) (by norm_num)
  obtain ⟨s, hs', -, ns⟩ := near_round A (x := a + -b) (X := 1.5 * X * Real.log X - 0.25 * X) (k := 835) (by
    have e : a + -b - (1.5 * X * Real.log X - 0.25 * X) = (a - 1.5 * X * Real.log X) - (b - 0.25 * X) := by ring
    rw [e]
    have := abs_sub (a - 1.5 * X * Real.log X) (b - 0.25 * X)
    linarith) (by rw [mul_assoc, abs_le]; constructor <;> norm_num <;> linarith) (by norm_num)
  obtain ⟨z, hz, -, nz⟩ := near_round A (x := s + 1 / 2) (X := 1.5 * X * Real.log X - 0.25 * X + 0.5) (k := 838) (by
    have e : s + 1 / 2 - (1.5 * X * Real.log X - 0.25 * X + 0.5) = s - (1.5 * X * Real.log X - 0.25 * X) := by ring
    rw [e]
    linarith) (by rw [mul_assoc, abs_le]; constructor <;> norm_num <;> linarith) (by norm_num)
  refine ⟨z, ?_, nz.trans (by nlinarith)⟩
  simp only [hdValue, npLog, if_pos hx0, mul, hℓ, hy, ha, hb, sub, neg, add, hs', hz]

/-- **C145, Hellings and Downs.**  For pulsars in different directions whose computed positions differ, the value is NaN or accurate; it is not NaN if the
pulsars are more than about 0.04 arc seconds apart. -/
theorem C145_hd_partial (hL : GoodLog L) {P Q : Pos} {p q : Fin 3 → ℝ} (hP : Computed P p) (hQ : Computed Q q) (hPQ : P ≠ Q) (hpq : p ≠ q) {v : Fl}
    (hv : IsHd A L (fl p) (fl q) v) :
    (v = .nan ∨ ∃ z, v = .fin z ∧ |z - hdOrf P Q| ≤ (2 : ℝ) ^ (-41 : ℤ) ∧ |z| ≤ 51 / 100) ∧
      ((2 : ℝ) ^ (-47 : ℤ) < (1 - dot P Q) / 2 → v ≠ .nan) := by
  have he := eps_pos
  have hs := eps_tiny
  rw [IsHd, if_neg (by rwa [allEq_fl])] at hv
  obtain ⟨d, hd, rfl⟩ := hv
  obtain ⟨z, rfl, hr, hz⟩ := dot_near A hP hQ hd
  obtain ⟨u, x, -, eu, ex, ho, nx⟩ := omc2_near A hP.unit hQ.unit hz
  have e47 : (2 : ℝ) ^ (-47 : ℤ) = 16 * eps := by unfold eps; norm_num
  rw [ho, e47]
  have hX1 : (1 - dot P Q) / 2 ≤ 1 := by linarith [(abs_le.1 (dot_abs_le hP.unit hQ.unit)).1]
  have hX0 : 0 < (1 - dot P Q) / 2 := by
    have h1 := (abs_le.1 (dot_abs_le hP.unit hQ.unit)).2
    have h2 : dot P Q ≠ 1 := fun e => hPQ ((Sphere.dot_eq_one hP.unit hQ.unit).1 e)
    have := lt_of_le_of_ne h1 h2
    linarith
  by_cases h1 : 1 ≤ z
  · refine ⟨.inl (hdValue_nan A L (omc2_nonpos A h1 eu ex)), fun hc => ?_⟩
    have := (abs_le.1 hz).2
    linarith
  · push Not at h1
    obtain ⟨w, hw, nw⟩ := hdValue_near A L hL hX0 hX1 nx (omc2_lower A h1 hr eu ex)
    rw [hw]
    refine ⟨.inr ⟨w, rfl, ?_, ?_⟩, fun _ => by simp⟩
    · have e41 : (2 : ℝ) ^ (-41 : ℤ) = 1024 * eps := by unfold eps; norm_num
      rw [e41, hdOrf, if_neg hPQ]
      exact nw.trans (by nlinarith)
    · have l := hd_lower hX0 hX1
      have r := C71_hd_half hP.unit hQ.unit hPQ
      rw [hdOrf, if_neg hPQ] at r
      simp only at r
      have n := abs_le.1 nw
      rw [abs_le]
      constructor <;> linarith

/-- **C145, the same position.** -/
theorem C145_self (p : Fin 3 → ℝ) {v : Fl} : (IsHd A L (fl p) (fl p) v ↔ v = .fin 1) := by
  rw [IsHd, if_pos ((allEq_fl p p).2 rfl)]

theorem self_value : ∃ z, selfValue A = .fin z ∧ |z - (1 + 1e-5)| ≤ 8 * eps := by
  have he := eps_pos
  obtain ⟨w, hw, -, nw⟩ := near_round A (x := 1 / 100000) (X := 1 / 100000) (k := 0) (by simp) (by norm_num [abs_le]) (by norm_num)
  obtain ⟨z, hz, -, nz⟩ := near_round A (x := 1 + w) (X := 1 + 1e-5) (k := 3) (by
    rw [show 1 + w - (1 + 1e-5) = w - 1 / 100000 by norm_num; ring]
    linarith) (by norm_num [abs_le]) (by norm_num)
  refine ⟨z, ?_, nz.trans (by nlinarith)⟩
  rw [selfValue, hw]
  exact hz

/-- **C145, dipole.**  Accurate, and below the value of a pulsar with itself. -/
theorem C145_dipole {P Q : Pos} {p q : Fin 3 → ℝ} (hP : Computed P p) (hQ : Computed Q q) (hpq : p ≠ q) {v w : Fl} (hv : IsDipole A (fl p) (fl q) v)
    (hw : IsDipole A (fl p) (fl p) w) :
    ∃ z y, v = .fin z ∧ w = .fin y ∧ |z - dot P Q| ≤ (2 : ℝ) ^ (-47 : ℤ) ∧ |y - (1 + 1e-5)| ≤ (2 : ℝ) ^ (-48 : ℤ) ∧ |z| < y := by
  have he := eps_pos
  have hs := eps_tiny
  rw [IsDipole, if_neg (by rwa [allEq_fl])] at hv
  rw [IsDipole, if_pos ((allEq_fl p p).2 rfl)] at hw
  obtain ⟨z, rfl, -, hz⟩ := dot_near A hP hQ hv
  obtain ⟨y, hy, ny⟩ := self_value A
  have e47 : (2 : ℝ) ^ (-47 : ℤ) = 16 * eps := by unfold eps; norm_num
  have e48 : (2 : ℝ) ^ (-48 : ℤ) = 8 * eps := by unfold eps; norm_num
  rw [e47, e48]
  refine ⟨z, y, rfl, hw.trans hy, by linarith, ny, ?_⟩
  have h1 := abs_add_le (z - dot P Q) (dot P Q)
  rw [sub_add_cancel] at h1
  have h2 := dot_abs_le hP.unit hQ.unit
  have h3 := (abs_le.1 ny).1
  norm_num at h3
  linarith

/-- **C145, monopole.** -/
theorem C145_monopole (p q : Fin 3 → ℝ) : ∃ y, 1 < y ∧ |y - (1 + 1e-5)| ≤ (2 : ℝ) ^ (-48 : ℤ) ∧ monopoleF A (fl p) (fl q) = .fin (open Classical in if p = q then y else 1) := by
  have he := eps_pos
  have hs := eps_tiny
  obtain ⟨y, hy, ny⟩ := self_value A
  have e48 : (2 : ℝ) ^ (-48 : ℤ) = 8 * eps := by unfold eps; norm_num
  rw [e48]
  refine ⟨y, ?_, ny, ?_⟩
  · have h3 := (abs_le.1 ny).1
    norm_num at h3
    linarith
  · unfold monopoleF
    by_cases h : p = q
    · rw [if_pos ((allEq_fl p q).2 h), if_pos h, hy]
    · rw [if_neg (by rwa [allEq_fl]), if_neg h]

/-! ## Symmetry -/

theorem mul_swap (a b : Fl) : mul A a b = mul A b a := by
  cases a <;> cases b <;> simp [mul, mul_comm]

theorem addMul_swap (f : Bool) (a b c : Fl) : addMul A f a b c = addMul A f a c b := by
  cases a <;> cases b <;> cases c <;> simp [addMul, mul_swap, mul_comm]

/-- The same operations with the factors exchanged. -/
def DotTree.swap : DotTree → DotTree
  | .prod x y => .prod y x
  | .fma t x y => .fma t.swap y x
  | .node s t => .node s.swap t.swap

theorem DotTree.swap_eval (t : DotTree) : t.swap.eval A = t.eval A := by
  induction t with
  | prod x y => exact mul_swap A y x
  | fma t x y ih => simp only [DotTree.swap, DotTree.eval, ih]; exact addMul_swap A true _ y x
  | node s t ihs iht => simp only [DotTree.swap, DotTree.eval, ihs, iht]

theorem DotTree.swap_leaves (t : DotTree) : t.swap.leaves = t.leaves.map Prod.swap := by
  induction t with
  | prod x y => rfl
  | fma t x y ih => simp [DotTree.swap, DotTree.leaves, ih]
  | node s t ihs iht => simp [DotTree.swap, DotTree.leaves, ihs, iht]

theorem isDot_swap {l : List (Fl × Fl)} {v : Fl} (h : IsDot A l v) : IsDot A (l.map Prod.swap) v := by
  rcases h with ⟨rfl, rfl⟩ | ⟨t, ht, rfl⟩
  · exact .inl ⟨rfl, rfl⟩
  · exact .inr ⟨t.swap, by rw [DotTree.swap_leaves]; exact ht.map _, DotTree.swap_eval A t⟩

theorem factors_swap (p q : Fin 3 → Fl) : (factors p q).map Prod.swap = factors q p := rfl

theorem feq_swap (a b : Fl) : feq a b = feq b a := by
  unfold feq
  exact Bool.and_comm _ _

theorem allEq_swap (p q : Fin 3 → Fl) : allEq p q = allEq q p := by
  unfold allEq
  rw [feq_swap (p 0), feq_swap (p 1), feq_swap (p 2)]

/-- **C145, symmetry.**  With the same order of additions the functions are symmetric to the last bit, also for NaN and infinite coordinates. -/
theorem C145_symmetric (p q : Fin 3 → Fl) (v : Fl) :
    (IsHd A L p q v ↔ IsHd A L q p v) ∧ (IsDipole A p q v ↔ IsDipole A q p v) ∧ monopoleF A p q = monopoleF A q p := by
  have hd : ∀ p q d, IsDot A (factors p q) d → IsDot A (factors q p) d := fun p q d h => by
    rw [← factors_swap]
    exact isDot_swap A h
  refine ⟨?_, ?_, ?_⟩
  · unfold IsHd
    rw [allEq_swap]
    split
    · exact Iff.rfl
    · exact ⟨fun ⟨d, h, e⟩ => ⟨d, hd _ _ _ h, e⟩, fun ⟨d, h, e⟩ => ⟨d, hd _ _ _ h, e⟩⟩
  · unfold IsDipole
    rw [allEq_swap]
    split
    · exact Iff.rfl
    · exact ⟨hd _ _ _, hd _ _ _⟩
  · unfold monopoleF
    rw [allEq_swap]

/-! ## Pulsars close to each other -/

/-- The exact product. -/
def timesVal : Fl × Fl → ℝ
  | (.fin x, .fin y) => x * y
  | _ => 0

/-- Sums of few products that are zero or one are exact. -/
theorem small_dot (t : DotTree) (ht : ∀ a ∈ t.leaves, ∃ x y, a = (.fin x, .fin y) ∧ (x * y = 0 ∨ x * y = 1)) (hl : t.leaves.length ≤ 2 ^ 53) :
    ∃ n : ℕ, n ≤ t.leaves.length ∧ t.eval A = .fin n ∧ (t.leaves.map timesVal).sum = n := by
  have rn : ∀ n : ℕ, n ≤ 2 ^ 53 → A.round n = .fin n := fun n h => round_rep A (rep_nat n h) (by rw [Nat.abs_cast]; exact nat_le_big h)
  have one : ∀ x y : ℝ, (x * y = 0 ∨ x * y = 1) → ∃ n : ℕ, n ≤ 1 ∧ x * y = n := by
    rintro x y (h | h)
    · exact ⟨0, by norm_num, by simpa using h⟩
    · exact ⟨1, by norm_num, by simpa using h⟩
  induction t with
  | prod x y =>
    obtain ⟨a, b, e, h⟩ := ht (x, y) (by simp [DotTree.leaves])
    cases e
    obtain ⟨n, hn, h⟩ := one a b h
    exact ⟨n, by simpa [DotTree.leaves] using hn, by simp only [DotTree.eval, mul, h]; exact rn n (by omega), by simp [DotTree.leaves, timesVal, h]⟩
  | fma t x y ih =>
    simp only [DotTree.leaves, List.length_append, List.length_cons, List.length_nil] at hl
    obtain ⟨m, hm, em, sm⟩ := ih (fun a ha => ht a (by simp [DotTree.leaves, ha])) (by omega)
    obtain ⟨a, b, e, h⟩ := ht (x, y) (by simp [DotTree.leaves])
    cases e
    obtain ⟨n, hn, h⟩ := one a b h
    refine ⟨m + n, by simp [DotTree.leaves]; omega, ?_, ?_⟩
    · simp only [DotTree.eval, em, addMul, if_true, h]
      have := rn (m + n) (by omega)
      push_cast at this
      rw [this]
      simp
    · simp [DotTree.leaves, timesVal, sm, h]
  | node s t ihs iht =>
    simp only [DotTree.leaves, List.length_append] at hl
    obtain ⟨m, hm, em, sm⟩ := ihs (fun a ha => ht a (by simp [DotTree.leaves, ha])) (by omega)
    obtain ⟨n, hn, en, sn⟩ := iht (fun a ha => ht a (by simp [DotTree.leaves, ha])) (by omega)
    refine ⟨m + n, by simp [DotTree.leaves]; omega, ?_, by simp [DotTree.leaves, sm, sn]⟩
    simp only [DotTree.eval, em, en, add]
    have := rn (m + n) (by omega)
    push_cast at this
    rw [this]
    simp

/-- Next to the first axis. -/
def beside (y : ℝ) : Fin 3 → ℝ := ![1, y, 0]

theorem beside_nan {y : ℝ} (h : y ≠ 0) {v : Fl} (hv : IsHd A L (fl (beside 0)) (fl (beside y)) v) : v = .nan := by
  rw [IsHd, if_neg (by
    rw [allEq_fl]
    intro e
    exact h (by simpa [beside] using (congrFun e 1).symm))] at hv
  obtain ⟨d, hd, rfl⟩ := hv
  have : d = .fin 1 := by
    rcases hd with ⟨h, -⟩ | ⟨t, ht, rfl⟩
    · simp [factors] at h
    · obtain ⟨n, -, en, sn⟩ := small_dot A t (by
        intro a ha
        have := ht.subset ha
        simp only [factors, List.mem_cons, List.not_mem_nil, or_false] at this
        rcases this with rfl | rfl | rfl
        · exact ⟨_, _, rfl, .inr (by simp [beside])⟩
        · exact ⟨_, _, rfl, .inl (by simp [beside])⟩
        · exact ⟨_, _, rfl, .inl (by simp [beside])⟩) (by rw [ht.length_eq]; simp [factors])
      rw [(ht.map _).sum_eq] at sn
      simp [factors, fl, beside, timesVal] at sn
      rw [en, ← sn]
  subst this
  have r0 : A.rnd 0 = 0 := A.fix 0 rep_zero
  rw [omc2_fin, sub_self, round_zero]
  simp only [div]
  rw [if_neg (by norm_num), zero_div, round_zero]
  exact hdValue_nan A L le_rfl

/-- **C145 fails for pulsars close to each other.**  Two directions a billionth apart, with exactly representable positions that differ: NaN on every
machine; and NaN for one direction, if its two computed positions differ by rounding. -/
theorem C145_hd_false :
    (∃ P Q p q, Computed P p ∧ Computed Q q ∧ P ≠ Q ∧ p ≠ q ∧ (∀ c, Rep (p c) ∧ Rep (q c)) ∧ ∀ A L v, IsHd A L (fl p) (fl q) v → v = .nan) ∧
      ∃ P p q, Computed P p ∧ Computed P q ∧ (∀ c, Rep (p c) ∧ Rep (q c)) ∧ ∀ A L v, IsHd A L (fl p) (fl q) v → v = .nan := by
  have u0 : IsUnit3 (beside 0) := by simp [IsUnit3, dot, Fin.sum_univ_three, beside]
  have c0 : Computed (beside 0) (beside 0) := ⟨u0, fun c => by simp⟩
  have hrep : ∀ j : ℤ, -1074 ≤ j → ∀ c, Rep (beside 0 c) ∧ Rep (beside ((2 : ℝ) ^ j) c) := by
    intro j hj c
    fin_cases c
    · exact ⟨rep_one, rep_one⟩
    · exact ⟨rep_zero, rep_pow j hj⟩
    · exact ⟨rep_zero, rep_zero⟩
  constructor
  · have ht0 : (0 : ℝ) < (2 : ℝ) ^ (-30 : ℤ) := by positivity
    have hq2 : (2 : ℝ) ^ (-52 : ℤ) = ((2 : ℝ) ^ (-26 : ℤ)) ^ 2 := by norm_num
    have e52 : ((2 : ℝ) ^ (-30 : ℤ)) ^ 2 / 2 ≤ (2 : ℝ) ^ (-52 : ℤ) ∧ ((2 : ℝ) ^ (-30 : ℤ)) ^ 3 ≤ (2 : ℝ) ^ (-52 : ℤ) ∧ (2 : ℝ) ^ (-30 : ℤ) ≤ 1 := by
      refine ⟨?_, ?_, ?_⟩ <;> norm_num
    refine ⟨beside 0, ![Real.cos ((2 : ℝ) ^ (-30 : ℤ)), Real.sin ((2 : ℝ) ^ (-30 : ℤ)), 0], beside 0, beside ((2 : ℝ) ^ (-30 : ℤ)), c0, ⟨?_, ?_⟩, ?_, ?_, hrep _ (by norm_num),
      fun A L v hv => beside_nan A L ht0.ne' hv⟩
    · generalize (2 : ℝ) ^ (-30 : ℤ) = t at *
      simp [IsUnit3, dot, Fin.sum_univ_three]
      nlinarith [Real.sin_sq_add_cos_sq t]
    · generalize (2 : ℝ) ^ (-30 : ℤ) = t at *
      obtain ⟨h2, h3, h1⟩ := e52
      generalize (2 : ℝ) ^ (-52 : ℤ) = g at *
      have a1 := Real.one_sub_sq_div_two_le_cos (x := t)
      have a2 := Real.cos_le_one t
      have a3 := Real.sin_le ht0.le
      have a4 := Real.sin_gt_sub_cube ht0
      have g0 : 0 ≤ g := le_trans (by positivity) h2
      intro c
      fin_cases c
      · simp [beside]
        rw [abs_le]
        constructor <;> linarith
      · simp [beside]
        rw [abs_le]
        constructor <;> nlinarith [pow_pos ht0 3]
      · simpa [beside] using g0
    · intro e
      have h1 := congrFun e 1
      simp only [beside, Matrix.cons_val_one, Matrix.cons_val_zero] at h1
      have h2 := Real.sin_pos_of_pos_of_le_one ht0 e52.2.2
      rw [← h1] at h2
      exact lt_irrefl _ h2
    · intro e
      have h1 := congrFun e 1
      simp only [beside, Matrix.cons_val_one, Matrix.cons_val_zero] at h1
      rw [← h1] at ht0
      exact lt_irrefl _ ht0
  · have ht0 : (0 : ℝ) < (2 : ℝ) ^ (-60 : ℤ) := by positivity
    have h60 : (2 : ℝ) ^ (-60 : ℤ) ≤ (2 : ℝ) ^ (-52 : ℤ) := zpow_le_zpow_right₀ (by norm_num) (by norm_num)
    refine ⟨beside 0, beside 0, beside ((2 : ℝ) ^ (-60 : ℤ)), c0, ⟨u0, fun c => ?_⟩, hrep _ (by norm_num), fun A L v hv => beside_nan A L ht0.ne' hv⟩
    generalize (2 : ℝ) ^ (-60 : ℤ) = t at *
    generalize (2 : ℝ) ^ (-52 : ℤ) = g at *
    fin_cases c
    · simpa [beside] using ht0.le.trans h60
    · simpa [beside, abs_of_pos ht0] using h60
    · simpa [beside] using ht0.le.trans h60

/-- Pulsars at right angles: the value is accurate. -/
example {v : Fl} (hv : IsHd down logLib (fl ![1, 0, 0]) (fl ![0, 1, 0]) v) :
    ∃ z, v = .fin z ∧ |z - hdOrf ![1, 0, 0] ![0, 1, 0]| ≤ (2 : ℝ) ^ (-41 : ℤ) ∧ |z| ≤ 51 / 100 := by
  have ne : (![1, 0, 0] : Fin 3 → ℝ) ≠ ![0, 1, 0] := fun e => by simpa using congrFun e 0
  have cx : Computed ![1, 0, 0] ![1, 0, 0] := ⟨by simp [IsUnit3, dot, Fin.sum_univ_three], fun c => by simp⟩
  have cy : Computed ![0, 1, 0] ![0, 1, 0] := ⟨by simp [IsUnit3, dot, Fin.sum_univ_three], fun c => by simp⟩
  have h := C145_hd_partial down logLib logLib_good cx cy ne ne hv
  refine h.1.resolve_left (h.2 ?_)
  simp [dot, Fin.sum_univ_three]
  norm_num

/-- There is such a value, and one of the dipole. -/
example : (∃ v, IsHd down logLib (fl ![1, 0, 0]) (fl ![0, 1, 0]) v) ∧ ∃ v w, IsDipole down (fl ![1, 0, 0]) (fl ![0, 1, 0]) v ∧ IsDipole down (fl ![1, 0, 0]) (fl ![1, 0, 0]) w ∧
    ∃ z y, v = .fin z ∧ w = .fin y ∧ |z| < y := by
  have ne : (![1, 0, 0] : Fin 3 → ℝ) ≠ ![0, 1, 0] := fun e => by simpa using congrFun e 0
  have cx : Computed ![1, 0, 0] ![1, 0, 0] := ⟨by simp [IsUnit3, dot, Fin.sum_univ_three], fun c => by simp⟩
  have cy : Computed ![0, 1, 0] ![0, 1, 0] := ⟨by simp [IsUnit3, dot, Fin.sum_univ_three], fun c => by simp⟩
  obtain ⟨d, hd⟩ : ∃ d, IsDot down (factors (fl ![1, 0, 0]) (fl ![0, 1, 0])) d :=
    ⟨_, .inr ⟨.fma (.fma (.prod (fl ![1, 0, 0] 0) (fl ![0, 1, 0] 0)) (fl ![1, 0, 0] 1) (fl ![0, 1, 0] 1)) (fl ![1, 0, 0] 2) (fl ![0, 1, 0] 2), .refl _, rfl⟩⟩
  refine ⟨⟨hdValue down logLib (omc2 down d), ?_⟩, d, selfValue down, ?_, ?_, ?_⟩
  · rw [IsHd, if_neg (by rwa [allEq_fl])]
    exact ⟨d, hd, rfl⟩
  · rwa [IsDipole, if_neg (by rwa [allEq_fl])]
  · rw [IsDipole, if_pos ((allEq_fl _ _).2 rfl)]
  · obtain ⟨z, y, h1, h2, -, -, h3⟩ := C145_dipole down cx cy ne (v := d) (w := selfValue down) (by rwa [IsDipole, if_neg (by rwa [allEq_fl])])
      (by rw [IsDipole, if_pos ((allEq_fl _ _).2 rfl)])
    exact ⟨z, y, h1, h2, h3⟩

end Verif.Ieee
