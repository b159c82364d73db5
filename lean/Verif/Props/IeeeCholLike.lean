import Verif.Props.IeeeCholDet

/-!
# The likelihood with Gaussian processes in floating-point arithmetic

C150: for matrices `Sigma` that are far enough from singular, `expval = sl.cho_solve(cf, TNr)` and the terms of the Gaussian processes in the log-likelihood are accurate, whatever the
order of the operations.
-/

namespace Verif.Ieee

open Verif Matrix

variable (A : Arith) (L : Lib)

/-! ## The first triangular system -/

variable {n : Nat} {S F : Nat → Nat → Fl} {X : Matrix (Fin n) (Fin n) ℝ} {f : Nat → Nat → ℝ} {μ : ℝ}

theorem mu_low (h0 : 0 < n) (hμ : 256 * n ^ 2 * eps ≤ μ) : (2 : ℝ) ^ (-43 : ℤ) ≤ μ := by
  have he := eps_pos
  have n1 : (1 : ℝ) ≤ n := by exact_mod_cast h0
  have h3 : eps ≤ n ^ 2 * eps := le_mul_of_one_le_left he.le (one_le_pow₀ n1)
  have e : (2 : ℝ) ^ (-43 : ℤ) = 256 * eps := by
    rw [eps, show (256 : ℝ) = (2 : ℝ) ^ (8 : ℤ) by norm_num, ← zpow_add₀ (by norm_num)]
    congr 1
  rw [e]
  linarith

theorem ratio_le (hn : n ≤ 2 ^ 30) (h0 : 0 < n) (hμ : 256 * n ^ 2 * eps ≤ μ) {m : Nat} (hm : m ≤ n) : (m : ℝ) / μ ≤ (2 : ℝ) ^ (73 : ℤ) := by
  have h := mu_low h0 hμ
  have hμ0 : 0 < μ := lt_of_lt_of_le (by positivity) h
  rw [div_le_iff₀ hμ0]
  have h2 : (m : ℝ) ≤ (2 : ℝ) ^ (30 : ℤ) := by
    have : m ≤ 2 ^ 30 := by omega
    exact_mod_cast this
  refine h2.trans (le_trans (le_of_eq ?_) (mul_le_mul_of_nonneg_left h (by positivity)))
  rw [← zpow_add₀ (by norm_num)]
  congr 1

/-- The least size that is not lost. -/
noncomputable def floor : ℝ := (2 : ℝ) ^ (-348 : ℤ)

theorem floor_pos : 0 < floor := by unfold floor; positivity

theorem floor_err (n : Nat) {x : ℝ} (hx : (2 : ℝ) ^ (-200 : ℤ) ≤ x) : 2 * (2 : ℝ) ^ (-600 : ℤ) ≤ unitErr n * floor * x := by
  have h1 := mul_le_mul (mul_le_mul_of_nonneg_right (eps_le_err n) floor_pos.le) hx (by positivity) (mul_nonneg (eps_pos.le.trans (eps_le_err n)) floor_pos.le)
  refine le_trans (le_of_eq ?_) h1
  rw [eps, floor, ← zpow_add₀ (by norm_num), ← zpow_add₀ (by norm_num), show (2 : ℝ) * (2 : ℝ) ^ (-600 : ℤ) = (2 : ℝ) ^ (1 : ℤ) * (2 : ℝ) ^ (-600 : ℤ) by rw [zpow_one],
    ← zpow_add₀ (by norm_num)]
  congr 1

theorem floor_err' (n : Nat) : 2 * (2 : ℝ) ^ (-600 : ℤ) ≤ unitErr n * floor := by
  have := floor_err n (x := 1) (by
    have := zpow_le_zpow_right₀ (a := (2 : ℝ)) (by norm_num) (by norm_num : (-200 : ℤ) ≤ 0)
    rwa [zpow_zero] at this)
  rwa [mul_one] at this

/-- `y` in the first system. -/
def IsForward (A : Arith) (n : Nat) (F : Nat → Nat → Fl) (b y : Nat → Fl) : Prop :=
  ∀ i < n, ∃ v, IsMinus A (b i) ((List.range i).map fun k => (F i k, y k)) v ∧ IsQuot A v (F i i) (y i)

theorem range_terms {j : Nat} (hj : j ≤ 2 ^ 30) {g : Nat → ℝ} {p : ℤ} (h : ∀ k < j, |g k| ≤ (2 : ℝ) ^ p) : ∑ k ∈ Finset.range j, |g k| ≤ (2 : ℝ) ^ (30 + p) := by
  have := Finset.sum_le_card_nsmul (Finset.range j) (fun k => |g k|) ((2 : ℝ) ^ p) fun k hk => h k (Finset.mem_range.1 hk)
  rw [Finset.card_range, nsmul_eq_mul] at this
  have h2 : (j : ℝ) ≤ (2 : ℝ) ^ (30 : ℤ) := by exact_mod_cast hj
  refine this.trans ((mul_le_mul_of_nonneg_right h2 (by positivity)).trans (le_of_eq ?_))
  rw [← zpow_add₀ (by norm_num)]

/-- A number under a division is of moderate size. -/
theorem minus_size {j : Nat} (hj : j ≤ 2 ^ 30) {x : ℝ} {a b : Nat → ℝ} (hx : |x| ≤ (2 : ℝ) ^ (430 : ℤ)) (h : ∀ k < j, |a k * b k| ≤ (2 : ℝ) ^ (400 : ℤ)) {v : Fl}
    (hv : IsMinus A (.fin x) ((List.range j).map fun k => (.fin (a k), .fin (b k))) v) : ∃ w, v = .fin w ∧ |w| ≤ (2 : ℝ) ^ (440 : ℤ) := by
  obtain ⟨w, rfl, -, hw⟩ := minus_acc A (by omega) (sizes (by omega) (hx.trans (zpow_le_zpow_right₀ (by norm_num) (by norm_num))) fun k hk =>
    (h k hk).trans (zpow_le_zpow_right₀ (by norm_num) (by norm_num))) hv
  refine ⟨w, rfl, ?_⟩
  have h1 := range_terms hj h
  rw [show (30 : ℤ) + 400 = 430 by norm_num] at h1
  have h2 : |∑ k ∈ Finset.range j, a k * b k| ≤ (2 : ℝ) ^ (430 : ℤ) := (Finset.abs_sum_le_sum_abs _ _).trans h1
  have h4 : (2 : ℝ) ^ (440 : ℤ) = 1024 * (2 : ℝ) ^ (430 : ℤ) := by
    rw [show (1024 : ℝ) = (2 : ℝ) ^ (10 : ℤ) by norm_num, ← zpow_add₀ (by norm_num)]
    congr 1
  have h5 : (1 : ℝ) ≤ (2 : ℝ) ^ (430 : ℤ) := one_le_zpow₀ (by norm_num) (by norm_num)
  have h6 : ((j : ℝ) + 1) * eps ≤ 1 := by
    refine eps_small ?_
    have : j + 1 ≤ 2 ^ 45 := by omega
    exact_mod_cast this
  have h7 : 4 * ((j : ℝ) + 1) * tiny ≤ 4 := by
    have e1 := tiny_small
    have e2 : ((j : ℝ) + 1) ≤ 2 ^ 60 := by
      have : j + 1 ≤ 2 ^ 60 := by omega
      exact_mod_cast this
    have e3 := mul_le_mul_of_nonneg_right e2 tiny_pos.le
    linarith
  obtain ⟨P, hP⟩ : ∃ P, P = ∑ k ∈ Finset.range j, a k * b k := ⟨_, rfl⟩
  obtain ⟨PA, hPA⟩ : ∃ P, P = ∑ k ∈ Finset.range j, |a k * b k| := ⟨_, rfl⟩
  have hPA0 : 0 ≤ PA := by rw [hPA]; exact Finset.sum_nonneg fun _ _ => abs_nonneg _
  rw [← hP, ← hPA] at hw
  rw [← hP] at h2
  rw [← hPA] at h1
  rw [h4]
  have h8 : ((j : ℝ) + 1) * eps * (|x| + PA) ≤ 1 * (|x| + PA) := mul_le_mul_of_nonneg_right h6 (by positivity)
  have h9 : |w| ≤ |w - (x - P)| + (|x| + |P|) := by
    have := abs_add_le (w - (x - P)) (x - P)
    rw [sub_add_cancel] at this
    exact this.trans (add_le_add le_rfl (abs_sub _ _))
  clear h4 hP hPA hv h
  generalize (2 : ℝ) ^ (430 : ℤ) = V at *
  linarith

/-- The errors of the first system. -/
theorem forward_err (hn : n ≤ 2 ^ 30) {m : Nat} (hm : m ≤ n) (hg : ∀ i < n, GoodRow F f i) {b y : Nat → Fl} {bv yv : Nat → ℝ}
    (hb : ∀ i < n, b i = .fin (bv i)) (hb1 : ∀ i < n, |bv i| ≤ (2 : ℝ) ^ (300 : ℤ)) (h : IsForward A n F b y) (hy : ∀ k < m, y k = .fin (yv k))
    (hy1 : ∀ k, k + 1 < m → |yv k| ≤ (2 : ℝ) ^ (180 : ℤ)) (l : Fin m) :
    |(lowMat f m *ᵥ fun k => yv k) l - bv l| ≤ 3 * unitErr n * (∑ k : Fin m, |lowMat f m l k * yv k|) + 2 * (2 : ℝ) ^ (-600 : ℤ) := by
  have hl := l.isLt
  obtain ⟨v, hv, hq⟩ := h l (by omega)
  have hgl := hg l (by omega)
  rw [hb l (by omega)] at hv
  rw [hgl.fin l le_rfl, hy l hl] at hq
  have e : (List.range l).map (fun k => (F l k, y k)) = (List.range l).map fun k => (.fin (f l k), .fin (yv k)) :=
    List.map_congr_left fun k hk => by
      have := List.mem_range.1 hk
      rw [hgl.fin k this.le, hy k (by omega)]
  rw [e] at hv
  have key := entry_err A (n := n) (by omega) hn (fun k hk => ?_) ((hb1 l (by omega)).trans (zpow_le_zpow_right₀ (by norm_num) (by norm_num))) hgl.low
    (((le_abs_self _).trans (hgl.size l le_rfl)).trans (zpow_le_zpow_right₀ (by norm_num) (by norm_num))) hv hq
  · have e1 : (lowMat f m *ᵥ fun k => yv k) l = (∑ k ∈ Finset.range l, f l k * yv k) + yv l * f l l := by
      rw [mul_comm (yv l), ← Finset.sum_range_succ (fun k => f l k * yv k), ← fin_sum_le l fun k => f l k * yv k]
      simp only [mulVec, dotProduct]
      refine Finset.sum_congr rfl fun k _ => ?_
      unfold lowMat
      split <;> simp
    have e2 : ∑ k : Fin m, |lowMat f m l k * yv k| = (∑ k ∈ Finset.range l, |f l k * yv k|) + |yv l * f l l| := by
      rw [mul_comm (yv l), ← Finset.sum_range_succ (fun k => |f l k * yv k|), ← fin_sum_le l fun k => |f l k * yv k|]
      refine Finset.sum_congr rfl fun k _ => ?_
      unfold lowMat
      split <;> simp
    rw [e1, e2]
    exact key
  · rw [abs_mul]
    refine (mul_le_mul (hgl.size k hk.le) (hy1 k (by omega)) (abs_nonneg _) (by positivity)).trans ?_
    rw [← zpow_add₀ (by norm_num)]
    exact zpow_le_zpow_right₀ (by norm_num) (by norm_num)

theorem root_high {x : ℝ} (h : x ≤ (2 : ℝ) ^ (400 : ℤ)) : Real.sqrt x ≤ (2 : ℝ) ^ (200 : ℤ) := by
  rw [Real.sqrt_le_left (by positivity)]
  refine h.trans (le_of_eq ?_)
  rw [sq, ← zpow_add₀ (by norm_num)]
  congr 1

theorem two_cut {x : ℝ} (h : x ≤ (2 : ℝ) ^ (73 : ℤ)) : 2 * ((2 : ℝ) ^ (100 : ℤ) * x) + floor ≤ (2 : ℝ) ^ (180 : ℤ) := by
  have h1 := mul_le_mul_of_nonneg_left h (by positivity : (0 : ℝ) ≤ (2 : ℝ) ^ (100 : ℤ))
  rw [← zpow_add₀ (by norm_num), show (100 : ℤ) + 73 = 173 by norm_num] at h1
  have h2 : floor ≤ (2 : ℝ) ^ (173 : ℤ) := zpow_le_zpow_right₀ (by norm_num) (by norm_num)
  have h3 : (2 : ℝ) ^ (180 : ℤ) = 128 * (2 : ℝ) ^ (173 : ℤ) := by
    rw [show (128 : ℝ) = (2 : ℝ) ^ (7 : ℤ) by norm_num, ← zpow_add₀ (by norm_num)]
    congr 1
  have h4 : (0 : ℝ) < (2 : ℝ) ^ (173 : ℤ) := by positivity
  rw [h3]
  generalize (2 : ℝ) ^ (173 : ℤ) = V at *
  generalize (2 : ℝ) ^ (100 : ℤ) * x = W at *
  linarith

/-- The numbers of the first system are finite. -/
theorem forward_ok (hn : n ≤ 2 ^ 30) (h0 : 0 < n) (hS : IsSigma n S X) (hμ : 256 * n ^ 2 * eps ≤ μ) (hX : (X - μ • diagonal X.diag).PosSemidef)
    (hF : IsFactor A n S F) (hf : ∀ j k, f j k = val (F j k)) {b y : Nat → Fl} {bv yv : Nat → ℝ} (hb : ∀ i < n, b i = .fin (bv i))
    (hb1 : ∀ i : Fin n, |bv i| ≤ (2 : ℝ) ^ (100 : ℤ) * Real.sqrt (X i i)) (h : IsForward A n F b y) (hyv : ∀ k, yv k = val (y k)) :
    ∀ m ≤ n, (∀ k < m, y k = .fin (yv k)) ∧ CholReal.nrm (fun k : Fin m => yv k) ≤ (2 : ℝ) ^ (180 : ℤ) := by
  obtain ⟨hg, -⟩ := rows_good A hn hS le_rfl hF hf
  have hb2 : ∀ i < n, |bv i| ≤ (2 : ℝ) ^ (300 : ℤ) := by
    intro i hi
    refine (hb1 ⟨i, hi⟩).trans ((mul_le_mul_of_nonneg_left (root_high (hS.high _)) (by positivity)).trans (le_of_eq ?_))
    rw [← zpow_add₀ (by norm_num)]
    congr 1
  intro m
  induction m with
  | zero =>
    intro _
    refine ⟨fun k hk => absurd hk (by omega), ?_⟩
    simp only [CholReal.nrm, Finset.univ_eq_empty, Finset.sum_empty, Real.sqrt_zero]
    positivity
  | succ j ih =>
    intro hj
    obtain ⟨ih1, ih2⟩ := ih (by omega)
    have hsize : ∀ k < j, |yv k| ≤ (2 : ℝ) ^ (180 : ℤ) := fun k hk => (CholReal.abs_le_nrm (fun k : Fin j => yv k) ⟨k, hk⟩).trans ih2
    have hgj := hg j hj
    have hfin : ∃ q, y j = .fin q := by
      obtain ⟨v, hv, hq⟩ := h j hj
      rw [hb j hj] at hv
      have e : (List.range j).map (fun k => (F j k, y k)) = (List.range j).map fun k => (.fin (f j k), .fin (yv k)) :=
        List.map_congr_left fun k hk => by
          have := List.mem_range.1 hk
          rw [hgj.fin k this.le, ih1 k this]
      rw [e] at hv
      obtain ⟨w, rfl, hw⟩ := minus_size A (by omega) ((hb2 j hj).trans (zpow_le_zpow_right₀ (by norm_num) (by norm_num))) (fun k hk => by
        rw [abs_mul]
        refine (mul_le_mul (hgj.size k hk.le) (hsize k hk) (abs_nonneg _) (by positivity)).trans ?_
        rw [← zpow_add₀ (by norm_num)]
        exact zpow_le_zpow_right₀ (by norm_num) (by norm_num)) hv
      rw [hgj.fin j le_rfl] at hq
      exact quot_fin A hw hgj.low hq
    have hall : ∀ k < j + 1, y k = .fin (yv k) := by
      intro k hk
      rcases Nat.lt_or_eq_of_le (Nat.lt_succ_iff.1 hk) with h | rfl
      · exact ih1 k h
      · obtain ⟨q, hq⟩ := hfin
        rw [hyv, hq]
        rfl
    refine ⟨hall, ?_⟩
    have C := close_of A hn h0 hS hμ hX hj (fun l hl => hF l (by omega)) hf
    have h1 := forward_err A hn hj hg hb hb2 h hall fun k hk => hsize k (by omega)
    have h2 := C.first (b := fun l : Fin (j + 1) => bv l) floor_pos.le (fun i => floor_err n (root_low (hS.low _))) h1
    have h3 := C.first_size (β := (2 : ℝ) ^ (100 : ℤ)) (by positivity) (fun i => hb1 (i.castLE hj)) floor_pos.le h2
    exact h3.trans (two_cut (ratio_le hn h0 hμ hj))

/-! ## The second triangular system -/

/-- The columns of a triangle. -/
theorem back_sum (f : Nat → Nat → ℝ) (i : Fin n) (g : Nat → ℝ) (G : ℝ → ℝ) (hG : G 0 = 0) :
    ∑ k : Fin n, G (lowMat f n k i * g k) = (∑ k ∈ Finset.range (n - 1 - i), G (f (i + 1 + k) i * g (i + 1 + k))) + G (g i * f i i) := by
  have hi := i.isLt
  have e1 : ∑ k : Fin n, G (lowMat f n k i * g k) = ∑ k ∈ Finset.range n, if i.val ≤ k then G (f k i * g k) else 0 := by
    rw [Finset.sum_range]
    refine Finset.sum_congr rfl fun k _ => ?_
    unfold lowMat
    simp only [Fin.le_def]
    split
    · rfl
    · rw [zero_mul, hG]
  have e2 : n = (i + 1) + (n - 1 - i) := by omega
  rw [e1, show Finset.range n = Finset.range ((i + 1) + (n - 1 - i)) from congrArg Finset.range e2]
  rw [Finset.sum_range_add, Finset.sum_range_succ, if_pos le_rfl, Finset.sum_eq_zero, zero_add, add_comm, mul_comm (f i i)]
  · congr 1
    exact Finset.sum_congr rfl fun k _ => if_pos (by omega)
  · intro k hk
    exact if_neg (by have := Finset.mem_range.1 hk; omega)

/-- A triangular system has one solution. -/
theorem tri_unique {G : Matrix (Fin n) (Fin n) ℝ} (hG : CholReal.Low G) {u : Fin n → ℝ} {j : Nat} (h : ∀ i : Fin n, j ≤ i → (Gᵀ *ᵥ u) i = 0) :
    ∀ d, ∀ i : Fin n, n - d ≤ i → j ≤ i → u i = 0 := by
  intro d
  induction d with
  | zero => intro i hi _; exact absurd i.isLt (by omega)
  | succ d ih =>
    intro i hi hj
    by_cases h1 : n - d ≤ i
    · exact ih i h1 hj
    have h2 := h i hj
    simp only [mulVec, dotProduct, transpose_apply] at h2
    rw [Finset.sum_eq_single i] at h2
    · exact (mul_eq_zero.1 h2).resolve_left (hG.pos i).ne'
    · intro k _ hk
      rcases lt_or_gt_of_ne hk with h3 | h3
      · rw [hG.zero k i h3, zero_mul]
      · have h4 : i.val < k.val := h3
        rw [ih k (by omega) (by omega), mul_zero]
    · simp

/-- Numbers at the end of a vector, continued so that the system has zeros at its beginning. -/
theorem continued {G : Matrix (Fin n) (Fin n) ℝ} (hG : CholReal.Low G) (z : Fin n → ℝ) (j : Nat) :
    ∃ z' : Fin n → ℝ, (∀ i : Fin n, j ≤ i → z' i = z i) ∧ ∀ i : Fin n, i < j → (Gᵀ *ᵥ z') i = 0 := by
  have huT : IsUnit Gᵀ.det := by rw [det_transpose]; exact hG.unit
  obtain ⟨g, hg⟩ : ∃ g : Fin n → ℝ, g = fun i : Fin n => if j ≤ i.val then (Gᵀ *ᵥ z) i else 0 := ⟨_, rfl⟩
  have e : Gᵀ *ᵥ ((Gᵀ)⁻¹ *ᵥ g) = g := by rw [mulVec_mulVec, mul_nonsing_inv _ huT, one_mulVec]
  refine ⟨(Gᵀ)⁻¹ *ᵥ g, fun i hi => ?_, fun i hi => ?_⟩
  · have h := tri_unique hG (u := (Gᵀ)⁻¹ *ᵥ g - z) (j := j) (fun i hi => by
      rw [mulVec_sub, e, Pi.sub_apply, hg]
      simp only [if_pos hi, sub_self]) n i (by omega) hi
    rw [Pi.sub_apply] at h
    linarith
  · rw [e, hg]
    exact if_neg (by omega)

/-- `z` in the second system. -/
def IsBackward (A : Arith) (n : Nat) (F : Nat → Nat → Fl) (y z : Nat → Fl) : Prop :=
  ∀ i < n, ∃ v, IsMinus A (y i) ((List.range (n - 1 - i)).map fun k => (F (i + 1 + k) i, z (i + 1 + k))) v ∧ IsQuot A v (F i i) (z i)

/-- The errors of the second system. -/
theorem backward_err (hn : n ≤ 2 ^ 30) (hg : ∀ i < n, GoodRow F f i) {y z : Nat → Fl} {yv zv : Nat → ℝ} (hy : ∀ k < n, y k = .fin (yv k))
    (hy1 : ∀ k < n, |yv k| ≤ (2 : ℝ) ^ (180 : ℤ)) (h : IsBackward A n F y z) {j : Nat} (hz : ∀ k, j ≤ k → k < n → z k = .fin (zv k)) {l : Fin n}
    (hz1 : ∀ k : Fin n, l < k → |f k l * zv k| ≤ (2 : ℝ) ^ (400 : ℤ)) (hl : j ≤ l) :
    |((lowMat f n)ᵀ *ᵥ fun k => zv k) l - yv l| ≤ 3 * unitErr n * (∑ k : Fin n, |lowMat f n k l * zv k|) + 2 * (2 : ℝ) ^ (-600 : ℤ) := by
  have hln := l.isLt
  obtain ⟨v, hv, hq⟩ := h l hln
  have hgl := hg l hln
  rw [hy l hln] at hv
  rw [hgl.fin l le_rfl, hz l hl hln] at hq
  have e : (List.range (n - 1 - l)).map (fun k => (F (l + 1 + k) l, z (l + 1 + k))) = (List.range (n - 1 - l)).map fun k => (.fin (f (l + 1 + k) l), .fin (zv (l + 1 + k))) :=
    List.map_congr_left fun k hk => by
      have := List.mem_range.1 hk
      rw [(hg (l + 1 + k) (by omega)).fin l (by omega), hz (l + 1 + k) (by omega) (by omega)]
  rw [e] at hv
  have key := entry_err A (n := n) (by omega) hn (a := fun k => f (l + 1 + k) l) (b := fun k => zv (l + 1 + k)) (fun k hk => ?_)
    ((hy1 l hln).trans (zpow_le_zpow_right₀ (by norm_num) (by norm_num))) hgl.low
    (((le_abs_self _).trans (hgl.size l le_rfl)).trans (zpow_le_zpow_right₀ (by norm_num) (by norm_num))) hv hq
  · have e1 := back_sum f l zv id rfl
    have e2 := back_sum f l zv (fun x => |x|) abs_zero
    simp only [id] at e1
    have e3 : ((lowMat f n)ᵀ *ᵥ fun k => zv k) l = ∑ k : Fin n, lowMat f n k l * zv k := rfl
    rw [e3, e1, e2]
    exact key
  · exact (hz1 ⟨l + 1 + k, by omega⟩ (by simp only [Fin.lt_def]; omega)).trans (zpow_le_zpow_right₀ (by norm_num) (by norm_num))

theorem nrm_part (v : Fin n → ℝ) (p : Fin n → Prop) [DecidablePred p] : CholReal.nrm (fun i => if p i then v i else 0) ≤ CholReal.nrm v := by
  refine CholReal.nrm_le (CholReal.nrm_nonneg _) ?_
  rw [CholReal.sq_nrm]
  refine Finset.sum_le_sum fun i _ => ?_
  split
  · exact le_rfl
  · rw [zero_pow two_ne_zero]
    positivity

theorem back_cut {T r Y : ℝ} (hμ : (2 : ℝ) ^ (-43 : ℤ) ≤ μ) (hr : 0 ≤ r) (h : μ * r ≤ 3 / 2 * T) (hT : T ≤ 2 * (Y + floor)) (hY : Y ≤ (2 : ℝ) ^ (180 : ℤ)) : r ≤ (2 : ℝ) ^ (230 : ℤ) := by
  have h1 := (mul_le_mul_of_nonneg_right hμ hr).trans h
  have h2 : floor ≤ (2 : ℝ) ^ (180 : ℤ) := zpow_le_zpow_right₀ (by norm_num) (by norm_num)
  have h3 : (2 : ℝ) ^ (-43 : ℤ) * r ≤ 8 * (2 : ℝ) ^ (180 : ℤ) := by
    have h4 : (0 : ℝ) < (2 : ℝ) ^ (180 : ℤ) := by positivity
    generalize (2 : ℝ) ^ (180 : ℤ) = V at *
    generalize (2 : ℝ) ^ (-43 : ℤ) = W at *
    linarith
  have h5 : r = (2 : ℝ) ^ (43 : ℤ) * ((2 : ℝ) ^ (-43 : ℤ) * r) := by
    rw [← mul_assoc, ← zpow_add₀ (by norm_num)]
    norm_num
  rw [h5]
  refine (mul_le_mul_of_nonneg_left h3 (by positivity)).trans ?_
  rw [show (8 : ℝ) = (2 : ℝ) ^ (3 : ℤ) by norm_num, ← zpow_add₀ (by norm_num), ← zpow_add₀ (by norm_num)]
  exact zpow_le_zpow_right₀ (by norm_num) (by norm_num)

/-- The numbers of the second system are finite. -/
theorem backward_ok (hn : n ≤ 2 ^ 30) (h0 : 0 < n) (hS : IsSigma n S X) (hμ : 256 * n ^ 2 * eps ≤ μ) (hX : (X - μ • diagonal X.diag).PosSemidef)
    (hF : IsFactor A n S F) (hf : ∀ j k, f j k = val (F j k)) {y z : Nat → Fl} {yv zv : Nat → ℝ} (hy : ∀ i < n, y i = .fin (yv i))
    (hy1 : CholReal.nrm (fun k : Fin n => yv k) ≤ (2 : ℝ) ^ (180 : ℤ)) (h : IsBackward A n F y z) (hzv : ∀ k, zv k = val (z k)) :
    ∀ d, (∀ k, n - d ≤ k → k < n → z k = .fin (zv k)) ∧ ∀ i k : Fin n, n - d ≤ k → |f k i * zv k| ≤ (2 : ℝ) ^ (400 : ℤ) ∨ k < i := by
  obtain ⟨hg, -⟩ := rows_good A hn hS le_rfl hF hf
  have C := close_of A hn h0 hS hμ hX le_rfl hF hf
  have hy2 : ∀ k < n, |yv k| ≤ (2 : ℝ) ^ (180 : ℤ) := fun k hk => (CholReal.abs_le_nrm (fun k : Fin n => yv k) ⟨k, hk⟩).trans hy1
  intro d
  induction d with
  | zero => exact ⟨fun k h1 h2 => absurd h2 (by omega), fun i k hk => absurd k.isLt (by omega)⟩
  | succ d ih =>
    obtain ⟨ih1, ih2⟩ := ih
    rcases Nat.lt_or_ge d n with hd | hd
    swap
    · rw [show n - (d + 1) = n - d by omega]
      exact ⟨ih1, ih2⟩
    obtain ⟨i, hi⟩ : ∃ i, i = n - (d + 1) := ⟨_, rfl⟩
    have hin : i < n := by omega
    have hid : n - d = i + 1 := by omega
    rw [← hi]
    rw [hid] at ih1 ih2
    have hgi := hg i hin
    have hfin : ∃ q, z i = .fin q := by
      obtain ⟨v, hv, hq⟩ := h i hin
      rw [hy i hin] at hv
      have e : (List.range (n - 1 - i)).map (fun k => (F (i + 1 + k) i, z (i + 1 + k))) = (List.range (n - 1 - i)).map fun k => (.fin (f (i + 1 + k) i), .fin (zv (i + 1 + k))) :=
        List.map_congr_left fun k hk => by
          have := List.mem_range.1 hk
          rw [(hg (i + 1 + k) (by omega)).fin i (by omega), ih1 (i + 1 + k) (by omega) (by omega)]
      rw [e] at hv
      obtain ⟨w, rfl, hw⟩ := minus_size A (a := fun k => f (i + 1 + k) i) (b := fun k => zv (i + 1 + k)) (by omega)
        ((hy2 i hin).trans (zpow_le_zpow_right₀ (by norm_num) (by norm_num))) (fun k hk => by
          rcases ih2 ⟨i, hin⟩ ⟨i + 1 + k, by omega⟩ (by simp only; omega) with h | h
          · exact h
          · simp only [Fin.lt_def] at h
            omega) hv
      rw [hgi.fin i le_rfl] at hq
      exact quot_fin A hw hgi.low hq
    have hall : ∀ k, i ≤ k → k < n → z k = .fin (zv k) := by
      intro k hk hkn
      rcases Nat.lt_or_eq_of_le hk with h | rfl
      · exact ih1 k h hkn
      · obtain ⟨q, hq⟩ := hfin
        rw [hzv, hq]
        rfl
    refine ⟨hall, ?_⟩
    obtain ⟨z', hz1, hz2⟩ := continued C.low (fun k => zv k) i
    have key : ∀ l : Fin n, i ≤ l → ∀ (Q : ℝ → ℝ), Q 0 = 0 → ∑ k : Fin n, Q (lowMat f n k l * z' k) = ∑ k : Fin n, Q (lowMat f n k l * zv k) := by
      intro l hl Q hQ
      refine Finset.sum_congr rfl fun k _ => ?_
      rcases lt_or_ge k l with hkl | hkl
      · rw [C.low.zero k l hkl, zero_mul, zero_mul]
      · rw [hz1 k (by have : l.val ≤ k.val := hkl; omega)]
    have h2 := C.second (y := fun k => if i ≤ k.val then yv k else 0) (z := z') (w := (2 : ℝ) ^ (-600 : ℤ)) floor_pos.le (floor_err' n) fun l => by
      by_cases hl : i ≤ l.val
      · simp only [if_pos hl]
        have e1 : ((lowMat f n)ᵀ *ᵥ z') l = ((lowMat f n)ᵀ *ᵥ fun k => zv k) l := key l hl id rfl
        rw [e1, key l hl (fun x => |x|) abs_zero]
        refine backward_err A hn hg hy hy2 h hall (fun k hk => ?_) hl
        rcases ih2 l k (by have : l.val < k.val := hk; omega) with h | h
        · exact h
        · exact absurd hk (not_lt.2 h.le)
      · simp only [if_neg hl]
        rw [hz2 l (by omega), sub_zero, abs_zero]
        have := (unitErr_small hn).1
        positivity
    have h3 := (nrm_part (fun k : Fin n => yv k) fun k => i ≤ k.val).trans hy1
    have h4 := back_cut (mu_low h0 hμ) (CholReal.nrm_nonneg _) (C.wt_le' z') h2.2 h3
    intro l k hk
    rcases lt_or_ge k l with hkl | hkl
    · exact .inr hkl
    left
    have h5 := (CholReal.abs_le_nrm _ k).trans h4
    rw [CholReal.wt, hz1 k hk, abs_mul, abs_of_pos (C.spos k)] at h5
    have h6 := C.entry k l
    rw [lowMat, if_pos hkl] at h6
    rw [abs_mul]
    have h7 := mul_le_mul_of_nonneg_right h6 (abs_nonneg (zv k))
    refine h7.trans ?_
    have h8 : (2 : ℝ) ^ (400 : ℤ) = 4 * (2 : ℝ) ^ (398 : ℤ) := by
      rw [show (4 : ℝ) = (2 : ℝ) ^ (2 : ℤ) by norm_num, ← zpow_add₀ (by norm_num)]
      congr 1
    have h9 : (2 : ℝ) ^ (230 : ℤ) ≤ (2 : ℝ) ^ (398 : ℤ) := zpow_le_zpow_right₀ (by norm_num) (by norm_num)
    have h10 : (0 : ℝ) < (2 : ℝ) ^ (398 : ℤ) := by positivity
    have h11 := h5.trans h9
    rw [h8]
    refine le_trans (le_of_eq (mul_assoc _ _ _)) (le_trans (mul_le_mul_of_nonneg_left h11 (by norm_num)) ?_)
    clear h8
    generalize (2 : ℝ) ^ (398 : ℤ) = V at *
    linarith

/-! ## The quadratic form -/

theorem quad_cut {n : Nat} {H r Q s d q : ℝ} (hn : n ≤ 2 ^ 30) (hr : r = n ^ 2 * eps / μ) (hr1 : r ≤ 1 / 256) (hμ : 0 < μ) (hH : H ^ 2 = Q) (hH0 : 0 ≤ H) {k : ℝ} (hk : k ≤ 6 * r)
    (h1 : |d - Q| ≤ 100 * k * (H * (H + floor))) (h2 : s ≤ 12 * (n / μ) * (H * (H + floor))) (h3 : |q - d| ≤ n * eps * s + n * 4 * tiny) :
    |q - Q| ≤ 1300 * r * Q + (2 : ℝ) ^ (-600 : ℤ) := by
  have he := eps_pos
  have ha := floor_pos
  have hr0 : 0 ≤ r := by rw [hr]; positivity
  have hW0 : 0 ≤ H * (H + floor) := by positivity
  have hW : H * (H + floor) ≤ 2 * Q + floor ^ 2 := by
    rw [← hH]
    nlinarith [sq_nonneg (H - floor)]
  have g1 := mul_le_mul_of_nonneg_right (mul_le_mul_of_nonneg_left hk (by norm_num : (0 : ℝ) ≤ 100)) hW0
  have g2 := mul_le_mul_of_nonneg_left h2 (by positivity : 0 ≤ n * eps)
  have g3 : n * eps * (12 * (n / μ) * (H * (H + floor))) = 12 * r * (H * (H + floor)) := by rw [hr]; ring
  have g4 := mul_le_mul_of_nonneg_left hW hr0
  have g5 := mul_le_mul_of_nonneg_right hr1 (sq_nonneg floor)
  have g6 : 612 / 256 * floor ^ 2 + n * 4 * tiny ≤ (2 : ℝ) ^ (-600 : ℤ) := by
    have e1 : floor ^ 2 = (2 : ℝ) ^ (-696 : ℤ) := by
      rw [floor, sq, ← zpow_add₀ (by norm_num)]
      congr 1
    have e2 : (n : ℝ) * tiny ≤ (2 : ℝ) ^ (-696 : ℤ) := by
      have : (n : ℝ) ≤ (2 : ℝ) ^ (30 : ℤ) := by exact_mod_cast hn
      rw [tiny_zpow]
      refine (mul_le_mul_of_nonneg_right this (by positivity)).trans ?_
      rw [← zpow_add₀ (by norm_num)]
      exact zpow_le_zpow_right₀ (by norm_num) (by norm_num)
    have e3 : (2 : ℝ) ^ (-600 : ℤ) = (2 : ℝ) ^ (96 : ℤ) * (2 : ℝ) ^ (-696 : ℤ) := by
      rw [← zpow_add₀ (by norm_num)]
      congr 1
    have e4 : (2 : ℝ) ^ (10 : ℤ) ≤ (2 : ℝ) ^ (96 : ℤ) := zpow_le_zpow_right₀ (by norm_num) (by norm_num)
    have e5 : (2 : ℝ) ^ (10 : ℤ) = 1024 := by norm_num
    rw [e5] at e4
    have e6 : (0 : ℝ) < (2 : ℝ) ^ (-696 : ℤ) := by positivity
    have e7 := mul_le_mul_of_nonneg_right e4 e6.le
    rw [e3, e1]
    generalize (2 : ℝ) ^ (-696 : ℤ) = V at *
    generalize (2 : ℝ) ^ (96 : ℤ) * V = V' at *
    linarith
  have g7 : |q - Q| ≤ |q - d| + |d - Q| := by
    have := abs_add_le (q - d) (d - Q)
    rwa [sub_add_sub_cancel] at this
  have g8 : 0 ≤ r * Q := mul_nonneg hr0 (by rw [← hH]; positivity)
  generalize (2 : ℝ) ^ (-600 : ℤ) = V at *
  generalize H * (H + floor) = W at *
  linarith

/-- The quadratic form, and its size. -/
theorem quad_acc (hn : n ≤ 2 ^ 30) (h0 : 0 < n) (hS : IsSigma n S X) (hμ : 256 * n ^ 2 * eps ≤ μ) (hX : (X - μ • diagonal X.diag).PosSemidef)
    (hF : IsFactor A n S F) {b z : Nat → Fl} {bv : Fin n → ℝ} (hb : ∀ i : Fin n, b i = .fin (bv i))
    (hb1 : ∀ i : Fin n, |bv i| ≤ (2 : ℝ) ^ (100 : ℤ) * Real.sqrt (X i i)) (hz : IsCholSolve A n F b z) {v : Fl} (hv : IsDot A ((List.range n).map fun i => (b i, z i)) v) :
    0 ≤ bv ⬝ᵥ (X⁻¹ *ᵥ bv) ∧ bv ⬝ᵥ (X⁻¹ *ᵥ bv) ≤ (2 : ℝ) ^ (346 : ℤ) ∧
    ∃ q, v = .fin q ∧ |q - bv ⬝ᵥ (X⁻¹ *ᵥ bv)| ≤ 1300 * (n ^ 2 * eps / μ) * (bv ⬝ᵥ (X⁻¹ *ᵥ bv)) + (2 : ℝ) ^ (-600 : ℤ) := by
  obtain ⟨f, hf⟩ : ∃ f : Nat → Nat → ℝ, ∀ j k, f j k = val (F j k) := ⟨fun j k => val (F j k), fun _ _ => rfl⟩
  obtain ⟨y, hy, hz⟩ := hz
  have C := close_of A hn h0 hS hμ hX le_rfl hF hf
  have eX : X.submatrix (Fin.castLE le_rfl) (Fin.castLE le_rfl) = X := rfl
  rw [eX] at C
  have es : (fun i : Fin n => Real.sqrt (X (i.castLE le_rfl) (i.castLE le_rfl))) = fun i => Real.sqrt (X i i) := rfl
  rw [es] at C
  obtain ⟨hg, -⟩ := rows_good A hn hS le_rfl hF hf
  obtain ⟨g, hgv⟩ : ∃ g : Nat → ℝ, g = fun i => val (b i) := ⟨_, rfl⟩
  have hgb : ∀ i : Fin n, g i = bv i := fun i => by rw [hgv]; simp only; rw [hb i]; rfl
  have hb' : ∀ i < n, b i = .fin (g i) := fun i hi => by rw [hgb ⟨i, hi⟩]; exact hb ⟨i, hi⟩
  have hb1' : ∀ i : Fin n, |g i| ≤ (2 : ℝ) ^ (100 : ℤ) * Real.sqrt (X i i) := fun i => by rw [hgb i]; exact hb1 i
  obtain ⟨yv, hyv⟩ : ∃ yv : Nat → ℝ, ∀ k, yv k = val (y k) := ⟨fun k => val (y k), fun _ => rfl⟩
  obtain ⟨zv, hzv⟩ : ∃ zv : Nat → ℝ, ∀ k, zv k = val (z k) := ⟨fun k => val (z k), fun _ => rfl⟩
  obtain ⟨f1, f2⟩ := forward_ok A hn h0 hS hμ hX hF hf hb' hb1' hy hyv n le_rfl
  obtain ⟨k1, k2⟩ := backward_ok A hn h0 hS hμ hX hF hf f1 f2 hz hzv n
  rw [Nat.sub_self] at k1 k2
  have hy2 : ∀ k < n, |yv k| ≤ (2 : ℝ) ^ (180 : ℤ) := fun k hk => (CholReal.abs_le_nrm (fun k : Fin n => yv k) ⟨k, hk⟩).trans f2
  have hb2 : ∀ i < n, |g i| ≤ (2 : ℝ) ^ (300 : ℤ) := by
    intro i hi
    refine (hb1' ⟨i, hi⟩).trans ((mul_le_mul_of_nonneg_left (root_high (hS.high _)) (by positivity)).trans (le_of_eq ?_))
    rw [← zpow_add₀ (by norm_num)]
    congr 1
  have e1 := forward_err A hn le_rfl hg hb' hb2 hy f1 fun k hk => hy2 k (by omega)
  have e2 : ∀ l : Fin n, |((lowMat f n)ᵀ *ᵥ fun k => zv k) l - yv l| ≤ 3 * unitErr n * (∑ k : Fin n, |lowMat f n k l * zv k|) + 2 * (2 : ℝ) ^ (-600 : ℤ) := fun l =>
    backward_err A hn hg f1 hy2 hz k1 (fun k hk => (k2 l k (Nat.zero_le _)).resolve_right (not_lt.2 hk.le)) (Nat.zero_le _)
  have hPD := pos_def hn h0 hS hμ hX
  have hXu : IsUnit X.det := isUnit_iff_ne_zero.2 hPD.det_pos.ne'
  obtain ⟨x, hx⟩ : ∃ x, x = X⁻¹ *ᵥ bv := ⟨_, rfl⟩
  have hXx : X *ᵥ x = bv := by rw [hx, mulVec_mulVec, mul_nonsing_inv _ hXu, one_mulVec]
  have hsym : Xᵀ = X := by ext i j; rw [transpose_apply, hS.symm]
  have eb : (fun l : Fin n => g l) = bv := funext hgb
  obtain ⟨s1, s2⟩ := C.solve (b := bv) (y := fun k => yv k) (z := fun k => zv k) (x := x) hsym hXx floor_pos.le (fun i => floor_err n (root_low (hS.low _))) (floor_err' n)
    (fun i => by rw [← hgb i]; exact e1 i) e2
  rw [← hx]
  have hQ : bv ⬝ᵥ x = x ⬝ᵥ bv := dotProduct_comm _ _
  have hQ0 : 0 ≤ x ⬝ᵥ bv := by
    have := C.form_nonneg x
    rwa [hXx] at this
  rw [hQ]
  have hμ0 := C.μ0
  obtain ⟨H, hH⟩ : ∃ H, H = Real.sqrt (x ⬝ᵥ bv) := ⟨_, rfl⟩
  have hH0 : 0 ≤ H := by rw [hH]; exact Real.sqrt_nonneg _
  have hH2 : H ^ 2 = x ⬝ᵥ bv := by rw [hH, Real.sq_sqrt hQ0]
  rw [← hH] at s1 s2
  have hQs : x ⬝ᵥ bv ≤ (2 : ℝ) ^ (346 : ℤ) := by
    have t1 := (le_abs_self _).trans (C.weighted_dot x (by positivity) hb1)
    have t2 := C.wt_exact x
    rw [hXx, ← hH] at t2
    have t3 : CholReal.nrm (CholReal.wt (fun i => Real.sqrt (X i i)) x) ≤ H / μ := by
      rw [le_div_iff₀ hμ0]
      have := mul_le_mul_of_nonneg_right C.root.1 (CholReal.nrm_nonneg (CholReal.wt (fun i => Real.sqrt (X i i)) x))
      linarith
    have t4 := mul_le_mul (CholReal.root_le n) t3 (CholReal.nrm_nonneg _) (Nat.cast_nonneg n)
    have t5 := t1.trans (mul_le_mul_of_nonneg_left t4 (by positivity))
    have t6 : (2 : ℝ) ^ (100 : ℤ) * (n * (H / μ)) = ((2 : ℝ) ^ (100 : ℤ) * (n / μ)) * H := by ring
    rw [t6, ← hH2, sq] at t5
    have t7 : H ≤ (2 : ℝ) ^ (100 : ℤ) * (n / μ) := by
      rcases hH0.eq_or_lt with h | h
      · rw [← h]; positivity
      · exact le_of_mul_le_mul_right t5 h
    have t8 := t7.trans (mul_le_mul_of_nonneg_left (ratio_le hn h0 hμ le_rfl) (by positivity))
    rw [← hH2]
    refine (pow_le_pow_left₀ hH0 t8 2).trans (le_of_eq ?_)
    rw [sq, ← zpow_add₀ (by norm_num), ← zpow_add₀ (by norm_num)]
    congr 1
  refine ⟨hQ0, hQs, ?_⟩
  -- The product.
  have hl : (List.range n).map (fun i => (b i, z i)) = (List.range n).map fun i => (Fl.fin (g i), Fl.fin (zv i)) :=
    List.map_congr_left fun i hi => by
      have := List.mem_range.1 hi
      rw [hb' i this, k1 i (Nat.zero_le _) this]
  rw [hl] at hv
  have hlen : ((List.range n).map fun i => (g i * zv i, |g i * zv i|)).length = n := by simp
  have t1 : (total ((List.range n).map fun i => (g i * zv i, |g i * zv i|))).1 = bv ⬝ᵥ fun k : Fin n => zv k := by
    simp only [total, List.map_map]
    refine (range_sum (fun i => g i * zv i) n).trans ?_
    rw [Finset.sum_range]
    exact Finset.sum_congr rfl fun i _ => by rw [hgb i]
  have t2 : (total ((List.range n).map fun i => (g i * zv i, |g i * zv i|))).2 = ∑ i : Fin n, |bv i * zv i| := by
    simp only [total, List.map_map]
    refine (range_sum (fun i => |g i * zv i|) n).trans ?_
    rw [Finset.sum_range]
    exact Finset.sum_congr rfl fun i _ => by rw [hgb i]
  have hnR : (n : ℝ) ≤ 1073741824 := by
    norm_num at hn
    exact_mod_cast hn
  have hsum : ∑ i : Fin n, |bv i * zv i| ≤ (2 : ℝ) ^ (990 : ℤ) := by
    refine s2.trans ?_
    have u1 : H ≤ (2 : ℝ) ^ (173 : ℤ) := by
      rw [hH]
      rw [Real.sqrt_le_left (by positivity)]
      refine hQs.trans (le_of_eq ?_)
      rw [sq, ← zpow_add₀ (by norm_num)]
      congr 1
    have u2 : floor ≤ (2 : ℝ) ^ (173 : ℤ) := zpow_le_zpow_right₀ (by norm_num) (by norm_num)
    have u3 : H + floor ≤ (2 : ℝ) ^ (174 : ℤ) := by
      rw [show (174 : ℤ) = 1 + 173 by norm_num, zpow_add₀ (by norm_num), zpow_one]
      linarith
    have u4 := mul_le_mul u1 u3 (by have := floor_pos; positivity) (by positivity)
    have u5 := ratio_le hn h0 hμ le_rfl
    have u6 : 12 * (n / μ) ≤ (2 : ℝ) ^ (4 : ℤ) * (2 : ℝ) ^ (73 : ℤ) := mul_le_mul (by norm_num) u5 (by positivity) (by positivity)
    refine (mul_le_mul u6 u4 (by have := floor_pos; positivity) (by positivity)).trans ?_
    rw [← zpow_add₀ (by norm_num), ← zpow_add₀ (by norm_num), ← zpow_add₀ (by norm_num)]
    exact zpow_le_zpow_right₀ (by norm_num) (by norm_num)
  obtain ⟨q, e, acc⟩ := dot_acc A (k := 0) (m := 0) (by norm_num) (by norm_num)
    (forall₂_maps (g := fun i => (g i * zv i, |g i * zv i|)) fun i _ => ⟨g i, zv i, rfl, by simp, le_rfl⟩) (by rw [hlen]; norm_num; linarith) (by rw [hlen]; norm_num; linarith)
    (by rw [t2]; exact hsum) hv
  refine ⟨q, e, ?_⟩
  have h3 := acc.err
  rw [t1, t2, hlen, zero_add, zero_add] at h3
  have he := eps_pos
  have r1 : n ^ 2 * eps / μ ≤ 1 / 256 := by
    rw [div_le_iff₀ hμ0]
    linarith
  have r2 : unitErr n * n / μ ≤ 6 * (n ^ 2 * eps / μ) := by
    have := div_le_div_of_nonneg_right (mul_le_mul_of_nonneg_right (n_err h0) (Nat.cast_nonneg n : (0 : ℝ) ≤ n)) hμ0.le
    refine this.trans (le_of_eq ?_)
    ring
  exact quad_cut hn rfl r1 hμ0 hH2 hH0 r2 s1 s2 h3

/-- C150: `np.dot(TNr, expval)` for the solution `expval` of `Sigma expval = TNr`, with `TNr` of moderate size against `Sigma`. -/
theorem C150_quadratic (hn : n ≤ 2 ^ 30) (h0 : 0 < n) (hS : IsSigma n S X) (hμ : 256 * n ^ 2 * (2 : ℝ) ^ (-51 : ℤ) ≤ μ) (hX : (X - μ • diagonal X.diag).PosSemidef)
    (hF : IsChol A n S (some F)) {b z : Nat → Fl} {bv : Fin n → ℝ} (hb : ∀ i : Fin n, b i = .fin (bv i))
    (hb1 : ∀ i : Fin n, |bv i| ≤ (2 : ℝ) ^ (100 : ℤ) * Real.sqrt (X i i)) (hz : IsCholSolve A n F b z) {v : Fl} (hv : IsDot A ((List.range n).map fun i => (b i, z i)) v) :
    ∃ q, v = .fin q ∧ |q - bv ⬝ᵥ (X⁻¹ *ᵥ bv)| ≤ 1300 * (n ^ 2 * (2 : ℝ) ^ (-51 : ℤ) / μ) * (bv ⬝ᵥ (X⁻¹ *ᵥ bv)) + (2 : ℝ) ^ (-600 : ℤ) :=
  (quad_acc A hn h0 hS hμ hX hF hb hb1 hz hv).2.2

/-! ## The likelihood -/

/-- The numbers of a pulsar, as real numbers: `Sigma`, `TNr` and `logdet_phi`. -/
structure RealGp where
  n : Nat
  X : Matrix (Fin n) (Fin n) ℝ
  b : Fin n → ℝ
  l : ℝ

/-- The term of the pulsar in the log-likelihood. -/
noncomputable def RealGp.term (d : RealGp) : ℝ := 1 / 2 * (d.b ⬝ᵥ (d.X⁻¹ *ᵥ d.b) - Real.log d.X.det - d.l)

/-- The size of the numbers in it. -/
noncomputable def RealGp.size (d : RealGp) : ℝ := d.b ⬝ᵥ (d.X⁻¹ *ᵥ d.b) + 750 * d.n + |d.l|

/-- The floating-point numbers of a pulsar with no more than `N` coefficients: `Sigma` has the relative distance `μ` from singular matrices, and `TNr` is of moderate size. -/
structure Gives (N : Nat) (μ : ℝ) (p : Gp) (d : RealGp) : Prop where
  n : p.n = d.n
  pos : 0 < d.n
  le : d.n ≤ N
  all : ∀ i < d.n, ∀ j < d.n, (p.sigma i j).Finite
  sigma : IsSigma d.n p.sigma d.X
  margin : (d.X - μ • diagonal d.X.diag).PosSemidef
  tnr : ∀ i : Fin d.n, p.tnr i = .fin (d.b i)
  small : ∀ i : Fin d.n, |d.b i| ≤ (2 : ℝ) ^ (100 : ℤ) * Real.sqrt (d.X i i)
  ldphi : p.ldphi = .fin d.l
  lsize : |d.l| ≤ (2 : ℝ) ^ (900 : ℤ)

theorem diff_acc {n N : Nat} {q ld Q D : ℝ} (h0 : 0 < n) (hN : n ≤ N) (hμ0 : 0 < μ) (hμ1 : μ ≤ 1) (hQ : 0 ≤ Q) (hD : |D| ≤ 750 * n)
    (h1 : |q - Q| ≤ 1300 * (n ^ 2 * eps / μ) * Q + (2 : ℝ) ^ (-600 : ℤ)) (h2 : |ld - D| ≤ (84 * n ^ 3 / μ + 800 * n * (n + 2)) * eps) :
    Acc (1310 * (N ^ 2 / μ)) 0 (Q + 750 * n) (q + -ld) (Q - D) := by
  have he := eps_pos
  have n1 : (1 : ℝ) ≤ n := by exact_mod_cast h0
  have nN : (n : ℝ) ≤ N := by exact_mod_cast hN
  constructor
  · have e : q + -ld - (Q - D) = (q - Q) - (ld - D) := by ring
    rw [e]
    refine (abs_sub _ _).trans ?_
    obtain ⟨R, hR⟩ : ∃ R, R = (N : ℝ) ^ 2 / μ := ⟨_, rfl⟩
    have g0 : (n : ℝ) ^ 2 ≤ N ^ 2 := pow_le_pow_left₀ (by linarith) nN 2
    have g1 : (n : ℝ) ^ 2 / μ ≤ R := by rw [hR]; exact div_le_div_of_nonneg_right g0 hμ0.le
    have g2 : (n : ℝ) ^ 2 ≤ R := by
      refine le_trans ?_ g1
      rw [le_div_iff₀ hμ0]
      have : (0 : ℝ) ≤ (n : ℝ) ^ 2 := sq_nonneg _
      nlinarith
    have hR1 : 1 ≤ R := le_trans (one_le_pow₀ n1) g2
    have g3 : (2 : ℝ) ^ (-600 : ℤ) ≤ eps := zpow_le_zpow_right₀ (by norm_num) (by norm_num)
    have g4 : 1300 * (n ^ 2 * eps / μ) * Q ≤ 1300 * R * eps * Q := by
      have : (n : ℝ) ^ 2 * eps / μ = n ^ 2 / μ * eps := by ring
      rw [this]
      have := mul_le_mul_of_nonneg_right (mul_le_mul_of_nonneg_right g1 he.le) hQ
      linarith
    have g5 : 84 * (n : ℝ) ^ 3 / μ ≤ 84 * (n * R) := by
      have : 84 * (n : ℝ) ^ 3 / μ = 84 * (n * (n ^ 2 / μ)) := by ring
      rw [this]
      have := mul_le_mul_of_nonneg_left g1 (by linarith : (0 : ℝ) ≤ n)
      linarith
    have g6 : 800 * (n : ℝ) * (n + 2) ≤ 2400 * (n * R) := by
      have : (n : ℝ) * (n + 2) ≤ 3 * (n * n) := by nlinarith
      have h3 : (n : ℝ) * n ≤ n * R := mul_le_mul_of_nonneg_left (le_trans (by nlinarith) g2) (by linarith)
      nlinarith
    have g7 := mul_le_mul_of_nonneg_right (add_le_add g5 g6) he.le
    have g8 : 1 ≤ n * R := one_le_mul_of_one_le_of_one_le n1 hR1
    have g9 := mul_le_mul_of_nonneg_right g8 he.le
    have g10 : 0 ≤ R * eps * Q := by positivity
    rw [← hR]
    generalize (2 : ℝ) ^ (-600 : ℤ) = V at *
    nlinarith
  · refine (abs_sub _ _).trans ?_
    rw [abs_of_nonneg hQ]
    linarith

theorem Acc.half {k m W x X : ℝ} (h : Acc k m W x X) (hm : 0 ≤ m) : Acc k m (1 / 2 * W) (1 / 2 * x) (1 / 2 * X) := by
  have ht := tiny_pos
  constructor
  · rw [← mul_sub, abs_mul, abs_of_pos (by norm_num : (0 : ℝ) < 1 / 2)]
    have := h.err
    have h2 : 0 ≤ m * tiny := by positivity
    linarith
  · rw [abs_mul, abs_of_pos (by norm_num : (0 : ℝ) < 1 / 2)]
    have := h.size
    linarith

/-- The size of the numbers of a pulsar. -/
theorem size_le {d : RealGp} {Q : ℝ} (hn : d.n ≤ 2 ^ 30) (hQ : Q ≤ (2 : ℝ) ^ (346 : ℤ)) (hl : |d.l| ≤ (2 : ℝ) ^ (900 : ℤ)) : Q + 750 * d.n + |d.l| ≤ (2 : ℝ) ^ (902 : ℤ) := by
  have h1 : (d.n : ℝ) ≤ (2 : ℝ) ^ (30 : ℤ) := by exact_mod_cast hn
  have h2 : 750 * (d.n : ℝ) ≤ (2 : ℝ) ^ (900 : ℤ) := by
    refine (mul_le_mul (by norm_num : (750 : ℝ) ≤ (2 : ℝ) ^ (10 : ℤ)) h1 (Nat.cast_nonneg _) (by positivity)).trans ?_
    rw [← zpow_add₀ (by norm_num)]
    exact zpow_le_zpow_right₀ (by norm_num) (by norm_num)
  have h3 := hQ.trans (zpow_le_zpow_right₀ (by norm_num) (by norm_num) : (2 : ℝ) ^ (346 : ℤ) ≤ (2 : ℝ) ^ (900 : ℤ))
  have h4 : (2 : ℝ) ^ (902 : ℤ) = 4 * (2 : ℝ) ^ (900 : ℤ) := by
    rw [show (4 : ℝ) = (2 : ℝ) ^ (2 : ℤ) by norm_num, ← zpow_add₀ (by norm_num)]
    congr 1
  have h5 : (0 : ℝ) < (2 : ℝ) ^ (900 : ℤ) := by positivity
  rw [h4]
  clear hQ h1 h4
  generalize (2 : ℝ) ^ (900 : ℤ) = V at *
  linarith

theorem factor_le {N : Nat} (hN : 0 < N) (hμ : 2 ^ 17 * N ^ 2 * eps ≤ μ) : 1310 * (N ^ 2 / μ) ≤ (2 : ℝ) ^ 44 + 2 ^ 43 := by
  have he := eps_pos
  have hμ0 : 0 < μ := lt_of_lt_of_le (by positivity) hμ
  have : (N : ℝ) ^ 2 / μ ≤ 2 ^ 34 := by
    rw [div_le_iff₀ hμ0]
    have e : eps * 2 ^ 51 = 1 := by
      rw [eps]
      norm_num
    have g := mul_le_mul_of_nonneg_left hμ (by norm_num : (0 : ℝ) ≤ 2 ^ 34)
    have e2 : (2 : ℝ) ^ 34 * (2 ^ 17 * N ^ 2 * eps) = N ^ 2 * (eps * 2 ^ 51) := by ring
    rw [e2, e, mul_one] at g
    exact g
  norm_num at this ⊢
  linarith

/-- The term of one pulsar. -/
theorem gp_term (hL : GoodLog L) {N : Nat} (hN : N ≤ 2 ^ 30) (hμ : 2 ^ 17 * N ^ 2 * eps ≤ μ) {p : Gp} {d : RealGp} (h : Gives N μ p d) (hF : IsChol A p.n p.sigma (some F)) {z : Nat → Fl}
    {q ld : Fl} (hz : IsCholSolve A p.n F p.tnr z) (hld : IsLogdet A L p.n F ld) (hq : IsDot A ((List.range p.n).map fun i => (p.tnr i, z i)) q) :
    d.size ≤ (2 : ℝ) ^ (902 : ℤ) ∧
    ∃ t, mul A (.fin (1 / 2)) (add A (add A q (neg ld)) (neg p.ldphi)) = .fin t ∧ Acc (1310 * (N ^ 2 / μ) + 3) 6 (1 / 2 * d.size) t d.term := by
  have he := eps_pos
  rw [h.n] at hF hz hld hq
  have hn : d.n ≤ 2 ^ 30 := h.le.trans hN
  have nN : (d.n : ℝ) ≤ N := by exact_mod_cast h.le
  have hμ' : 256 * d.n ^ 2 * eps ≤ μ := by
    have g0 : (d.n : ℝ) ^ 2 ≤ N ^ 2 := pow_le_pow_left₀ (Nat.cast_nonneg _) nN 2
    have g1 := mul_le_mul_of_nonneg_right g0 he.le
    have g2 : 0 ≤ (N : ℝ) ^ 2 * eps := by positivity
    linarith
  have hμ0 : 0 < μ := lt_of_lt_of_le (by positivity) (mu_low h.pos hμ')
  have hμ1 := margin_le_one h.sigma h.margin ⟨0, h.pos⟩
  obtain ⟨a1, a2, q', rfl, a3⟩ := quad_acc A hn h.pos h.sigma hμ' h.margin hF h.tnr h.small hz hq
  obtain ⟨b1, ld', rfl, b2⟩ := logdet_acc A L hL hn h.pos h.sigma hμ' h.margin hF hld
  have hK := factor_le (h.pos.trans_le h.le) hμ
  have hsize : d.size ≤ (2 : ℝ) ^ (902 : ℤ) := size_le hn a2 h.lsize
  have hW2 : d.size ≤ (2 : ℝ) ^ (990 : ℤ) := hsize.trans (zpow_le_zpow_right₀ (by norm_num) (by norm_num))
  have hl0 := abs_nonneg d.l
  have d1 := diff_acc h.pos h.le hμ0 hμ1 a1 b1 a3 b2
  refine ⟨hsize, ?_⟩
  obtain ⟨K, hKe⟩ : ∃ K, K = 1310 * ((N : ℝ) ^ 2 / μ) := ⟨_, rfl⟩
  rw [← hKe] at hK d1 ⊢
  unfold RealGp.size at hW2
  have hW0 := d1.nonneg
  have hW3 : 1 / 2 * (d.b ⬝ᵥ (d.X⁻¹ *ᵥ d.b) + 750 * d.n + |d.l|) ≤ (2 : ℝ) ^ (990 : ℤ) := by
    refine le_trans ?_ hW2
    linarith
  obtain ⟨t1, e1, d2⟩ := d1.round A (by norm_num at hK ⊢; linarith) le_rfl (by norm_num) ((le_add_of_nonneg_right hl0).trans hW2)
  have d3 := d2.add' (V := |d.l|) (y := -d.l) (Y := -d.l) (n := 0) ⟨by
    rw [sub_self, abs_zero, zero_mul, add_zero]
    have : 0 ≤ K := by rw [hKe]; positivity
    positivity, by rw [abs_neg]⟩
  obtain ⟨t2, e2, d4⟩ := d3.round A (by norm_num at hK ⊢; linarith) (by norm_num) (by norm_num) hW2
  have d5 := d4.half (by norm_num)
  obtain ⟨t3, e3, d6⟩ := d5.round A (by norm_num at hK ⊢; linarith) (by norm_num) (by norm_num) hW3
  refine ⟨t3, ?_, ?_⟩
  · rw [h.ldphi]
    show mul A (.fin (1 / 2)) (add A (A.round (q' + -ld')) (.fin (-d.l))) = _
    rw [e1]
    show mul A (.fin (1 / 2)) (A.round (t1 + -d.l)) = _
    rw [e2]
    exact e3
  · have e : d.term = 1 / 2 * (d.b ⬝ᵥ (d.X⁻¹ *ᵥ d.b) - Real.log d.X.det + -d.l) := by
      unfold RealGp.term
      ring
    rw [e]
    exact d6.mono (by linarith) (by norm_num)

/-- The loop over the pulsars. -/
theorem gp_loop (hL : GoodLog L) {N : Nat} (hN : N ≤ 2 ^ 30) (hμ : 2 ^ 17 * N ^ 2 * eps ≤ μ) {ps : List Gp} {ds : List RealGp} (hs : List.Forall₂ (Gives N μ) ps ds) :
    ∀ {k m V x x' : ℝ} {r : Except PyErr Fl}, Acc k m V x x' → 1310 * (N ^ 2 / μ) + 3 ≤ k → 0 ≤ m → k + ps.length ≤ 2 ^ 45 → m + 8 * ps.length ≤ 2 ^ 50 →
    V + ps.length * (2 : ℝ) ^ (902 : ℤ) ≤ (2 : ℝ) ^ (990 : ℤ) → IsGpLoop A L (.fin x) ps r →
    ∃ v, r = .ok (.fin v) ∧ Acc (k + ps.length) (m + 8 * ps.length) (V + 1 / 2 * (ds.map RealGp.size).sum) v (x' + (ds.map RealGp.term).sum) := by
  induction hs with
  | nil =>
    intro k m V x x' r h _ _ _ _ _ hr
    refine ⟨x, hr, ?_⟩
    simpa using h
  | @cons p d ps ds hp hs ih =>
    intro k m V x x' r h hk hm0 hk2 hm hV hr
    have hlen : ((p :: ps).length : ℝ) = ps.length + 1 := by simp
    rw [hlen] at hk2 hm hV ⊢
    have hl0 : (0 : ℝ) ≤ ps.length := Nat.cast_nonneg _
    have he := eps_pos
    have hn : d.n ≤ 2 ^ 30 := hp.le.trans hN
    have nN : (d.n : ℝ) ≤ N := by exact_mod_cast hp.le
    have hμ' : 256 * d.n ^ 2 * eps ≤ μ := by
      have g0 : (d.n : ℝ) ^ 2 ≤ N ^ 2 := pow_le_pow_left₀ (Nat.cast_nonneg _) nN 2
      have g1 := mul_le_mul_of_nonneg_right g0 he.le
      have g2 : 0 ≤ (N : ℝ) ^ 2 * eps := by positivity
      linarith
    rcases hr with ⟨h1, -⟩ | ⟨-, ⟨h1, -⟩ | ⟨F, hF, hr⟩⟩
    · rw [hp.n] at h1
      exact absurd hp.all h1
    · rw [hp.n] at h1
      exact absurd h1 (no_failure A hn hp.sigma hμ' hp.margin)
    rcases hr with ⟨h1, -⟩ | ⟨-, z, q, ld, hz, hld, hq, hr⟩
    · refine absurd ?_ h1
      have hF' := hF
      rw [hp.n] at hF' ⊢
      obtain ⟨hg, -⟩ := rows_good A hn hp.sigma le_rfl hF' (f := fun j k => val (F j k)) fun _ _ => rfl
      intro i hi
      refine ⟨?_, fun j hj => ?_⟩
      · rw [hp.tnr ⟨i, hi⟩]
        trivial
      · rw [(hg i hi).fin j hj]
        trivial
    obtain ⟨s1, t, e, acc⟩ := gp_term A L hL hN hμ hp hF hz hld hq
    rw [e] at hr
    have s0 := acc.nonneg
    have hV0 := h.nonneg
    have pw : 0 ≤ ps.length * (2 : ℝ) ^ (902 : ℤ) := by positivity
    have a1 := h.add' (acc.mono hk le_rfl)
    have hV1 : V + 1 / 2 * d.size + ps.length * (2 : ℝ) ^ (902 : ℤ) ≤ (2 : ℝ) ^ (990 : ℤ) := by
      refine le_trans ?_ hV
      rw [add_mul, one_mul]
      generalize (2 : ℝ) ^ (902 : ℤ) = U at *
      clear hV
      linarith
    obtain ⟨v, e2, a2⟩ := a1.round A (by linarith) (by linarith) (by linarith) ((le_add_of_nonneg_right pw).trans hV1)
    have e3 : add A (.fin x) (.fin t) = .fin v := e2
    rw [e3] at hr
    obtain ⟨w, rfl, a3⟩ := ih a2 (by linarith) (by linarith) (by linarith) (by linarith) hV1 hr
    refine ⟨w, rfl, ?_⟩
    have e4 : V + 1 / 2 * (List.map RealGp.size (d :: ds)).sum = V + 1 / 2 * d.size + 1 / 2 * (ds.map RealGp.size).sum := by
      rw [List.map_cons, List.sum_cons]
      ring
    have e5 : x' + (List.map RealGp.term (d :: ds)).sum = x' + d.term + (ds.map RealGp.term).sum := by
      rw [List.map_cons, List.sum_cons]
      ring
    rw [e4, e5]
    exact a3.mono (by linarith) (by linarith)

/-- C150: the log-likelihood with Gaussian processes.  It is a finite number, close to the one for exact arithmetic with the same matrices. -/
theorem C150_likelihood (hL : GoodLog L) {N : Nat} (hN : N ≤ 2 ^ 30) (hμ : 2 ^ 17 * N ^ 2 * (2 : ℝ) ^ (-51 : ℤ) ≤ μ) {ps : List Gp} {ds : List RealGp}
    (hs : List.Forall₂ (Gives N μ) ps ds) (hlen : ps.length ≤ 2 ^ 20) {ll : ℝ} (hll : |ll| ≤ (2 : ℝ) ^ (900 : ℤ)) {r : Except PyErr Fl} (h : IsGpLoop A L (.fin ll) ps r) :
    ∃ v, r = .ok (.fin v) ∧ |v - (ll + (ds.map RealGp.term).sum)| ≤
      (1310 * (N ^ 2 / μ) + 3 + ps.length) * (2 : ℝ) ^ (-51 : ℤ) * (|ll| + 1 / 2 * (ds.map RealGp.size).sum) + (2 : ℝ) ^ (-1000 : ℤ) := by
  have he := eps_pos
  have hP : (ps.length : ℝ) ≤ 1048576 := by exact_mod_cast hlen
  have hK : 1310 * (N ^ 2 / μ) + 3 + ps.length ≤ 2 ^ 45 ∨ ps = [] := by
    cases hs with
    | nil => exact Or.inr rfl
    | @cons p d ps ds hp hs =>
      refine Or.inl ?_
      have := factor_le (hp.pos.trans_le hp.le) hμ
      norm_num at this ⊢
      norm_num at hP
      linarith
  rcases hK with hK | rfl
  · have hV : |ll| + ps.length * (2 : ℝ) ^ (902 : ℤ) ≤ (2 : ℝ) ^ (990 : ℤ) := by
      have h1 : (ps.length : ℝ) ≤ (2 : ℝ) ^ (20 : ℤ) := by norm_num; linarith
      have h2 := mul_le_mul_of_nonneg_right h1 (by positivity : (0 : ℝ) ≤ (2 : ℝ) ^ (902 : ℤ))
      rw [← zpow_add₀ (by norm_num)] at h2
      have h4 := h2.trans (zpow_le_zpow_right₀ (by norm_num) (by norm_num) : (2 : ℝ) ^ (20 + 902 : ℤ) ≤ (2 : ℝ) ^ (989 : ℤ))
      have h5 := hll.trans (zpow_le_zpow_right₀ (by norm_num) (by norm_num) : (2 : ℝ) ^ (900 : ℤ) ≤ (2 : ℝ) ^ (989 : ℤ))
      have h6 : (2 : ℝ) ^ (990 : ℤ) = 2 ^ (989 : ℤ) + (2 : ℝ) ^ (989 : ℤ) := by
        rw [← two_mul, ← zpow_one_add₀ (by norm_num)]
        congr 1
      rw [h6]
      exact add_le_add h5 h4
    obtain ⟨v, e, acc⟩ := gp_loop A L hL hN hμ hs (k := 1310 * (N ^ 2 / μ) + 3) (m := 0) (V := |ll|) (x := ll) (x' := ll) ⟨by
        rw [sub_self, abs_zero, zero_mul, add_zero]
        have : 0 ≤ μ := le_trans (by positivity) hμ
        positivity, le_rfl⟩ le_rfl le_rfl hK (by norm_num; linarith) hV h
    · refine ⟨v, e, acc.err.trans ?_⟩
      refine add_le_add le_rfl ?_
      rw [zero_add]
      have h1 : 8 * (ps.length : ℝ) ≤ (2 : ℝ) ^ (23 : ℤ) := by norm_num; linarith
      refine (mul_le_mul_of_nonneg_right h1 tiny_pos.le).trans ?_
      rw [tiny, ← zpow_add₀ (by norm_num)]
      exact zpow_le_zpow_right₀ (by norm_num) (by norm_num)
  · cases hs
    refine ⟨ll, h, ?_⟩
    rw [List.map_nil, List.sum_nil, add_zero, sub_self, abs_zero]
    have : 0 ≤ μ := le_trans (by positivity) hμ
    rw [List.map_nil, List.sum_nil]
    positivity

/-- C150: a number other than `-inf` comes from finite matrices and vectors only; `inf` and NaN in `Sigma` or `TNr` do not go unnoticed. -/
theorem C150_finite {ps : List Gp} : ∀ {ll v : Fl}, IsGpLoop A L ll ps (.ok v) → v ≠ .ninf →
    ∀ p ∈ ps, (∀ i < p.n, (p.tnr i).Finite) ∧ ∀ i < p.n, ∀ j < p.n, (p.sigma i j).Finite := by
  induction ps with
  | nil => exact fun _ _ p hp => absurd hp List.not_mem_nil
  | cons p ps ih =>
    intro ll v h hv
    rcases h with ⟨-, h⟩ | ⟨h1, ⟨-, h⟩ | ⟨F, -, ⟨-, h⟩ | ⟨h2, z, q, ld, -, -, -, h⟩⟩⟩
    · exact absurd h (by simp)
    · exact absurd (Except.ok.inj h) hv
    · exact absurd h (by simp)
    · intro p' hp'
      rcases List.mem_cons.1 hp' with rfl | hp'
      · exact ⟨fun i hi => (h2 i hi).1, h1⟩
      · exact ih h hv p' hp'

/-- C150: NaN or an infinity in the first matrix is refused. -/
theorem C150_refused {p : Gp} {ps : List Gp} {ll : Fl} {r : Except PyErr Fl} {i j : Nat} (hi : i < p.n) (hj : j < p.n) (hij : p.sigma i j = .nan ∨ p.sigma i j = .pinf ∨ p.sigma i j = .ninf)
    (h : IsGpLoop A L ll (p :: ps) r) : r = .error .valueError := by
  rcases h with ⟨-, h⟩ | ⟨h1, -⟩
  · exact h
  · have := h1 i hi j hj
    rcases hij with e | e | e <;> rw [e] at this <;> exact this.elim

/-! ## Examples -/

/-- A pulsar with the matrix of the examples of C149. -/
noncomputable def exGp : RealGp := ⟨2, exX, ![1, -1], 3⟩

theorem ex_gives : Gives 2 (1 / 2) ⟨2, fun i => .fin (if i = 0 then 1 else -1), exS, .fin 3⟩ exGp := by
  refine ⟨rfl, by show 0 < 2; norm_num, le_rfl, fun _ _ _ _ => trivial, ex_sigma, ex_margin, fun i => ?_, fun i => ?_, rfl, ?_⟩
  · change Fin 2 at i
    fin_cases i <;> rfl
  · change Fin 2 at i
    have h1 : |exGp.b i| ≤ 1 := by fin_cases i <;> simp [exGp]
    have h2 : (1 : ℝ) ≤ (2 : ℝ) ^ (100 : ℤ) := one_le_zpow₀ (by norm_num) (by norm_num)
    have h3 : 1 ≤ Real.sqrt (exGp.X i i) := by
      rw [Real.one_le_sqrt]
      show 1 ≤ exX i i
      norm_num [exX]
    exact h1.trans (one_le_mul_of_one_le_of_one_le h2 h3)
  · have h : (2 : ℝ) ^ (2 : ℤ) ≤ (2 : ℝ) ^ (900 : ℤ) := zpow_le_zpow_right₀ (by norm_num) (by norm_num)
    refine le_trans ?_ h
    show |(3 : ℝ)| ≤ _
    norm_num

/-- C150 for two such pulsars: the loop has an outcome, and each one is a number close to the exact likelihood. -/
example (hL : GoodLog L) : let p : Gp := ⟨2, fun i => .fin (if i = 0 then 1 else -1), exS, .fin 3⟩
    (∃ r, IsGpLoop A L (.fin (-10)) [p, p] r) ∧ ∀ r, IsGpLoop A L (.fin (-10)) [p, p] r → ∃ v, r = .ok (.fin v) ∧
      |v - (-10 + ([exGp, exGp].map RealGp.term).sum)| ≤
        (1310 * ((2 : ℕ) ^ 2 / (1 / 2)) + 3 + (2 : ℕ)) * (2 : ℝ) ^ (-51 : ℤ) * (|-10| + 1 / 2 * ([exGp, exGp].map RealGp.size).sum) + (2 : ℝ) ^ (-1000 : ℤ) := by
  intro p
  refine ⟨exists_gp_loop A L _ _, fun r h => ?_⟩
  refine C150_likelihood A L hL (N := 2) (μ := 1 / 2) (by norm_num) (by norm_num) (.cons ex_gives (.cons ex_gives .nil)) (by norm_num) ?_ h
  refine le_trans ?_ (zpow_le_zpow_right₀ (by norm_num) (by norm_num) : (2 : ℝ) ^ (4 : ℤ) ≤ (2 : ℝ) ^ (900 : ℤ))
  norm_num

/-- A matrix with NaN beside the diagonal. -/
example (r : Except PyErr Fl) (h : IsGpLoop A L (.fin (-10)) [⟨2, fun _ => .fin 1, fun i j => if i = j then .fin 2 else .nan, .fin 3⟩] r) : r = .error .valueError :=
  C150_refused A L (i := 1) (j := 0) (by norm_num) (by norm_num) (.inl (by simp)) h

/-- The loop of `C148_degenerate_false` has an outcome. -/
example {tnr : Nat → Fl} {tnt : Nat → Nat → Fl} {ldphi ll : Fl} :
    ∃ r, IsGpLoop A L ll [⟨2, tnr, sigmaF A tnt fun _ => div A (.fin 1) (tmPriorF A), ldphi⟩] r := exists_gp_loop A L _ _

end Verif.Ieee
