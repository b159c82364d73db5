import Verif.Props.IeeeChol
import Verif.Props.IeeeWhite
import Verif.Lemmas.CholForm

/-!
# The Cholesky factorization of `Sigma` in floating-point arithmetic

C149: for a `Sigma` that is far enough from singular the factorization does not raise `LinAlgError`, so that the likelihood is not `-inf`, the factor is that of a matrix close
to `Sigma`, and the log-determinant is accurate, whatever the order of the operations.
-/

namespace Verif.Ieee

open Verif Matrix

variable (A : Arith) (L : Lib)

/-! ## The code returns a value -/

/-- Numbers that are computed one after the other. -/
theorem exists_seq {R : Nat → (Nat → Fl) → Fl → Prop} (tot : ∀ i y, ∃ v, R i y v) (loc : ∀ i y y' v, (∀ k < i, y k = y' k) → R i y v → R i y' v) (n : Nat) :
    ∃ y : Nat → Fl, ∀ i < n, R i y (y i) := by
  induction n with
  | zero => exact ⟨fun _ => .nan, fun i hi => absurd hi (by omega)⟩
  | succ n ih =>
    obtain ⟨y, hy⟩ := ih
    obtain ⟨v, hv⟩ := tot n y
    refine ⟨Function.update y n v, fun i hi => ?_⟩
    rcases Nat.lt_or_eq_of_le (Nat.lt_succ_iff.1 hi) with h | rfl
    · rw [Function.update_of_ne h.ne]
      exact loc i y _ _ (fun k hk => (Function.update_of_ne (by omega) _ _).symm) (hy i h)
    · rw [Function.update_self]
      exact loc i y _ _ (fun k hk => (Function.update_of_ne (by omega) _ _).symm) hv

theorem exists_minus (a : Fl) (l : List (Fl × Fl)) : ∃ v, IsMinus A a l v := exists_dot A _

/-- The numbers of a row depend on numbers above and left of them. -/
theorem row_congr {S F F' : Nat → Nat → Fl} {i : Nat} (h : ∀ a b, b ≤ a → a < i ∨ (a = i ∧ b < i) → F a b = F' a b) (hF : IsRow A S F i) : IsRow A S F' i := by
  intro j hj
  obtain ⟨v, hv, hq⟩ := hF j hj
  refine ⟨v, ?_, ?_⟩
  · have e : (List.range j).map (fun k => (F i k, F j k)) = (List.range j).map fun k => (F' i k, F' j k) :=
      List.map_congr_left fun k hk => by
        have hk := List.mem_range.1 hk
        rw [h i k (by omega) (.inr ⟨rfl, by omega⟩), h j k hk.le (.inl hj)]
    rwa [← e]
  · rwa [← h j j le_rfl (.inl hj), ← h i j hj.le (.inr ⟨rfl, hj⟩)]

theorem pivot_congr {S F F' : Nat → Nat → Fl} {i : Nat} {v : Fl} (h : ∀ b < i, F i b = F' i b) (hF : IsPivot A S F i v) : IsPivot A S F' i v := by
  have e : (List.range i).map (fun k => (F i k, F i k)) = (List.range i).map fun k => (F' i k, F' i k) :=
    List.map_congr_left fun k hk => by rw [h k (List.mem_range.1 hk)]
  unfold IsPivot
  rwa [← e]

theorem factor_congr {S F F' : Nat → Nat → Fl} {n : Nat} (h : ∀ a < n, ∀ b ≤ a, F a b = F' a b) (hF : IsFactor A n S F) : IsFactor A n S F' := by
  intro i hi
  obtain ⟨h1, v, h2, h3, h4⟩ := hF i hi
  refine ⟨row_congr A (fun a b hb hab => h a (by omega) b hb) h1, v, pivot_congr A (fun b hb => h i hi b hb.le) h2, h3, ?_⟩
  rw [← h i hi i le_rfl, h4]

theorem exists_row (S F : Nat → Nat → Fl) (i : Nat) : ∃ F', (∀ a < i, F' a = F a) ∧ IsRow A S F' i := by
  obtain ⟨g, hg⟩ := exists_seq (R := fun j y q => ∃ v, IsMinus A (S i j) ((List.range j).map fun k => (y k, F j k)) v ∧ IsQuot A v (F j j) q)
    (fun j y => by
      obtain ⟨v, hv⟩ := exists_minus A (S i j) ((List.range j).map fun k => (y k, F j k))
      exact ⟨_, v, hv, .inl rfl⟩)
    (fun j y y' q h ⟨v, hv, hq⟩ => by
      refine ⟨v, ?_, hq⟩
      have e : (List.range j).map (fun k => (y k, F j k)) = (List.range j).map fun k => (y' k, F j k) :=
        List.map_congr_left fun k hk => by rw [h k (List.mem_range.1 hk)]
      rwa [← e]) i
  refine ⟨Function.update F i g, fun a ha => Function.update_of_ne ha.ne _ _, fun j hj => ?_⟩
  obtain ⟨v, hv, hq⟩ := hg j hj
  refine ⟨v, ?_, ?_⟩
  · rw [Function.update_self, Function.update_of_ne hj.ne]
    exact hv
  · rw [Function.update_self, Function.update_of_ne hj.ne]
    exact hq

/-- The factorization fails or does not. -/
theorem exists_chol (n : Nat) (S : Nat → Nat → Fl) : (∃ F, IsFactor A n S F) ∨ IsChol A n S none := by
  induction n with
  | zero => exact .inl ⟨fun _ _ => .nan, fun i hi => absurd hi (by omega)⟩
  | succ n ih =>
    rcases ih with ⟨F, hF⟩ | ⟨i, hi, h⟩
    · obtain ⟨F', h1, h2⟩ := exists_row A S F n
      have hF' := factor_congr A (F' := F') (fun a ha b _ => by rw [h1 a ha]) hF
      obtain ⟨v, hv⟩ := exists_minus A (S n n) ((List.range n).map fun k => (F' n k, F' n k))
      cases hl : lt (.fin 0) v with
      | false => exact .inr ⟨n, by omega, F', hF', h2, v, hv, hl⟩
      | true =>
        refine .inl ⟨Function.update F' n (Function.update (F' n) n (npSqrt A v)), fun i hi => ?_⟩
        rcases Nat.lt_or_eq_of_le (Nat.lt_succ_iff.1 hi) with h | rfl
        · exact factor_congr A (fun a ha b _ => by rw [Function.update_of_ne ha.ne]) hF' i h
        · refine ⟨row_congr A (fun a b hb hab => ?_) h2, v, pivot_congr A (F := F') (fun b hb => ?_) hv, hl, ?_⟩
          · rcases hab with h | ⟨rfl, h⟩
            · rw [Function.update_of_ne h.ne]
            · rw [Function.update_self, Function.update_of_ne h.ne]
          · rw [Function.update_self, Function.update_of_ne hb.ne]
          · rw [Function.update_self, Function.update_self]
    · exact .inr ⟨i, by omega, h⟩

theorem exists_solve (n : Nat) (F : Nat → Nat → Fl) (b : Nat → Fl) : ∃ z, IsCholSolve A n F b z := by
  obtain ⟨y, hy⟩ := exists_seq (R := fun i y q => ∃ v, IsMinus A (b i) ((List.range i).map fun k => (F i k, y k)) v ∧ IsQuot A v (F i i) q)
    (fun j y => by
      obtain ⟨v, hv⟩ := exists_minus A (b j) ((List.range j).map fun k => (F j k, y k))
      exact ⟨_, v, hv, .inl rfl⟩)
    (fun j y y' q h ⟨v, hv, hq⟩ => by
      refine ⟨v, ?_, hq⟩
      have e : (List.range j).map (fun k => (F j k, y k)) = (List.range j).map fun k => (F j k, y' k) :=
        List.map_congr_left fun k hk => by rw [h k (List.mem_range.1 hk)]
      rwa [← e]) n
  obtain ⟨z, hz⟩ := exists_seq (R := fun i z q => ∃ v, IsMinus A (y (n - 1 - i))
      ((List.range (n - 1 - (n - 1 - i))).map fun k => (F (n - 1 - i + 1 + k) (n - 1 - i), z (n - 1 - (n - 1 - i + 1 + k)))) v ∧ IsQuot A v (F (n - 1 - i) (n - 1 - i)) q)
    (fun i z => by
      obtain ⟨v, hv⟩ := exists_minus A (y (n - 1 - i)) ((List.range (n - 1 - (n - 1 - i))).map fun k => (F (n - 1 - i + 1 + k) (n - 1 - i), z (n - 1 - (n - 1 - i + 1 + k))))
      exact ⟨_, v, hv, .inl rfl⟩)
    (fun i z z' q h ⟨v, hv, hq⟩ => by
      refine ⟨v, ?_, hq⟩
      have e : (List.range (n - 1 - (n - 1 - i))).map (fun k => (F (n - 1 - i + 1 + k) (n - 1 - i), z (n - 1 - (n - 1 - i + 1 + k)))) =
          (List.range (n - 1 - (n - 1 - i))).map fun k => (F (n - 1 - i + 1 + k) (n - 1 - i), z' (n - 1 - (n - 1 - i + 1 + k))) :=
        List.map_congr_left fun k hk => by
          have hk := List.mem_range.1 hk
          rw [h (n - 1 - (n - 1 - i + 1 + k)) (by omega)]
      rwa [← e]) n
  refine ⟨fun i => z (n - 1 - i), y, hy, fun i hi => ?_⟩
  have h := hz (n - 1 - i) (by omega)
  have e : n - 1 - (n - 1 - i) = i := by omega
  rw [e] at h
  exact h

/-- The likelihood has an outcome. -/
theorem exists_gp_loop (ll : Fl) (ps : List Gp) : ∃ r, IsGpLoop A L ll ps r := by
  induction ps generalizing ll with
  | nil => exact ⟨_, rfl⟩
  | cons p ps ih =>
    by_cases h : ∀ i < p.n, ∀ j < p.n, (p.sigma i j).Finite
    · rcases exists_chol A p.n p.sigma with ⟨F, hF⟩ | hn
      · by_cases g : ∀ i < p.n, (p.tnr i).Finite ∧ ∀ j ≤ i, (F i j).Finite
        · obtain ⟨z, hz⟩ := exists_solve A p.n F p.tnr
          obtain ⟨ld, hld⟩ := exists_sum A ((List.range p.n).map fun i => mul A (.fin 2) (npLog L (F i i)))
          obtain ⟨q, hq⟩ := exists_dot A ((List.range p.n).map fun i => (p.tnr i, z i))
          obtain ⟨r, hr⟩ := ih (add A ll (mul A (.fin (1 / 2)) (add A (add A q (neg ld)) (neg p.ldphi))))
          exact ⟨r, .inr ⟨h, .inr ⟨F, hF, .inr ⟨g, z, q, ld, hz, hld, hq, hr⟩⟩⟩⟩
        · exact ⟨_, .inr ⟨h, .inr ⟨F, hF, .inl ⟨g, rfl⟩⟩⟩⟩
      · exact ⟨_, .inr ⟨h, .inl ⟨hn, rfl⟩⟩⟩
    · exact ⟨_, .inl ⟨h, rfl⟩⟩

/-! ## The factor -/

variable {n : Nat} {S F : Nat → Nat → Fl} {X : Matrix (Fin n) (Fin n) ℝ} {f : Nat → Nat → ℝ} {μ : ℝ}

/-- The factor of the first rows and columns. -/
theorem close_of (hn : n ≤ 2 ^ 30) (h0 : 0 < n) (hS : IsSigma n S X) (hμ : 256 * n ^ 2 * eps ≤ μ) (hX : (X - μ • diagonal X.diag).PosSemidef) {m : Nat} (hm : m ≤ n)
    (hF : IsFactor A m S F) (hf : ∀ j k, f j k = val (F j k)) :
    CholReal.Close (lowMat f m) (X.submatrix (Fin.castLE hm) (Fin.castLE hm)) (fun i => Real.sqrt (X (i.castLE hm) (i.castLE hm))) (unitErr n) μ := by
  obtain ⟨b1, b2, b3⟩ := block A hn hS hm hF hf
  obtain ⟨c0, -⟩ := consts hn h0 hμ le_rfl (hS.low ⟨0, h0⟩)
  have hpos : ∀ i, 0 < X i i := fun i => lt_of_lt_of_le (by positivity) (hS.low i)
  refine ⟨b1, fun i => Real.sqrt_pos.2 (hpos _), (unitErr_small hn).1.le, c0, margin_le_one hS hX ⟨0, h0⟩, b2, b3, fun z => ?_, ?_⟩
  · have h := margin_sub hX (Fin.castLE_injective hm) z
    rw [CholReal.form_eq]
    simp only [submatrix_apply, Real.sq_sqrt (hpos _).le]
    exact h
  · have h1 := n_err h0
    have he := eps_pos
    have hmR : (m : ℝ) ≤ n := by exact_mod_cast hm
    have h2 : unitErr n * m ≤ 6 * (n * eps) * n := mul_le_mul h1 hmR (Nat.cast_nonneg m) (by positivity)
    have h3 : 0 ≤ n ^ 2 * eps := by positivity
    nlinarith

theorem pos_def (hn : n ≤ 2 ^ 30) (h0 : 0 < n) (hS : IsSigma n S X) (hμ : 256 * n ^ 2 * eps ≤ μ) (hX : (X - μ • diagonal X.diag).PosSemidef) : X.PosDef := by
  obtain ⟨c0, -⟩ := consts hn h0 hμ le_rfl (hS.low ⟨0, h0⟩)
  have hpos : ∀ i, 0 < X i i := fun i => lt_of_lt_of_le (by positivity) (hS.low i)
  have h1 : (μ • diagonal X.diag).PosDef := (PosDef.diagonal fun i => hpos i).smul c0
  have h2 := PosDef.posSemidef_add hX h1
  rwa [sub_add_cancel] at h2

/-- C149: the factorization of `Sigma` does not raise `LinAlgError`.  `X` is the matrix of floating-point numbers, `μ` its relative distance from singular matrices. -/
theorem C149_succeeds (hn : n ≤ 2 ^ 30) (hS : IsSigma n S X) (hμ : 256 * n ^ 2 * (2 : ℝ) ^ (-51 : ℤ) ≤ μ) (hX : (X - μ • diagonal X.diag).PosSemidef) :
    (∃ F, IsChol A n S (some F)) ∧ ¬ IsChol A n S none := by
  have h := no_failure A hn hS hμ hX
  refine ⟨?_, h⟩
  rcases exists_chol A n S with h1 | h1
  · exact h1
  · exact absurd h1 h

/-- C149: a factor consists of finite numbers and is that of a matrix close to `Sigma`. -/
theorem C149_backward (hn : n ≤ 2 ^ 30) (h0 : 0 < n) (hS : IsSigma n S X) (hF : IsChol A n S (some F)) :
    ∃ G : Matrix (Fin n) (Fin n) ℝ, (∀ i k : Fin n, k ≤ i → F i k = .fin (G i k)) ∧ (∀ i k, i < k → G i k = 0) ∧ (∀ i, 0 < G i i) ∧
      ∀ i j, |(G * Gᵀ) i j - X i j| ≤ 42 * n * (2 : ℝ) ^ (-51 : ℤ) * (Real.sqrt (X i i) * Real.sqrt (X j j)) := by
  obtain ⟨f, hf⟩ : ∃ f : Nat → Nat → ℝ, ∀ j k, f j k = val (F j k) := ⟨fun j k => val (F j k), fun _ _ => rfl⟩
  obtain ⟨b1, -, b3⟩ := block A hn hS le_rfl hF hf
  obtain ⟨hg, -⟩ := rows_good A hn hS le_rfl hF hf
  refine ⟨lowMat f n, fun i k hk => ?_, b1.zero, b1.pos, fun i j => (b3 i j).trans ?_⟩
  · rw [(hg i i.isLt).fin k hk, lowMat, if_pos hk]
  · refine mul_le_mul_of_nonneg_right ?_ (by positivity)
    have h := n_err h0
    rw [eps] at h
    linarith

theorem log_size {x : ℝ} (h1 : (2 : ℝ) ^ (-537 : ℤ) ≤ x) (h2 : x ≤ (2 : ℝ) ^ (202 : ℤ)) : |Real.log x| ≤ 373 := by
  have h0 : 0 < x := lt_of_lt_of_le (by positivity) h1
  have g1 := Real.log_le_log (by positivity) h1
  have g2 := Real.log_le_log h0 h2
  rw [Real.log_zpow] at g1 g2
  have l1 := Real.log_two_lt_d9
  have l2 : 0 < Real.log 2 := Real.log_pos (by norm_num)
  push_cast at g1 g2
  rw [abs_le]
  constructor <;> linarith

/-- The sum of the logarithms. -/
theorem logdet_sum (hL : GoodLog L) (hn : n ≤ 2 ^ 30) (h0 : 0 < n) {f : Nat → ℝ} {D : Nat → Fl} (hD : ∀ i < n, D i = .fin (f i)) (h1 : ∀ i < n, (2 : ℝ) ^ (-537 : ℤ) ≤ f i)
    (h2 : ∀ i < n, f i ≤ (2 : ℝ) ^ (202 : ℤ)) {v : Fl} (hv : IsSum A ((List.range n).map fun i => mul A (.fin 2) (npLog L (D i))) v) :
    ∃ ld, v = .fin ld ∧ |ld - ∑ i ∈ Finset.range n, 2 * Real.log (f i)| ≤ 800 * n * (n + 2) * eps := by
  have he := eps_pos
  have ht := tiny_pos
  have key : ∀ i ∈ List.range n, Stands 2 2 (mul A (.fin 2) (npLog L (D i))) ((fun i => (2 * Real.log (f i), 2 * (1 + |Real.log (f i)|))) i) := by
    intro i hi
    have hi := List.mem_range.1 hi
    have g1 := h1 i hi
    have g2 := h2 i hi
    have g3 := log_size g1 g2
    have g0 : 0 < f i := lt_of_lt_of_le (by positivity) g1
    have g4 := hL (f i) g0 (by linarith)
    have acc : Acc 1 0 (2 * (1 + |Real.log (f i)|)) (2 * L.log (f i)) (2 * Real.log (f i)) := by
      refine ⟨?_, ?_⟩
      · rw [← mul_sub, abs_mul, abs_of_pos (by norm_num : (0 : ℝ) < 2)]
        linarith
      · rw [abs_mul, abs_of_pos (by norm_num : (0 : ℝ) < 2)]
        linarith
    obtain ⟨z, hz, az⟩ := acc.round A (by norm_num) (by norm_num) (by norm_num) (by
      have : (2 : ℝ) ^ (10 : ℤ) ≤ (2 : ℝ) ^ (990 : ℤ) := zpow_le_zpow_right₀ (by norm_num) (by norm_num)
      refine le_trans ?_ this
      have e : (2 : ℝ) ^ (10 : ℤ) = 1024 := by norm_num
      rw [e]
      linarith)
    refine ⟨z, ?_, az.mono (by norm_num) (by norm_num)⟩
    rw [hD i hi]
    simp only [npLog, if_pos g0]
    exact hz
  have hlen : ((List.range n).map fun i => (2 * Real.log (f i), 2 * (1 + |Real.log (f i)|))).length = n := by simp
  have t1 : (total ((List.range n).map fun i => (2 * Real.log (f i), 2 * (1 + |Real.log (f i)|)))).1 = ∑ i ∈ Finset.range n, 2 * Real.log (f i) := by
    simp only [total, List.map_map]
    exact range_sum (fun i => 2 * Real.log (f i)) n
  have t2 : (total ((List.range n).map fun i => (2 * Real.log (f i), 2 * (1 + |Real.log (f i)|)))).2 ≤ n * 748 := by
    simp only [total, List.map_map]
    have := sum_le_len (l := List.range n) (f := fun i => 2 * (1 + |Real.log (f i)|)) (b := 748) fun i hi => by
      have hi := List.mem_range.1 hi
      have := log_size (h1 i hi) (h2 i hi)
      linarith
    rw [List.length_range] at this
    exact this
  have hnR : (n : ℝ) ≤ 1073741824 := by
    norm_num at hn
    exact_mod_cast hn
  have n1 : (1 : ℝ) ≤ n := by exact_mod_cast h0
  obtain ⟨ld, e, acc⟩ := sum_acc A (by norm_num) (by norm_num) (forall₂_maps key) (by rw [hlen]; norm_num; linarith) (by rw [hlen]; norm_num; linarith) (by
    refine t2.trans ?_
    have : (2 : ℝ) ^ (50 : ℤ) ≤ (2 : ℝ) ^ (990 : ℤ) := zpow_le_zpow_right₀ (by norm_num) (by norm_num)
    refine le_trans ?_ this
    norm_num
    linarith) hv
  refine ⟨ld, e, ?_⟩
  have h3 := acc.err
  rw [t1, hlen] at h3
  refine h3.trans ?_
  have h4 := mul_le_mul_of_nonneg_left t2 (by positivity : 0 ≤ (2 + (n : ℝ)) * eps)
  have h5 : tiny ≤ eps := by
    rw [tiny_zpow, eps]
    exact zpow_le_zpow_right₀ (by norm_num) (by norm_num)
  have h6 := mul_le_mul_of_nonneg_left h5 (by positivity : 0 ≤ (n : ℝ) * (2 + 2))
  have h7 : 0 ≤ n * eps := by positivity
  have h8 : n * eps ≤ n * (n * eps) := le_mul_of_one_le_left h7 n1
  nlinarith

theorem form_up {r q T : ℝ} (r0 : 0 ≤ r) (r1 : r ≤ 1 / 40) (hq : 0 ≤ q) (h : -(7 * r * q) ≤ T - q) : q ≤ (1 + 14 * r) * T := by
  have h7 := mul_le_mul_of_nonneg_left (by linarith : (1 - 7 * r) * q ≤ T) (by linarith : 0 ≤ 1 + 14 * r)
  have h8 := mul_nonneg r0 (mul_nonneg (by linarith : 0 ≤ 1 / 40 - r) hq)
  have h9 := mul_nonneg r0 hq
  nlinarith

/-- The log-determinant of `Sigma`, and its size. -/
theorem logdet_acc (hL : GoodLog L) (hn : n ≤ 2 ^ 30) (h0 : 0 < n) (hS : IsSigma n S X) (hμ : 256 * n ^ 2 * eps ≤ μ)
    (hX : (X - μ • diagonal X.diag).PosSemidef) (hF : IsFactor A n S F) {v : Fl} (hv : IsLogdet A L n F v) :
    |Real.log X.det| ≤ 750 * n ∧ ∃ ld, v = .fin ld ∧ |ld - Real.log X.det| ≤ (84 * n ^ 3 / μ + 800 * n * (n + 2)) * eps := by
  obtain ⟨f, hf⟩ : ∃ f : Nat → Nat → ℝ, ∀ j k, f j k = val (F j k) := ⟨fun j k => val (F j k), fun _ _ => rfl⟩
  have C := close_of A hn h0 hS hμ hX le_rfl hF hf
  have eX : X.submatrix (Fin.castLE le_rfl) (Fin.castLE le_rfl) = X := rfl
  rw [eX] at C
  obtain ⟨hg, -⟩ := rows_good A hn hS le_rfl hF hf
  obtain ⟨ld, e, hld⟩ := logdet_sum A L hL hn h0 (D := fun i => F i i) (f := fun i => f i i) (fun i hi => (hg i hi).fin i le_rfl) (fun i hi => (hg i hi).low)
    (fun i hi => (le_abs_self _).trans ((hg i hi).size i le_rfl)) hv
  have hPD := pos_def hn h0 hS hμ hX
  obtain ⟨r0, r1⟩ := C.rho
  obtain ⟨r, hr⟩ : ∃ r, r = unitErr n * n / μ := ⟨_, rfl⟩
  rw [← hr] at r0 r1
  have u1 := CholReal.det_up C.low hPD (δ := 14 * r) fun z => by
    have := (abs_le.1 (C.form z)).1
    rw [← hr, CholReal.sq_nrm] at this
    exact form_up r0 r1 (C.form_nonneg z) this
  have u2 := CholReal.det_down C.low hPD (δ := 7 * r) fun z => by
    have := (abs_le.1 (C.form z)).2
    rw [← hr, CholReal.sq_nrm] at this
    linarith
  have e1 : Real.log ((lowMat f n) * (lowMat f n)ᵀ).det = ∑ i ∈ Finset.range n, 2 * Real.log (f i i) := by
    rw [det_mul, det_transpose, C.low.det, Real.log_mul, Real.log_prod, ← two_mul, Finset.mul_sum, Finset.sum_range]
    · refine Finset.sum_congr rfl fun i _ => ?_
      simp [lowMat]
    · exact fun i _ => (C.low.pos i).ne'
    · exact (Finset.prod_pos fun i _ => C.low.pos i).ne'
    · exact (Finset.prod_pos fun i _ => C.low.pos i).ne'
  rw [e1] at u1 u2
  have h1 : r ≤ 6 * (n ^ 2 * eps) / μ := by
    rw [hr]
    refine div_le_div_of_nonneg_right ?_ C.μ0.le
    have := mul_le_mul_of_nonneg_right (n_err h0) (Nat.cast_nonneg n : (0 : ℝ) ≤ n)
    linarith
  have h2 := mul_le_mul_of_nonneg_left h1 (by positivity : 0 ≤ 14 * (n : ℝ))
  have h3 : 14 * n * (6 * (n ^ 2 * eps) / μ) = 84 * n ^ 3 / μ * eps := by ring
  rw [h3] at h2
  have h4 := mul_nonneg (Nat.cast_nonneg n : (0 : ℝ) ≤ n) r0
  obtain ⟨l1, l2⟩ := abs_le.1 hld
  have h5 : |∑ i ∈ Finset.range n, 2 * Real.log (f i i)| ≤ n * 746 := by
    have := Finset.sum_le_card_nsmul (Finset.range n) (fun i => |2 * Real.log (f i i)|) 746 fun i hi => by
      have hi := Finset.mem_range.1 hi
      have := log_size (hg i hi).low ((le_abs_self _).trans ((hg i hi).size i le_rfl))
      rw [abs_mul, abs_of_pos (by norm_num : (0 : ℝ) < 2)]
      linarith
    rw [Finset.card_range, nsmul_eq_mul] at this
    exact (Finset.abs_sum_le_sum_abs _ _).trans this
  have h6 := mul_le_mul_of_nonneg_left r1 (Nat.cast_nonneg n : (0 : ℝ) ≤ n)
  have h7 : (0 : ℝ) ≤ n := Nat.cast_nonneg n
  obtain ⟨l3, l4⟩ := abs_le.1 h5
  refine ⟨?_, ld, e, ?_⟩
  · rw [abs_le]
    constructor <;> linarith
  · rw [abs_le]
    constructor <;> linarith

/-- C149: the log-determinant of `Sigma`. -/
theorem C149_logdet (hL : GoodLog L) (hn : n ≤ 2 ^ 30) (h0 : 0 < n) (hS : IsSigma n S X) (hμ : 256 * n ^ 2 * (2 : ℝ) ^ (-51 : ℤ) ≤ μ)
    (hX : (X - μ • diagonal X.diag).PosSemidef) (hF : IsChol A n S (some F)) {v : Fl} (hv : IsLogdet A L n F v) :
    ∃ ld, v = .fin ld ∧ |ld - Real.log X.det| ≤ (84 * n ^ 3 / μ + 800 * n * (n + 2)) * (2 : ℝ) ^ (-51 : ℤ) :=
  (logdet_acc A L hL hn h0 hS hμ hX hF hv).2

/-- C149: the margin holds for a positive semi-definite `TNT` and priors none of which is lost: each inverse variance is at least `μ` times the entry of `Sigma`.  The factorization succeeds
then. -/
theorem C149_priors {M : Matrix (Fin n) (Fin n) ℝ} {w : Fin n → ℝ} (hM : M.PosSemidef) (hw : ∀ i, μ * (M i i + w i) ≤ w i) (hn : n ≤ 2 ^ 30) (hS : IsSigma n S (M + diagonal w))
    (hμ : 256 * n ^ 2 * (2 : ℝ) ^ (-51 : ℤ) ≤ μ) :
    ((M + diagonal w) - μ • diagonal (M + diagonal w).diag).PosSemidef ∧ (∃ F, IsChol A n S (some F)) ∧ ¬ IsChol A n S none := by
  have h : ((M + diagonal w) - μ • diagonal (M + diagonal w).diag).PosSemidef := by
    have e : (M + diagonal w) - μ • diagonal (M + diagonal w).diag = M + diagonal fun i => w i - μ * (M i i + w i) := by
      ext i j
      by_cases hij : i = j
      · subst hij
        simp [Matrix.diag]
        ring
      · simp [Matrix.diag, diagonal_apply_ne _ hij]
    rw [e]
    exact hM.add (Matrix.PosSemidef.diagonal fun i => by
      have := hw i
      show (0 : ℝ) ≤ _
      linarith)
  exact ⟨h, C149_succeeds A hn hS hμ h⟩

/-! ## Examples -/

/-- The matrix with the rows `(2, 1)` and `(1, 2)`. -/
def exX : Matrix (Fin 2) (Fin 2) ℝ := fun i j => if i = j then 2 else 1

/-- Its numbers. -/
def exS (i j : Nat) : Fl := .fin (if i = j then 2 else 1)

theorem ex_sigma : IsSigma 2 exS exX := by
  have h2 : (2 : ℝ) ^ (-400 : ℤ) ≤ (2 : ℝ) ^ (1 : ℤ) := zpow_le_zpow_right₀ (by norm_num) (by norm_num)
  have h3 : (2 : ℝ) ^ (1 : ℤ) ≤ (2 : ℝ) ^ (400 : ℤ) := zpow_le_zpow_right₀ (by norm_num) (by norm_num)
  have h4 : (2 : ℝ) ^ (1 : ℤ) ≤ (2 : ℝ) ^ (980 : ℤ) := zpow_le_zpow_right₀ (by norm_num) (by norm_num)
  have h1 : (2 : ℝ) ^ (1 : ℤ) = 2 := zpow_one _
  rw [h1] at h2 h3 h4
  refine ⟨fun i j _ => ?_, fun i j => ?_, fun i => ?_, fun i => ?_, fun i j => ?_⟩
  · simp only [exS, exX, Fin.ext_iff]
  · simp only [exX, eq_comm]
  · simp only [exX, if_true]
    exact h2
  · simp only [exX, if_true]
    exact h3
  · refine le_trans ?_ h4
    simp only [exX]
    split <;> norm_num

theorem ex_margin : (exX - (1 / 2 : ℝ) • diagonal exX.diag).PosSemidef := by
  have e : exX - (1 / 2 : ℝ) • diagonal exX.diag = (Matrix.of fun (_ : Fin 1) (_ : Fin 2) => (1 : ℝ)).conjTranspose * Matrix.of fun (_ : Fin 1) (_ : Fin 2) => (1 : ℝ) := by
    ext i j
    fin_cases i <;> fin_cases j <;> norm_num [exX, Matrix.mul_apply, Matrix.diag]
  rw [e]
  exact Matrix.posSemidef_conjTranspose_mul_self _

theorem ex_mu : 256 * ((2 : ℕ) : ℝ) ^ 2 * (2 : ℝ) ^ (-51 : ℤ) ≤ 1 / 2 := by norm_num

/-- This matrix is a sum as in `C149_priors`. -/
example : (Matrix.of fun _ _ => (1 : ℝ) : Matrix (Fin 2) (Fin 2) ℝ).PosSemidef ∧ (∀ i : Fin 2, (1 / 2 : ℝ) * ((Matrix.of fun _ _ => (1 : ℝ) : Matrix (Fin 2) (Fin 2) ℝ) i i + 1) ≤ 1) ∧
    (Matrix.of fun _ _ => (1 : ℝ) : Matrix (Fin 2) (Fin 2) ℝ) + diagonal (fun _ => 1) = exX := by
  refine ⟨?_, fun i => by norm_num, ?_⟩
  · have e : (Matrix.of fun _ _ => (1 : ℝ) : Matrix (Fin 2) (Fin 2) ℝ) = (Matrix.of fun (_ : Fin 1) (_ : Fin 2) => (1 : ℝ)).conjTranspose * Matrix.of fun (_ : Fin 1) (_ : Fin 2) => (1 : ℝ) := by
      ext i j
      simp [Matrix.mul_apply]
    rw [e]
    exact Matrix.posSemidef_conjTranspose_mul_self _
  · ext i j
    fin_cases i <;> fin_cases j <;> norm_num [exX]

/-- C149 for this matrix: the factorization succeeds in every arithmetic, its log-determinant exists, and each one is close to `log 3`. -/
example (hL : GoodLog L) : ∃ F, IsChol A 2 exS (some F) ∧ (∃ v, IsLogdet A L 2 F v) ∧ ∀ v, IsLogdet A L 2 F v → ∃ ld, v = .fin ld ∧ |ld - Real.log 3| ≤ (2 : ℝ) ^ (-38 : ℤ) := by
  obtain ⟨⟨F, hF⟩, -⟩ := C149_succeeds A (by norm_num) ex_sigma ex_mu ex_margin
  refine ⟨F, hF, ?_, fun v hv => ?_⟩
  · exact exists_sum A _
  · obtain ⟨ld, e, h⟩ := C149_logdet A L hL (by norm_num) (by norm_num) ex_sigma ex_mu ex_margin hF hv
    refine ⟨ld, e, ?_⟩
    have d : exX.det = 3 := by
      rw [Matrix.det_fin_two]
      norm_num [exX]
    rw [d] at h
    refine h.trans ?_
    norm_num

end Verif.Ieee
