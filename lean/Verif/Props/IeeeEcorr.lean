import Verif.Lemmas.IeeeRel
import Verif.Props.IeeeWhite

/-!
# The likelihood of white noise with ECORR in floating-point arithmetic

C144: it is accurate for any order of the additions, though the Sherman-Morrison formula subtracts.
-/

namespace Verif.Ieee

open Verif

variable (A : Arith) (P : Powers) (L : Lib)

/-- Usual values: errors from 1e-13 s to 1e13 s. -/
structure Toa.Narrow (t : Toa) : Prop where
  r : |t.r| ≤ 1024
  s : 0 < t.s ∧ |Real.log t.s| ≤ 30
  efac : 0 < t.efac ∧ |Real.log t.efac| ≤ 10
  equad : Rep t.equad ∧ |t.equad| ≤ 10

/-- The size of the residual, in any case about a nanosecond. -/
noncomputable def Toa.size (t : Toa) : ℝ := |t.r| + (2 : ℝ) ^ (-30 : ℤ)

/-- An epoch: the logarithm of its ECORR, and its TOAs. -/
structure Epoch where
  ecorr : ℝ
  toas : List Toa

/-- A pulsar: its epochs, and the TOAs in no epoch. -/
structure Psr where
  epochs : List Epoch
  rest : List Toa

/-- All TOAs. -/
def Psr.toas (p : Psr) : List Toa := p.rest ++ p.epochs.flatMap Epoch.toas

/-- Usual values, at most `N` TOAs and epochs, and at least one TOA. -/
structure Psr.Usual (N : ℕ) (p : Psr) : Prop where
  toas : ∀ t ∈ p.toas, t.Narrow
  some : p.toas ≠ []
  ecorr : ∀ b ∈ p.epochs, Rep b.ecorr ∧ |b.ecorr| ≤ 10
  len : p.toas.length ≤ N
  epochs : p.epochs.length ≤ N

/-- `beta` in exact arithmetic. -/
noncomputable def Epoch.beta (b : Epoch) : ℝ := 1 / ((b.toas.map fun t => 1 / t.var).sum + 1 / (10 : ℝ) ^ (2 * b.ecorr))

/-- What the epoch adds to `-2` times the log-likelihood in exact arithmetic, if it has more than one TOA: the last terms of the Sherman-Morrison formula
and of the matrix determinant lemma. -/
noncomputable def Epoch.term (b : Epoch) : ℝ :=
  if 1 < b.toas.length then -(b.beta * (b.toas.map fun t => t.r / t.var).sum ^ 2) + (Real.log ((10 : ℝ) ^ (2 * b.ecorr)) - Real.log b.beta) else 0

/-- The log-likelihood in exact arithmetic. -/
noncomputable def ecorrLike (psrs : List Psr) : ℝ :=
  -(1 / 2) * (psrs.map fun p => (p.toas.map fun t => t.r ^ 2 / t.var + Real.log t.var).sum + (p.epochs.map Epoch.term).sum).sum

/-- The size of its terms. -/
noncomputable def ecorrSize (psrs : List Psr) : ℝ :=
  1 / 2 * (psrs.map fun p => (p.toas.map fun t => 2 * (t.size ^ 2 / t.var) + (1 + |Real.log t.var|)).sum +
    (p.epochs.map fun b => 2 + |Real.log ((10 : ℝ) ^ (2 * b.ecorr))| + |Real.log b.beta|).sum).sum

/-- The numbers of the code for an epoch. -/
noncomputable def Epoch.fl (b : Epoch) : Fl × List (Fl × Fl) := (squaredF A P (.fin b.ecorr), b.toas.map (Toa.fl A P))

/-- The numbers of the code for a pulsar. -/
noncomputable def Psr.fl (p : Psr) : Ecorr := ⟨p.epochs.map (Epoch.fl A P), p.rest.map (Toa.fl A P)⟩

theorem Psr.fl_toas (p : Psr) : (p.fl A P).toas = p.toas.map (Toa.fl A P) := by
  simp only [Ecorr.toas, Psr.fl, Psr.toas, List.map_append, List.flatMap_map, List.map_flatMap, Epoch.fl]

/-! ## One TOA -/

theorem squared_off' {q : ℝ} (hr : Rep q) (hq : |q| ≤ 10) : ∃ z, squaredF A P (.fin q) = .fin z ∧ Off 4 60 z ((10 : ℝ) ^ (2 * q)) := by
  obtain ⟨z, hz, oz⟩ := squared_off A P hr (hq.trans (by norm_num))
  refine ⟨z, hz, oz.pos, oz.pos', oz.err, ?_⟩
  rw [Real.log_rpow (by norm_num), abs_mul, abs_mul]
  have h1 := log_ten
  have h2 : |(2 : ℝ)| * |q| ≤ 20 := by norm_num; linarith
  have := mul_le_mul h2 h1 (abs_nonneg _) (by norm_num)
  linarith

theorem var_off {t : Toa} (h : t.Narrow) : ∃ n, (t.fl A P).2 = .fin n ∧ Off 10 81 n t.var := by
  have sq : ∀ {x m : ℝ}, 0 < x → |Real.log x| ≤ m → m ≤ 100 → ∃ z, npPow P (.fin x) (.fin 2) = .fin z ∧ Off 4 (2 * m) z (x ^ 2) := by
    intro x m h0 h hm
    obtain ⟨z, hz, oz⟩ := (Off.exact h0 h).pow P (y := 2) (Y := 2) (s := 0) (by simp) (by norm_num) (by norm_num; linarith)
    refine ⟨z, hz, ?_⟩
    rw [← Real.rpow_natCast]
    exact oz.mono (by norm_num) (by norm_num)
  obtain ⟨u, hu, ou⟩ := sq h.s.1 h.s.2 (by norm_num)
  obtain ⟨v, hv, ov⟩ := sq h.efac.1 h.efac.2 (by norm_num)
  obtain ⟨w, hw, ow⟩ := squared_off' A P h.equad.1 h.equad.2
  obtain ⟨x, hx, ox⟩ := ou.add A (ow.mono le_rfl (by norm_num)) (by norm_num) (by norm_num)
  obtain ⟨z, hz, oz⟩ := ov.mul A ox (by norm_num) (by norm_num)
  exact ⟨z, by simp only [Toa.fl, ndiagF, hu, hv, hw, hx, hz], oz.mono (by norm_num) (by norm_num)⟩

theorem inv_off {t : Toa} (h : t.Narrow) : ∃ x, div A (.fin 1) (t.fl A P).2 = .fin x ∧ Off 11 81 x (1 / t.var) := by
  obtain ⟨n, hn, on⟩ := var_off A P h
  have o1 : Off 0 0 1 1 := .exact (by norm_num) (by simp)
  obtain ⟨x, hx, ox⟩ := o1.div A on (by norm_num) (by norm_num)
  exact ⟨x, by rw [hn, hx], ox.mono (by norm_num) (by norm_num)⟩

theorem var_log {t : Toa} (h : t.Narrow) : 0 < t.var ∧ |Real.log t.var| ≤ 81 := by
  obtain ⟨n, -, on⟩ := var_off down floorPowers h
  exact ⟨on.pos', on.size⟩

theorem size_log {t : Toa} (h : t.Narrow) : 0 < t.size ∧ |Real.log t.size| ≤ 21 := by
  have hp : (0 : ℝ) < (2 : ℝ) ^ (-30 : ℤ) := by positivity
  have h0 : 0 < t.size := by
    unfold Toa.size
    have := abs_nonneg t.r
    linarith
  refine ⟨h0, ?_⟩
  have hl := Real.log_two_lt_d9
  have hl' := Real.log_two_gt_d9
  rw [abs_le]
  constructor
  · have h1 : (2 : ℝ) ^ (-30 : ℤ) ≤ t.size := by
      unfold Toa.size
      linarith [abs_nonneg t.r]
    have := Real.log_le_log hp h1
    rw [Real.log_zpow] at this
    push_cast at this
    linarith
  · have h1 : t.size ≤ (2 : ℝ) ^ (11 : ℤ) := by
      unfold Toa.size
      have h2 : (2 : ℝ) ^ (-30 : ℤ) ≤ 1 := zpow_le_one_of_nonpos₀ (by norm_num) (by norm_num)
      have h3 : (2 : ℝ) ^ (11 : ℤ) = 2048 := by norm_num
      rw [h3]
      linarith [h.r]
    have := Real.log_le_log h0 h1
    rw [Real.log_zpow] at this
    push_cast at this
    linarith

theorem abs_r_le (t : Toa) : |t.r| ≤ t.size := by
  have hp : (0 : ℝ) < (2 : ℝ) ^ (-30 : ℤ) := by positivity
  unfold Toa.size
  linarith

theorem log_quot {x y a b : ℝ} (hx : 0 < x) (hy : 0 < y) (ha : |Real.log x| ≤ a) (hb : |Real.log y| ≤ b) : 0 < x / y ∧ |Real.log (x / y)| ≤ a + b := by
  refine ⟨div_pos hx hy, ?_⟩
  rw [Real.log_div hx.ne' hy.ne']
  exact (abs_sub _ _).trans (add_le_add ha hb)

theorem log_prod {x y a b : ℝ} (hx : 0 < x) (hy : 0 < y) (ha : |Real.log x| ≤ a) (hb : |Real.log y| ≤ b) : 0 < x * y ∧ |Real.log (x * y)| ≤ a + b := by
  refine ⟨mul_pos hx hy, ?_⟩
  rw [Real.log_mul hx.ne' hy.ne']
  exact (abs_add_le _ _).trans (add_le_add ha hb)

/-- The factors of `np.dot(niblock, rblock)`. -/
theorem weight_product {t : Toa} (h : t.Narrow) : Product 22 (div A (.fin 1) (t.fl A P).2, (t.fl A P).1) (t.r / t.var, t.size / t.var) := by
  obtain ⟨x, hx, ox⟩ := inv_off A P h
  obtain ⟨v0, vl⟩ := var_log h
  obtain ⟨s0, sl⟩ := size_log h
  have rx := ox.toRel (by norm_num) (by norm_num)
  refine ⟨x, t.r, by rw [hx]; rfl, ?_, ?_, ?_⟩
  · simp only
    have e : x * t.r - t.r / t.var = (x - 1 / t.var) * t.r := by field_simp
    rw [e, abs_mul]
    have := mul_le_mul rx.err (abs_r_le t) (abs_nonneg _) (le_trans (abs_nonneg _) rx.err)
    refine this.trans (le_of_eq ?_)
    ring
  · simp only
    rw [abs_div, abs_of_pos v0]
    exact div_le_div_of_nonneg_right (abs_r_le t) v0.le
  · obtain ⟨q0, ql⟩ := log_quot s0 v0 sl vl
    exact (zpow_bounds (j := 900) q0 ql (by norm_num) (by norm_num)).1

/-- The factors of `np.dot(y, Nx)`. -/
theorem square_product {t : Toa} (h : t.Narrow) : Product 22 ((t.fl A P).1, div A (t.fl A P).1 (t.fl A P).2) (t.r ^ 2 / t.var, t.size ^ 2 / t.var) := by
  obtain ⟨n, hn, on⟩ := var_off A P h
  obtain ⟨v0, vl⟩ := var_log h
  obtain ⟨s0, sl⟩ := size_log h
  have hnp := on.pos
  have o1 : Off 0 0 1 1 := .exact (by norm_num) (by simp)
  have ni := (o1.div' on).toRel (by norm_num) (by norm_num)
  have he := eps_pos
  have hs := abs_r_le t
  have hi : 0 < 1 / t.var := by positivity
  have hle := ni.abs_le (by norm_num)
  rw [abs_of_pos (by positivity)] at hle
  obtain ⟨q0, ql⟩ := log_quot s0 v0 sl vl
  have hb : |t.r / n| ≤ (2 : ℝ) ^ (1000 : ℤ) := by
    have h1 : |t.r / n| ≤ 1024 * (2 * (2 : ℝ) ^ (120 : ℤ)) := by
      rw [div_eq_mul_one_div, abs_mul, abs_of_pos (by positivity : 0 < 1 / n)]
      refine mul_le_mul h.r (hle.trans ?_) (by positivity) (by norm_num)
      have := (zpow_bounds (x := 1 / t.var) (j := 120) hi (m := 81) (by rw [one_div, Real.log_inv, abs_neg]; exact vl) (by norm_num) (by norm_num)).2
      linarith
    refine h1.trans ?_
    have e : (2 : ℝ) ^ (1000 : ℤ) = 2 ^ 880 * (2 : ℝ) ^ (120 : ℤ) := by
      rw [← zpow_natCast, ← zpow_add₀ (by norm_num)]
      norm_num
    rw [e, ← mul_assoc]
    have h2 : (2 : ℝ) ^ 11 ≤ 2 ^ 880 := pow_le_pow_right₀ (by norm_num) (by norm_num)
    exact mul_le_mul_of_nonneg_right (le_trans (by norm_num) h2) (by positivity)
  have hd : div A (.fin t.r) (.fin n) = .fin (A.rnd (t.r / n)) := by
    simp only [div, hnp.ne', if_false, round_fin A hb]
  have hsq : t.r ^ 2 ≤ t.size ^ 2 := by
    rw [← sq_abs]
    exact pow_le_pow_left₀ (abs_nonneg _) hs 2
  refine ⟨t.r, A.rnd (t.r / n), ?_, ?_, ?_, ?_⟩
  · rw [hn]
    simp only [Toa.fl, hd]
  · simp only
    have e : t.r * A.rnd (t.r / n) - t.r ^ 2 / t.var = t.r * (A.rnd (t.r / n) - t.r / n) + t.r ^ 2 * (1 / n - 1 / t.var) := by
      field_simp
      ring
    rw [e]
    refine (abs_add_le _ _).trans ?_
    rw [abs_mul, abs_mul, abs_of_nonneg (sq_nonneg t.r)]
    have g1 := mul_le_mul_of_nonneg_left (rnd_err A (t.r / n)) (abs_nonneg t.r)
    have g2 : |t.r| * |t.r / n| ≤ 2 * (t.size ^ 2 / t.var) := by
      rw [div_eq_mul_one_div, abs_mul, abs_of_pos (by positivity : 0 < 1 / n), ← mul_assoc, ← sq, sq_abs, div_eq_mul_one_div (t.size ^ 2)]
      have := mul_le_mul hsq hle (by positivity) (sq_nonneg _)
      linarith
    have g3 := mul_le_mul hsq ni.err (abs_nonneg _) (sq_nonneg _)
    have g4 := mul_le_mul_of_nonneg_left g2 (by positivity : (0 : ℝ) ≤ eps / 2)
    have g5 : |t.r| * tiny ≤ eps * (t.size ^ 2 / t.var) := by
      have h1 := tiny_le (zpow_bounds (j := 900) q0 ql (by norm_num) (by norm_num)).1
      have := mul_le_mul hs h1 tiny_pos.le s0.le
      refine this.trans (le_of_eq ?_)
      ring
    have e2 : t.size ^ 2 * (2 * (0 + 10) * eps * (1 / t.var)) = 20 * eps * (t.size ^ 2 / t.var) := by ring
    rw [e2] at g3
    linarith
  · simp only
    rw [abs_of_nonneg (by positivity)]
    exact div_le_div_of_nonneg_right hsq v0.le
  · have e : t.size ^ 2 / t.var = t.size * (t.size / t.var) := by ring
    obtain ⟨p0, pl⟩ := log_prod s0 q0 sl ql
    simp only
    rw [e]
    exact (zpow_bounds (j := 900) p0 pl (by norm_num) (by norm_num)).1

/-- Logarithms. -/
theorem log_near (hL : GoodLog L) {r m x X : ℝ} (h : Off r m x X) (hr : r ≤ 2 ^ 44) (hm : m ≤ 600) : Near (r + 2) (npLog L (.fin x)) (Real.log X, 1 + |Real.log X|) := by
  have he := eps_pos
  have h1 : r * eps ≤ 1 := eps_small (hr.trans (by norm_num))
  have hl : |Real.log x| ≤ |Real.log X| + 1 := by
    have : |Real.log x| ≤ |Real.log x - Real.log X| + |Real.log X| := by simpa using abs_add_le (Real.log x - Real.log X) (Real.log X)
    linarith [h.err]
  have g1 := hL x h.pos (by linarith [h.size])
  have hr0 : 0 ≤ r * eps := (abs_nonneg _).trans h.err
  refine ⟨L.log x, by simp only [npLog, h.pos, if_true], ?_, ?_, ?_⟩
  · simp only
    have e : L.log x - Real.log X = (L.log x - Real.log x) + (Real.log x - Real.log X) := by ring
    rw [e]
    refine (abs_add_le _ _).trans ?_
    have g2 := mul_le_mul_of_nonneg_left hl he.le
    have g3 : 0 ≤ eps * |Real.log X| := by positivity
    have g4 : 0 ≤ r * eps * |Real.log X| := by positivity
    linarith [h.err]
  · simp only
    linarith
  · simp only
    have : (2 : ℝ) ^ (-900 : ℤ) ≤ 1 := zpow_le_one_of_nonpos₀ (by norm_num) (by norm_num)
    linarith [abs_nonneg (Real.log X)]

/-! ## One epoch -/

/-- Logarithms of sums. -/
theorem log_sum {α : Type} {f : α → ℝ} {m : ℝ} {l : List α} (hl : l ≠ []) (hlen : l.length ≤ 2 ^ 22) (h : ∀ a ∈ l, 0 < f a ∧ |Real.log (f a)| ≤ m) :
    0 < (l.map f).sum ∧ |Real.log (l.map f).sum| ≤ m + 16 := by
  have hle : (l.map f).sum ≤ l.length * Real.exp m := sum_le_len fun a ha => by
    rw [← Real.log_le_iff_le_exp (h a ha).1]
    exact (abs_le.1 (h a ha).2).2
  have hge : Real.exp (-m) ≤ (l.map f).sum := by
    cases l with
    | nil => exact absurd rfl hl
    | cons a l =>
      have h1 : Real.exp (-m) ≤ f a := by
        rw [← Real.le_log_iff_exp_le (h a (by simp)).1]
        exact (abs_le.1 (h a (by simp)).2).1
      have h2 : 0 ≤ (l.map f).sum := List.sum_nonneg fun x hx => by
        obtain ⟨b, hb, rfl⟩ := List.mem_map.1 hx
        exact (h b (by simp [hb])).1.le
      simp only [List.map_cons, List.sum_cons]
      linarith
  have h0 : 0 < (l.map f).sum := lt_of_lt_of_le (Real.exp_pos _) hge
  have hn : (1 : ℝ) ≤ l.length := by
    have : 1 ≤ l.length := List.length_pos_iff.2 hl
    exact_mod_cast this
  have hn2 : (l.length : ℝ) ≤ 2 ^ 22 := by exact_mod_cast hlen
  refine ⟨h0, abs_le.2 ⟨?_, ?_⟩⟩
  · have := Real.log_le_log (Real.exp_pos _) hge
    rw [Real.log_exp] at this
    linarith
  · have h1 := Real.log_le_log h0 hle
    rw [Real.log_mul (by linarith) (Real.exp_pos m).ne', Real.log_exp] at h1
    have h2 := Real.log_le_log (by linarith) hn2
    rw [Real.log_pow] at h2
    push_cast at h2
    linarith [Real.log_two_lt_d9]

theorem total_diag {α : Type} (l : List α) (f g : α → ℝ) : total (l.map fun a => (f a, g a)) = ((l.map f).sum, (l.map g).sum) := by
  simp only [total, List.map_map]
  rfl

theorem beta_off {b : Epoch} {N : ℕ} (hN : N ≤ 2 ^ 22) (ht : ∀ t ∈ b.toas, t.Narrow) (hb : b.toas ≠ []) (hlen : b.toas.length ≤ N)
    (he : Rep b.ecorr ∧ |b.ecorr| ≤ 10) {beta : Fl} (h : IsBeta A (b.fl A P).1 (b.fl A P).2 beta) : ∃ x, beta = .fin x ∧ Off (50 + 4 * N) 98 x b.beta := by
  obtain ⟨s, hs, rfl⟩ := h
  have hN' : (N : ℝ) ≤ 2 ^ 22 := by exact_mod_cast hN
  have hlen' : (b.toas.length : ℝ) ≤ N := by exact_mod_cast hlen
  have hl0 : (0 : ℝ) ≤ b.toas.length := Nat.cast_nonneg _
  have hinv : ∀ t ∈ b.toas, 0 < 1 / t.var ∧ |Real.log (1 / t.var)| ≤ 81 := by
    intro t h
    obtain ⟨v0, vl⟩ := var_log (ht t h)
    exact ⟨by positivity, by rw [one_div, Real.log_inv, abs_neg]; exact vl⟩
  obtain ⟨S0, Sl⟩ := log_sum hb (hlen.trans hN) hinv
  have hf : List.Forall₂ (Near 22) ((b.fl A P).2.map fun t => div A (.fin 1) t.2) (b.toas.map fun t => (1 / t.var, 1 / t.var)) := by
    rw [Epoch.fl, List.map_map]
    refine forall₂_maps fun t h => ?_
    obtain ⟨x, hx, ox⟩ := inv_off A P (ht t h)
    exact ⟨x, hx, (ox.toRel (by norm_num) (by norm_num)).mono (by norm_num)⟩
  have hS := (zpow_bounds (j := 990) S0 Sl (by norm_num) (by norm_num)).2
  obtain ⟨x, ex, hx⟩ := sum_rel A (by simpa [Epoch.fl] using hb) hf (by rw [List.length_map]; linarith) (by rw [total_diag]; exact hS) hs
  rw [total_diag, List.length_map] at hx
  have o1 := (hx.toOff (by linarith) (by linarith) (m := 97) (Sl.trans (by norm_num))).mono (r' := 44 + 4 * N) (by linarith) le_rfl
  obtain ⟨j, hj, oj⟩ := squared_off' A P he.1 he.2
  have one : Off 0 0 1 1 := .exact (by norm_num) (by simp)
  obtain ⟨y, hy, oy⟩ := one.div A oj (by norm_num) (by norm_num)
  obtain ⟨z, hz, oz⟩ := o1.add A (oy.mono (by linarith) (by norm_num)) (by linarith) (by norm_num)
  obtain ⟨w, hw, ow⟩ := one.div A oz (by linarith) (by norm_num)
  refine ⟨w, ?_, ow.mono (by linarith) (by norm_num)⟩
  simp only [Epoch.fl, hj, hy, ex, hz, hw]

theorem weights_near {b : Epoch} {N : ℕ} (hN : N ≤ 2 ^ 22) (ht : ∀ t ∈ b.toas, t.Narrow) (hb : b.toas ≠ []) (hlen : b.toas.length ≤ N) {d : Fl}
    (h : IsDot A ((b.fl A P).2.map fun t => (div A (.fin 1) t.2, t.1)) d) :
    Near (22 + 2 * N) d ((b.toas.map fun t => t.r / t.var).sum, (b.toas.map fun t => t.size / t.var).sum) := by
  have hN' : (N : ℝ) ≤ 2 ^ 22 := by exact_mod_cast hN
  have hlen' : (b.toas.length : ℝ) ≤ N := by exact_mod_cast hlen
  have hl0 : (0 : ℝ) ≤ b.toas.length := Nat.cast_nonneg _
  obtain ⟨S0, Sl⟩ := log_sum hb (hlen.trans hN) (f := fun t => t.size / t.var) fun t h => by
    obtain ⟨v0, vl⟩ := var_log (ht t h)
    obtain ⟨s0, sl⟩ := size_log (ht t h)
    exact log_quot s0 v0 sl vl
  have hf : List.Forall₂ (Product 22) ((b.fl A P).2.map fun t => (div A (.fin 1) t.2, t.1)) (b.toas.map fun t => (t.r / t.var, t.size / t.var)) := by
    rw [Epoch.fl, List.map_map]
    exact forall₂_maps fun t h => weight_product A P (ht t h)
  have hS := (zpow_bounds (j := 990) S0 Sl (by norm_num) (by norm_num)).2
  obtain ⟨x, ex, hx⟩ := dot_rel A (by simpa [Epoch.fl] using hb) hf (by rw [List.length_map]; linarith) (by rw [total_diag]; exact hS) h
  rw [total_diag, List.length_map] at hx
  exact ⟨x, ex, hx.mono (by linarith)⟩

/-- The Cauchy-Schwarz inequality. -/
theorem cauchy {α : Type} (l : List α) (a u : α → ℝ) (hu : ∀ x ∈ l, 0 ≤ u x) :
    (l.map fun x => a x * u x).sum ^ 2 ≤ (l.map u).sum * (l.map fun x => a x ^ 2 * u x).sum ∧ 0 ≤ (l.map u).sum ∧ 0 ≤ (l.map fun x => a x ^ 2 * u x).sum := by
  induction l with
  | nil => simp
  | cons y l ih =>
    obtain ⟨h1, h2, h3⟩ := ih fun x hx => hu x (by simp [hx])
    have hy := hu y (by simp)
    simp only [List.map_cons, List.sum_cons]
    generalize (l.map fun x => a x * u x).sum = S at *
    generalize (l.map u).sum = U at *
    generalize (l.map fun x => a x ^ 2 * u x).sum = Q at *
    refine ⟨?_, by linarith, by positivity⟩
    have hT : |2 * a y * S| ≤ Q + U * a y ^ 2 := by
      refine abs_le_of_sq_le_sq ?_ (by positivity)
      nlinarith [sq_nonneg (Q - U * a y ^ 2), sq_nonneg (a y)]
    have := mul_le_mul_of_nonneg_left ((le_abs_self _).trans hT) hy
    nlinarith

/-- What an epoch subtracts is no more than what its TOAs contribute. -/
theorem term_le {b : Epoch} (ht : ∀ t ∈ b.toas, t.Narrow) (hb : b.toas ≠ []) :
    b.beta * (b.toas.map fun t => t.size / t.var).sum ^ 2 ≤ (b.toas.map fun t => t.size ^ 2 / t.var).sum := by
  obtain ⟨h1, h2, h3⟩ := cauchy b.toas Toa.size (fun t => 1 / t.var) fun t h => by
    have := (var_log (ht t h)).1
    positivity
  have e1 : (fun t : Toa => t.size / t.var) = fun t => t.size * (1 / t.var) := by funext t; ring
  have e2 : (fun t : Toa => t.size ^ 2 / t.var) = fun t => t.size ^ 2 * (1 / t.var) := by funext t; ring
  rw [e1, e2, Epoch.beta]
  have hj : (0 : ℝ) < 1 / (10 : ℝ) ^ (2 * b.ecorr) := by positivity
  rw [div_mul_eq_mul_div, one_mul, div_le_iff₀ (by linarith)]
  have := mul_nonneg h3 hj.le
  linarith

/-- The product that an epoch subtracts. -/
theorem term_near {b : Epoch} {N : ℕ} (hN : N ≤ 2 ^ 22) (ht : ∀ t ∈ b.toas, t.Narrow) (hb : b.toas ≠ []) (hlen : b.toas.length ≤ N)
    (he : Rep b.ecorr ∧ |b.ecorr| ≤ 10) {beta d e : Fl} (h1 : IsBeta A (b.fl A P).1 (b.fl A P).2 beta)
    (h2 : IsDot A ((b.fl A P).2.map fun t => (div A (.fin 1) t.2, t.1)) d) (h3 : IsDot A ((b.fl A P).2.map fun t => (div A (.fin 1) t.2, t.1)) e) :
    ∃ z, mul A (mul A beta d) e = .fin z ∧
      Rel (200 + 16 * N) (b.beta * (b.toas.map fun t => t.size / t.var).sum ^ 2) z (b.beta * (b.toas.map fun t => t.r / t.var).sum ^ 2) ∧
      b.beta * (b.toas.map fun t => t.size / t.var).sum ^ 2 ≤ (2 : ℝ) ^ (500 : ℤ) := by
  have hN' : (N : ℝ) ≤ 2 ^ 22 := by exact_mod_cast hN
  have hN0 : (0 : ℝ) ≤ N := Nat.cast_nonneg _
  obtain ⟨x, rfl, ox⟩ := beta_off A P hN ht hb hlen he h1
  obtain ⟨y, rfl, hy⟩ := weights_near A P hN ht hb hlen h2
  obtain ⟨w, rfl, hw⟩ := weights_near A P hN ht hb hlen h3
  obtain ⟨S0, Sl⟩ := log_sum hb (hlen.trans hN) (f := fun t => t.size / t.var) fun t h => by
    obtain ⟨v0, vl⟩ := var_log (ht t h)
    obtain ⟨s0, sl⟩ := size_log (ht t h)
    exact log_quot s0 v0 sl vl
  have rx := ox.toRel (by linarith) (by norm_num)
  obtain ⟨p0, pl⟩ := log_prod ox.pos' S0 ox.size Sl
  obtain ⟨q0, ql⟩ := log_prod p0 S0 pl Sl
  have b1 := zpow_bounds (j := 900) p0 pl (by norm_num) (by norm_num)
  have b2 := zpow_bounds (j := 900) q0 ql (by norm_num) (by norm_num)
  have h990 : (2 : ℝ) ^ (900 : ℤ) ≤ (2 : ℝ) ^ (990 : ℤ) := zpow_le_zpow_right₀ (by norm_num) (by norm_num)
  obtain ⟨u, hu, ou⟩ := rx.mul A hy (by linarith) (by linarith) b1.1 (b1.2.trans h990)
  obtain ⟨v, hv, ov⟩ := ou.mul A hw (by linarith) (by linarith) b2.1 (b2.2.trans h990)
  have e1 : ∀ a s : ℝ, a * s * s = a * s ^ 2 := fun a s => by ring
  refine ⟨v, by rw [hu, hv], ?_, ?_⟩
  · have := ov.mono (k' := 200 + 16 * N) (by linarith)
    simp only [e1] at this
    exact this
  · rw [← e1]
    exact (zpow_bounds (j := 500) q0 ql (by norm_num) (by norm_num)).2

/-! ## The loops over the epochs -/

/-- The size of what an epoch subtracts. -/
noncomputable def Epoch.wt (b : Epoch) : ℝ := if 1 < b.toas.length then b.beta * (b.toas.map fun t => t.size / t.var).sum ^ 2 else 0

/-- What an epoch subtracts. -/
noncomputable def Epoch.sub (b : Epoch) : ℝ := if 1 < b.toas.length then b.beta * (b.toas.map fun t => t.r / t.var).sum ^ 2 else 0

/-- The size of what an epoch adds to the log determinant. -/
noncomputable def Epoch.lwt (b : Epoch) : ℝ := if 1 < b.toas.length then (1 + |Real.log ((10 : ℝ) ^ (2 * b.ecorr))|) + (1 + |Real.log b.beta|) else 0

/-- What an epoch adds to the log determinant. -/
noncomputable def Epoch.ld (b : Epoch) : ℝ := if 1 < b.toas.length then Real.log ((10 : ℝ) ^ (2 * b.ecorr)) - Real.log b.beta else 0

/-- Epochs with usual values. -/
def Epoch.Usual (N : ℕ) (b : Epoch) : Prop := (∀ t ∈ b.toas, t.Narrow) ∧ b.toas.length ≤ N ∧ Rep b.ecorr ∧ |b.ecorr| ≤ 10

theorem beta_pos {b : Epoch} (ht : ∀ t ∈ b.toas, t.Narrow) : 0 < b.beta := by
  have h : 0 ≤ (b.toas.map fun t => 1 / t.var).sum := List.sum_nonneg fun x hx => by
    obtain ⟨t, h, rfl⟩ := List.mem_map.1 hx
    have := (var_log (ht t h)).1
    positivity
  unfold Epoch.beta
  positivity

theorem wt_nonneg {N : ℕ} {b : Epoch} (h : b.Usual N) : 0 ≤ b.wt := by
  have := beta_pos h.1
  unfold Epoch.wt
  split_ifs
  · positivity
  · rfl

theorem lwt_nonneg (b : Epoch) : 0 ≤ b.lwt := by
  unfold Epoch.lwt
  split_ifs
  · positivity
  · rfl

theorem sums_nonneg {α : Type} {f : α → ℝ} {l : List α} (h : ∀ a ∈ l, 0 ≤ f a) : 0 ≤ (l.map f).sum :=
  List.sum_nonneg fun x hx => by
    obtain ⟨b, hb, rfl⟩ := List.mem_map.1 hx
    exact h b hb

theorem loop_near {N : ℕ} (hN : N ≤ 2 ^ 22) : ∀ (bs : List Epoch), (∀ b ∈ bs, b.Usual N) → ∀ {k x X W : ℝ} {v : Fl}, Rel k W x X → 200 + 16 * N ≤ k →
    k + 2 * bs.length ≤ 2 ^ 45 → W + (bs.map Epoch.wt).sum ≤ (2 : ℝ) ^ (990 : ℤ) → IsLoop A (bs.map (Epoch.fl A P)) (.fin x) v →
    Near (k + 2 * bs.length) v (X - (bs.map Epoch.sub).sum, W + (bs.map Epoch.wt).sum) := by
  intro bs
  induction bs with
  | nil =>
    intro _ k x X W v hx _ _ _ h
    rw [List.map_nil, IsLoop] at h
    exact ⟨x, h, by simpa using hx⟩
  | cons b bs ih =>
    intro hu k x X W v hx hk1 hk2 hW h
    have hb := hu b (by simp)
    have hbs : ∀ c ∈ bs, c.Usual N := fun c hc => hu c (by simp [hc])
    have hnn := sums_nonneg fun c hc => wt_nonneg (hbs c hc)
    simp only [List.map_cons, List.sum_cons, List.length_cons, Nat.cast_add, Nat.cast_one] at hW hk2 ⊢
    rw [List.map_cons, Epoch.fl, IsLoop, List.length_map] at h
    by_cases h1 : 1 < b.toas.length
    · rw [if_pos h1] at h
      obtain ⟨beta, d, e, g1, g2, g3, g4⟩ := h
      have hne : b.toas ≠ [] := by
        rintro h0
        rw [h0] at h1
        simp at h1
      obtain ⟨z, hz, oz, -⟩ := term_near A P hN hb.1 hne hb.2.1 hb.2.2 g1 g2 g3
      have ewt : b.wt = b.beta * (b.toas.map fun t => t.size / t.var).sum ^ 2 := by rw [Epoch.wt, if_pos h1]
      have esub : b.sub = b.beta * (b.toas.map fun t => t.r / t.var).sum ^ 2 := by rw [Epoch.sub, if_pos h1]
      rw [← ewt, ← esub] at oz
      obtain ⟨y, hy, oy⟩ := hx.sub A (oz.mono hk1) (by linarith [Nat.cast_nonneg (α := ℝ) bs.length]) (by linarith)
      rw [hz, hy] at g4
      obtain ⟨w, ew, ow⟩ := ih hbs oy (by linarith) (by linarith) (by linarith) g4
      refine ⟨w, ew, ?_⟩
      have e1 : X - (b.sub + (bs.map Epoch.sub).sum) = X - b.sub - (bs.map Epoch.sub).sum := by ring
      have e2 : W + (b.wt + (bs.map Epoch.wt).sum) = W + b.wt + (bs.map Epoch.wt).sum := by ring
      simp only [e1, e2]
      exact ow.mono (by linarith)
    · rw [if_neg h1] at h
      have ewt : b.wt = 0 := by rw [Epoch.wt, if_neg h1]
      have esub : b.sub = 0 := by rw [Epoch.sub, if_neg h1]
      rw [ewt, zero_add] at hW
      rw [ewt, esub, zero_add, zero_add]
      obtain ⟨w, ew, ow⟩ := ih hbs hx hk1 (by linarith) hW h
      exact ⟨w, ew, ow.mono (by linarith)⟩

theorem log_loop_near (hL : GoodLog L) {N : ℕ} (hN : N ≤ 2 ^ 22) : ∀ (bs : List Epoch), (∀ b ∈ bs, b.Usual N) → ∀ {k x X W : ℝ} {v : Fl}, Rel k W x X →
    200 + 16 * N ≤ k → k + 2 * bs.length ≤ 2 ^ 45 → W + (bs.map Epoch.lwt).sum ≤ (2 : ℝ) ^ (990 : ℤ) → IsLogLoop A L (bs.map (Epoch.fl A P)) (.fin x) v →
    Near (k + 2 * bs.length) v (X + (bs.map Epoch.ld).sum, W + (bs.map Epoch.lwt).sum) := by
  intro bs
  induction bs with
  | nil =>
    intro _ k x X W v hx _ _ _ h
    rw [List.map_nil, IsLogLoop] at h
    exact ⟨x, h, by simpa using hx⟩
  | cons b bs ih =>
    intro hu k x X W v hx hk1 hk2 hW h
    have hN' : (N : ℝ) ≤ 2 ^ 22 := by exact_mod_cast hN
    have hN0 : (0 : ℝ) ≤ N := Nat.cast_nonneg _
    have hb := hu b (by simp)
    have hbs : ∀ c ∈ bs, c.Usual N := fun c hc => hu c (by simp [hc])
    have hnn : 0 ≤ (bs.map Epoch.lwt).sum := sums_nonneg fun c _ => lwt_nonneg c
    simp only [List.map_cons, List.sum_cons, List.length_cons, Nat.cast_add, Nat.cast_one] at hW hk2 ⊢
    rw [List.map_cons, Epoch.fl, IsLogLoop, List.length_map] at h
    by_cases h1 : 1 < b.toas.length
    · rw [if_pos h1] at h
      obtain ⟨beta, g1, g4⟩ := h
      have hne : b.toas ≠ [] := by
        rintro h0
        rw [h0] at h1
        simp at h1
      obtain ⟨x1, rfl, o1⟩ := beta_off A P hN hb.1 hne hb.2.1 hb.2.2 g1
      obtain ⟨j, hj, oj⟩ := squared_off' A P hb.2.2.1 hb.2.2.2
      obtain ⟨u1, e1, r1⟩ := log_near L hL o1 (by linarith) (by norm_num)
      obtain ⟨u2, e2, r2⟩ := log_near L hL oj (by norm_num) (by norm_num)
      have elwt : b.lwt = (1 + |Real.log ((10 : ℝ) ^ (2 * b.ecorr))|) + (1 + |Real.log b.beta|) := by rw [Epoch.lwt, if_pos h1]
      have eld : b.ld = Real.log ((10 : ℝ) ^ (2 * b.ecorr)) - Real.log b.beta := by rw [Epoch.ld, if_pos h1]
      obtain ⟨z, hz, oz⟩ := (r2.mono (k' := 52 + 4 * N) (by linarith)).sub A (r1.mono (by linarith)) (by linarith) (by rw [← elwt]; linarith [hx.pos])
      rw [← elwt, ← eld] at oz
      obtain ⟨y, hy, oy⟩ := hx.add A (oz.mono (by linarith)) (by linarith [Nat.cast_nonneg (α := ℝ) bs.length]) (by linarith)
      rw [hj, e1, e2, hz, hy] at g4
      obtain ⟨w, ew, ow⟩ := ih hbs oy (by linarith) (by linarith) (by linarith) g4
      refine ⟨w, ew, ?_⟩
      have e1 : X + (b.ld + (bs.map Epoch.ld).sum) = X + b.ld + (bs.map Epoch.ld).sum := by ring
      have e2 : W + (b.lwt + (bs.map Epoch.lwt).sum) = W + b.lwt + (bs.map Epoch.lwt).sum := by ring
      simp only [e1, e2]
      exact ow.mono (by linarith)
    · rw [if_neg h1] at h
      have ewt : b.lwt = 0 := by rw [Epoch.lwt, if_neg h1]
      have esub : b.ld = 0 := by rw [Epoch.ld, if_neg h1]
      rw [ewt, zero_add] at hW
      rw [ewt, esub, zero_add, zero_add]
      obtain ⟨w, ew, ow⟩ := ih hbs hx hk1 (by linarith) hW h
      exact ⟨w, ew, ow.mono (by linarith)⟩

/-! ## One pulsar -/

theorem beta_log {N : ℕ} (hN : N ≤ 2 ^ 22) {b : Epoch} (h : b.Usual N) (hb : b.toas ≠ []) : |Real.log b.beta| ≤ 98 := by
  obtain ⟨s, hs⟩ := exists_sum down ((b.fl down floorPowers).2.map fun t => div down (.fin 1) t.2)
  obtain ⟨x, -, ox⟩ := beta_off down floorPowers hN h.1 hb h.2.1 h.2.2 ⟨s, hs, rfl⟩
  exact ox.size

theorem wt_le {N : ℕ} (hN : N ≤ 2 ^ 22) {b : Epoch} (h : b.Usual N) : b.wt ≤ (2 : ℝ) ^ (500 : ℤ) ∧ b.lwt ≤ (2 : ℝ) ^ (500 : ℤ) := by
  have h500 : (0 : ℝ) ≤ (2 : ℝ) ^ (500 : ℤ) := by positivity
  by_cases h1 : 1 < b.toas.length
  · have hne : b.toas ≠ [] := by
      rintro h0
      rw [h0] at h1
      simp at h1
    constructor
    · obtain ⟨s, hs⟩ := exists_sum down ((b.fl down floorPowers).2.map fun t => div down (.fin 1) t.2)
      obtain ⟨d, hd⟩ := exists_dot down ((b.fl down floorPowers).2.map fun t => (div down (.fin 1) t.2, t.1))
      obtain ⟨z, -, -, hz⟩ := term_near down floorPowers hN h.1 hne h.2.1 h.2.2 ⟨s, hs, rfl⟩ hd hd
      rw [Epoch.wt, if_pos h1]
      exact hz
    · rw [Epoch.lwt, if_pos h1]
      have g1 := beta_log hN h hne
      obtain ⟨j, -, oj⟩ := squared_off' down floorPowers h.2.2.1 h.2.2.2
      have g2 := oj.size
      have e1 : (2 : ℝ) ^ (10 : ℤ) ≤ (2 : ℝ) ^ (500 : ℤ) := zpow_le_zpow_right₀ (by norm_num) (by norm_num)
      have e2 : (2 : ℝ) ^ (10 : ℤ) = 1024 := by norm_num
      rw [e2] at e1
      exact le_trans (by linarith) e1
  · rw [Epoch.wt, if_neg h1, Epoch.lwt, if_neg h1]
    exact ⟨h500, h500⟩

theorem Psr.Usual.epoch {N : ℕ} {p : Psr} (h : p.Usual N) : ∀ b ∈ p.epochs, b.Usual N := by
  intro b hb
  refine ⟨fun t ht => h.toas t ?_, ?_, h.ecorr b hb⟩
  · simp only [Psr.toas, List.mem_append, List.mem_flatMap]
    exact .inr ⟨b, hb, ht⟩
  · refine le_trans ?_ h.len
    rw [Psr.toas, List.length_append, List.length_flatMap]
    have : b.toas.length ≤ (p.epochs.map fun b => b.toas.length).sum := List.single_le_sum (by simp) _ (List.mem_map.2 ⟨b, hb, rfl⟩)
    omega

/-- The sizes of the two numbers of a pulsar. -/
noncomputable def Psr.wt (p : Psr) : ℝ := (p.toas.map fun t => t.size ^ 2 / t.var).sum + (p.epochs.map Epoch.wt).sum

/-- The size of the log determinant. -/
noncomputable def Psr.lwt (p : Psr) : ℝ := (p.toas.map fun t => 1 + |Real.log t.var|).sum + (p.epochs.map Epoch.lwt).sum

/-- The quadratic form in exact arithmetic. -/
noncomputable def Psr.chi (p : Psr) : ℝ := (p.toas.map fun t => t.r ^ 2 / t.var).sum - (p.epochs.map Epoch.sub).sum

/-- The log determinant in exact arithmetic. -/
noncomputable def Psr.ld (p : Psr) : ℝ := (p.toas.map fun t => Real.log t.var).sum + (p.epochs.map Epoch.ld).sum

theorem len_mul {n N : ℕ} (hN : N ≤ 2 ^ 22) (hn : n ≤ N) {j : ℤ} (hj : j ≤ 500) : (n : ℝ) * (2 : ℝ) ^ j ≤ (2 : ℝ) ^ (522 : ℤ) := by
  have h1 : (n : ℝ) ≤ 2 ^ 22 := by exact_mod_cast hn.trans hN
  have e : (2 : ℝ) ^ (522 : ℤ) = 2 ^ 22 * (2 : ℝ) ^ (500 : ℤ) := by
    rw [← zpow_natCast, ← zpow_add₀ (by norm_num)]
    norm_num
  rw [e]
  exact mul_le_mul h1 (zpow_le_zpow_right₀ (by norm_num) hj) (by positivity) (by positivity)

theorem psr_near (hL : GoodLog L) {N : ℕ} (hN : N ≤ 2 ^ 22) {p : Psr} (hp : p.Usual N) {q d : Fl} (h : IsEcorrChi A L (p.fl A P) q d) :
    Near (200 + 18 * N) q (p.chi, p.wt) ∧ Near (200 + 18 * N) d (p.ld, p.lwt) ∧ p.wt ≤ (2 : ℝ) ^ (600 : ℤ) ∧ p.lwt ≤ (2 : ℝ) ^ (600 : ℤ) := by
  have hN' : (N : ℝ) ≤ 2 ^ 22 := by exact_mod_cast hN
  have hN0 : (0 : ℝ) ≤ N := Nat.cast_nonneg _
  have hlen : (p.toas.length : ℝ) ≤ N := by exact_mod_cast hp.len
  have hep : (p.epochs.length : ℝ) ≤ N := by exact_mod_cast hp.epochs
  have e600 : (2 : ℝ) ^ (600 : ℤ) = 2 ^ 78 * (2 : ℝ) ^ (522 : ℤ) := by
    rw [← zpow_natCast, ← zpow_add₀ (by norm_num)]
    norm_num
  have h600 : (2 : ℝ) ^ (522 : ℤ) + (2 : ℝ) ^ (522 : ℤ) ≤ (2 : ℝ) ^ (600 : ℤ) := by
    rw [e600, ← two_mul]
    exact mul_le_mul_of_nonneg_right (by norm_num) (by positivity)
  have h990 : (2 : ℝ) ^ (600 : ℤ) ≤ (2 : ℝ) ^ (990 : ℤ) := zpow_le_zpow_right₀ (by norm_num) (by norm_num)
  have s1 : (p.toas.map fun t => t.size ^ 2 / t.var).sum ≤ (2 : ℝ) ^ (522 : ℤ) := (sum_le_len fun t ht => by
    obtain ⟨v0, vl⟩ := var_log (hp.toas t ht)
    obtain ⟨z0, zl⟩ := size_log (hp.toas t ht)
    obtain ⟨p0, pl⟩ := log_prod z0 z0 zl zl
    obtain ⟨q0, ql⟩ := log_quot p0 v0 pl vl
    rw [sq]
    exact (zpow_bounds (j := 500) q0 ql (by norm_num) (by norm_num)).2).trans (len_mul hN hp.len le_rfl)
  have s2 : (p.toas.map fun t => 1 + |Real.log t.var|).sum ≤ (2 : ℝ) ^ (522 : ℤ) := (sum_le_len fun t ht => by
    obtain ⟨v0, vl⟩ := var_log (hp.toas t ht)
    have e2 : (2 : ℝ) ^ (10 : ℤ) = 1024 := by norm_num
    have : 1 + |Real.log t.var| ≤ (2 : ℝ) ^ (10 : ℤ) := by rw [e2]; linarith
    exact this).trans (len_mul hN hp.len (by norm_num))
  have s3 : (p.epochs.map Epoch.wt).sum ≤ (2 : ℝ) ^ (522 : ℤ) := (sum_le_len fun b hb => (wt_le hN (hp.epoch b hb)).1).trans (len_mul hN hp.epochs le_rfl)
  have s4 : (p.epochs.map Epoch.lwt).sum ≤ (2 : ℝ) ^ (522 : ℤ) := (sum_le_len fun b hb => (wt_le hN (hp.epoch b hb)).2).trans (len_mul hN hp.epochs le_rfl)
  have n3 : 0 ≤ (p.epochs.map Epoch.wt).sum := sums_nonneg fun b hb => wt_nonneg (hp.epoch b hb)
  have n4 : 0 ≤ (p.epochs.map Epoch.lwt).sum := sums_nonneg fun b _ => lwt_nonneg b
  have w1 : p.wt ≤ (2 : ℝ) ^ (600 : ℤ) := (add_le_add s1 s3).trans h600
  have w2 : p.lwt ≤ (2 : ℝ) ^ (600 : ℤ) := (add_le_add s2 s4).trans h600
  obtain ⟨⟨y, hy, hq⟩, y', hy', hd⟩ := h
  rw [Psr.fl_toas] at hy hy'
  refine ⟨?_, ?_, w1, w2⟩
  · have hf : List.Forall₂ (Product 22) ((p.toas.map (Toa.fl A P)).map fun t => (t.1, div A t.1 t.2)) (p.toas.map fun t => (t.r ^ 2 / t.var, t.size ^ 2 / t.var)) := by
      rw [List.map_map]
      exact forall₂_maps fun t h => square_product A P (hp.toas t h)
    obtain ⟨x, rfl, hx⟩ := dot_rel A (by simpa using hp.some) hf (by rw [List.length_map]; linarith) (by
      rw [total_diag]
      exact le_trans (le_trans (le_add_of_nonneg_right n3) w1) h990) hy
    rw [total_diag, List.length_map] at hx
    obtain ⟨z, ez, hz⟩ := loop_near A P hN p.epochs hp.epoch (hx.mono (k' := 200 + 16 * N) (by linarith)) le_rfl (by linarith) (w1.trans h990) hq
    exact ⟨z, ez, hz.mono (by linarith)⟩
  · have hf : List.Forall₂ (Near 12) ((p.toas.map (Toa.fl A P)).map fun t => npLog L t.2) (p.toas.map fun t => (Real.log t.var, 1 + |Real.log t.var|)) := by
      rw [List.map_map]
      refine forall₂_maps fun t h => ?_
      obtain ⟨n, hn, on⟩ := var_off A P (hp.toas t h)
      rw [Function.comp_apply, hn]
      obtain ⟨x, ex, hx⟩ := log_near L hL on (by norm_num) (by norm_num)
      exact ⟨x, ex, hx.mono (by norm_num)⟩
    obtain ⟨x, rfl, hx⟩ := sum_rel A (by simpa using hp.some) hf (by rw [List.length_map]; linarith) (by
      rw [total_diag]
      exact le_trans (le_trans (le_add_of_nonneg_right n4) w2) h990) hy'
    rw [total_diag, List.length_map] at hx
    obtain ⟨z, ez, hz⟩ := log_loop_near A P L hL hN p.epochs hp.epoch (hx.mono (k' := 200 + 16 * N) (by linarith)) le_rfl (by linarith) (w2.trans h990) hd
    exact ⟨z, ez, hz.mono (by linarith)⟩

/-- The size of the numbers of a pulsar, in terms of its TOAs and epochs. -/
theorem psr_size {N : ℕ} {p : Psr} (hp : p.Usual N) :
    p.wt + p.lwt ≤ (p.toas.map fun t => 2 * (t.size ^ 2 / t.var) + (1 + |Real.log t.var|)).sum +
      (p.epochs.map fun b => 2 + |Real.log ((10 : ℝ) ^ (2 * b.ecorr))| + |Real.log b.beta|).sum := by
  have hv : ∀ l : List Toa, (∀ t ∈ l, t.Narrow) → 0 ≤ (l.map fun t => t.size ^ 2 / t.var).sum := fun l hl => sums_nonneg fun t ht => by
    have := (var_log (hl t ht)).1
    positivity
  have h1 : (p.epochs.map Epoch.wt).sum ≤ (p.toas.map fun t => t.size ^ 2 / t.var).sum := by
    have h2 : (p.epochs.map Epoch.wt).sum ≤ ((p.epochs.flatMap Epoch.toas).map fun t => t.size ^ 2 / t.var).sum := by
      have := hp.epoch
      generalize p.epochs = bs at this
      induction bs with
      | nil => simp
      | cons b bs ih =>
        have hb := this b (by simp)
        have := ih fun c hc => this c (by simp [hc])
        simp only [List.map_cons, List.sum_cons, List.flatMap_cons, List.map_append, List.sum_append]
        refine add_le_add ?_ this
        by_cases h1 : 1 < b.toas.length
        · rw [Epoch.wt, if_pos h1]
          refine term_le hb.1 ?_
          rintro h0
          rw [h0] at h1
          simp at h1
        · rw [Epoch.wt, if_neg h1]
          exact hv _ hb.1
    rw [Psr.toas, List.map_append, List.sum_append]
    have := hv p.rest fun t ht => hp.toas t (by simp [Psr.toas, ht])
    linarith
  have h2 : (p.epochs.map Epoch.lwt).sum ≤ (p.epochs.map fun b => 2 + |Real.log ((10 : ℝ) ^ (2 * b.ecorr))| + |Real.log b.beta|).sum := by
    refine List.sum_le_sum fun b _ => ?_
    unfold Epoch.lwt
    split_ifs
    · linarith
    · positivity
  rw [sums_add, Psr.wt, Psr.lwt]
  have e : (p.toas.map fun t => 2 * (t.size ^ 2 / t.var)).sum = 2 * (p.toas.map fun t => t.size ^ 2 / t.var).sum := List.sum_map_mul_left _ _ _
  rw [e]
  linarith

/-- The exact terms of a pulsar. -/
theorem psr_exact (p : Psr) : p.chi + p.ld = (p.toas.map fun t => t.r ^ 2 / t.var + Real.log t.var).sum + (p.epochs.map Epoch.term).sum := by
  have e : (p.epochs.map Epoch.term).sum = -(p.epochs.map Epoch.sub).sum + (p.epochs.map Epoch.ld).sum := by
    induction p.epochs with
    | nil => simp
    | cons b bs ih =>
      simp only [List.map_cons, List.sum_cons, ih]
      unfold Epoch.term Epoch.sub Epoch.ld
      split_ifs <;> ring
  rw [sums_add, e, Psr.chi, Psr.ld]
  ring

/-! ## The likelihood -/

theorem psrs_near (hL : GoodLog L) {N : ℕ} (hN : N ≤ 2 ^ 22) {psrs : List Psr} (hp : ∀ p ∈ psrs, p.Usual N) {qs : List (Fl × Fl)}
    (h : List.Forall₂ (fun p q => IsEcorrChi A L p q.1 q.2) (psrs.map (Psr.fl A P)) qs) :
    List.Forall₂ (Near (200 + 18 * N)) (qs.flatMap fun q => [q.1, q.2]) (psrs.flatMap fun p => [(p.chi, p.wt), (p.ld, p.lwt)]) ∧
      (total (psrs.flatMap fun p => [(p.chi, p.wt), (p.ld, p.lwt)])).2 ≤ psrs.length * (2 * (2 : ℝ) ^ (600 : ℤ)) := by
  induction psrs generalizing qs with
  | nil =>
    cases h
    simp [total]
  | cons p psrs ih =>
    cases h with
    | @cons _ q _ qs h1 h2 =>
      obtain ⟨i1, i2⟩ := ih (fun p' h' => hp p' (by simp [h'])) h2
      obtain ⟨c1, c2, c3, c4⟩ := psr_near A P L hL hN (hp p (by simp)) h1
      simp only [List.flatMap_cons, total_append, List.length_cons]
      refine ⟨.cons c1 (.cons c2 i1), ?_⟩
      have : (total [(p.chi, p.wt), (p.ld, p.lwt)]).2 = p.wt + p.lwt := by simp [total]
      rw [this]
      push_cast
      linarith

/-- C144: the log-likelihood of pulsars with white noise and ECORR is finite and accurate, for all rounding rules and all orders of the additions. -/
theorem C144_ecorr (hL : GoodLog L) {N : ℕ} (hN : N ≤ 2 ^ 22) {psrs : List Psr} (h0 : psrs ≠ []) (hP : psrs.length ≤ 2 ^ 15)
    (hp : ∀ p ∈ psrs, p.Usual N) {v : Fl} (h : IsEcorrLike A L (psrs.map (Psr.fl A P)) v) :
    ∃ z, v = .fin z ∧ |z - ecorrLike psrs| ≤ (18 * N + 4 * psrs.length + 210) * (2 : ℝ) ^ (-51 : ℤ) * ecorrSize psrs := by
  obtain ⟨qs, hq, s, hs, rfl⟩ := h
  obtain ⟨i1, i2⟩ := psrs_near A P L hL hN hp hq
  have hN' : (N : ℝ) ≤ 2 ^ 22 := by exact_mod_cast hN
  have hN0 : (0 : ℝ) ≤ N := Nat.cast_nonneg _
  have hP' : (psrs.length : ℝ) ≤ 2 ^ 15 := by exact_mod_cast hP
  have hP0 : (0 : ℝ) ≤ psrs.length := Nat.cast_nonneg _
  obtain ⟨ps, hps⟩ : ∃ ps, ps = psrs.flatMap fun p => [(p.chi, p.wt), (p.ld, p.lwt)] := ⟨_, rfl⟩
  rw [← hps] at i1 i2
  have hW : (total ps).2 ≤ (2 : ℝ) ^ (990 : ℤ) := by
    have e : (2 : ℝ) ^ (990 : ℤ) = 2 ^ 390 * (2 : ℝ) ^ (600 : ℤ) := by
      rw [← zpow_natCast, ← zpow_add₀ (by norm_num)]
      norm_num
    rw [e]
    refine i2.trans ?_
    rw [← mul_assoc]
    have h2 : (2 : ℝ) ^ 16 ≤ 2 ^ 390 := pow_le_pow_right₀ (by norm_num) (by norm_num)
    exact mul_le_mul_of_nonneg_right (le_trans (by linarith) h2) (by positivity)
  have hl : (ps.length : ℝ) = 2 * psrs.length := by
    rw [hps, List.length_flatMap]
    simp [mul_comm]
  have t1 : (total ps).1 = (psrs.map fun p => p.chi + p.ld).sum := by
    rw [hps]
    clear hps i1 i2 hW hl hp hq h0 hP hP' hP0
    induction psrs with
    | nil => simp [total]
    | cons p psrs ih =>
      simp only [List.flatMap_cons, total_append, List.map_cons, List.sum_cons, ih]
      simp [total]
  have t2 : (total ps).2 = (psrs.map fun p => p.wt + p.lwt).sum := by
    rw [hps]
    clear hps i1 i2 hW hl hp hq h0 hP hP' hP0 t1
    induction psrs with
    | nil => simp [total]
    | cons p psrs ih =>
      simp only [List.flatMap_cons, total_append, List.map_cons, List.sum_cons, ih]
      simp [total]
  have hqs : (qs.flatMap fun q => [q.1, q.2]) ≠ [] := by
    intro h1
    have := i1.length_eq
    rw [h1] at this
    have h2 : (ps.length : ℝ) = 0 := by rw [← this]; simp
    rw [hl] at h2
    have : 1 ≤ psrs.length := List.length_pos_iff.2 h0
    have : (1 : ℝ) ≤ psrs.length := by exact_mod_cast this
    linarith
  obtain ⟨x, rfl, hx⟩ := sum_rel A hqs i1 (by rw [hl]; linarith) hW hs
  have hbig : 1 ≤ (total ps).2 := by
    rw [t2]
    cases psrs with
    | nil => exact absurd rfl h0
    | cons p psrs =>
      have hone : ∀ p : Psr, p.Usual N → 1 ≤ p.wt + p.lwt := by
        intro p hu
        have n1 : 0 ≤ p.wt := add_nonneg (sums_nonneg fun t ht => by
          have := (var_log (hu.toas t ht)).1
          positivity) (sums_nonneg fun b hb => wt_nonneg (hu.epoch b hb))
        have n2 : 0 ≤ (p.epochs.map Epoch.lwt).sum := sums_nonneg fun b _ => lwt_nonneg b
        have n3 : 1 ≤ (p.toas.map fun t => 1 + |Real.log t.var|).sum := by
          have := hu.some
          generalize p.toas = l at this
          cases l with
          | nil => exact absurd rfl this
          | cons t l =>
            have : 0 ≤ (l.map fun t => 1 + |Real.log t.var|).sum := sums_nonneg fun t _ => by positivity
            simp only [List.map_cons, List.sum_cons]
            linarith [abs_nonneg (Real.log t.var)]
        unfold Psr.lwt
        linarith
      have h1 := hone p (hp p (by simp))
      have h2 : 0 ≤ (psrs.map fun p => p.wt + p.lwt).sum := sums_nonneg fun c hc => by linarith [hone c (hp c (by simp [hc]))]
      simp only [List.map_cons, List.sum_cons]
      linarith
  have hh : Rel (200 + 18 * N + 4 * psrs.length) ((total ps).2 / 2) (-(1 / 2) * x) (-(1 / 2) * (total ps).1) := by
    have h1 : |(-(1 / 2) : ℝ)| = 1 / 2 := by norm_num
    have h2 := hx.err
    rw [hl] at h2
    refine ⟨?_, ?_, ?_⟩
    · rw [← mul_sub, abs_mul, h1]
      linarith
    · rw [abs_mul, h1]
      linarith [hx.size]
    · have : (2 : ℝ) ^ (-900 : ℤ) ≤ (2 : ℝ) ^ (-1 : ℤ) := zpow_le_zpow_right₀ (by norm_num) (by norm_num)
      refine this.trans ?_
      norm_num
      linarith
  have hW2 : (total ps).2 / 2 ≤ (2 : ℝ) ^ (990 : ℤ) := le_trans (by linarith) hW
  obtain ⟨y, ey, hy⟩ := hh.round A (by linarith) hW2
  obtain ⟨w, ew, hw⟩ := hy.round A (by linarith) hW2
  obtain ⟨z, ez, hz⟩ := hw.round A (by linarith) hW2
  refine ⟨z, ?_, ?_⟩
  · simp only [mul, ey, add, zero_add, ew, add_zero, ez]
  · have e1 : ecorrLike psrs = -(1 / 2) * (total ps).1 := by
      rw [ecorrLike, t1]
      congr 2
      exact List.map_congr_left fun p _ => (psr_exact p).symm
    have e2 : (total ps).2 / 2 ≤ ecorrSize psrs := by
      rw [ecorrSize, t2]
      have := List.sum_le_sum (l := psrs) fun p hp' => psr_size (hp p hp')
      linarith
    have e3 : (2 : ℝ) ^ (-51 : ℤ) = eps := rfl
    rw [e1, e3]
    have he := eps_pos
    refine hz.err.trans (mul_le_mul (mul_le_mul_of_nonneg_right (by linarith) he.le) e2 (by linarith) (by positivity))

/-- C144: two machines return nearly the same number. -/
theorem C144_machines (A' : Arith) (P' : Powers) (L' : Lib) (hL : GoodLog L) (hL' : GoodLog L') {N : ℕ} (hN : N ≤ 2 ^ 22) {psrs : List Psr} (h0 : psrs ≠ [])
    (hP : psrs.length ≤ 2 ^ 15) (hp : ∀ p ∈ psrs, p.Usual N) {v v' : Fl} (h : IsEcorrLike A L (psrs.map (Psr.fl A P)) v)
    (h' : IsEcorrLike A' L' (psrs.map (Psr.fl A' P')) v') :
    ∃ z z', v = .fin z ∧ v' = .fin z' ∧ |z - z'| ≤ (18 * N + 4 * psrs.length + 210) * (2 : ℝ) ^ (-50 : ℤ) * ecorrSize psrs := by
  obtain ⟨z, hz, e⟩ := C144_ecorr A P L hL hN h0 hP hp h
  obtain ⟨z', hz', e'⟩ := C144_ecorr A' P' L' hL' hN h0 hP hp h'
  refine ⟨z, z', hz, hz', ?_⟩
  rw [abs_le] at e e' ⊢
  have e2 : (2 : ℝ) ^ (-50 : ℤ) = 2 * (2 : ℝ) ^ (-51 : ℤ) := by norm_num
  rw [e2]
  generalize (2 : ℝ) ^ (-51 : ℤ) = p at *
  constructor <;> linarith [e.1, e.2, e'.1, e'.2]

/-! ## The code returns a value, and an example -/

theorem exists_loop (bs : List (Fl × List (Fl × Fl))) (y : Fl) : ∃ v, IsLoop A bs y v := by
  induction bs generalizing y with
  | nil => exact ⟨y, rfl⟩
  | cons b bs ih =>
    obtain ⟨j, b⟩ := b
    by_cases h1 : 1 < b.length
    · obtain ⟨s, hs⟩ := exists_sum A (b.map fun t => div A (.fin 1) t.2)
      obtain ⟨d, hd⟩ := exists_dot A (b.map fun t => (div A (.fin 1) t.2, t.1))
      obtain ⟨v, hv⟩ := ih (sub A y (mul A (mul A (div A (.fin 1) (add A s (div A (.fin 1) j))) d) d))
      refine ⟨v, ?_⟩
      rw [IsLoop, if_pos h1]
      exact ⟨_, d, d, ⟨s, hs, rfl⟩, hd, hd, hv⟩
    · obtain ⟨v, hv⟩ := ih y
      refine ⟨v, ?_⟩
      rw [IsLoop, if_neg h1]
      exact hv

theorem exists_log_loop (bs : List (Fl × List (Fl × Fl))) (y : Fl) : ∃ v, IsLogLoop A L bs y v := by
  induction bs generalizing y with
  | nil => exact ⟨y, rfl⟩
  | cons b bs ih =>
    obtain ⟨j, b⟩ := b
    by_cases h1 : 1 < b.length
    · obtain ⟨s, hs⟩ := exists_sum A (b.map fun t => div A (.fin 1) t.2)
      obtain ⟨v, hv⟩ := ih (add A y (sub A (npLog L j) (npLog L (div A (.fin 1) (add A s (div A (.fin 1) j))))))
      refine ⟨v, ?_⟩
      rw [IsLogLoop, if_pos h1]
      exact ⟨_, ⟨s, hs, rfl⟩, hv⟩
    · obtain ⟨v, hv⟩ := ih y
      refine ⟨v, ?_⟩
      rw [IsLogLoop, if_neg h1]
      exact hv

/-- The code always returns a value. -/
theorem exists_ecorr_like (psrs : List Ecorr) : ∃ v, IsEcorrLike A L psrs v := by
  have : ∃ qs : List (Fl × Fl), List.Forall₂ (fun p q => IsEcorrChi A L p q.1 q.2) psrs qs := by
    induction psrs with
    | nil => exact ⟨[], .nil⟩
    | cons p psrs ih =>
      obtain ⟨qs, h⟩ := ih
      obtain ⟨y, hy⟩ := exists_dot A (p.toas.map fun t => (t.1, div A t.1 t.2))
      obtain ⟨q, hq⟩ := exists_loop A p.blocks y
      obtain ⟨y', hy'⟩ := exists_sum A (p.toas.map fun t => npLog L t.2)
      obtain ⟨d, hd⟩ := exists_log_loop A L p.blocks y'
      exact ⟨(q, d) :: qs, .cons ⟨⟨y, hy, hq⟩, y', hy', hd⟩ h⟩
  obtain ⟨qs, h⟩ := this
  obtain ⟨s, hs⟩ := exists_sum A (qs.flatMap fun q => [q.1, q.2])
  exact ⟨_, qs, h, s, hs, rfl⟩

/-- A pulsar with an epoch of two TOAs and a TOA in no epoch: the hypotheses of C144 are met. -/
noncomputable def twoOne : Psr := ⟨[⟨-6, [⟨1 / 1024, 1, 1, -7⟩, ⟨-3, 1, 1, -7⟩]⟩], [⟨5, 1, 1, -7⟩]⟩

theorem twoOne_usual : twoOne.Usual 3 := by
  have r7 : Rep (-7) := by simpa using rep_int (-7) (by norm_num)
  have r6 : Rep (-6) := by simpa using rep_int (-6) (by norm_num)
  refine ⟨?_, by simp [twoOne, Psr.toas], ?_, by simp [twoOne, Psr.toas], by simp [twoOne]⟩
  · intro t ht
    simp only [twoOne, Psr.toas, List.flatMap_cons, List.flatMap_nil, List.append_nil, List.cons_append, List.nil_append, List.mem_cons, List.not_mem_nil, or_false] at ht
    rcases ht with rfl | rfl | rfl
    all_goals exact ⟨by norm_num [abs_le], by simp, by simp, r7, by norm_num [abs_le]⟩
  · intro b hb
    simp only [twoOne, List.mem_singleton] at hb
    subst hb
    exact ⟨r6, by norm_num [abs_le]⟩

example : ∃ v, IsEcorrLike down logLib ([twoOne].map (Psr.fl down floorPowers)) v ∧
    ∃ z, v = .fin z ∧ |z - ecorrLike [twoOne]| ≤ (18 * (3 : ℕ) + 4 * ((1 : ℕ) : ℝ) + 210) * (2 : ℝ) ^ (-51 : ℤ) * ecorrSize [twoOne] := by
  obtain ⟨v, hv⟩ := exists_ecorr_like down logLib ([twoOne].map (Psr.fl down floorPowers))
  refine ⟨v, hv, C144_ecorr down floorPowers logLib logLib_good (N := 3) (by norm_num) (by simp) (by norm_num) ?_ hv⟩
  intro p hp
  rw [List.mem_singleton] at hp
  subst hp
  exact twoOne_usual

end Verif.Ieee
