import Verif.Model.IeeeChrom
import Verif.Props.IeeeTimes

/-!
# The likelihood of chromatic processes, from the times of arrival on

C155: any number of power laws, achromatic or chromatic, and a timing model.
-/

namespace Verif.Ieee

open Verif Matrix

variable (A : Arith) (L : Lib) (P : Powers) (S : Trig) {N K M : Nat} {μ δ κ : ℝ}

/-! ## Specification -/

/-- A Fourier process: number of frequencies, time span, amplitude and slope of its power law, and reference frequency and index if it is chromatic. -/
structure Proc where
  n : Nat
  span : ℝ
  a : ℝ
  g : ℝ
  chrom : Option (ℝ × ℝ)

/-- The dependence on radio frequency. -/
noncomputable def Proc.factor (q : Proc) (f : ℝ) : ℝ :=
  match q.chrom with
  | none => 1
  | some (fref, idx) => (fref / f) ^ idx

/-- Sines in the even columns and cosines in the odd ones. -/
noncomputable def wave (T : ℝ) (i : Nat) (t : ℝ) : ℝ :=
  if i % 2 = 0 then Real.sin (2 * Real.pi * ((i / 2 : ℕ) + 1) / T * t) else Real.cos (2 * Real.pi * ((i / 2 : ℕ) + 1) / T * t)

/-- The columns of a process, with the variances of their coefficients. -/
noncomputable def Proc.coefs (q : Proc) (t f : Fin M → ℝ) : List ((Fin M → ℝ) × ℝ) :=
  (List.range (2 * q.n)).map fun i => (fun k => wave q.span i (t k) * q.factor (f k), law q.span q.a q.g (i / 2))

/-- A pulsar with processes, TOAs `t`, radio frequencies `f`, columns `D` of the design matrix, residuals, errors of the TOAs and white noise parameters. -/
structure ChromPsr where
  procs : List Proc
  p : Nat
  M : Nat
  t : Fin M → ℝ
  f : Fin M → ℝ
  D : Fin p → Fin M → ℝ
  r : Fin M → ℝ
  s : Fin M → ℝ
  efac : Fin M → ℝ
  equad : Fin M → ℝ

namespace ChromPsr

variable (w : ChromPsr)

/-- The variances of the residuals. -/
noncomputable def ν (k : Fin w.M) : ℝ := w.efac k ^ 2 * (w.s k ^ 2 + (10 : ℝ) ^ (2 * w.equad k))

/-- The columns of the processes and, of length one, those of the timing model. -/
noncomputable def coefs : List ((Fin w.M → ℝ) × ℝ) :=
  (w.procs.map fun q => q.coefs w.t w.f).flatten ++ List.ofFn fun j => (fun k => w.D j k / Real.sqrt (∑ l, w.D j l ^ 2), 10 ^ 40)

/-- The pulsar in exact arithmetic. -/
noncomputable def exact : GpPsr := ⟨w.coefs.length, w.M, Matrix.of fun k i => (w.coefs.get i).1 k, w.ν, w.r, fun i => (w.coefs.get i).2⟩

/-- `p` holds computed numbers of the pulsar. -/
def Code (p : PsrF) : Prop :=
  IsPulsarsF A P S (List.ofFn fun k => .fin (w.t k)) (List.ofFn fun k => .fin (w.f k))
    (w.procs.map fun q => ⟨q.n, .fin q.span, .fin q.a, .fin q.g, q.chrom.map fun c => (.fin c.1, .fin c.2)⟩) (List.ofFn fun j => (List.ofFn (w.D j)).map .fin)
    (List.ofFn fun k => (.fin (w.s k), .fin (w.efac k), .fin (w.equad k))) (List.ofFn fun k => .fin (w.r k)) p

/-- Parameters as in the usual priors and more, TOAs after the origin of time, radio frequencies and columns of the design matrix of usual size. -/
structure Ranges : Prop where
  s : ∀ k, 0 < w.s k ∧ |Real.log (w.s k)| ≤ 100
  efac : ∀ k, 0 < w.efac k ∧ |Real.log (w.efac k)| ≤ 100
  equad : ∀ k, Rep (w.equad k) ∧ |w.equad k| ≤ 30
  t : ∀ k, 1 ≤ w.t k ∧ w.t k ≤ 2 ^ 50
  f : ∀ k, 0 < w.f k ∧ |Real.log (w.f k)| ≤ 20
  D : ∀ j, (2 : ℝ) ^ (-900 : ℤ) ≤ ∑ k, w.D j k ^ 2 ∧ ∑ k, w.D j k ^ 2 ≤ (2 : ℝ) ^ (980 : ℤ)
  span : ∀ q ∈ w.procs, 1 ≤ q.span ∧ q.span ≤ 2 ^ 50
  law : ∀ q ∈ w.procs, Usual q.a q.g
  chrom : ∀ q ∈ w.procs, ∀ c ∈ q.chrom, (0 < c.1 ∧ |Real.log c.1| ≤ 20) ∧ |c.2| ≤ 10

/-- `H` bounds the rounding errors of the phases, and `l` says that no column of a process is small beside its chromatic factor at all TOAs. -/
structure Phases (H l : ℝ) : Prop where
  one : 1 ≤ l
  pos : 60 ≤ H
  phase : ∀ q ∈ w.procs, ∀ k, 14 * (2 * Real.pi * q.n / q.span * w.t k) + 61 ≤ H
  room : ∀ q ∈ w.procs, ∀ k, H * (2 : ℝ) ^ (-51 : ℤ) * q.factor (w.f k) ≤ 1
  weight : ∀ q ∈ w.procs, ∀ c ∈ q.coefs w.t w.f, ∑ k, q.factor (w.f k) ^ 2 / w.ν k ≤ l ^ 2 * (∑ k, c.1 k ^ 2 / w.ν k + 1 / c.2)

end ChromPsr

/-! ## Columns -/

theorem wave_le (T : ℝ) (i : Nat) (t : ℝ) : |wave T i t| ≤ 1 := by
  unfold wave
  split_ifs
  · exact Real.abs_sin_le_one _
  · exact Real.abs_cos_le_one _

theorem wave_col {n : Nat} (hn : n ≤ 2 ^ 40) {T H : ℝ} (h1 : 1 ≤ T) (h2 : T ≤ 2 ^ 50) {t : Fin M → ℝ} (ht : ∀ k, 1 ≤ t k ∧ t k ≤ 2 ^ 50) (hp : ∀ k, 14 * (2 * Real.pi * n / T * t k) + 1 ≤ H) {i : Nat}
    (hi : i < 2 * n) : ∃ y : Fin M → ℝ, fourierCols A P S (List.ofFn fun k => .fin (t k)) n (.fin T) i = List.ofFn (fun k => .fin (y k)) ∧ ∀ k, |y k - wave T i (t k)| ≤ H * eps := by
  have h : ∀ k : Fin M, ∃ row y, (designF A P S (List.ofFn fun k => .fin (t k)) n (.fin T) none none (List.replicate n (.fin 0)))[(k : Nat)]? = some row ∧ row[i]? = some (.fin y) ∧
      |y - wave T i (t k)| ≤ H * eps := by
    intro k
    obtain ⟨row, s, c, g1, g2, g3, g4, g5⟩ := C142_accurate A P S hn h1 h2 (List.ofFn fun k => .fin (t k)) (List.replicate n (.fin 0)) (i := k) (j := i / 2) (t := t k) (p := 0) (by omega)
      (by simp) (ht k).1 (ht k).2 (by rw [List.getElem?_replicate, if_pos (by omega)]) le_rfl (by norm_num)
    have hb : (14 * (2 * Real.pi * (((i / 2 : ℕ) + 1) / T) * t k) + 2 * 0 + 1) * (2 : ℝ) ^ (-51 : ℤ) ≤ H * eps := by
      refine mul_le_mul_of_nonneg_right (le_trans ?_ (hp k)) eps_pos.le
      have hj : ((i / 2 : ℕ) : ℝ) + 1 ≤ n := by exact_mod_cast (by omega : i / 2 + 1 ≤ n)
      have hs : 0 < T := by linarith
      have ht : 0 ≤ t k := by linarith [(ht k).1]
      have : 2 * Real.pi * (((i / 2 : ℕ) + 1) / T) * t k ≤ 2 * Real.pi * n / T * t k := by
        refine mul_le_mul_of_nonneg_right ?_ ht
        rw [mul_div_assoc (2 * Real.pi)]
        exact mul_le_mul_of_nonneg_left (div_le_div_of_nonneg_right hj hs.le) (by positivity)
      linarith
    have e : 2 * Real.pi * (((i / 2 : ℕ) + 1) / T) * t k + 0 = 2 * Real.pi * ((i / 2 : ℕ) + 1) / T * t k := by ring
    rw [e] at g4 g5
    by_cases h2i : i % 2 = 0
    · refine ⟨row, s, g1, by rw [← g2]; congr 1; omega, ?_⟩
      rw [wave, if_pos h2i]
      exact g4.trans hb
    · refine ⟨row, c, g1, by rw [← g3]; congr 1; omega, ?_⟩
      rw [wave, if_neg h2i]
      exact g5.trans hb
  choose row y g1 g2 g3 using h
  refine ⟨y, ?_, g3⟩
  refine List.ext_getElem? fun k => ?_
  rw [fourierCols, List.getElem?_map]
  by_cases hk : k < M
  · rw [g1 ⟨k, hk⟩, Option.map_some, List.getD_eq_getElem?_getD, g2 ⟨k, hk⟩, List.getElem?_ofFn, dif_pos hk]
    rfl
  · rw [List.getElem?_ofFn, dif_neg hk, List.getElem?_eq_none, Option.map_none]
    simp only [designF, List.length_map, List.length_ofFn]
    omega

theorem exp_400 : Real.exp 400 ≤ (2 : ℝ) ^ (800 : ℤ) := by
  have h1 := Real.exp_one_lt_d9
  have e : Real.exp 400 = Real.exp 1 ^ 400 := by
    rw [← Real.exp_nat_mul]
    norm_num
  have e2 : (2 : ℝ) ^ (800 : ℤ) = (2 ^ 2) ^ 400 := by
    rw [← pow_mul]
    exact zpow_ofNat 2 800
  rw [e, e2]
  exact pow_le_pow_left₀ (Real.exp_pos _).le (by linarith) 400

/-- The chromatic factor. -/
theorem chrom_off {fref idx f : ℝ} (h1 : 0 < fref ∧ |Real.log fref| ≤ 20) (h2 : |idx| ≤ 10) (h3 : 0 < f ∧ |Real.log f| ≤ 20) :
    ∃ z, chromF A P (.fin fref) (.fin idx) (.fin f) = .fin z ∧ |z - (fref / f) ^ idx| ≤ 28 * eps * (fref / f) ^ idx ∧ (2 : ℝ) ^ (-800 : ℤ) ≤ (fref / f) ^ idx ∧ (fref / f) ^ idx ≤ (2 : ℝ) ^ (800 : ℤ) := by
  obtain ⟨y, hy, oy⟩ := (Off.exact h1.1 h1.2).div A (Off.exact h3.1 h3.2) (by norm_num) (by norm_num)
  obtain ⟨z, hz, oz⟩ := oy.pow P (y := idx) (Y := idx) (s := 0) (by simp) (by linarith) (by linarith)
  have hn := oz.near (by linarith)
  have hs : |Real.log ((fref / f) ^ idx)| ≤ 400 := oz.size.trans (by linarith)
  obtain ⟨s1, s2⟩ := abs_le.1 hs
  have hp := oz.pos'
  refine ⟨z, by rw [chromF, hy, hz], ?_, ?_, ?_⟩
  · refine hn.trans (mul_le_mul_of_nonneg_right ?_ hp.le)
    have := mul_le_mul_of_nonneg_right (by linarith : |idx| * (0 + 0 + 1) + 0 + 4 ≤ 14) eps_pos.le
    linarith
  · have h4 : Real.exp (-400) ≤ (fref / f) ^ idx := by
      rw [← Real.exp_log hp]
      exact Real.exp_le_exp.2 s1
    refine le_trans ?_ h4
    rw [Real.exp_neg, show (-800 : ℤ) = -(800 : ℤ) by norm_num, _root_.zpow_neg]
    exact inv_anti₀ (Real.exp_pos _) exp_400
  · refine le_trans ?_ exp_400
    rw [← Real.exp_log hp]
    exact Real.exp_le_exp.2 s2

/-- The product of an element of the basis and its chromatic factor. -/
theorem chrom_mul {H x y z d : ℝ} (hx : |x| ≤ 1) (hH0 : 0 ≤ H) (hH : H * eps ≤ 1) (hy : |y - x| ≤ H * eps) (hz : |z - d| ≤ 28 * eps * d) (hd1 : (2 : ℝ) ^ (-800 : ℤ) ≤ d) (hd2 : d ≤ (2 : ℝ) ^ (800 : ℤ)) :
    ∃ u, mul A (.fin y) (.fin z) = .fin u ∧ |u - x * d| ≤ (H + 60) * eps * d := by
  have he := eps_pos
  have hd : 0 < d := lt_of_lt_of_le (by positivity) hd1
  have h28 : 28 * eps ≤ 1 := eps_small (by norm_num)
  have z2 : |z| ≤ 2 * d := by
    have h1 : |z| ≤ |z - d| + |d| := by simpa using abs_add_le (z - d) d
    rw [abs_of_pos hd] at h1
    have := mul_le_mul_of_nonneg_right h28 hd.le
    linarith
  have y2 : |y| ≤ 2 := by
    have h1 : |y| ≤ |y - x| + |x| := by simpa using abs_add_le (y - x) x
    linarith
  have yz : |y * z| ≤ 4 * d := by
    rw [abs_mul]
    have := mul_le_mul y2 z2 (abs_nonneg _) (by norm_num)
    linarith
  have hr : |y * z| ≤ (2 : ℝ) ^ (1000 : ℤ) := by
    refine yz.trans ((mul_le_mul_of_nonneg_left hd2 (by norm_num)).trans ?_)
    rw [show (4 : ℝ) = (2 : ℝ) ^ (2 : ℤ) by norm_num, ← zpow_add₀ (by norm_num)]
    exact zpow_le_zpow_right₀ (by norm_num) (by norm_num)
  refine ⟨A.rnd (y * z), round_fin A hr, ?_⟩
  have e1 := rnd_err A (y * z)
  have ht : tiny ≤ eps * d := by
    refine le_trans ?_ (mul_le_mul_of_nonneg_left hd1 he.le)
    rw [tiny_zpow, eps, ← zpow_add₀ (by norm_num)]
    exact zpow_le_zpow_right₀ (by norm_num) (by norm_num)
  clear hr hd1 hd2
  have z1 : |z| ≤ (1 + 28 * eps) * d := by
    have h1 : |z| ≤ |z - d| + |d| := by simpa using abs_add_le (z - d) d
    rw [abs_of_pos hd] at h1
    linarith
  have e2 : |y * z - x * d| ≤ H * eps * ((1 + 28 * eps) * d) + 28 * eps * d := by
    have e : y * z - x * d = (y - x) * z + x * (z - d) := by ring
    rw [e]
    refine (abs_add_le _ _).trans (add_le_add ?_ ?_)
    · rw [abs_mul]
      exact mul_le_mul hy z1 (abs_nonneg _) (by positivity)
    · rw [abs_mul]
      have := mul_le_mul hx hz (abs_nonneg _) (by norm_num)
      linarith
  have e3 : H * eps * (28 * eps * d) ≤ 28 * eps * d := by
    have := mul_le_mul_of_nonneg_right hH (by positivity : 0 ≤ 28 * eps * d)
    linarith
  have e4 := mul_le_mul_of_nonneg_left yz (by positivity : 0 ≤ eps / 2)
  have e5 : |A.rnd (y * z) - x * d| ≤ |A.rnd (y * z) - y * z| + |y * z - x * d| := abs_sub_le _ _ _
  linarith [mul_pos he hd]

/-- The computed column `c` is near the column of `e`. -/
def ColNear (ν : Fin M → ℝ) (κ : ℝ) (c : List Fl) (e : (Fin M → ℝ) × ℝ) : Prop :=
  ∃ y : Fin M → ℝ, c = List.ofFn (fun k => .fin (y k)) ∧ (∀ k, |y k - e.1 k| ≤ 1) ∧ ∑ k, (y k - e.1 k) ^ 2 / ν k ≤ κ ^ 2 * (∑ k, e.1 k ^ 2 / ν k + 1 / e.2)

/-- The computed variance `v`, added to zero, is near that of `e`. -/
def VarNear (δ : ℝ) (v : Fl) (e : (Fin M → ℝ) × ℝ) : Prop := ∃ z, add A (.fin 0) v = .fin z ∧ |z - e.2| ≤ δ * e.2

/-- The process in floating-point numbers. -/
def Proc.fl (q : Proc) : ProcF := ⟨q.n, .fin q.span, .fin q.a, .fin q.g, q.chrom.map fun c => (.fin c.1, .fin c.2)⟩

/-- An element of a column of a process. -/
theorem proc_col {w : ChromPsr} (R : w.Ranges) {H : ℝ} (hH0 : 60 ≤ H) (hp : ∀ q ∈ w.procs, ∀ k, 14 * (2 * Real.pi * q.n / q.span * w.t k) + 61 ≤ H) (hH : H * eps ≤ 1) {q : Proc} (hq : q ∈ w.procs) (hn : q.n ≤ 2 ^ 40) {i : Nat} (hi : i < 2 * q.n) :
    ∃ u : Fin w.M → ℝ, (match q.fl.chrom with
      | none => fourierCols A P S (List.ofFn fun k => .fin (w.t k)) q.n (.fin q.span) i
      | some (fref, idx) => List.zipWith (mul A) (fourierCols A P S (List.ofFn fun k => .fin (w.t k)) q.n (.fin q.span) i) ((List.ofFn fun k => .fin (w.f k)).map (chromF A P fref idx))) =
      List.ofFn (fun k => .fin (u k)) ∧ ∀ k, |u k - wave q.span i (w.t k) * q.factor (w.f k)| ≤ H * eps * q.factor (w.f k) := by
  have he := eps_pos
  obtain ⟨y, y1, y2⟩ := wave_col A P S hn (R.span q hq).1 (R.span q hq).2 R.t (H := H - 60) (fun k => by linarith [hp q hq k]) hi
  rw [y1]
  obtain ⟨n, T, a, g, c⟩ := q
  cases c with
  | none =>
    refine ⟨y, rfl, fun k => ?_⟩
    show |y k - wave T i (w.t k) * 1| ≤ H * eps * 1
    rw [mul_one, mul_one]
    refine (y2 k).trans ?_
    linarith
  | some c =>
    obtain ⟨hc, hi⟩ := R.chrom _ hq c rfl
    have h : ∀ k, ∃ u, mul A (.fin (y k)) (chromF A P (.fin c.1) (.fin c.2) (.fin (w.f k))) = .fin u ∧ |u - wave T i (w.t k) * (c.1 / w.f k) ^ c.2| ≤ H * eps * (c.1 / w.f k) ^ c.2 := by
      intro k
      obtain ⟨z, z1, z2, z3, z4⟩ := chrom_off A P hc hi (R.f k)
      obtain ⟨u, u1, u2⟩ := chrom_mul A (wave_le T i (w.t k)) (by linarith : 0 ≤ H - 60) (by linarith) (y2 k) z2 z3 z4
      refine ⟨u, by rw [z1, u1], u2.trans_eq ?_⟩
      rw [sub_add_cancel]
    choose u u1 u2 using h
    refine ⟨u, ?_, u2⟩
    show List.zipWith (mul A) (List.ofFn fun k => .fin (y k)) ((List.ofFn fun k => .fin (w.f k)).map (chromF A P (.fin c.1) (.fin c.2))) = _
    refine List.ext_getElem (by simp) fun k _ _ => ?_
    simp only [List.getElem_zipWith, List.getElem_ofFn, List.getElem_map, u1]

theorem ChromPsr.Ranges.νpos {w : ChromPsr} (R : w.Ranges) (k : Fin w.M) : 0 < w.ν k := by
  have := (R.efac k).1
  have := (R.s k).1
  unfold ChromPsr.ν
  positivity

theorem proc_factor {w : ChromPsr} (R : w.Ranges) {q : Proc} (hq : q ∈ w.procs) (k : Fin w.M) : 0 < q.factor (w.f k) := by
  obtain ⟨n, T, a, g, c⟩ := q
  cases c with
  | none => exact one_pos
  | some c => exact Real.rpow_pos_of_pos (div_pos (R.chrom _ hq c rfl).1.1 (R.f k).1) _

/-- The columns of a process. -/
theorem proc_cols {w : ChromPsr} (R : w.Ranges) {H l : ℝ} (F : w.Phases H l) (hH : H * eps ≤ 1) {q : Proc} (hq : q ∈ w.procs) (hn : q.n ≤ 2 ^ 40) :
    List.Forall₂ (ColNear w.ν (H * l * eps)) (procCols A P S (List.ofFn fun k => .fin (w.t k)) (List.ofFn fun k => .fin (w.f k)) q.fl) (q.coefs w.t w.f) := by
  rw [procCols, Proc.coefs, List.forall₂_map_left_iff, List.forall₂_map_right_iff, show q.fl.n = q.n from rfl, List.forall₂_same]
  intro i hi
  rw [List.mem_range] at hi
  obtain ⟨u, u1, u2⟩ := proc_col A P S R F.pos F.phase hH hq hn hi
  refine ⟨u, u1, fun k => (u2 k).trans (F.room q hq k), ?_⟩
  have b1 : ∑ k, (u k - wave q.span i (w.t k) * q.factor (w.f k)) ^ 2 / w.ν k ≤ (H * eps) ^ 2 * ∑ k, q.factor (w.f k) ^ 2 / w.ν k := by
    rw [Finset.mul_sum]
    refine Finset.sum_le_sum fun k _ => ?_
    rw [← mul_div_assoc, ← mul_pow]
    refine div_le_div_of_nonneg_right ?_ (R.νpos k).le
    rw [← sq_abs (u k - _)]
    exact pow_le_pow_left₀ (abs_nonneg _) (u2 k) 2
  refine b1.trans ((mul_le_mul_of_nonneg_left (F.weight q hq _ (List.mem_map_of_mem (List.mem_range.2 hi))) (sq_nonneg _)).trans_eq ?_)
  ring

/-- The variances of a process. -/
theorem proc_vars {w : ChromPsr} (R : w.Ranges) {q : Proc} (hq : q ∈ w.procs) (hn : q.n ≤ 2 ^ 40) :
    ∃ l, procVars A P q.fl = .ok l ∧ List.Forall₂ (VarNear A ((8 * q.n + 100) * (2 : ℝ) ^ (-50 : ℤ))) l (q.coefs w.t w.f) := by
  obtain ⟨l, e, hl, h⟩ := powerlaw_off A P hn (R.span q hq).1 (R.span q hq).2 (R.law q hq) (c := 2) (by norm_num)
  refine ⟨l, e, List.forall₂_iff_get.2 ⟨by simp [Proc.coefs, hl], fun i h1 h2 => ?_⟩⟩
  have n1 : (q.n : ℝ) ≤ 2 ^ 40 := by exact_mod_cast hn
  have hj : i / 2 < q.n := by omega
  obtain ⟨z, z1, z2⟩ := h (i / 2) hj (i % 2) (by omega)
  have hj' : ((i / 2 : ℕ) : ℝ) ≤ q.n := by exact_mod_cast hj.le
  obtain ⟨y, y1, y2⟩ := add_zero_off A z2 (by linarith) (by norm_num)
  rw [Nat.div_add_mod, List.getElem?_eq_getElem h1, Option.some.injEq] at z1
  refine ⟨y, by rw [List.get_eq_getElem, z1, y1], ?_⟩
  have e2 : ((q.coefs w.t w.f).get ⟨i, h2⟩).2 = law q.span q.a q.g (i / 2) := by simp [Proc.coefs]
  rw [e2]
  exact (y2.rel (by linarith) (by linarith)).2

/-- The column of the timing model. -/
theorem unit_col {D y ν : Fin M → ℝ} (hν : ∀ k, (2 : ℝ) ^ (-199 : ℤ) ≤ ν k) (hM : M ≤ K) (hK : K ≤ 2 ^ 22) {W : ℝ} (hW : (2 : ℝ) ^ (-297 : ℤ) ≤ W) (hD : ∑ k, (D k / Real.sqrt (∑ l, D l ^ 2)) ^ 2 / ν k ≤ W)
    (hy : ∀ k, |y k - D k / Real.sqrt (∑ l, D l ^ 2)| ≤ (2 * M + 7) * eps * |D k / Real.sqrt (∑ l, D l ^ 2)| + tiny) :
    (∀ k, |y k - D k / Real.sqrt (∑ l, D l ^ 2)| ≤ 1) ∧ ∑ k, (y k - D k / Real.sqrt (∑ l, D l ^ 2)) ^ 2 / ν k ≤ ((3 * K + 11) * eps) ^ 2 * W := by
  have u1 : ∀ k, |D k / Real.sqrt (∑ l, D l ^ 2)| ≤ 1 := fun k => unit_le k
  generalize Real.sqrt (∑ l, D l ^ 2) = R at *
  have MK : (M : ℝ) ≤ K := by exact_mod_cast hM
  have K1 : (K : ℝ) ≤ 2 ^ 22 := by exact_mod_cast hK
  have K0 : (0 : ℝ) ≤ K := Nat.cast_nonneg K
  have he := eps_pos
  have νp : ∀ k, 0 < ν k := fun k => lt_of_lt_of_le (by positivity) (hν k)
  have y3 : ∀ k, |y k - D k / R| ≤ (2 * K + 7) * eps * |D k / R| + tiny := fun k =>
    (hy k).trans (add_le_add (mul_le_mul_of_nonneg_right (mul_le_mul_of_nonneg_right (by linarith) he.le) (abs_nonneg _)) le_rfl)
  have ht := tiny_pos
  have ht1 : tiny ≤ 1 / 2 := by
    rw [tiny_zpow]
    exact (zpow_le_zpow_right₀ (by norm_num) (by norm_num : (-1074 : ℤ) ≤ -1)).trans (by norm_num)
  have hs : (2 * (K : ℝ) + 7) * eps ≤ 1 / 2 := by
    have := eps_small (r := 2 * (2 * (K : ℝ) + 7)) (by linarith)
    linarith
  refine ⟨fun k => (y3 k).trans ?_, ?_⟩
  · have := mul_le_mul hs (u1 k) (abs_nonneg _) (by norm_num)
    linarith
  · have b1 : ∀ k, (y k - D k / R) ^ 2 ≤ 2 * ((2 * K + 7) * eps) ^ 2 * (D k / R) ^ 2 + 2 * tiny ^ 2 := by
      intro k
      have c1 := pow_le_pow_left₀ (abs_nonneg _) (y3 k) 2
      rw [sq_abs] at c1
      have c2 : ((2 * K + 7) * eps * |D k / R| + tiny) ^ 2 ≤ 2 * ((2 * K + 7) * eps * |D k / R|) ^ 2 + 2 * tiny ^ 2 := by
        nlinarith [sq_nonneg ((2 * K + 7) * eps * |D k / R| - tiny)]
      rw [mul_pow, sq_abs, ← mul_assoc] at c2
      exact c1.trans c2
    have b2 : ∑ k, (y k - D k / R) ^ 2 / ν k ≤ 2 * ((2 * K + 7) * eps) ^ 2 * (∑ k, (D k / R) ^ 2 / ν k) + 2 * tiny ^ 2 * ∑ k, 1 / ν k := by
      rw [Finset.mul_sum, Finset.mul_sum, ← Finset.sum_add_distrib]
      refine Finset.sum_le_sum fun k _ => ?_
      rw [mul_one_div, ← mul_div_assoc, ← add_div]
      exact div_le_div_of_nonneg_right (b1 k) (νp k).le
    have b3 := mul_le_mul_of_nonneg_left hD (by positivity : 0 ≤ 2 * ((2 * K + 7) * eps) ^ 2)
    have b4 : ∑ k, 1 / ν k ≤ K * (2 : ℝ) ^ (199 : ℤ) := by
      have : ∑ k, 1 / ν k ≤ ∑ _k : Fin M, (2 : ℝ) ^ (199 : ℤ) := Finset.sum_le_sum fun k _ => by
        have := one_div_le_one_div_of_le (by positivity) (hν k)
        rwa [one_div ((2 : ℝ) ^ (-199 : ℤ)), ← _root_.zpow_neg, neg_neg] at this
      rw [Finset.sum_const, Finset.card_univ, Fintype.card_fin, nsmul_eq_mul] at this
      exact this.trans (mul_le_mul_of_nonneg_right MK (by positivity))
    have b5 := (mul_le_mul_of_nonneg_left b4 (by positivity : 0 ≤ 2 * tiny ^ 2)).trans ((tiny_weight hK).trans (mul_le_mul_of_nonneg_left hW (by positivity)))
    refine b2.trans ((add_le_add b3 b5).trans ?_)
    rw [← add_mul]
    refine mul_le_mul_of_nonneg_right ?_ (le_trans (by positivity) hW)
    have e1 : 2 * ((2 * K + 7) * eps) ^ 2 + eps ^ 2 = (8 * K ^ 2 + 56 * K + 99) * eps ^ 2 := by ring
    rw [e1, mul_pow]
    refine mul_le_mul_of_nonneg_right ?_ (sq_nonneg _)
    nlinarith

/-- The weight of a coefficient. -/
theorem chrom_prec (w : ChromPsr) (i : Fin w.coefs.length) : w.exact.prec i i = ∑ k, (w.coefs.get i).1 k ^ 2 / w.ν k + 1 / (w.coefs.get i).2 := by
  refine (prec_apply (o := w.exact) i i).trans ?_
  refine congrArg₂ (· + ·) (Finset.sum_congr rfl fun k _ => ?_) ((if_pos rfl).trans (one_div _).symm)
  show (w.coefs.get i).1 k * (w.coefs.get i).1 k / w.ν k = _
  rw [sq]

theorem ColNear.mono {ν : Fin M → ℝ} {κ' : ℝ} {c : List Fl} {e : (Fin M → ℝ) × ℝ} (h : ColNear ν κ c e) (h0 : 0 ≤ κ) (hκ : κ ≤ κ') (he : 0 ≤ ∑ k, e.1 k ^ 2 / ν k + 1 / e.2) : ColNear ν κ' c e := by
  obtain ⟨y, y1, y2, y3⟩ := h
  exact ⟨y, y1, y2, y3.trans (mul_le_mul_of_nonneg_right (pow_le_pow_left₀ h0 hκ 2) he)⟩

theorem VarNear.mono {δ' : ℝ} {v : Fl} {e : (Fin M → ℝ) × ℝ} (h : VarNear A δ v e) (hδ : δ ≤ δ') (he : 0 ≤ e.2) : VarNear A δ' v e := by
  obtain ⟨z, z1, z2⟩ := h
  exact ⟨z, z1, z2.trans (mul_le_mul_of_nonneg_right hδ he)⟩

/-- The columns of the timing model of the pulsar. -/
theorem chrom_tm {w : ChromPsr} (R : w.Ranges) (I : CorePsr N K μ w.exact) (hK : K ≤ 2 ^ 22) {outs : List (List Fl)}
    (h : List.Forall₂ (IsNormedCol A none) (List.ofFn fun j => (List.ofFn (w.D j)).map .fin) outs) :
    List.Forall₂ (ColNear w.ν ((3 * K + 11) * eps)) outs (List.ofFn fun j => (fun k => w.D j k / Real.sqrt (∑ l, w.D j l ^ 2), (10 : ℝ) ^ 40)) := by
  have hl := h.length_eq
  rw [List.length_ofFn] at hl
  have hM : w.M ≤ K := I.toas
  refine List.forall₂_iff_get.2 ⟨by rw [List.length_ofFn, hl], fun j h1 h2 => ?_⟩
  have hj : j < w.p := by omega
  have g1 := (List.forall₂_iff_get.1 h).2 j (by simpa using hj) h1
  simp only [List.get_eq_getElem, List.getElem_ofFn] at g1 ⊢
  generalize outs[j] = out at *
  have e : ((List.ofFn (w.D ⟨j, hj⟩)).map fun x => x ^ 2).sum = ∑ k, w.D ⟨j, hj⟩ k ^ 2 := by
    rw [List.map_ofFn, List.sum_ofFn]
    rfl
  obtain ⟨ys, g2, g3⟩ := C147_accurate_partial A (xs := List.ofFn (w.D ⟨j, hj⟩)) (by rw [List.length_ofFn]; omega) (by rw [e]; exact (R.D _).1) (by rw [e]; exact (R.D _).2) g1
  obtain ⟨y, rfl, g4⟩ := forall_ofFn g3
  rw [len, e, List.length_ofFn] at g4
  have hm : ((fun k => w.D ⟨j, hj⟩ k / Real.sqrt (∑ l, w.D ⟨j, hj⟩ l ^ 2), (10 : ℝ) ^ 40) : (Fin w.M → ℝ) × ℝ) ∈ w.coefs :=
    List.mem_append_right _ (List.mem_ofFn.2 ⟨⟨j, hj⟩, rfl⟩)
  obtain ⟨i, hi⟩ := List.get_of_mem hm
  have hW := (I.low i).trans_eq (chrom_prec w i)
  rw [hi] at hW
  obtain ⟨q1, q2⟩ := unit_col (y := y) I.νlow hM hK hW (by
    show _ ≤ _ + _
    have : (0 : ℝ) ≤ 1 / 10 ^ 40 := by norm_num
    exact le_add_of_nonneg_right this) g4
  refine ⟨y, ?_, q1, q2⟩
  rw [g2, List.map_ofFn]
  rfl

theorem coefs_nonneg {w : ChromPsr} (I : CorePsr N K μ w.exact) {e : (Fin w.M → ℝ) × ℝ} (he : e ∈ w.coefs) : 0 < e.2 ∧ 0 ≤ ∑ k, e.1 k ^ 2 / w.ν k + 1 / e.2 := by
  obtain ⟨i, rfl⟩ := List.get_of_mem he
  have h : 0 < (w.coefs.get i).2 := I.φpos i
  refine ⟨h, add_nonneg (Finset.sum_nonneg fun k _ => div_nonneg (sq_nonneg _) (I.νpos k).le) (by positivity)⟩

theorem forall_mono {α β : Type*} {r s : α → β → Prop} {xs : List α} {ys : List β} (h : List.Forall₂ r xs ys) (hrs : ∀ x, ∀ y ∈ ys, r x y → s x y) : List.Forall₂ s xs ys := by
  induction h with
  | nil => exact .nil
  | cons h1 _ ih => exact .cons (hrs _ _ List.mem_cons_self h1) (ih fun x y hy => hrs x y (List.mem_cons_of_mem _ hy))

theorem proc_le {w : ChromPsr} {q : Proc} (hq : q ∈ w.procs) : 2 * q.n ≤ w.coefs.length := by
  have h1 : (q.coefs w.t w.f).length ∈ ((w.procs.map fun q => q.coefs w.t w.f).map List.length) := List.mem_map_of_mem (List.mem_map_of_mem hq)
  have h2 := List.le_sum_of_mem h1
  rw [← List.length_flatten] at h2
  have h3 : (q.coefs w.t w.f).length = 2 * q.n := by simp [Proc.coefs]
  rw [ChromPsr.coefs, List.length_append]
  omega

/-- All columns. -/
theorem chrom_cols {w : ChromPsr} (R : w.Ranges) {H l : ℝ} (F : w.Phases H l) (I : CorePsr N K μ w.exact) (hN : N ≤ 2 ^ 16) (hK : K ≤ 2 ^ 22) (hκ : (H * l + 3 * K + 11) * eps ≤ 1) {outs : List (List Fl)}
    (h : List.Forall₂ (IsNormedCol A none) (List.ofFn fun j => (List.ofFn (w.D j)).map .fin) outs) :
    List.Forall₂ (ColNear w.ν ((H * l + 3 * K + 11) * eps))
      (((w.procs.map Proc.fl).map (procCols A P S (List.ofFn fun k => .fin (w.t k)) (List.ofFn fun k => .fin (w.f k)))).flatten ++ outs) w.coefs := by
  have he := eps_pos
  have K0 : (0 : ℝ) ≤ K := Nat.cast_nonneg K
  have H0 : 0 ≤ H := by linarith [F.pos]
  have l0 : 0 ≤ l := by linarith [F.one]
  have Hl : H ≤ H * l := le_mul_of_one_le_right H0 F.one
  have hle : w.coefs.length ≤ N := I.le
  have hH : H * eps ≤ 1 := le_trans (mul_le_mul_of_nonneg_right (by linarith) he.le) hκ
  refine List.rel_append ?_ ?_
  · refine List.rel_flatten ?_
    rw [List.map_map, List.forall₂_map_left_iff, List.forall₂_map_right_iff, List.forall₂_same]
    intro q hq
    refine forall_mono (proc_cols A P S R F hH hq (by have := proc_le hq; omega)) fun c e hm hc => hc.mono (by positivity) (mul_le_mul_of_nonneg_right (by linarith) he.le) (coefs_nonneg I ?_).2
    exact List.mem_append_left _ (List.mem_flatten.2 ⟨_, List.mem_map_of_mem hq, hm⟩)
  · refine forall_mono (chrom_tm A R I hK h) fun c e hm hc => hc.mono (by positivity) (mul_le_mul_of_nonneg_right (by nlinarith) he.le) (coefs_nonneg I ?_).2
    exact List.mem_append_right _ hm

/-- All variances. -/
theorem chrom_vars {w : ChromPsr} (R : w.Ranges) (I : CorePsr N K μ w.exact) (hN : N ≤ 2 ^ 16) :
    ∃ vs, (w.procs.map Proc.fl).mapM (procVars A P) = .ok vs ∧ List.Forall₂ (VarNear A ((4 * N + 100) * (2 : ℝ) ^ (-50 : ℤ))) (vs ++ [List.replicate w.p (tmPriorF A)]).flatten w.coefs := by
  have hle : w.coefs.length ≤ N := I.le
  have h : ∀ qs : List Proc, (∀ q ∈ qs, q ∈ w.procs) → ∃ vs, (qs.map Proc.fl).mapM (procVars A P) = .ok vs ∧
      List.Forall₂ (VarNear A ((4 * N + 100) * (2 : ℝ) ^ (-50 : ℤ))) vs.flatten (qs.map fun q => q.coefs w.t w.f).flatten := by
    intro qs
    induction qs with
    | nil => exact fun _ => ⟨[], rfl, .nil⟩
    | cons q qs ih =>
      intro hq
      obtain ⟨vs, h1, h2⟩ := ih fun x hx => hq x (List.mem_cons_of_mem _ hx)
      have hm := hq q List.mem_cons_self
      have hl := proc_le hm
      obtain ⟨v, h3, h4⟩ := proc_vars A P R hm (by omega)
      refine ⟨v :: vs, ?_, ?_⟩
      · rw [List.map_cons, List.mapM_cons, h3, h1]
        rfl
      · rw [List.map_cons, List.flatten_cons, List.flatten_cons]
        refine List.rel_append (forall_mono h4 fun c e hc he => he.mono A (mul_le_mul_of_nonneg_right ?_ (by positivity)) (coefs_nonneg I ?_).1.le) h2
        · have : (2 * q.n : ℝ) ≤ N := by exact_mod_cast (by omega : 2 * q.n ≤ N)
          linarith
        · exact List.mem_append_left _ (List.mem_flatten.2 ⟨_, List.mem_map_of_mem hm, hc⟩)
  obtain ⟨vs, h1, h2⟩ := h w.procs fun _ hq => hq
  refine ⟨vs, h1, ?_⟩
  rw [List.flatten_append, List.flatten_singleton]
  refine List.rel_append h2 (List.forall₂_iff_get.2 ⟨by simp, fun j h3 h4 => ?_⟩)
  simp only [List.get_eq_getElem, List.getElem_replicate, List.getElem_ofFn]
  obtain ⟨z, z1, z2⟩ := tm_off A
  obtain ⟨y, y1, y2⟩ := add_zero_off A z2 (by norm_num) (by norm_num)
  refine ⟨y, by rw [z1, y1], ?_⟩
  have N0 : (0 : ℝ) ≤ N := Nat.cast_nonneg N
  have N1 : (N : ℝ) ≤ 2 ^ 16 := by exact_mod_cast hN
  exact (y2.rel (by linarith) (by linarith)).2

/-- The computed numbers of a pulsar. -/
theorem chrom_near {w : ChromPsr} (R : w.Ranges) {H l : ℝ} (F : w.Phases H l) (I : CorePsr N K μ w.exact) (hN : N ≤ 2 ^ 16) (hK : K ≤ 2 ^ 22) (hκ : (H * l + 3 * K + 11) * eps ≤ 1) {p : PsrF} (h : w.Code A P S p) :
    FullNear ((4 * N + 100) * (2 : ℝ) ^ (-50 : ℤ)) ((H * l + 3 * K + 11) * eps) p w.exact := by
  obtain ⟨outs, vs, h1, h2, rfl⟩ := h
  have hc := chrom_cols A P S R F I hN hK hκ h1
  obtain ⟨vs', h3, hv⟩ := chrom_vars A P R I hN
  have e3 : (Except.ok vs : Except PyErr _) = .ok vs' := h2.symm.trans h3
  cases e3
  have hw : ∀ k, ∃ z, add A (.fin 0) (ndiagF A P (.fin (w.s k)) (.fin (w.efac k)) (some (.fin (w.equad k)))) = .fin z ∧ Off 11 401 z (w.ν k) := by
    intro k
    obtain ⟨z, hz, oz⟩ := ndiag_off A P (R.s k).1 (R.s k).2 (R.efac k).1 (R.efac k).2 (R.equad k).1 (R.equad k).2
    obtain ⟨y, hy, oy⟩ := add_zero_off A oz (by norm_num) (by norm_num)
    exact ⟨y, by rw [hz, hy], oy.mono (by norm_num) le_rfl⟩
  choose ν' hν oν using hw
  have N0 : (0 : ℝ) ≤ N := Nat.cast_nonneg N
  have N1 : (N : ℝ) ≤ 2 ^ 16 := by exact_mod_cast hN
  generalize hcs : ((w.procs.map Proc.fl).map (procCols A P S (List.ofFn fun k => .fin (w.t k)) (List.ofFn fun k => .fin (w.f k)))).flatten ++ outs = cs at hc
  have hl := hc.length_eq
  have hlv := hv.length_eq
  have g1 : ∀ i : Fin w.coefs.length, ∃ y : Fin w.M → ℝ, cs.getD i [] = List.ofFn (fun k => .fin (y k)) ∧ (∀ k, |y k - (w.coefs.get i).1 k| ≤ 1) ∧
      ∑ k, (y k - (w.coefs.get i).1 k) ^ 2 / w.ν k ≤ ((H * l + 3 * K + 11) * eps) ^ 2 * w.exact.prec i i := by
    intro i
    obtain ⟨y, y1, y2, y3⟩ := (List.forall₂_iff_get.1 hc).2 i (by omega) i.2
    refine ⟨y, ?_, y2, ?_⟩
    · rw [List.getD_eq_getElem?_getD, List.getElem?_eq_getElem (by omega), Option.getD_some]
      exact y1
    · rw [chrom_prec]
      exact y3
  have g2 : ∀ i : Fin w.coefs.length, ∃ z, (phisF A (vs ++ [List.replicate w.p (tmPriorF A)])).getD i (.fin 1) = .fin z ∧ |z - (w.coefs.get i).2| ≤ (4 * N + 100) * (2 : ℝ) ^ (-50 : ℤ) * (w.coefs.get i).2 := by
    intro i
    obtain ⟨z, z1, z2⟩ := (List.forall₂_iff_get.1 hv).2 i (by omega) i.2
    refine ⟨z, ?_, z2⟩
    rw [phisF, List.getD_eq_getElem?_getD, List.getElem?_map, List.getElem?_eq_getElem (by omega), Option.map_some, Option.getD_some]
    exact z1
  choose T' c1 c2 c3 using g1
  choose φ' d1 d2 using g2
  refine ⟨Matrix.of fun k i => T' i k, ⟨fun k i => c2 i k, c3⟩, ν', φ', fun k => ((oν k).rel (by linarith) (by linarith)).2, d2, ?_⟩
  have e0 : ((w.procs.map Proc.fl).map (procCols A P S (List.ofFn fun k => .fin (w.t k)) (List.ofFn fun k => .fin (w.f k)))).flatten ++ outs = cs := hcs
  have e1 : ndiagsF A P (List.ofFn fun k => (.fin (w.s k), .fin (w.efac k), .fin (w.equad k))) = List.ofFn fun k => .fin (ν' k) := by
    rw [ndiagsF, List.map_ofFn]
    congr 1
    funext k
    exact hν k
  have e2 : (fun i => (phisF A (vs ++ [List.replicate w.p (tmPriorF A)])).getD i (.fin 1)) = fun i => if h : i < w.coefs.length then .fin (φ' ⟨i, h⟩) else .fin 1 := by
    funext i
    by_cases hi : i < w.coefs.length
    · rw [dif_pos hi, d1 ⟨i, hi⟩]
    · rw [dif_neg hi, List.getD_eq_getElem?_getD, List.getElem?_eq_none, Option.getD_none]
      rw [phisF, List.length_map]
      omega
  have e3 : (fun i => cs.getD i []) = fun i => if h : i < w.coefs.length then List.ofFn fun k => .fin (T' ⟨i, h⟩ k) else [] := by
    funext i
    by_cases hi : i < w.coefs.length
    · rw [dif_pos hi]
      exact c1 ⟨i, hi⟩
    · rw [dif_neg hi, List.getD_eq_getElem?_getD, List.getElem?_eq_none (by omega), Option.getD_none]
  show PsrF.mk (((w.procs.map Proc.fl).map (procCols A P S (List.ofFn fun k => .fin (w.t k)) (List.ofFn fun k => .fin (w.f k)))).flatten ++ outs).length
    (fun i => (((w.procs.map Proc.fl).map (procCols A P S (List.ofFn fun k => .fin (w.t k)) (List.ofFn fun k => .fin (w.f k)))).flatten ++ outs).getD i []) _ _ _ = _
  rw [e0, List.length_ofFn, e1, e2, e3, hl]
  rfl

theorem chrom_all {H l : ℝ} (hN : N ≤ 2 ^ 16) (hK : K ≤ 2 ^ 22) (hκ : (H * l + 3 * K + 11) * eps ≤ 1) {ws : List ChromPsr} {ps : List PsrF} (h : List.Forall₂ (ChromPsr.Code A P S) ws ps)
    (hw : ∀ w ∈ ws, w.Ranges ∧ w.Phases H l ∧ CorePsr N K μ w.exact) :
    List.Forall₂ (fun p o => FullNear ((4 * N + 100) * (2 : ℝ) ^ (-50 : ℤ)) ((H * l + 3 * K + 11) * eps) p o ∧ CorePsr N K μ o) ps (ws.map ChromPsr.exact) := by
  induction h with
  | nil => exact .nil
  | @cons w p ws ps h1 h2 ih =>
    obtain ⟨R, F, I⟩ := hw w List.mem_cons_self
    exact .cons ⟨chrom_near A P S R F I hN hK hκ h1, I⟩ (ih fun x hx => hw x (List.mem_cons_of_mem _ hx))

/-- C155: the computed likelihood of pulsars with any number of achromatic and chromatic processes, from the times of arrival and the radio frequencies on. -/
theorem C155_chromatic (hL : GoodLog L) {H l : ℝ} (hN0 : 1 ≤ N) (hK : K ≤ 2 ^ 22) (hμ1 : μ ≤ 1) (hK2 : 800 * ((K + 3) * (2 : ℝ) ^ (-51 : ℤ) * N) ≤ μ)
    (hμ : 2 ^ 21 * N ^ 2 * (2 : ℝ) ^ (-51 : ℤ) ≤ μ) (hH : 300 * ((H * l + 3 * K + 11) * (2 : ℝ) ^ (-51 : ℤ) * N) ≤ μ) {ws : List ChromPsr} (hw : ∀ w ∈ ws, w.Ranges ∧ w.Phases H l ∧ CorePsr N K μ w.exact)
    (h0 : ws ≠ []) (hP : ws.length ≤ 2 ^ 15) {ps : List PsrF} (h : List.Forall₂ (ChromPsr.Code A P S) ws ps) {r : Except PyErr Fl} (hr : IsLikelihood A L ps r) :
    ∃ v, r = .ok (.fin v) ∧ |v - (ws.map fun w => w.exact.like).sum| ≤
      ((42600 * N ^ 2 + 87 * (K + 3) * N + 9 * H * l * N) / μ + 4 * ws.length) * (2 : ℝ) ^ (-51 : ℤ) * (ws.map fun w => w.exact.size).sum + (2 : ℝ) ^ (-999 : ℤ) := by
  have Hl : 0 ≤ H * l := by
    obtain ⟨w, hw'⟩ := List.exists_mem_of_ne_nil ws h0
    have F := (hw w hw').2.1
    exact mul_nonneg (by linarith [F.pos]) (by linarith [F.one])
  have := near_likelihood A L hL hN0 hK hμ1 hK2 hμ hH Hl (os := ws.map ChromPsr.exact) (by simpa using h0) (by simpa using hP) (fun N3 hκ1 => chrom_all A P S N3 hK hκ1 h hw) hr
  rwa [List.map_map, List.map_map, List.length_map] at this

/-- The numbers exist. -/
theorem exists_chrom {w : ChromPsr} (R : w.Ranges) (I : CorePsr N K μ w.exact) (hN : N ≤ 2 ^ 16) : ∃ p, w.Code A P S p := by
  obtain ⟨outs, h⟩ := exists_cols A (List.ofFn fun j => (List.ofFn (w.D j)).map .fin)
  obtain ⟨vs, h1, -⟩ := chrom_vars A P R I hN
  exact ⟨_, outs, vs, h, h1, rfl⟩

/-! ## An example -/

/-- Four TOAs at 700 MHz with errors 1, EFAC 1, EQUAD `10^0`; a power law with one frequency over a span of 4, variations of the dispersion measure with one frequency over a span of 2, and a timing
model with an offset. -/
noncomputable def exChrom : ChromPsr :=
  ⟨[⟨1, 4, 0, 3, none⟩, ⟨1, 2, 0, 3, some (1400, 2)⟩], 1, 4, ![1, 2, 3, 4], fun _ => 700, fun _ _ => 1, ![3, 1, 2, 1], fun _ => 1, fun _ => 1, fun _ => 0⟩

theorem exChrom_ranges : exChrom.Ranges := by
  refine ⟨fun k => ?_, fun k => ?_, fun k => ⟨rep_zero, ?_⟩, fun k => ?_, fun k => ?_, fun j => ?_, fun q hq => ?_, fun q hq => ?_, fun q hq c hc => ?_⟩
  · show (0 : ℝ) < 1 ∧ |Real.log 1| ≤ 100
    norm_num
  · show (0 : ℝ) < 1 ∧ |Real.log 1| ≤ 100
    norm_num
  · show |(0 : ℝ)| ≤ 30
    norm_num
  · have h : ∀ k : Fin 4, 1 ≤ (![1, 2, 3, 4] : Fin 4 → ℝ) k ∧ (![1, 2, 3, 4] : Fin 4 → ℝ) k ≤ 2 ^ 50 := by
      intro k
      fin_cases k <;> norm_num
    exact h k
  · show (0 : ℝ) < 700 ∧ |Real.log 700| ≤ 20
    have := (log_nat (j := 10) (by norm_num) (by norm_num) : |Real.log (700 : ℝ)| ≤ (10 : ℕ))
    push_cast at this
    exact ⟨by norm_num, by linarith⟩
  · show (2 : ℝ) ^ (-900 : ℤ) ≤ ∑ _k : Fin 4, (1 : ℝ) ^ 2 ∧ ∑ _k : Fin 4, (1 : ℝ) ^ 2 ≤ (2 : ℝ) ^ (980 : ℤ)
    have e : ∑ _k : Fin 4, (1 : ℝ) ^ 2 = 4 := by norm_num
    rw [e]
    refine ⟨(zpow_le_one_of_nonpos₀ (by norm_num) (by norm_num)).trans (by norm_num), ?_⟩
    exact (by norm_num : (4 : ℝ) ≤ (2 : ℝ) ^ (2 : ℤ)).trans (zpow_le_zpow_right₀ (by norm_num) (by norm_num))
  · rcases List.mem_pair.1 hq with rfl | rfl
    · show (1 : ℝ) ≤ 4 ∧ (4 : ℝ) ≤ 2 ^ 50
      norm_num
    · show (1 : ℝ) ≤ 2 ∧ (2 : ℝ) ≤ 2 ^ 50
      norm_num
  · have h : |(0 : ℝ)| ≤ 30 ∧ (0 : ℝ) ≤ 3 ∧ (3 : ℝ) ≤ 7 := by norm_num
    rcases List.mem_pair.1 hq with rfl | rfl <;> exact h
  · rcases List.mem_pair.1 hq with rfl | rfl
    · cases hc
    · cases hc
      show ((0 : ℝ) < 1400 ∧ |Real.log 1400| ≤ 20) ∧ |(2 : ℝ)| ≤ 10
      have := (log_nat (j := 11) (by norm_num) (by norm_num) : |Real.log (1400 : ℝ)| ≤ (11 : ℕ))
      push_cast at this
      exact ⟨⟨by norm_num, by linarith⟩, by norm_num⟩

theorem exFactor : Proc.factor ⟨1, 2, 0, 3, some (1400, 2)⟩ 700 = 4 := by
  show ((1400 : ℝ) / 700) ^ (2 : ℝ) = 4
  rw [show (2 : ℝ) = ((2 : ℕ) : ℝ) by norm_num, Real.rpow_natCast]
  norm_num

theorem exWave (k : Fin 4) : wave 4 0 ((![1, 2, 3, 4] : Fin 4 → ℝ) k) = (![1, 0, -1, 0] : Fin 4 → ℝ) k ∧ wave 4 1 ((![1, 2, 3, 4] : Fin 4 → ℝ) k) = (![0, -1, 0, 1] : Fin 4 → ℝ) k ∧
    wave 2 0 ((![1, 2, 3, 4] : Fin 4 → ℝ) k) = 0 ∧ wave 2 1 ((![1, 2, 3, 4] : Fin 4 → ℝ) k) = (![-1, 1, -1, 1] : Fin 4 → ℝ) k := by
  have e4 : 2 * Real.pi * (((0 : ℕ) : ℝ) + 1) / 4 = Real.pi / 2 := by
    push_cast
    ring
  have e2 : 2 * Real.pi * (((0 : ℕ) : ℝ) + 1) / 2 = Real.pi := by
    push_cast
    ring
  have w0 : ∀ t, wave 4 0 t = Real.sin (Real.pi / 2 * t) := fun t => by rw [← e4]; rfl
  have w1 : ∀ t, wave 4 1 t = Real.cos (Real.pi / 2 * t) := fun t => by rw [← e4]; rfl
  have w2 : ∀ t, wave 2 0 t = Real.sin (Real.pi * t) := fun t => by rw [← e2]; rfl
  have w3 : ∀ t, wave 2 1 t = Real.cos (Real.pi * t) := fun t => by rw [← e2]; rfl
  rw [w0, w1, w2, w3]
  have s1 : Real.sin (Real.pi / 2 * 1) = 1 := by rw [mul_one, Real.sin_pi_div_two]
  have s2 : Real.sin (Real.pi / 2 * 2) = 0 := by rw [div_mul_cancel₀ _ (by norm_num), Real.sin_pi]
  have s3 : Real.sin (Real.pi / 2 * 3) = -1 := by
    rw [show Real.pi / 2 * 3 = Real.pi / 2 + Real.pi by ring, Real.sin_add_pi, Real.sin_pi_div_two]
  have s4 : Real.sin (Real.pi / 2 * 4) = 0 := by rw [show Real.pi / 2 * 4 = 2 * Real.pi by ring, Real.sin_two_pi]
  have c1 : Real.cos (Real.pi / 2 * 1) = 0 := by rw [mul_one, Real.cos_pi_div_two]
  have c2 : Real.cos (Real.pi / 2 * 2) = -1 := by rw [div_mul_cancel₀ _ (by norm_num), Real.cos_pi]
  have c3 : Real.cos (Real.pi / 2 * 3) = 0 := by
    rw [show Real.pi / 2 * 3 = Real.pi / 2 + Real.pi by ring, Real.cos_add_pi, Real.cos_pi_div_two, neg_zero]
  have c4 : Real.cos (Real.pi / 2 * 4) = 1 := by rw [show Real.pi / 2 * 4 = 2 * Real.pi by ring, Real.cos_two_pi]
  have p1 : Real.sin (Real.pi * 1) = 0 := by rw [mul_one, Real.sin_pi]
  have p2 : Real.sin (Real.pi * 2) = 0 := by rw [mul_comm, Real.sin_two_pi]
  have p3 : Real.sin (Real.pi * 3) = 0 := by rw [show Real.pi * 3 = Real.pi + 2 * Real.pi by ring, Real.sin_add_two_pi, Real.sin_pi]
  have p4 : Real.sin (Real.pi * 4) = 0 := by rw [show Real.pi * 4 = 2 * Real.pi + 2 * Real.pi by ring, Real.sin_add_two_pi, Real.sin_two_pi]
  have q1 : Real.cos (Real.pi * 1) = -1 := by rw [mul_one, Real.cos_pi]
  have q2 : Real.cos (Real.pi * 2) = 1 := by rw [mul_comm, Real.cos_two_pi]
  have q3 : Real.cos (Real.pi * 3) = -1 := by rw [show Real.pi * 3 = Real.pi + 2 * Real.pi by ring, Real.cos_add_two_pi, Real.cos_pi]
  have q4 : Real.cos (Real.pi * 4) = 1 := by rw [show Real.pi * 4 = 2 * Real.pi + 2 * Real.pi by ring, Real.cos_add_two_pi, Real.cos_two_pi]
  fin_cases k
  · exact ⟨s1, c1, p1, q1⟩
  · exact ⟨s2, c2, p2, q2⟩
  · exact ⟨s3, c3, p3, q3⟩
  · exact ⟨s4, c4, p4, q4⟩

/-- The coefficients of the example. -/
theorem exChrom_coefs : exChrom.coefs =
    [((![1, 0, -1, 0] : Fin 4 → ℝ), law 4 0 3 0), (![0, -1, 0, 1], law 4 0 3 0), (![0, 0, 0, 0], law 2 0 3 0), (![-4, 4, -4, 4], law 2 0 3 0), (![1 / 2, 1 / 2, 1 / 2, 1 / 2], 10 ^ 40)] := by
  have h : exChrom.coefs = [((fun k => wave 4 0 ((![1, 2, 3, 4] : Fin 4 → ℝ) k) * 1), law 4 0 3 0), (fun k => wave 4 1 ((![1, 2, 3, 4] : Fin 4 → ℝ) k) * 1, law 4 0 3 0),
      (fun k => wave 2 0 ((![1, 2, 3, 4] : Fin 4 → ℝ) k) * Proc.factor ⟨1, 2, 0, 3, some (1400, 2)⟩ 700, law 2 0 3 0),
      (fun k => wave 2 1 ((![1, 2, 3, 4] : Fin 4 → ℝ) k) * Proc.factor ⟨1, 2, 0, 3, some (1400, 2)⟩ 700, law 2 0 3 0), (fun _ => 1 / Real.sqrt (∑ _l : Fin 4, (1 : ℝ) ^ 2), 10 ^ 40)] := rfl
  rw [h, exFactor]
  have hs : Real.sqrt (∑ _l : Fin 4, (1 : ℝ) ^ 2) = 2 := by
    rw [show ∑ _l : Fin 4, (1 : ℝ) ^ 2 = 2 ^ 2 by norm_num, Real.sqrt_sq (by norm_num)]
  rw [hs]
  have w0 : (fun k : Fin 4 => wave 4 0 ((![1, 2, 3, 4] : Fin 4 → ℝ) k) * 1) = ![1, 0, -1, 0] := by
    funext k
    rw [(exWave k).1, mul_one]
  have w1 : (fun k : Fin 4 => wave 4 1 ((![1, 2, 3, 4] : Fin 4 → ℝ) k) * 1) = ![0, -1, 0, 1] := by
    funext k
    rw [(exWave k).2.1, mul_one]
  have w2 : (fun k : Fin 4 => wave 2 0 ((![1, 2, 3, 4] : Fin 4 → ℝ) k) * 4) = ![0, 0, 0, 0] := by
    funext k
    rw [(exWave k).2.2.1, zero_mul]
    fin_cases k <;> rfl
  have w3 : (fun k : Fin 4 => wave 2 1 ((![1, 2, 3, 4] : Fin 4 → ℝ) k) * 4) = ![-4, 4, -4, 4] := by
    funext k
    rw [(exWave k).2.2.2]
    fin_cases k <;> norm_num
  have w4 : (fun _ : Fin 4 => (1 : ℝ) / 2) = ![1 / 2, 1 / 2, 1 / 2, 1 / 2] := by
    funext k
    fin_cases k <;> rfl
  rw [w0, w1, w2, w3, w4]

/-- The basis of the example. -/
noncomputable def exC : Matrix (Fin 4) (Fin 5) ℝ := !![1, 0, 0, -4, 1 / 2; 0, -1, 0, 4, 1 / 2; -1, 0, 0, -4, 1 / 2; 0, 1, 0, 4, 1 / 2]

/-- The variances of the example. -/
noncomputable def exV : Fin 5 → ℝ := ![law 4 0 3 0, law 4 0 3 0, law 2 0 3 0, law 2 0 3 0, 10 ^ 40]

theorem exChrom_ν : exChrom.ν = fun _ => 2 := by
  funext k
  show (1 : ℝ) ^ 2 * (1 ^ 2 + (10 : ℝ) ^ (2 * (0 : ℝ))) = 2
  norm_num

theorem exChrom_exact : exChrom.exact = ⟨5, 4, exC, fun _ => 2, ![3, 1, 2, 1], exV⟩ := by
  have h : ∀ cs : List ((Fin 4 → ℝ) × ℝ), cs = [((![1, 0, -1, 0] : Fin 4 → ℝ), law 4 0 3 0), (![0, -1, 0, 1], law 4 0 3 0), (![0, 0, 0, 0], law 2 0 3 0), (![-4, 4, -4, 4], law 2 0 3 0),
      (![1 / 2, 1 / 2, 1 / 2, 1 / 2], 10 ^ 40)] → ∀ ν : Fin 4 → ℝ, ν = (fun _ => 2) →
      (⟨cs.length, 4, Matrix.of fun k i => (cs.get i).1 k, ν, ![3, 1, 2, 1], fun i => (cs.get i).2⟩ : GpPsr) = ⟨5, 4, exC, fun _ => 2, ![3, 1, 2, 1], exV⟩ := by
    rintro _ rfl _ rfl
    have g : ∀ {T T' : Matrix (Fin 4) (Fin 5) ℝ} {v v' : Fin 5 → ℝ}, T = T' → v = v' → (⟨5, 4, T, fun _ => 2, ![3, 1, 2, 1], v⟩ : GpPsr) = ⟨5, 4, T', fun _ => 2, ![3, 1, 2, 1], v'⟩ := by
      rintro _ _ _ _ rfl rfl
      rfl
    refine g ?_ ?_
    · refine Matrix.ext fun (k : Fin 4) (i : Fin 5) => ?_
      fin_cases i <;> fin_cases k <;> rfl
    · funext i
      fin_cases i <;> rfl
  exact h exChrom.coefs exChrom_coefs exChrom.ν exChrom_ν

theorem exV_le (i : Fin 5) : 1 / 768 ≤ exV i ∧ exV i ≤ 10 ^ 40 := by
  have h3 := Real.pi_gt_three
  have h4 := Real.pi_lt_four
  have e4 : law 4 0 3 0 = 16 / (12 * Real.pi ^ 2) := by
    unfold law
    have : (((0 : ℕ) + 1) / 4 : ℝ) ^ (-3 : ℝ) = 64 := by
      rw [show (-3 : ℝ) = ((-3 : ℤ) : ℝ) by norm_num, Real.rpow_intCast]
      norm_num
    rw [this]
    norm_num
    ring
  have e2 : law 2 0 3 0 = 4 / (12 * Real.pi ^ 2) := by
    unfold law
    have : (((0 : ℕ) + 1) / 2 : ℝ) ^ (-3 : ℝ) = 8 := by
      rw [show (-3 : ℝ) = ((-3 : ℤ) : ℝ) by norm_num, Real.rpow_intCast]
      norm_num
    rw [this]
    norm_num
    ring
  have h : ∀ x : ℝ, 4 ≤ x → x ≤ 16 → 1 / 768 ≤ x / (12 * Real.pi ^ 2) ∧ x / (12 * Real.pi ^ 2) ≤ 10 ^ 40 := by
    intro x hx hx'
    constructor
    · rw [div_le_div_iff₀ (by norm_num) (by positivity)]
      nlinarith
    · rw [div_le_iff₀ (by positivity)]
      nlinarith
  have a4 := h 16 (by norm_num) le_rfl
  have a2 := h 4 le_rfl (by norm_num)
  rw [← e4] at a4
  rw [← e2] at a2
  fin_cases i
  · exact a4
  · exact a4
  · exact a2
  · exact a2
  · show (1 : ℝ) / 768 ≤ 10 ^ 40 ∧ (10 : ℝ) ^ 40 ≤ 10 ^ 40
    norm_num

theorem exC_dot (i j : Fin 5) : ∑ k : Fin 4, exC k i * exC k j / 2 = if i = j then (![1, 1, 0, 32, 1 / 2] : Fin 5 → ℝ) i else 0 := by
  rw [Fin.sum_univ_four]
  have r0 : ∀ i, exC 0 i = ![1, 0, 0, -4, 1 / 2] i := fun _ => rfl
  have r1 : ∀ i, exC 1 i = ![0, -1, 0, 4, 1 / 2] i := fun _ => rfl
  have r2 : ∀ i, exC 2 i = ![-1, 0, 0, -4, 1 / 2] i := fun _ => rfl
  have r3 : ∀ i, exC 3 i = ![0, 1, 0, 4, 1 / 2] i := fun _ => rfl
  rw [r0, r1, r2, r3, r0, r1, r2, r3]
  fin_cases i <;> fin_cases j <;> simp <;> norm_num

/-- The example, in numbers. -/
noncomputable def exG : GpPsr := ⟨5, 4, exC, fun _ => 2, ![3, 1, 2, 1], exV⟩

theorem exG_prec (i j : Fin 5) : exG.prec i j = if i = j then (![1, 1, 0, 32, 1 / 2] : Fin 5 → ℝ) i + (exV i)⁻¹ else 0 := by
  refine (prec_apply (o := exG) i j).trans ?_
  have e : ∑ k, exG.T k i * exG.T k j / exG.ν k = if i = j then (![1, 1, 0, 32, 1 / 2] : Fin 5 → ℝ) i else 0 := exC_dot i j
  rw [e]
  by_cases h : i = j
  · rw [if_pos h, if_pos h]
    exact congrArg _ (if_pos h)
  · rw [if_neg h, if_neg h]
    exact (zero_add _).trans (if_neg h)

theorem exG_core : CorePsr 5 4 1 exG := by
  have b : ∀ {e : ℤ} {x : ℝ}, 10 ≤ e → x ≤ 1024 → x ≤ (2 : ℝ) ^ e := fun h hx =>
    hx.trans ((by norm_num : (1024 : ℝ) ≤ (2 : ℝ) ^ (10 : ℤ)).trans (zpow_le_zpow_right₀ (by norm_num) h))
  have c : ∀ {e : ℤ} {x : ℝ}, e ≤ -140 → 1 / 10 ^ 40 ≤ x → (2 : ℝ) ^ e ≤ x := fun h hx =>
    ((zpow_le_zpow_right₀ (by norm_num) h).trans (by norm_num : (2 : ℝ) ^ (-140 : ℤ) ≤ 1 / 10 ^ 40)).trans hx
  have hφ0 : ∀ i : Fin 5, 0 < exV i := fun i => lt_of_lt_of_le (by norm_num) (exV_le i).1
  have hp : ∀ i : Fin 5, exG.prec i i = (![1, 1, 0, 32, 1 / 2] : Fin 5 → ℝ) i + (exV i)⁻¹ := fun i => (exG_prec i i).trans (if_pos rfl)
  have hd : ∀ i : Fin 5, 0 ≤ (![1, 1, 0, 32, 1 / 2] : Fin 5 → ℝ) i ∧ (![1, 1, 0, 32, 1 / 2] : Fin 5 → ℝ) i ≤ 32 := fun i => by fin_cases i <;> norm_num
  refine ⟨le_rfl, le_rfl, fun k => c (by norm_num) ?_, fun k => b (by norm_num) ?_, fun i => c (by norm_num) ?_, fun i => ?_, fun k i => b (by norm_num) ?_, fun k => b (by norm_num) ?_,
    fun i => c (by norm_num) ?_, fun i => b (by norm_num) ?_, b (by norm_num) ?_, ?_⟩
  · show (1 : ℝ) / 10 ^ 40 ≤ 2
    norm_num
  · show (2 : ℝ) ≤ 1024
    norm_num
  · exact le_trans (by norm_num) (exV_le i).1
  · refine (exV_le i).2.trans ?_
    exact (by norm_num : (10 : ℝ) ^ 40 ≤ (2 : ℝ) ^ (133 : ℤ)).trans (zpow_le_zpow_right₀ (by norm_num) (by norm_num))
  · have h : ∀ (k : Fin 4) (i : Fin 5), |exC k i| ≤ 1024 := fun k i => by
      fin_cases k <;> fin_cases i <;> norm_num [exC]
    exact h k i
  · have h : ∀ k : Fin 4, |(![3, 1, 2, 1] : Fin 4 → ℝ) k| ≤ 1024 := fun k => by fin_cases k <;> norm_num
    exact h k
  · refine le_trans ?_ (hp i).ge
    have h1 := inv_anti₀ (hφ0 i) (exV_le i).2
    have h2 := (hd i).1
    rw [one_div]
    linarith
  · refine (hp i).trans_le ?_
    have : (exV i)⁻¹ ≤ 768 := by
      have := inv_anti₀ (by norm_num) (exV_le i).1
      linarith
    have := (hd i).2
    linarith
  · have e : exG.ρ = ∑ k : Fin 4, (![3, 1, 2, 1] : Fin 4 → ℝ) k ^ 2 / 2 := rfl
    rw [e, ex_res4]
    norm_num
  · have e : exG.prec - (1 : ℝ) • diagonal exG.prec.diag = 0 := by
      ext i j
      rw [one_smul, Matrix.sub_apply, Matrix.zero_apply]
      by_cases h : i = j
      · subst h
        rw [diagonal_apply_eq, diag_apply, sub_self]
      · rw [diagonal_apply_ne _ h, sub_zero]
        exact (exG_prec i j).trans (if_neg h)
    rw [e]
    exact PosSemidef.zero

theorem exChrom_core : CorePsr 5 4 1 exChrom.exact := by
  rw [exChrom_exact]
  exact exG_core

theorem exChrom_phases : exChrom.Phases 240 2 := by
  have hf : ∀ k : Fin 4, (![1, 2, 3, 4] : Fin 4 → ℝ) k ≤ 4 := fun k => by fin_cases k <;> norm_num
  have hπ := Real.pi_lt_d2
  have hπ0 := Real.pi_pos
  have hw : ∀ i : Fin 5, ∑ k, (exChrom.coefs.get i).1 k ^ 2 / exChrom.ν k + 1 / (exChrom.coefs.get i).2 = (![1, 1, 0, 32, 1 / 2] : Fin 5 → ℝ) i + (exV i)⁻¹ := by
    intro i
    refine (chrom_prec exChrom i).symm.trans ?_
    have h : ∀ o : GpPsr, o = exG → ∀ j : Fin o.n, ∀ i : Fin 5, (j : ℕ) = i → o.prec j j = (![1, 1, 0, 32, 1 / 2] : Fin 5 → ℝ) i + (exV i)⁻¹ := by
      rintro _ rfl j i hji
      obtain rfl : j = i := Fin.ext hji
      exact (exG_prec j j).trans (if_pos rfl)
    exact h _ exChrom_exact _ i rfl
  refine ⟨by norm_num, by norm_num, fun q hq k => ?_, fun q hq k => ?_, fun q hq c hc => ?_⟩
  · have h1 := mul_le_mul_of_nonneg_left (hf k) hπ0.le
    rcases List.mem_pair.1 hq with rfl | rfl
    · show 14 * (2 * Real.pi * (1 : ℕ) / 4 * (![1, 2, 3, 4] : Fin 4 → ℝ) k) + 61 ≤ 240
      push_cast
      linarith
    · show 14 * (2 * Real.pi * (1 : ℕ) / 2 * (![1, 2, 3, 4] : Fin 4 → ℝ) k) + 61 ≤ 240
      push_cast
      linarith
  · rcases List.mem_pair.1 hq with rfl | rfl
    · show 240 * (2 : ℝ) ^ (-51 : ℤ) * 1 ≤ 1
      norm_num
    · show 240 * (2 : ℝ) ^ (-51 : ℤ) * Proc.factor ⟨1, 2, 0, 3, some (1400, 2)⟩ 700 ≤ 1
      rw [exFactor]
      norm_num
  · have hV : ∀ i, 0 < (exV i)⁻¹ := fun i => inv_pos.2 (lt_of_lt_of_le (by norm_num) (exV_le i).1)
    rcases List.mem_pair.1 hq with rfl | rfl
    · have e : ∑ k, Proc.factor ⟨1, 4, 0, 3, none⟩ (exChrom.f k) ^ 2 / exChrom.ν k = 2 := by
        rw [exChrom_ν]
        show ∑ _k : Fin 4, (1 : ℝ) ^ 2 / 2 = 2
        norm_num
      rw [e]
      rcases List.mem_pair.1 hc with rfl | rfl
      · refine le_of_le_of_eq ?_ (congrArg _ (hw 0).symm)
        show (2 : ℝ) ≤ 2 ^ 2 * (1 + (exV 0)⁻¹)
        linarith [hV 0]
      · refine le_of_le_of_eq ?_ (congrArg _ (hw 1).symm)
        show (2 : ℝ) ≤ 2 ^ 2 * (1 + (exV 1)⁻¹)
        linarith [hV 1]
    · have e : ∑ k, Proc.factor ⟨1, 2, 0, 3, some (1400, 2)⟩ (exChrom.f k) ^ 2 / exChrom.ν k = 32 := by
        rw [exChrom_ν]
        show ∑ _k : Fin 4, Proc.factor ⟨1, 2, 0, 3, some (1400, 2)⟩ 700 ^ 2 / 2 = 32
        rw [exFactor]
        norm_num
      rw [e]
      rcases List.mem_pair.1 hc with rfl | rfl
      · refine le_of_le_of_eq ?_ (congrArg _ (hw 2).symm)
        show (32 : ℝ) ≤ 2 ^ 2 * (0 + (law 2 0 3 0)⁻¹)
        have e2 : law 2 0 3 0 = 4 / (12 * Real.pi ^ 2) := by
          unfold law
          have : (((0 : ℕ) + 1) / 2 : ℝ) ^ (-3 : ℝ) = 8 := by
            rw [show (-3 : ℝ) = ((-3 : ℤ) : ℝ) by norm_num, Real.rpow_intCast]
            norm_num
          rw [this]
          norm_num
          ring
        rw [e2, inv_div]
        nlinarith [Real.pi_gt_three]
      · refine le_of_le_of_eq ?_ (congrArg _ (hw 3).symm)
        show (32 : ℝ) ≤ 2 ^ 2 * (32 + (exV 3)⁻¹)
        linarith [hV 3]

/-- C155 for such a pulsar: numbers and an outcome exist, and each outcome is within `2^-19` of the Gaussian log-likelihood. -/
example (hL : GoodLog L) : (∃ p r, exChrom.Code A P S p ∧ IsLikelihood A L [p] r) ∧ ∀ p r, exChrom.Code A P S p → IsLikelihood A L [p] r → ∃ v, r = .ok (.fin v) ∧
    |v - exChrom.exact.like| ≤ (2 : ℝ) ^ (-19 : ℤ) := by
  constructor
  · obtain ⟨p, hp⟩ := exists_chrom A P S exChrom_ranges exChrom_core (by norm_num)
    obtain ⟨r, hr⟩ := exists_likelihood A L [p]
    exact ⟨p, r, hp, hr⟩
  intro p r hp hr
  obtain ⟨v, e, hv⟩ := C155_chromatic A L P S hL (N := 5) (K := 4) (μ := 1) (H := 240) (l := 2) (ws := [exChrom]) (by norm_num) (by norm_num) le_rfl (by norm_num) (by norm_num) (by norm_num) (by
    intro w hw
    rw [List.mem_singleton] at hw
    subst hw
    exact ⟨exChrom_ranges, exChrom_phases, exChrom_core⟩) (by simp) (by norm_num) (.cons hp .nil) hr
  refine ⟨v, e, ?_⟩
  have hlog : |Real.log 2| ≤ 1 := by
    rw [abs_of_pos (Real.log_pos (by norm_num))]
    linarith [Real.log_two_lt_d9]
  have hφ : ∀ i : Fin 5, |Real.log (exV i)| ≤ 133 := by
    intro i
    obtain ⟨a, b⟩ := exV_le i
    have l1 := Real.log_le_log (by norm_num) a
    have l2 := Real.log_le_log (lt_of_lt_of_le (by norm_num) a) b
    have l3 := abs_le.1 (log_nat (j := 133) (by norm_num) (by norm_num) : |Real.log ((10 : ℝ) ^ 40)| ≤ (133 : ℕ))
    have l4 := abs_le.1 (log_nat (j := 10) (by norm_num) (by norm_num) : |Real.log (768 : ℝ)| ≤ (10 : ℕ))
    rw [one_div, Real.log_inv] at l1
    push_cast at l3 l4
    exact abs_le.2 ⟨by linarith, by linarith⟩
  have e2 : exChrom.exact.size ≤ 2600 := by
    rw [exChrom_exact]
    show (∑ k : Fin 4, (![3, 1, 2, 1] : Fin 4 → ℝ) k ^ 2 / 2) + 2 + (∑ _k : Fin 4, (1 + |Real.log 2|)) + ∑ i : Fin 5, (376 + |Real.log (exV i)|) ≤ 2600
    have h2 : ∑ _k : Fin 4, (1 + |Real.log 2|) ≤ 8 := by
      rw [Fin.sum_univ_four]
      linarith
    have h3 : ∑ i : Fin 5, (376 + |Real.log (exV i)|) ≤ 2545 := by
      rw [Fin.sum_univ_five]
      linarith [hφ 0, hφ 1, hφ 2, hφ 3, hφ 4]
    rw [ex_res4]
    linarith
  simp only [List.map_cons, List.map_nil, List.sum_cons, List.sum_nil, add_zero, List.length_cons, List.length_nil] at hv
  refine hv.trans ?_
  have h3 : (2 : ℝ) ^ (-999 : ℤ) ≤ (2 : ℝ) ^ (-30 : ℤ) := zpow_le_zpow_right₀ (by norm_num) (by norm_num)
  refine (add_le_add (mul_le_mul_of_nonneg_left e2 (by positivity)) h3).trans ?_
  norm_num

end Verif.Ieee
