import Verif.Model.IeeeShared
import Verif.Props.IeeeChrom

/-!
# The likelihood of processes that share columns

C156: combined columns, and the Gaussian log-likelihood of all processes.
-/

namespace Verif.Ieee

open Verif Matrix

variable (A : Arith) (L : Lib) (P : Powers) (S : Trig) {N K M : Nat} {μ δ κ : ℝ}

/-! ## Specification -/

/-- A pulsar, and columns `T` to which those of its processes are combined. -/
structure SharedPsr where
  w : ChromPsr
  n : Nat
  idx : Fin w.coefs.length → Fin n
  T : Matrix (Fin w.M) (Fin n) ℝ

namespace SharedPsr

variable (z : SharedPsr)

/-- The pulsar with combined columns and the sums of their variances. -/
noncomputable def comb : GpPsr := ⟨z.n, z.w.M, z.T, z.w.ν, z.w.r, fun j => ∑ i, if z.idx i = j then (z.w.coefs.get i).2 else 0⟩

/-- `p` holds computed numbers of the pulsar. -/
def Code (p : PsrF) : Prop :=
  IsSharedF A P S (List.ofFn fun k => .fin (z.w.t k)) (List.ofFn fun k => .fin (z.w.f k))
    (z.w.procs.map fun q => ⟨q.n, .fin q.span, .fin q.a, .fin q.g, q.chrom.map fun c => (.fin c.1, .fin c.2)⟩) (List.ofFn fun j => (List.ofFn (z.w.D j)).map .fin)
    (List.ofFn fun k => (.fin (z.w.s k), .fin (z.w.efac k), .fin (z.w.equad k))) (List.ofFn fun k => .fin (z.w.r k)) z.n (List.ofFn fun i => (z.idx i : ℕ)) p

/-- Only equal columns are combined, every column comes from a process, and no column from more than 20. -/
structure Combines : Prop where
  same : ∀ i k, (z.w.coefs.get i).1 k = z.T k (z.idx i)
  all : ∀ j, ∃ i, z.idx i = j
  few : ∀ j, (List.ofFn fun i => (z.idx i : ℕ)).count j ≤ 20

/-- `H` bounds the rounding errors of the phases, and `l` says that no column of a process is small beside its chromatic factor at all TOAs. -/
structure Phases (N : Nat) (H l : ℝ) : Prop where
  one : 1 ≤ l
  pos : 60 ≤ H
  modes : ∀ q ∈ z.w.procs, 2 * q.n ≤ N
  phase : ∀ q ∈ z.w.procs, ∀ k, 14 * (2 * Real.pi * q.n / q.span * z.w.t k) + 61 ≤ H
  room : ∀ q ∈ z.w.procs, ∀ k, H * (2 : ℝ) ^ (-51 : ℤ) * q.factor (z.w.f k) ≤ 1
  weight : ∀ q ∈ z.w.procs, ∀ c ∈ q.coefs z.w.t z.w.f, ∀ j, (∀ k, c.1 k = z.T k j) → ∑ k, q.factor (z.w.f k) ^ 2 / z.w.ν k ≤ l ^ 2 * z.comb.prec j j

end SharedPsr

/-! ## Combined columns -/

theorem like_eq {n n' M : Nat} {T : Matrix (Fin M) (Fin n) ℝ} {T' : Matrix (Fin M) (Fin n') ℝ} {φ : Fin n → ℝ} {φ' : Fin n' → ℝ} {ν r : Fin M → ℝ} (h : T * diagonal φ * Tᵀ = T' * diagonal φ' * T'ᵀ) :
    (⟨n, M, T, ν, r, φ⟩ : GpPsr).like = (⟨n', M, T', ν, r, φ'⟩ : GpPsr).like := by
  simp only [GpPsr.like, GpPsr.cov, h]

/-- Combining equal columns does not change the likelihood. -/
theorem comb_like {z : SharedPsr} (hc : z.Combines) : z.comb.like = z.w.exact.like := by
  have e : ∀ {n : Nat} (T : Matrix (Fin z.w.M) (Fin n) ℝ) (φ : Fin n → ℝ) (k l : Fin z.w.M), (T * diagonal φ * Tᵀ) k l = ∑ j, T k j * φ j * T l j := by
    intro n T φ k l
    rw [Matrix.mul_apply]
    exact Finset.sum_congr rfl fun j _ => by rw [mul_diagonal, transpose_apply]
  refine like_eq (Matrix.ext fun k l => ?_)
  rw [e, e]
  have h1 : ∀ j, z.T k j * (∑ i, if z.idx i = j then (z.w.coefs.get i).2 else 0) * z.T l j =
      ∑ i, if z.idx i = j then (z.w.coefs.get i).1 k * (z.w.coefs.get i).2 * (z.w.coefs.get i).1 l else 0 := by
    intro j
    rw [Finset.mul_sum, Finset.sum_mul]
    refine Finset.sum_congr rfl fun i _ => ?_
    split_ifs with hi
    · rw [hc.same, hc.same, hi]
    · ring
  rw [Finset.sum_congr rfl fun j _ => h1 j, Finset.sum_comm]
  refine Finset.sum_congr rfl fun i _ => ?_
  rw [Finset.sum_ite_eq, if_pos (Finset.mem_univ _)]
  rfl

/-- The last of the columns. -/
theorem basis_at {idx : List Nat} {cols : List (List Fl)} (hl : idx.length = cols.length) (j : Nat) (c : List Fl) :
    ((idx.zip cols).foldl (fun c x => if x.1 = j then x.2 else c) c = c ∧ j ∉ idx) ∨ ∃ i, ∃ h1 : i < idx.length, ∃ h2 : i < cols.length, idx[i] = j ∧
      (idx.zip cols).foldl (fun c x => if x.1 = j then x.2 else c) c = cols[i] := by
  induction idx generalizing cols c with
  | nil => exact .inl ⟨rfl, by simp⟩
  | cons a idx ih =>
    cases cols with
    | nil => simp at hl
    | cons d cols =>
      rw [List.zip_cons_cons, List.foldl_cons]
      rcases ih (by simpa using hl) (if a = j then d else c) with ⟨h1, h2⟩ | ⟨i, h1, h2, h3, h4⟩
      · rw [h1]
        by_cases ha : a = j
        · exact .inr ⟨0, by simp, by simp, ha, if_pos ha⟩
        · exact .inl ⟨if_neg ha, by simpa [Ne.symm ha] using h2⟩
      · exact .inr ⟨i + 1, by simpa using h1, by simpa using h2, by simpa using h3, by simpa using h4⟩

/-- The sum of variances. -/
theorem phi_at {r : ℝ} (hr : r ≤ 2 ^ 44) {idx : List Nat} {vars : List Fl} {Xs : List ℝ} (h : List.Forall₂ (fun v X => ∃ x, v = .fin x ∧ Off r 600 x X) vars Xs) (hl : idx.length = vars.length) (j : Nat)
    {c : Nat} (hc : c + idx.count j ≤ 20) {v : Fl} {s : ℝ} (hv : (c = 0 ∧ v = .fin 0 ∧ s = 0) ∨ (1 ≤ c ∧ ∃ x, v = .fin x ∧ Off (r + c) (600 + c) x s)) :
    (c + idx.count j = 0 ∧ s + (List.zipWith (fun i X => if i = j then X else 0) idx Xs).sum = 0) ∨ (∃ x, (idx.zip vars).foldl (fun v x => if x.1 = j then add A v x.2 else v) v = .fin x ∧
      Off (r + (c + idx.count j : ℕ)) (600 + (c + idx.count j : ℕ)) x (s + (List.zipWith (fun i X => if i = j then X else 0) idx Xs).sum)) := by
  induction h generalizing idx c v s with
  | nil =>
    obtain rfl : idx = [] := List.eq_nil_of_length_eq_zero (by simpa using hl)
    rcases hv with ⟨rfl, rfl, rfl⟩ | ⟨h1, x, rfl, h2⟩
    · exact .inl ⟨rfl, by simp⟩
    · exact .inr ⟨x, rfl, by simpa using h2⟩
  | @cons y Y vars Xs h1 h2 ih =>
    cases idx with
    | nil => simp at hl
    | cons a idx =>
      obtain ⟨y, rfl, oy⟩ := h1
      rw [List.zip_cons_cons, List.foldl_cons, List.zipWith_cons_cons, List.sum_cons]
      by_cases ha : a = j
      · subst ha
        rw [List.count_cons_self] at hc ⊢
        simp only [if_true]
        have hs : ∃ x, add A v (.fin y) = .fin x ∧ Off (r + (c + 1 : ℕ)) (600 + (c + 1 : ℕ)) x (s + Y) := by
          rcases hv with ⟨rfl, rfl, rfl⟩ | ⟨h1, x, rfl, h2⟩
          · obtain ⟨x, x1, x2⟩ := add_zero_off A oy (by linarith) (by norm_num)
            refine ⟨x, x1, ?_⟩
            rw [zero_add Y]
            exact x2.mono (by norm_num) (by norm_num)
          · have c1 : (c : ℝ) ≤ 20 := by exact_mod_cast (by omega : c ≤ 20)
            have c0 : (0 : ℝ) ≤ c := Nat.cast_nonneg c
            obtain ⟨u, u1, u2⟩ := h2.add A (oy.mono (by linarith) (by linarith)) (by linarith) (by linarith)
            exact ⟨u, u1, u2.mono (by push_cast; linarith) (by push_cast; linarith)⟩
        obtain ⟨x, x1, x2⟩ := hs
        have := ih (idx := idx) (by simpa using hl) (c := c + 1) (by omega) (v := add A v (.fin y)) (s := s + Y) (.inr ⟨by omega, x, x1, x2⟩)
        rw [show c + (idx.count a + 1) = c + 1 + idx.count a by omega, ← add_assoc]
        exact this
      · rw [List.count_cons_of_ne ha] at hc ⊢
        simp only [if_neg ha, zero_add]
        exact ih (idx := idx) (by simpa using hl) hc hv

/-- The computed column `c` is near the column of `e`, for each combined column that equals it. -/
def ColFor (z : SharedPsr) (κ : ℝ) (c : List Fl) (e : (Fin z.w.M → ℝ) × ℝ) : Prop :=
  ∃ y : Fin z.w.M → ℝ, c = List.ofFn (fun k => .fin (y k)) ∧ (∀ k, |y k - e.1 k| ≤ 1) ∧ ∀ j, (∀ k, e.1 k = z.T k j) → ∑ k, (y k - e.1 k) ^ 2 / z.w.ν k ≤ κ ^ 2 * z.comb.prec j j

theorem ColFor.mono {z : SharedPsr} {κ' : ℝ} {c : List Fl} {e : (Fin z.w.M → ℝ) × ℝ} (h : ColFor z κ c e) (I : CorePsr N K μ z.comb) (h0 : 0 ≤ κ) (hκ : κ ≤ κ') : ColFor z κ' c e := by
  obtain ⟨y, y1, y2, y3⟩ := h
  exact ⟨y, y1, y2, fun j hj => (y3 j hj).trans (mul_le_mul_of_nonneg_right (pow_le_pow_left₀ h0 hκ 2) (I.precpos j).le)⟩

theorem shared_proc {z : SharedPsr} (R : z.w.Ranges) {H l : ℝ} (F : z.Phases N H l) (hN : N ≤ 2 ^ 16) (hH : H * eps ≤ 1) {q : Proc} (hq : q ∈ z.w.procs) :
    List.Forall₂ (ColFor z (H * l * eps)) (procCols A P S (List.ofFn fun k => .fin (z.w.t k)) (List.ofFn fun k => .fin (z.w.f k)) q.fl) (q.coefs z.w.t z.w.f) := by
  rw [procCols, Proc.coefs, List.forall₂_map_left_iff, List.forall₂_map_right_iff, show q.fl.n = q.n from rfl, List.forall₂_same]
  intro i hi
  rw [List.mem_range] at hi
  obtain ⟨u, u1, u2⟩ := proc_col A P S R F.pos F.phase hH hq (by have := F.modes q hq; omega) hi
  refine ⟨u, u1, fun k => (u2 k).trans (F.room q hq k), fun j hj => ?_⟩
  have b1 : ∑ k, (u k - wave q.span i (z.w.t k) * q.factor (z.w.f k)) ^ 2 / z.w.ν k ≤ (H * eps) ^ 2 * ∑ k, q.factor (z.w.f k) ^ 2 / z.w.ν k := by
    rw [Finset.mul_sum]
    refine Finset.sum_le_sum fun k _ => ?_
    rw [← mul_div_assoc, ← mul_pow]
    refine div_le_div_of_nonneg_right ?_ (R.νpos k).le
    rw [← sq_abs (u k - _)]
    exact pow_le_pow_left₀ (abs_nonneg _) (u2 k) 2
  refine b1.trans ((mul_le_mul_of_nonneg_left (F.weight q hq _ (List.mem_map_of_mem (List.mem_range.2 hi)) j hj) (sq_nonneg _)).trans_eq ?_)
  ring

theorem shared_tm {z : SharedPsr} (R : z.w.Ranges) (I : CorePsr N K μ z.comb) (hK : K ≤ 2 ^ 22) {outs : List (List Fl)}
    (h : List.Forall₂ (IsNormedCol A none) (List.ofFn fun j => (List.ofFn (z.w.D j)).map .fin) outs) :
    List.Forall₂ (ColFor z ((3 * K + 11) * eps)) outs (List.ofFn fun j => (fun k => z.w.D j k / Real.sqrt (∑ l, z.w.D j l ^ 2), (10 : ℝ) ^ 40)) := by
  have hl := h.length_eq
  rw [List.length_ofFn] at hl
  have hM : z.w.M ≤ K := I.toas
  refine List.forall₂_iff_get.2 ⟨by rw [List.length_ofFn, hl], fun j h1 h2 => ?_⟩
  have hj : j < z.w.p := by omega
  have g1 := (List.forall₂_iff_get.1 h).2 j (by simpa using hj) h1
  simp only [List.get_eq_getElem, List.getElem_ofFn] at g1 ⊢
  generalize outs[j] = out at *
  have e : ((List.ofFn (z.w.D ⟨j, hj⟩)).map fun x => x ^ 2).sum = ∑ k, z.w.D ⟨j, hj⟩ k ^ 2 := by
    rw [List.map_ofFn, List.sum_ofFn]
    rfl
  obtain ⟨ys, g2, g3⟩ := C147_accurate_partial A (xs := List.ofFn (z.w.D ⟨j, hj⟩)) (by rw [List.length_ofFn]; omega) (by rw [e]; exact (R.D _).1) (by rw [e]; exact (R.D _).2) g1
  obtain ⟨y, rfl, g4⟩ := forall_ofFn g3
  rw [len, e, List.length_ofFn] at g4
  have e0 : out = List.ofFn fun k => Fl.fin (y k) := by
    rw [g2, List.map_ofFn]
    rfl
  have νp : ∀ k, 0 < z.w.ν k := R.νpos
  refine ⟨y, e0, ?_, fun i hi => ?_⟩
  · obtain ⟨W, hW⟩ : ∃ W, max ((2 : ℝ) ^ (-297 : ℤ)) (∑ k, (z.w.D ⟨j, hj⟩ k / Real.sqrt (∑ l, z.w.D ⟨j, hj⟩ l ^ 2)) ^ 2 / z.w.ν k) = W := ⟨_, rfl⟩
    exact (unit_col (y := y) (W := W) I.νlow hM hK (hW ▸ le_max_left _ _) (hW ▸ le_max_right _ _) g4).1
  · refine (unit_col (y := y) I.νlow hM hK (I.low i) ?_ g4).2
    refine le_trans (le_of_eq (Finset.sum_congr rfl fun k _ => ?_)) (weight_le (o := z.comb) I.φpos i)
    show (z.w.D ⟨j, hj⟩ k / Real.sqrt (∑ l, z.w.D ⟨j, hj⟩ l ^ 2)) ^ 2 / z.w.ν k = z.T k i * z.T k i / z.w.ν k
    rw [← hi k, sq]

/-- All columns. -/
theorem shared_cols {z : SharedPsr} (R : z.w.Ranges) {H l : ℝ} (F : z.Phases N H l) (I : CorePsr N K μ z.comb) (hN : N ≤ 2 ^ 16) (hK : K ≤ 2 ^ 22) (hκ : (H * l + 3 * K + 11) * eps ≤ 1) {outs : List (List Fl)}
    (h : List.Forall₂ (IsNormedCol A none) (List.ofFn fun j => (List.ofFn (z.w.D j)).map .fin) outs) :
    List.Forall₂ (ColFor z ((H * l + 3 * K + 11) * eps))
      (((z.w.procs.map Proc.fl).map (procCols A P S (List.ofFn fun k => .fin (z.w.t k)) (List.ofFn fun k => .fin (z.w.f k)))).flatten ++ outs) z.w.coefs := by
  have he := eps_pos
  have K0 : (0 : ℝ) ≤ K := Nat.cast_nonneg K
  have H0 : 0 ≤ H := by linarith [F.pos]
  have l0 : 0 ≤ l := by linarith [F.one]
  have Hl : H ≤ H * l := le_mul_of_one_le_right H0 F.one
  have hH : H * eps ≤ 1 := le_trans (mul_le_mul_of_nonneg_right (by linarith) he.le) hκ
  refine List.rel_append ?_ ?_
  · refine List.rel_flatten ?_
    rw [List.map_map, List.forall₂_map_left_iff, List.forall₂_map_right_iff, List.forall₂_same]
    intro q hq
    exact forall_mono (shared_proc A P S R F hN hH hq) fun c e _ hc => hc.mono I (by positivity) (mul_le_mul_of_nonneg_right (by linarith) he.le)
  · exact forall_mono (shared_tm A R I hK h) fun c e _ hc => hc.mono I (by positivity) (mul_le_mul_of_nonneg_right (by nlinarith) he.le)

/-- All variances of the processes. -/
theorem shared_vars {w : ChromPsr} (R : w.Ranges) (hm : ∀ q ∈ w.procs, 2 * q.n ≤ N) (hN : N ≤ 2 ^ 16) :
    ∃ vs, (w.procs.map Proc.fl).mapM (procVars A P) = .ok vs ∧
      List.Forall₂ (fun v X => ∃ x, v = .fin x ∧ Off (4 * N + 77) 600 x X) (vs.flatten ++ List.replicate w.p (tmPriorF A)) (w.coefs.map Prod.snd) := by
  have N0 : (0 : ℝ) ≤ N := Nat.cast_nonneg N
  have h : ∀ qs : List Proc, (∀ q ∈ qs, q ∈ w.procs) → ∃ vs, (qs.map Proc.fl).mapM (procVars A P) = .ok vs ∧
      List.Forall₂ (fun v (e : (Fin w.M → ℝ) × ℝ) => ∃ x, v = .fin x ∧ Off (4 * N + 77) 600 x e.2) vs.flatten (qs.map fun q => q.coefs w.t w.f).flatten := by
    intro qs
    induction qs with
    | nil => exact fun _ => ⟨[], rfl, .nil⟩
    | cons q qs ih =>
      intro hq
      obtain ⟨vs, h1, h2⟩ := ih fun x hx => hq x (List.mem_cons_of_mem _ hx)
      have hm' := hq q List.mem_cons_self
      have hl := hm q hm'
      obtain ⟨v, e, hlen, h3⟩ := powerlaw_off A P (by omega : q.n ≤ 2 ^ 40) (R.span q hm').1 (R.span q hm').2 (R.law q hm') (c := 2) (by norm_num)
      refine ⟨v :: vs, ?_, ?_⟩
      · have e' : procVars A P q.fl = .ok v := e
        rw [List.map_cons, List.mapM_cons, e', h1]
        rfl
      · rw [List.map_cons, List.flatten_cons, List.flatten_cons]
        refine List.rel_append (List.forall₂_iff_get.2 ⟨by simp [Proc.coefs, hlen], fun i g1 g2 => ?_⟩) h2
        have hj : i / 2 < q.n := by omega
        obtain ⟨x, x1, x2⟩ := h3 (i / 2) hj (i % 2) (by omega)
        rw [Nat.div_add_mod, List.getElem?_eq_getElem g1, Option.some.injEq] at x1
        have e2 : ((q.coefs w.t w.f).get ⟨i, g2⟩).2 = law q.span q.a q.g (i / 2) := by simp [Proc.coefs]
        refine ⟨x, x1, ?_⟩
        rw [e2]
        have hj' : 2 * (((i / 2 : ℕ) : ℝ) + 1) ≤ N := by exact_mod_cast (by omega : 2 * (i / 2 + 1) ≤ N)
        exact x2.mono (by linarith) le_rfl
  obtain ⟨vs, h1, h2⟩ := h w.procs fun _ hq => hq
  refine ⟨vs, h1, ?_⟩
  rw [List.forall₂_map_right_iff]
  refine List.rel_append h2 (List.forall₂_iff_get.2 ⟨by simp, fun j h3 h4 => ?_⟩)
  simp only [List.get_eq_getElem, List.getElem_replicate, List.getElem_ofFn]
  obtain ⟨x, x1, x2⟩ := tm_off A
  exact ⟨x, x1, x2.mono (by linarith) (by norm_num)⟩

/-- The computed numbers of a pulsar. -/
theorem shared_near {z : SharedPsr} (R : z.w.Ranges) (hc : z.Combines) {H l : ℝ} (F : z.Phases N H l) (I : CorePsr N K μ z.comb) (hN : N ≤ 2 ^ 16) (hK : K ≤ 2 ^ 22) (hκ : (H * l + 3 * K + 11) * eps ≤ 1)
    {p : PsrF} (h : z.Code A P S p) : FullNear ((4 * N + 100) * (2 : ℝ) ^ (-50 : ℤ)) ((H * l + 3 * K + 11) * eps) p z.comb := by
  obtain ⟨outs, vs, h1, h2, rfl⟩ := h
  have hcol := shared_cols A P S R F I hN hK hκ h1
  obtain ⟨vs', h3, hv⟩ := shared_vars A P R F.modes hN
  have e3 : (Except.ok vs : Except PyErr _) = .ok vs' := h2.symm.trans h3
  cases e3
  have hw : ∀ k, ∃ x, add A (.fin 0) (ndiagF A P (.fin (z.w.s k)) (.fin (z.w.efac k)) (some (.fin (z.w.equad k)))) = .fin x ∧ Off 11 401 x (z.w.ν k) := by
    intro k
    obtain ⟨x, hx, ox⟩ := ndiag_off A P (R.s k).1 (R.s k).2 (R.efac k).1 (R.efac k).2 (R.equad k).1 (R.equad k).2
    obtain ⟨y, hy, oy⟩ := add_zero_off A ox (by norm_num) (by norm_num)
    exact ⟨y, by rw [hx, hy], oy.mono (by norm_num) le_rfl⟩
  choose ν' hν oν using hw
  have N0 : (0 : ℝ) ≤ N := Nat.cast_nonneg N
  have N1 : (N : ℝ) ≤ 2 ^ 16 := by exact_mod_cast hN
  generalize hcs : ((z.w.procs.map Proc.fl).map (procCols A P S (List.ofFn fun k => .fin (z.w.t k)) (List.ofFn fun k => .fin (z.w.f k)))).flatten ++ outs = cs at hcol
  have hl := hcol.length_eq
  have hlv := hv.length_eq
  rw [List.length_map] at hlv
  have g1 : ∀ j : Fin z.n, ∃ y : Fin z.w.M → ℝ, basisAt (List.ofFn fun i => (z.idx i : ℕ)) cs j = List.ofFn (fun k => .fin (y k)) ∧ (∀ k, |y k - z.T k j| ≤ 1) ∧
      ∑ k, (y k - z.T k j) ^ 2 / z.w.ν k ≤ ((H * l + 3 * K + 11) * eps) ^ 2 * z.comb.prec j j := by
    intro j
    rcases basis_at (idx := List.ofFn fun i => (z.idx i : ℕ)) (cols := cs) (by rw [List.length_ofFn, hl]) j [] with ⟨-, g⟩ | ⟨i, i1, i2, i3, i4⟩
    · obtain ⟨i, hi⟩ := hc.all j
      exact absurd (by rw [List.mem_ofFn]; exact ⟨i, by rw [hi]⟩) g
    · rw [List.getElem_ofFn] at i3
      obtain ⟨y, y1, y2, y3⟩ := (List.forall₂_iff_get.1 hcol).2 i i2 (by omega)
      have e : ∀ k, (z.w.coefs.get ⟨i, by omega⟩).1 k = z.T k j := fun k => by
        rw [hc.same]
        exact congrArg _ (Fin.ext i3)
      refine ⟨y, i4.trans y1, fun k => ?_, ?_⟩
      · rw [← e k]
        exact y2 k
      · refine le_trans (le_of_eq (Finset.sum_congr rfl fun k _ => ?_)) (y3 j e)
        rw [← e k]
  have g2 : ∀ j : Fin z.n, ∃ x, phiAt A (List.ofFn fun i => (z.idx i : ℕ)) (vs.flatten ++ List.replicate z.w.p (tmPriorF A)) j = .fin x ∧ |x - z.comb.φ j| ≤ (4 * N + 100) * (2 : ℝ) ^ (-50 : ℤ) * z.comb.φ j := by
    intro j
    have hs : (List.zipWith (fun i X => if i = (j : ℕ) then X else 0) (List.ofFn fun i => (z.idx i : ℕ)) (z.w.coefs.map Prod.snd)).sum = z.comb.φ j := by
      have : List.zipWith (fun i X => if i = (j : ℕ) then X else 0) (List.ofFn fun i => (z.idx i : ℕ)) (z.w.coefs.map Prod.snd) = List.ofFn fun i => if z.idx i = j then (z.w.coefs.get i).2 else 0 := by
        refine List.ext_getElem (by simp) fun i _ _ => ?_
        simp [Fin.ext_iff]
      rw [this, List.sum_ofFn]
      rfl
    have hcnt : 1 ≤ (List.ofFn fun i => (z.idx i : ℕ)).count (j : ℕ) := by
      obtain ⟨i, hi⟩ := hc.all j
      exact List.count_pos_iff.2 (by rw [List.mem_ofFn]; exact ⟨i, by rw [hi]⟩)
    have hfew := hc.few j
    rcases phi_at A (r := 4 * N + 77) (by linarith) hv (idx := List.ofFn fun i => (z.idx i : ℕ)) (by rw [List.length_ofFn, hlv]) j (c := 0) (by omega) (v := .fin 0) (s := 0) (.inl ⟨rfl, rfl, rfl⟩) with ⟨g, -⟩ | ⟨x, x1, x2⟩
    · omega
    · rw [hs, zero_add, zero_add] at x2
      refine ⟨x, x1, (x2.rel (by linarith) ?_).2⟩
      have : (((List.ofFn fun i => (z.idx i : ℕ)).count (j : ℕ) : ℕ) : ℝ) ≤ 20 := by exact_mod_cast hfew
      linarith
  choose T' c1 c2 c3 using g1
  choose φ' d1 d2 using g2
  refine ⟨Matrix.of fun k j => T' j k, ⟨fun k j => c2 j k, c3⟩, ν', φ', fun k => ((oν k).rel (by linarith) (by linarith)).2, d2, ?_⟩
  have e1 : ndiagsF A P (List.ofFn fun k => (.fin (z.w.s k), .fin (z.w.efac k), .fin (z.w.equad k))) = List.ofFn fun k => .fin (ν' k) := by
    rw [ndiagsF, List.map_ofFn]
    congr 1
    funext k
    exact hν k
  have e2 : (fun j => if j < z.n then phiAt A (List.ofFn fun i => (z.idx i : ℕ)) (vs.flatten ++ List.replicate z.w.p (tmPriorF A)) j else .fin 1) = fun j => if h : j < z.n then .fin (φ' ⟨j, h⟩) else .fin 1 := by
    funext j
    by_cases hj : j < z.n
    · rw [dif_pos hj, if_pos hj]
      exact d1 ⟨j, hj⟩
    · rw [dif_neg hj, if_neg hj]
  have e4 : basisAt (List.ofFn fun i => (z.idx i : ℕ)) cs = fun j => if h : j < z.n then List.ofFn fun k => .fin (T' ⟨j, h⟩ k) else [] := by
    funext j
    by_cases hj : j < z.n
    · rw [dif_pos hj]
      exact c1 ⟨j, hj⟩
    · rw [dif_neg hj]
      rcases basis_at (idx := List.ofFn fun i => (z.idx i : ℕ)) (cols := cs) (by rw [List.length_ofFn, hl]) j [] with ⟨g, -⟩ | ⟨i, i1, i2, i3, -⟩
      · exact g
      · rw [List.getElem_ofFn] at i3
        have := (z.idx ⟨i, by simpa using i1⟩).2
        omega
  show PsrF.mk z.n (basisAt (List.ofFn fun i => (z.idx i : ℕ)) (((z.w.procs.map Proc.fl).map (procCols A P S (List.ofFn fun k => .fin (z.w.t k)) (List.ofFn fun k => .fin (z.w.f k)))).flatten ++ outs)) _ _
    (fun j => if j < z.n then phiAt A (List.ofFn fun i => (z.idx i : ℕ)) (vs.flatten ++ List.replicate (List.ofFn fun j => (List.ofFn (z.w.D j)).map Fl.fin).length (tmPriorF A)) j else .fin 1) = _
  rw [hcs, List.length_ofFn, e1, e2, e4]
  rfl

theorem shared_all {H l : ℝ} (hN : N ≤ 2 ^ 16) (hK : K ≤ 2 ^ 22) (hκ : (H * l + 3 * K + 11) * eps ≤ 1) {zs : List SharedPsr} {ps : List PsrF} (h : List.Forall₂ (SharedPsr.Code A P S) zs ps)
    (hz : ∀ z ∈ zs, z.w.Ranges ∧ z.Combines ∧ z.Phases N H l ∧ CorePsr N K μ z.comb) :
    List.Forall₂ (fun p o => FullNear ((4 * N + 100) * (2 : ℝ) ^ (-50 : ℤ)) ((H * l + 3 * K + 11) * eps) p o ∧ CorePsr N K μ o) ps (zs.map SharedPsr.comb) := by
  induction h with
  | nil => exact .nil
  | @cons z p zs ps h1 h2 ih =>
    obtain ⟨R, hc, F, I⟩ := hz z List.mem_cons_self
    exact .cons ⟨shared_near A P S R hc F I hN hK hκ h1, I⟩ (ih fun x hx => hz x (List.mem_cons_of_mem _ hx))

/-- C156: processes with combined columns, and the Gaussian log-likelihood of all of them, each with its own columns. -/
theorem C156_shared (hL : GoodLog L) {H l : ℝ} (hN0 : 1 ≤ N) (hK : K ≤ 2 ^ 22) (hμ1 : μ ≤ 1) (hK2 : 800 * ((K + 3) * (2 : ℝ) ^ (-51 : ℤ) * N) ≤ μ)
    (hμ : 2 ^ 21 * N ^ 2 * (2 : ℝ) ^ (-51 : ℤ) ≤ μ) (hH : 300 * ((H * l + 3 * K + 11) * (2 : ℝ) ^ (-51 : ℤ) * N) ≤ μ) {zs : List SharedPsr}
    (hz : ∀ z ∈ zs, z.w.Ranges ∧ z.Combines ∧ z.Phases N H l ∧ CorePsr N K μ z.comb) (h0 : zs ≠ []) (hP : zs.length ≤ 2 ^ 15) {ps : List PsrF} (h : List.Forall₂ (SharedPsr.Code A P S) zs ps)
    {r : Except PyErr Fl} (hr : IsLikelihood A L ps r) :
    ∃ v, r = .ok (.fin v) ∧ |v - (zs.map fun z => z.w.exact.like).sum| ≤
      ((42600 * N ^ 2 + 87 * (K + 3) * N + 9 * H * l * N) / μ + 4 * zs.length) * (2 : ℝ) ^ (-51 : ℤ) * (zs.map fun z => z.comb.size).sum + (2 : ℝ) ^ (-999 : ℤ) := by
  have Hl : 0 ≤ H * l := by
    obtain ⟨z, hz'⟩ := List.exists_mem_of_ne_nil zs h0
    have F := (hz z hz').2.2.1
    exact mul_nonneg (by linarith [F.pos]) (by linarith [F.one])
  have := near_likelihood A L hL hN0 hK hμ1 hK2 hμ hH Hl (os := zs.map SharedPsr.comb) (by simpa using h0) (by simpa using hP) (fun N3 hκ1 => shared_all A P S N3 hK hκ1 h hz) hr
  rw [List.map_map, List.map_map, List.length_map] at this
  have e : zs.map (fun z => z.w.exact.like) = zs.map (GpPsr.like ∘ SharedPsr.comb) := List.map_congr_left fun z hz' => (comb_like (hz z hz').2.1).symm
  rw [e]
  exact this

/-- The numbers exist. -/
theorem exists_shared {z : SharedPsr} (R : z.w.Ranges) (hm : ∀ q ∈ z.w.procs, 2 * q.n ≤ N) (hN : N ≤ 2 ^ 16) : ∃ p, z.Code A P S p := by
  obtain ⟨outs, h⟩ := exists_cols A (List.ofFn fun j => (List.ofFn (z.w.D j)).map .fin)
  obtain ⟨vs, h1, -⟩ := shared_vars A P R hm hN
  exact ⟨_, outs, vs, h, h1, rfl⟩

/-! ## Example -/

/-- Columns 0 and 2 are combined, and columns 1 and 3. -/
def exIdx (i : Nat) : Fin 3 := if i = 4 then 2 else if i % 2 = 0 then 0 else 1

/-- Four TOAs with errors 1, EFAC 1, EQUAD `10^0`; two power laws on the same frequency over a span of 4, and a timing model with an offset. -/
noncomputable def exShared : SharedPsr :=
  ⟨⟨[⟨1, 4, 0, 3, none⟩, ⟨1, 4, 0, 3, none⟩], 1, 4, ![1, 2, 3, 4], fun _ => 700, fun _ _ => 1, ![3, 1, 2, 1], fun _ => 1, fun _ => 1, fun _ => 0⟩, 3, fun i => exIdx i, exT⟩

theorem exShared_ranges : exShared.w.Ranges := by
  refine ⟨exChrom_ranges.s, exChrom_ranges.efac, exChrom_ranges.equad, exChrom_ranges.t, exChrom_ranges.f, exChrom_ranges.D, fun q hq => ?_, fun q hq => ?_, fun q hq c hc => ?_⟩
  · rcases List.mem_pair.1 hq with rfl | rfl <;> exact exChrom_ranges.span _ List.mem_cons_self
  · rcases List.mem_pair.1 hq with rfl | rfl <;> exact exChrom_ranges.law _ List.mem_cons_self
  · rcases List.mem_pair.1 hq with rfl | rfl <;> cases hc

theorem exShared_coefs : exShared.w.coefs =
    [((![1, 0, -1, 0] : Fin 4 → ℝ), law 4 0 3 0), (![0, -1, 0, 1], law 4 0 3 0), (![1, 0, -1, 0], law 4 0 3 0), (![0, -1, 0, 1], law 4 0 3 0), (![1 / 2, 1 / 2, 1 / 2, 1 / 2], 10 ^ 40)] := by
  have h : exShared.w.coefs = [((fun k => wave 4 0 ((![1, 2, 3, 4] : Fin 4 → ℝ) k) * 1), law 4 0 3 0), (fun k => wave 4 1 ((![1, 2, 3, 4] : Fin 4 → ℝ) k) * 1, law 4 0 3 0),
      (fun k => wave 4 0 ((![1, 2, 3, 4] : Fin 4 → ℝ) k) * 1, law 4 0 3 0), (fun k => wave 4 1 ((![1, 2, 3, 4] : Fin 4 → ℝ) k) * 1, law 4 0 3 0),
      (fun _ => 1 / Real.sqrt (∑ _l : Fin 4, (1 : ℝ) ^ 2), 10 ^ 40)] := rfl
  rw [h]
  have hs : Real.sqrt (∑ _l : Fin 4, (1 : ℝ) ^ 2) = 2 := by
    rw [show ∑ _l : Fin 4, (1 : ℝ) ^ 2 = 2 ^ 2 by norm_num, Real.sqrt_sq (by norm_num)]
  rw [hs]
  have w0 : (fun k : Fin 4 => wave 4 0 ((![1, 2, 3, 4] : Fin 4 → ℝ) k) * 1) = ![1, 0, -1, 0] := by
    funext k
    rw [(exWave k).1, mul_one]
  have w1 : (fun k : Fin 4 => wave 4 1 ((![1, 2, 3, 4] : Fin 4 → ℝ) k) * 1) = ![0, -1, 0, 1] := by
    funext k
    rw [(exWave k).2.1, mul_one]
  have w4 : (fun _ : Fin 4 => (1 : ℝ) / 2) = ![1 / 2, 1 / 2, 1 / 2, 1 / 2] := by
    funext k
    fin_cases k <;> rfl
  rw [w0, w1, w4]

theorem exShared_ν : exShared.w.ν = fun _ => 2 := by
  funext k
  show (1 : ℝ) ^ 2 * (1 ^ 2 + (10 : ℝ) ^ (2 * (0 : ℝ))) = 2
  norm_num

theorem exShared_combines : exShared.Combines := by
  have h : ∀ cs : List ((Fin 4 → ℝ) × ℝ), cs = [((![1, 0, -1, 0] : Fin 4 → ℝ), law 4 0 3 0), (![0, -1, 0, 1], law 4 0 3 0), (![1, 0, -1, 0], law 4 0 3 0), (![0, -1, 0, 1], law 4 0 3 0),
      (![1 / 2, 1 / 2, 1 / 2, 1 / 2], 10 ^ 40)] → (∀ (i : Fin cs.length) (k : Fin 4), (cs.get i).1 k = exT k (exIdx i)) ∧ (∀ j, ∃ i : Fin cs.length, exIdx i = j) ∧
      ∀ j, (List.ofFn fun i : Fin cs.length => (exIdx i : ℕ)).count j ≤ 20 := by
    rintro _ rfl
    refine ⟨fun (i : Fin 5) (k : Fin 4) => ?_, fun j => ?_, fun j => ?_⟩
    · fin_cases i <;> fin_cases k <;> rfl
    · fin_cases j
      · exact ⟨(0 : Fin 5), rfl⟩
      · exact ⟨(1 : Fin 5), rfl⟩
      · exact ⟨(4 : Fin 5), rfl⟩
    · refine List.count_le_length.trans ?_
      rw [List.length_ofFn]
      show 5 ≤ 20
      norm_num
  obtain ⟨h1, h2, h3⟩ := h _ exShared_coefs
  exact ⟨h1, h2, h3⟩

/-- The combined variances of the example. -/
noncomputable def exW : Fin 3 → ℝ := ![law 4 0 3 0 + law 4 0 3 0, law 4 0 3 0 + law 4 0 3 0, 10 ^ 40]

/-- The combined pulsar of the example. -/
noncomputable def exComb : GpPsr := ⟨3, 4, exT, fun _ => 2, ![3, 1, 2, 1], exW⟩

theorem exShared_comb : exShared.comb = exComb := by
  have h : ∀ cs : List ((Fin 4 → ℝ) × ℝ), cs = [((![1, 0, -1, 0] : Fin 4 → ℝ), law 4 0 3 0), (![0, -1, 0, 1], law 4 0 3 0), (![1, 0, -1, 0], law 4 0 3 0), (![0, -1, 0, 1], law 4 0 3 0),
      (![1 / 2, 1 / 2, 1 / 2, 1 / 2], 10 ^ 40)] → ∀ ν : Fin 4 → ℝ, ν = (fun _ => 2) →
      (⟨3, 4, exT, ν, ![3, 1, 2, 1], fun j => ∑ i : Fin cs.length, if exIdx i = j then (cs.get i).2 else 0⟩ : GpPsr) = exComb := by
    rintro _ rfl _ rfl
    have g : ∀ {v : Fin 3 → ℝ}, v = exW → (⟨3, 4, exT, fun _ => 2, ![3, 1, 2, 1], v⟩ : GpPsr) = exComb := by
      rintro _ rfl
      rfl
    refine g (funext fun j => ?_)
    have h5 : (∑ i : Fin 5, if exIdx i = j then (![law 4 0 3 0, law 4 0 3 0, law 4 0 3 0, law 4 0 3 0, 10 ^ 40] : Fin 5 → ℝ) i else 0) = exW j := by
      rw [Fin.sum_univ_five]
      fin_cases j <;> simp [exIdx, exW]
    refine Eq.trans (Finset.sum_congr rfl fun (i : Fin 5) _ => ?_) h5
    fin_cases i <;> rfl
  exact h _ exShared_coefs _ exShared_ν

theorem exW_le (i : Fin 3) : 1 / 192 ≤ exW i ∧ exW i ≤ 10 ^ 40 := by
  have e : law 4 0 3 0 = 16 / (12 * Real.pi ^ 2) := by
    unfold law
    have : (((0 : ℕ) + 1) / 4 : ℝ) ^ (-3 : ℝ) = 64 := by
      rw [show (-3 : ℝ) = ((-3 : ℤ) : ℝ) by norm_num, Real.rpow_intCast]
      norm_num
    rw [this]
    norm_num
    ring
  have h : (1 : ℝ) / 192 ≤ law 4 0 3 0 ∧ law 4 0 3 0 ≤ 1 := by
    rw [e]
    have h3 := Real.pi_gt_three
    have h4 := Real.pi_lt_four
    constructor
    · rw [div_le_div_iff₀ (by norm_num) (by positivity)]
      nlinarith
    · rw [div_le_iff₀ (by positivity)]
      nlinarith
  have h' : (1 : ℝ) / 192 ≤ law 4 0 3 0 + law 4 0 3 0 ∧ law 4 0 3 0 + law 4 0 3 0 ≤ 10 ^ 40 := ⟨by linarith, by linarith⟩
  fin_cases i
  · exact h'
  · exact h'
  · show (1 : ℝ) / 192 ≤ 10 ^ 40 ∧ (10 : ℝ) ^ 40 ≤ 10 ^ 40
    norm_num

theorem exComb_prec (i j : Fin 3) : exComb.prec i j = if i = j then (if i = 2 then 1 / 2 else 1) + (exW i)⁻¹ else 0 := by
  refine (prec_apply (o := exComb) i j).trans ?_
  have e : ∑ k, exComb.T k i * exComb.T k j / exComb.ν k = if i = j then if i = 2 then 1 / 2 else 1 else 0 := exTimes_dot i j
  rw [e]
  by_cases h : i = j
  · rw [if_pos h, if_pos h]
    exact congrArg _ (if_pos h)
  · rw [if_neg h, if_neg h]
    exact (zero_add _).trans (if_neg h)

theorem exComb_core : CorePsr 3 4 1 exComb := by
  have b : ∀ {e : ℤ} {x : ℝ}, 8 ≤ e → x ≤ 256 → x ≤ (2 : ℝ) ^ e := fun h hx =>
    hx.trans ((by norm_num : (256 : ℝ) ≤ (2 : ℝ) ^ (8 : ℤ)).trans (zpow_le_zpow_right₀ (by norm_num) h))
  have c : ∀ {e : ℤ} {x : ℝ}, e ≤ -8 → 1 / 256 ≤ x → (2 : ℝ) ^ e ≤ x := fun h hx =>
    ((zpow_le_zpow_right₀ (by norm_num) h).trans (by norm_num : (2 : ℝ) ^ (-8 : ℤ) ≤ 1 / 256)).trans hx
  have hφ0 : ∀ i : Fin 3, 0 < exW i := fun i => lt_of_lt_of_le (by norm_num) (exW_le i).1
  have hp : ∀ i : Fin 3, exComb.prec i i = (if i = 2 then 1 / 2 else 1) + (exW i)⁻¹ := fun i => (exComb_prec i i).trans (if_pos rfl)
  have hd : ∀ i : Fin 3, (1 : ℝ) / 2 ≤ (if i = 2 then 1 / 2 else 1) ∧ (if i = 2 then 1 / 2 else 1) ≤ (1 : ℝ) := fun i => by split_ifs <;> norm_num
  refine ⟨le_rfl, le_rfl, fun k => c (by norm_num) ?_, fun k => b (by norm_num) ?_, fun i => c (by norm_num) ?_, fun i => ?_, fun k i => b (by norm_num) ?_, fun k => b (by norm_num) ?_,
    fun i => c (by norm_num) ?_, fun i => b (by norm_num) ?_, b (by norm_num) ?_, ?_⟩
  · exact (by norm_num : (1 : ℝ) / 256 ≤ 2).trans_eq rfl
  · exact (by norm_num : (2 : ℝ) ≤ 256)
  · exact le_trans (by norm_num) (exW_le i).1
  · refine (exW_le i).2.trans ?_
    exact (by norm_num : (10 : ℝ) ^ 40 ≤ (2 : ℝ) ^ (133 : ℤ)).trans (zpow_le_zpow_right₀ (by norm_num) (by norm_num))
  · have h : ∀ (k : Fin 4) (i : Fin 3), |exT k i| ≤ 256 := fun k i => by
      fin_cases k <;> fin_cases i <;> norm_num [exT]
    exact h k i
  · have h : ∀ k : Fin 4, |(![3, 1, 2, 1] : Fin 4 → ℝ) k| ≤ 256 := fun k => by fin_cases k <;> norm_num
    exact h k
  · refine le_trans ?_ (hp i).ge
    have := inv_pos.2 (hφ0 i)
    have := (hd i).1
    linarith
  · refine (hp i).trans_le ?_
    have : (exW i)⁻¹ ≤ 192 := by
      have := inv_anti₀ (by norm_num) (exW_le i).1
      linarith
    have := (hd i).2
    linarith
  · have e : exComb.ρ = ∑ k : Fin 4, (![3, 1, 2, 1] : Fin 4 → ℝ) k ^ 2 / 2 := Finset.sum_congr rfl fun k _ => rfl
    rw [e, ex_res4]
    norm_num
  · have e : exComb.prec - (1 : ℝ) • diagonal exComb.prec.diag = 0 := by
      ext i j
      rw [one_smul, Matrix.sub_apply, Matrix.zero_apply]
      by_cases h : i = j
      · subst h
        rw [diagonal_apply_eq, diag_apply, sub_self]
      · rw [diagonal_apply_ne _ h, sub_zero]
        exact (exComb_prec i j).trans (if_neg h)
    rw [e]
    exact PosSemidef.zero

theorem exShared_phases : exShared.Phases 3 160 2 := by
  have hf : ∀ k : Fin 4, (![1, 2, 3, 4] : Fin 4 → ℝ) k ≤ 4 := fun k => by fin_cases k <;> norm_num
  have hπ := Real.pi_lt_d2
  have hπ0 := Real.pi_pos
  refine ⟨by norm_num, by norm_num, fun q hq => ?_, fun q hq k => ?_, fun q hq k => ?_, fun q hq c _ j _ => ?_⟩
  · rcases List.mem_pair.1 hq with rfl | rfl <;> exact (by norm_num : 2 * 1 ≤ 3)
  · have h1 := mul_le_mul_of_nonneg_left (hf k) hπ0.le
    have h2 : 14 * (2 * Real.pi * (1 : ℕ) / 4 * (![1, 2, 3, 4] : Fin 4 → ℝ) k) + 61 ≤ 160 := by
      push_cast
      linarith
    rcases List.mem_pair.1 hq with rfl | rfl <;> exact h2
  · have h2 : 160 * (2 : ℝ) ^ (-51 : ℤ) * 1 ≤ 1 := by norm_num
    rcases List.mem_pair.1 hq with rfl | rfl <;> exact h2
  · have e : ∑ k, Proc.factor ⟨1, 4, 0, 3, none⟩ (exShared.w.f k) ^ 2 / exShared.w.ν k = 2 := by
      rw [exShared_ν]
      show ∑ _k : Fin 4, (1 : ℝ) ^ 2 / 2 = 2
      norm_num
    have hp : ∀ o : GpPsr, o = exComb → ∀ j : Fin o.n, (1 : ℝ) / 2 ≤ o.prec j j := by
      rintro _ rfl j
      refine le_trans ?_ ((exComb_prec j j).trans (if_pos rfl)).ge
      have h1 : 0 < (exW j)⁻¹ := inv_pos.2 (lt_of_lt_of_le (by norm_num) (exW_le j).1)
      split_ifs <;> linarith
    have h2 : (2 : ℝ) ≤ 2 ^ 2 * exShared.comb.prec j j := by linarith [hp _ exShared_comb j]
    rcases List.mem_pair.1 hq with rfl | rfl <;> exact e.trans_le h2

/-- C156 for such a pulsar: numbers and an outcome exist, and each outcome is within `2^-20` of the Gaussian log-likelihood of both power laws. -/
example (hL : GoodLog L) : (∃ p r, exShared.Code A P S p ∧ IsLikelihood A L [p] r) ∧ ∀ p r, exShared.Code A P S p → IsLikelihood A L [p] r → ∃ v, r = .ok (.fin v) ∧
    |v - exShared.w.exact.like| ≤ (2 : ℝ) ^ (-20 : ℤ) := by
  constructor
  · obtain ⟨p, hp⟩ := exists_shared A P S exShared_ranges exShared_phases.modes (by norm_num)
    obtain ⟨r, hr⟩ := exists_likelihood A L [p]
    exact ⟨p, r, hp, hr⟩
  intro p r hp hr
  obtain ⟨v, e, hv⟩ := C156_shared A L P S hL (N := 3) (K := 4) (μ := 1) (H := 160) (l := 2) (zs := [exShared]) (by norm_num) (by norm_num) le_rfl (by norm_num) (by norm_num) (by norm_num) (by
    intro z hz
    rw [List.mem_singleton] at hz
    subst hz
    exact ⟨exShared_ranges, exShared_combines, exShared_phases, exShared_comb ▸ exComb_core⟩) (by simp) (by norm_num) (.cons hp .nil) hr
  refine ⟨v, e, ?_⟩
  have hlog : |Real.log 2| ≤ 1 := by
    rw [abs_of_pos (Real.log_pos (by norm_num))]
    linarith [Real.log_two_lt_d9]
  have hφ : ∀ i : Fin 3, |Real.log (exW i)| ≤ 133 := by
    intro i
    obtain ⟨a, b⟩ := exW_le i
    have l1 := Real.log_le_log (by norm_num) a
    have l2 := Real.log_le_log (lt_of_lt_of_le (by norm_num) a) b
    have l3 := abs_le.1 (log_nat (j := 133) (by norm_num) (by norm_num) : |Real.log ((10 : ℝ) ^ 40)| ≤ (133 : ℕ))
    have l4 := abs_le.1 (log_nat (j := 8) (by norm_num) (by norm_num) : |Real.log (192 : ℝ)| ≤ (8 : ℕ))
    rw [one_div, Real.log_inv] at l1
    push_cast at l3 l4
    exact abs_le.2 ⟨by linarith, by linarith⟩
  have e2 : exShared.comb.size ≤ 2000 := by
    rw [exShared_comb]
    show (∑ k : Fin 4, (![3, 1, 2, 1] : Fin 4 → ℝ) k ^ 2 / 2) + 2 + (∑ _k : Fin 4, (1 + |Real.log 2|)) + ∑ i : Fin 3, (376 + |Real.log (exW i)|) ≤ 2000
    have h2 : ∑ _k : Fin 4, (1 + |Real.log 2|) ≤ 8 := by
      rw [Fin.sum_univ_four]
      linarith
    have h3 : ∑ i : Fin 3, (376 + |Real.log (exW i)|) ≤ 1527 := by
      rw [Fin.sum_univ_three]
      linarith [hφ 0, hφ 1, hφ 2]
    rw [ex_res4]
    linarith
  simp only [List.map_cons, List.map_nil, List.sum_cons, List.sum_nil, add_zero, List.length_cons, List.length_nil] at hv
  refine hv.trans ?_
  have h3 : (2 : ℝ) ^ (-999 : ℤ) ≤ (2 : ℝ) ^ (-30 : ℤ) := zpow_le_zpow_right₀ (by norm_num) (by norm_num)
  refine (add_le_add (mul_le_mul_of_nonneg_left e2 (by positivity)) h3).trans ?_
  norm_num

end Verif.Ieee
