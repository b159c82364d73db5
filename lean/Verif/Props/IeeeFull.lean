import Verif.Model.IeeeFull
import Verif.Props.IeeeEpochs
import Verif.Props.IeeeShared

/-!
# The likelihood of all signals of a pulsar

C161: white noise, ECORR, processes that share columns and a timing model, from the times of arrival on.
-/

namespace Verif.Ieee

open Verif Matrix

variable (A : Arith) (L : Lib) (P : Powers) (S : Trig) {N K M : Nat} {μ δ κ : ℝ}

/-! ## Specification -/

/-- A pulsar with epochs, and columns `T` to which those of its signals are combined. -/
structure FullPsr where
  z : EpochPsr
  n : Nat
  idx : Fin z.coefs.length → Fin n
  T : Matrix (Fin z.w.M) (Fin n) ℝ

namespace FullPsr

variable (x : FullPsr)

/-- The pulsar with combined columns and the sums of their variances. -/
noncomputable def comb : GpPsr := ⟨x.n, x.z.w.M, x.T, x.z.w.ν, x.z.w.r, fun j => ∑ i, if x.idx i = j then (x.z.coefs.get i).2 else 0⟩

/-- `p` holds computed numbers of the pulsar. -/
def Code (p : PsrF) : Prop :=
  IsFullF A P S (List.ofFn fun k => .fin (x.z.w.t k)) (List.ofFn fun k => .fin (x.z.w.f k))
    (x.z.w.procs.map fun q => ⟨q.n, .fin q.span, .fin q.a, .fin q.g, q.chrom.map fun c => (.fin c.1, .fin c.2)⟩) (List.ofFn fun j => (List.ofFn (x.z.w.D j)).map .fin)
    (List.ofFn fun k => (x.z.ep k).map Fin.val) (List.ofFn fun j => .fin (x.z.e j)) (List.ofFn fun k => (.fin (x.z.w.s k), .fin (x.z.w.efac k), .fin (x.z.w.equad k))) (List.ofFn fun k => .fin (x.z.w.r k))
    x.n (List.ofFn fun i => (x.idx i : ℕ)) p

/-- Only equal columns are combined, every column comes from a signal, and no column from more than 20. -/
structure Combines : Prop where
  same : ∀ i k, (x.z.coefs.get i).1 k = x.T k (x.idx i)
  all : ∀ j, ∃ i, x.idx i = j
  few : ∀ j, (List.ofFn fun i => (x.idx i : ℕ)).count j ≤ 20

/-- `H` bounds the rounding errors of the phases, and `l` says that no column of a process is small beside its chromatic factor at all TOAs. -/
structure Phases (N : Nat) (H l : ℝ) : Prop where
  one : 1 ≤ l
  pos : 60 ≤ H
  modes : ∀ q ∈ x.z.w.procs, 2 * q.n ≤ N
  phase : ∀ q ∈ x.z.w.procs, ∀ k, 14 * (2 * Real.pi * q.n / q.span * x.z.w.t k) + 61 ≤ H
  room : ∀ q ∈ x.z.w.procs, ∀ k, H * (2 : ℝ) ^ (-51 : ℤ) * q.factor (x.z.w.f k) ≤ 1
  weight : ∀ q ∈ x.z.w.procs, ∀ c ∈ q.coefs x.z.w.t x.z.w.f, ∀ j, (∀ k, c.1 k = x.T k j) → ∑ k, q.factor (x.z.w.f k) ^ 2 / x.z.w.ν k ≤ l ^ 2 * x.comb.prec j j

end FullPsr

/-! ## Combined columns -/

/-- Combining equal columns does not change the likelihood. -/
theorem full_like {x : FullPsr} (hc : x.Combines) : x.comb.like = x.z.exact.like := by
  have e : ∀ {n : Nat} (T : Matrix (Fin x.z.w.M) (Fin n) ℝ) (φ : Fin n → ℝ) (k l : Fin x.z.w.M), (T * diagonal φ * Tᵀ) k l = ∑ j, T k j * φ j * T l j := by
    intro n T φ k l
    rw [Matrix.mul_apply]
    exact Finset.sum_congr rfl fun j _ => by rw [mul_diagonal, transpose_apply]
  refine like_eq (Matrix.ext fun k l => ?_)
  rw [e, e]
  have h1 : ∀ j, x.T k j * (∑ i, if x.idx i = j then (x.z.coefs.get i).2 else 0) * x.T l j =
      ∑ i, if x.idx i = j then (x.z.coefs.get i).1 k * (x.z.coefs.get i).2 * (x.z.coefs.get i).1 l else 0 := by
    intro j
    rw [Finset.mul_sum, Finset.sum_mul]
    refine Finset.sum_congr rfl fun i _ => ?_
    by_cases h : x.idx i = j
    · rw [if_pos h, if_pos h, hc.same i k, hc.same i l, h]
    · rw [if_neg h, if_neg h, mul_zero, zero_mul]
  rw [Finset.sum_congr rfl fun j _ => h1 j, Finset.sum_comm]
  refine Finset.sum_congr rfl fun i _ => ?_
  rw [Finset.sum_ite_eq Finset.univ (x.idx i), if_pos (Finset.mem_univ _)]
  rfl

/-- The computed column `c` is near the column of `e`, for each combined column that equals it. -/
def ColTo (x : FullPsr) (κ : ℝ) (c : List Fl) (e : (Fin x.z.w.M → ℝ) × ℝ) : Prop :=
  ∃ y : Fin x.z.w.M → ℝ, c = List.ofFn (fun k => .fin (y k)) ∧ (∀ k, |y k - e.1 k| ≤ 1) ∧ ∀ j, (∀ k, e.1 k = x.T k j) → ∑ k, (y k - e.1 k) ^ 2 / x.z.w.ν k ≤ κ ^ 2 * x.comb.prec j j

theorem ColTo.mono {x : FullPsr} {κ' : ℝ} {c : List Fl} {e : (Fin x.z.w.M → ℝ) × ℝ} (h : ColTo x κ c e) (I : CorePsr N K μ x.comb) (h0 : 0 ≤ κ) (hκ : κ ≤ κ') : ColTo x κ' c e := by
  obtain ⟨y, y1, y2, y3⟩ := h
  exact ⟨y, y1, y2, fun j hj => (y3 j hj).trans (mul_le_mul_of_nonneg_right (pow_le_pow_left₀ h0 hκ 2) (I.precpos j).le)⟩

theorem full_proc {x : FullPsr} (R : x.z.w.Ranges) {H l : ℝ} (F : x.Phases N H l) (hN : N ≤ 2 ^ 16) (hH : H * eps ≤ 1) {q : Proc} (hq : q ∈ x.z.w.procs) :
    List.Forall₂ (ColTo x (H * l * eps)) (procCols A P S (List.ofFn fun k => .fin (x.z.w.t k)) (List.ofFn fun k => .fin (x.z.w.f k)) q.fl) (q.coefs x.z.w.t x.z.w.f) := by
  rw [procCols, Proc.coefs, List.forall₂_map_left_iff, List.forall₂_map_right_iff, show q.fl.n = q.n from rfl, List.forall₂_same]
  intro i hi
  rw [List.mem_range] at hi
  obtain ⟨u, u1, u2⟩ := proc_col A P S R F.pos F.phase hH hq (by have := F.modes q hq; omega) hi
  refine ⟨u, u1, fun k => (u2 k).trans (F.room q hq k), fun j hj => ?_⟩
  have b1 : ∑ k, (u k - wave q.span i (x.z.w.t k) * q.factor (x.z.w.f k)) ^ 2 / x.z.w.ν k ≤ (H * eps) ^ 2 * ∑ k, q.factor (x.z.w.f k) ^ 2 / x.z.w.ν k := by
    rw [Finset.mul_sum]
    refine Finset.sum_le_sum fun k _ => ?_
    rw [← mul_div_assoc, ← mul_pow]
    refine div_le_div_of_nonneg_right ?_ (R.νpos k).le
    rw [← sq_abs (u k - _)]
    exact pow_le_pow_left₀ (abs_nonneg _) (u2 k) 2
  refine b1.trans ((mul_le_mul_of_nonneg_left (F.weight q hq _ (List.mem_map_of_mem (List.mem_range.2 hi)) j hj) (sq_nonneg _)).trans_eq ?_)
  ring

theorem full_tm {x : FullPsr} (R : x.z.w.Ranges) (I : CorePsr N K μ x.comb) (hK : K ≤ 2 ^ 22) {outs : List (List Fl)}
    (h : List.Forall₂ (IsNormedCol A none) (List.ofFn fun j => (List.ofFn (x.z.w.D j)).map .fin) outs) :
    List.Forall₂ (ColTo x ((3 * K + 11) * eps)) outs (List.ofFn fun j => (fun k => x.z.w.D j k / Real.sqrt (∑ l, x.z.w.D j l ^ 2), (10 : ℝ) ^ 40)) := by
  have hl := h.length_eq
  rw [List.length_ofFn] at hl
  have hM : x.z.w.M ≤ K := I.toas
  refine List.forall₂_iff_get.2 ⟨by rw [List.length_ofFn, hl], fun j h1 h2 => ?_⟩
  have hj : j < x.z.w.p := by omega
  have g1 := (List.forall₂_iff_get.1 h).2 j (by simpa using hj) h1
  simp only [List.get_eq_getElem, List.getElem_ofFn] at g1 ⊢
  generalize outs[j] = out at *
  have e : ((List.ofFn (x.z.w.D ⟨j, hj⟩)).map fun x => x ^ 2).sum = ∑ k, x.z.w.D ⟨j, hj⟩ k ^ 2 := by
    rw [List.map_ofFn, List.sum_ofFn]
    rfl
  obtain ⟨ys, g2, g3⟩ := C147_accurate_partial A (xs := List.ofFn (x.z.w.D ⟨j, hj⟩)) (by rw [List.length_ofFn]; omega) (by rw [e]; exact (R.D _).1) (by rw [e]; exact (R.D _).2) g1
  obtain ⟨y, rfl, g4⟩ := forall_ofFn g3
  rw [len, e, List.length_ofFn] at g4
  have e0 : out = List.ofFn fun k => Fl.fin (y k) := by
    rw [g2, List.map_ofFn]
    rfl
  have νp : ∀ k, 0 < x.z.w.ν k := R.νpos
  refine ⟨y, e0, ?_, fun i hi => ?_⟩
  · obtain ⟨W, hW⟩ : ∃ W, max ((2 : ℝ) ^ (-297 : ℤ)) (∑ k, (x.z.w.D ⟨j, hj⟩ k / Real.sqrt (∑ l, x.z.w.D ⟨j, hj⟩ l ^ 2)) ^ 2 / x.z.w.ν k) = W := ⟨_, rfl⟩
    exact (unit_col (y := y) (W := W) I.νlow hM hK (hW ▸ le_max_left _ _) (hW ▸ le_max_right _ _) g4).1
  · refine (unit_col (y := y) I.νlow hM hK (I.low i) ?_ g4).2
    refine le_trans (le_of_eq (Finset.sum_congr rfl fun k _ => ?_)) (weight_le (o := x.comb) I.φpos i)
    show (x.z.w.D ⟨j, hj⟩ k / Real.sqrt (∑ l, x.z.w.D ⟨j, hj⟩ l ^ 2)) ^ 2 / x.z.w.ν k = x.T k i * x.T k i / x.z.w.ν k
    rw [← hi k, sq]

theorem full_quant (x : FullPsr) (κ : ℝ) (I : CorePsr N K μ x.comb) : List.Forall₂ (ColTo x κ) (quantCols x.z.m (List.ofFn fun k => (x.z.ep k).map Fin.val))
    (List.ofFn fun j => (fun k => if x.z.ep k = some j then 1 else 0, (10 : ℝ) ^ (2 * x.z.e j))) := by
  refine List.forall₂_iff_get.2 ⟨by simp [quantCols], fun j h1 h2 => ?_⟩
  have hj : j < x.z.m := by simpa using h2
  simp only [List.get_eq_getElem, List.getElem_ofFn, quantCols, List.getElem_map, List.getElem_range]
  refine ⟨fun k => if x.z.ep k = some ⟨j, hj⟩ then 1 else 0, ?_, fun k => ?_, fun i _ => ?_⟩
  · rw [List.map_ofFn]
    congr 1
    funext k
    rw [Function.comp_apply]
    have : (x.z.ep k).map Fin.val = some j ↔ x.z.ep k = some ⟨j, hj⟩ := by
      cases x.z.ep k with
      | none => simp
      | some i => simp [Fin.ext_iff]
    by_cases h : x.z.ep k = some ⟨j, hj⟩
    · rw [if_pos (this.2 h)]
      exact congrArg _ (if_pos h).symm
    · rw [if_neg (mt this.1 h)]
      exact congrArg _ (if_neg h).symm
  · rw [sub_self, abs_zero]
    exact zero_le_one
  · have e : ∑ k, ((if x.z.ep k = some ⟨j, hj⟩ then (1 : ℝ) else 0) - if x.z.ep k = some ⟨j, hj⟩ then 1 else 0) ^ 2 / x.z.w.ν k = 0 := Finset.sum_eq_zero fun k _ => by
      rw [sub_self]
      simp
    rw [e]
    exact mul_nonneg (sq_nonneg _) (I.precpos i).le

/-- All columns. -/
theorem full_cols {x : FullPsr} (R : x.z.w.Ranges) {H l : ℝ} (F : x.Phases N H l) (I : CorePsr N K μ x.comb) (hN : N ≤ 2 ^ 16) (hK : K ≤ 2 ^ 22) (hκ : (H * l + 3 * K + 11) * eps ≤ 1) {outs : List (List Fl)}
    (h : List.Forall₂ (IsNormedCol A none) (List.ofFn fun j => (List.ofFn (x.z.w.D j)).map .fin) outs) :
    List.Forall₂ (ColTo x ((H * l + 3 * K + 11) * eps))
      (((x.z.w.procs.map Proc.fl).map (procCols A P S (List.ofFn fun k => .fin (x.z.w.t k)) (List.ofFn fun k => .fin (x.z.w.f k)))).flatten ++ outs ++
        quantCols x.z.m (List.ofFn fun k => (x.z.ep k).map Fin.val)) x.z.coefs := by
  have he := eps_pos
  have K0 : (0 : ℝ) ≤ K := Nat.cast_nonneg K
  have H0 : 0 ≤ H := by linarith [F.pos]
  have l0 : 0 ≤ l := by linarith [F.one]
  have Hl : H ≤ H * l := le_mul_of_one_le_right H0 F.one
  have hH : H * eps ≤ 1 := le_trans (mul_le_mul_of_nonneg_right (by linarith) he.le) hκ
  refine List.rel_append (List.rel_append ?_ ?_) (full_quant x _ I)
  · refine List.rel_flatten ?_
    rw [List.map_map, List.forall₂_map_left_iff, List.forall₂_map_right_iff, List.forall₂_same]
    intro q hq
    exact forall_mono (full_proc A P S R F hN hH hq) fun c e _ hc => hc.mono I (by positivity) (mul_le_mul_of_nonneg_right (by linarith) he.le)
  · exact forall_mono (full_tm A R I hK h) fun c e _ hc => hc.mono I (by positivity) (mul_le_mul_of_nonneg_right (by nlinarith) he.le)

/-- All variances. -/
theorem full_vars {z : EpochPsr} (R : z.w.Ranges) (he : ∀ j, Rep (z.e j) ∧ |z.e j| ≤ 30) (hm : ∀ q ∈ z.w.procs, 2 * q.n ≤ N) (hN : N ≤ 2 ^ 16) :
    ∃ vs, (z.w.procs.map Proc.fl).mapM (procVars A P) = .ok vs ∧ List.Forall₂ (fun v X => ∃ x, v = .fin x ∧ Off (4 * N + 77) 600 x X)
      (vs.flatten ++ List.replicate z.w.p (tmPriorF A) ++ ecorrVars A P (List.ofFn fun j => .fin (z.e j))) (z.coefs.map Prod.snd) := by
  obtain ⟨vs, h1, h2⟩ := shared_vars A P R hm hN
  refine ⟨vs, h1, ?_⟩
  rw [EpochPsr.coefs, List.map_append]
  refine List.rel_append h2 ?_
  rw [ecorrVars, List.map_ofFn, List.map_ofFn]
  refine List.forall₂_iff_get.2 ⟨by simp, fun j g1 g2 => ?_⟩
  have hj : j < z.m := by simpa using g2
  simp only [List.get_eq_getElem, List.getElem_ofFn, Function.comp_apply]
  have N0 : (0 : ℝ) ≤ N := Nat.cast_nonneg N
  obtain ⟨x, hx, ox⟩ := squared_off A P (he ⟨j, hj⟩).1 (he ⟨j, hj⟩).2
  have o1 : Off 0 0 1 1 := .exact (by norm_num) (by simp)
  obtain ⟨y, hy, oy⟩ := o1.mul A ox (by norm_num) (by norm_num)
  rw [one_mul] at oy
  exact ⟨y, by rw [hx, hy], oy.mono (by linarith) (by norm_num)⟩

/-- The computed numbers of a pulsar. -/
theorem full_near {x : FullPsr} (R : x.z.w.Ranges) (he : ∀ j, Rep (x.z.e j) ∧ |x.z.e j| ≤ 30) (hc : x.Combines) {H l : ℝ} (F : x.Phases N H l) (I : CorePsr N K μ x.comb) (hN : N ≤ 2 ^ 16) (hK : K ≤ 2 ^ 22)
    (hκ : (H * l + 3 * K + 11) * eps ≤ 1) {p : PsrF} (h : x.Code A P S p) : FullNear ((4 * N + 100) * (2 : ℝ) ^ (-50 : ℤ)) ((H * l + 3 * K + 11) * eps) p x.comb := by
  obtain ⟨outs, vs, h1, h2, rfl⟩ := h
  have hcol := full_cols A P S R F I hN hK hκ h1
  obtain ⟨vs', h3, hv⟩ := full_vars A P R he F.modes hN
  have e3 : (Except.ok vs : Except PyErr _) = .ok vs' := h2.symm.trans h3
  cases e3
  have hw : ∀ k, ∃ y, add A (.fin 0) (ndiagF A P (.fin (x.z.w.s k)) (.fin (x.z.w.efac k)) (some (.fin (x.z.w.equad k)))) = .fin y ∧ Off 11 401 y (x.z.w.ν k) := by
    intro k
    obtain ⟨u, hu, ou⟩ := ndiag_off A P (R.s k).1 (R.s k).2 (R.efac k).1 (R.efac k).2 (R.equad k).1 (R.equad k).2
    obtain ⟨y, hy, oy⟩ := add_zero_off A ou (by norm_num) (by norm_num)
    exact ⟨y, by rw [hu, hy], oy.mono (by norm_num) le_rfl⟩
  choose ν' hν oν using hw
  have N0 : (0 : ℝ) ≤ N := Nat.cast_nonneg N
  have N1 : (N : ℝ) ≤ 2 ^ 16 := by exact_mod_cast hN
  generalize hcs : ((x.z.w.procs.map Proc.fl).map (procCols A P S (List.ofFn fun k => .fin (x.z.w.t k)) (List.ofFn fun k => .fin (x.z.w.f k)))).flatten ++ outs ++
    quantCols x.z.m (List.ofFn fun k => (x.z.ep k).map Fin.val) = cs at hcol
  generalize hvv : vs.flatten ++ List.replicate x.z.w.p (tmPriorF A) ++ ecorrVars A P (List.ofFn fun j => .fin (x.z.e j)) = vv at hv
  have hl := hcol.length_eq
  have hlv := hv.length_eq
  rw [List.length_map] at hlv
  have g1 : ∀ j : Fin x.n, ∃ y : Fin x.z.w.M → ℝ, basisAt (List.ofFn fun i => (x.idx i : ℕ)) cs j = List.ofFn (fun k => .fin (y k)) ∧ (∀ k, |y k - x.T k j| ≤ 1) ∧
      ∑ k, (y k - x.T k j) ^ 2 / x.z.w.ν k ≤ ((H * l + 3 * K + 11) * eps) ^ 2 * x.comb.prec j j := by
    intro j
    rcases basis_at (idx := List.ofFn fun i => (x.idx i : ℕ)) (cols := cs) (by rw [List.length_ofFn, hl]) j [] with ⟨-, g⟩ | ⟨i, i1, i2, i3, i4⟩
    · obtain ⟨i, hi⟩ := hc.all j
      exact absurd (by rw [List.mem_ofFn]; exact ⟨i, by rw [hi]⟩) g
    · rw [List.getElem_ofFn] at i3
      obtain ⟨y, y1, y2, y3⟩ := (List.forall₂_iff_get.1 hcol).2 i i2 (by omega)
      have e : ∀ k, (x.z.coefs.get ⟨i, by omega⟩).1 k = x.T k j := fun k => by
        rw [hc.same]
        exact congrArg _ (Fin.ext i3)
      refine ⟨y, i4.trans y1, fun k => ?_, ?_⟩
      · rw [← e k]
        exact y2 k
      · refine le_trans (le_of_eq (Finset.sum_congr rfl fun k _ => ?_)) (y3 j e)
        rw [← e k]
  have g2 : ∀ j : Fin x.n, ∃ v, phiAt A (List.ofFn fun i => (x.idx i : ℕ)) vv j = .fin v ∧ |v - x.comb.φ j| ≤ (4 * N + 100) * (2 : ℝ) ^ (-50 : ℤ) * x.comb.φ j := by
    intro j
    have hs : (List.zipWith (fun i X => if i = (j : ℕ) then X else 0) (List.ofFn fun i => (x.idx i : ℕ)) (x.z.coefs.map Prod.snd)).sum = x.comb.φ j := by
      have : List.zipWith (fun i X => if i = (j : ℕ) then X else 0) (List.ofFn fun i => (x.idx i : ℕ)) (x.z.coefs.map Prod.snd) = List.ofFn fun i => if x.idx i = j then (x.z.coefs.get i).2 else 0 := by
        refine List.ext_getElem (by simp) fun i _ _ => ?_
        simp [Fin.ext_iff]
      rw [this, List.sum_ofFn]
      rfl
    have hcnt : 1 ≤ (List.ofFn fun i => (x.idx i : ℕ)).count (j : ℕ) := by
      obtain ⟨i, hi⟩ := hc.all j
      exact List.count_pos_iff.2 (by rw [List.mem_ofFn]; exact ⟨i, by rw [hi]⟩)
    have hfew := hc.few j
    rcases phi_at A (r := 4 * N + 77) (by linarith) hv (idx := List.ofFn fun i => (x.idx i : ℕ)) (by rw [List.length_ofFn, hlv]) j (c := 0) (by omega) (v := .fin 0) (s := 0) (.inl ⟨rfl, rfl, rfl⟩) with ⟨g, -⟩ | ⟨v, x1, x2⟩
    · omega
    · rw [hs, zero_add, zero_add] at x2
      refine ⟨v, x1, (x2.rel (by linarith) ?_).2⟩
      have : (((List.ofFn fun i => (x.idx i : ℕ)).count (j : ℕ) : ℕ) : ℝ) ≤ 20 := by exact_mod_cast hfew
      linarith
  choose T' c1 c2 c3 using g1
  choose φ' d1 d2 using g2
  refine ⟨Matrix.of fun k j => T' j k, ⟨fun k j => c2 j k, c3⟩, ν', φ', fun k => ((oν k).rel (by linarith) (by linarith)).2, d2, ?_⟩
  have e1 : ndiagsF A P (List.ofFn fun k => (.fin (x.z.w.s k), .fin (x.z.w.efac k), .fin (x.z.w.equad k))) = List.ofFn fun k => .fin (ν' k) := by
    rw [ndiagsF, List.map_ofFn]
    congr 1
    funext k
    exact hν k
  have e2 : (fun j => if j < x.n then phiAt A (List.ofFn fun i => (x.idx i : ℕ)) vv j else .fin 1) = fun j => if h : j < x.n then .fin (φ' ⟨j, h⟩) else .fin 1 := by
    funext j
    by_cases hj : j < x.n
    · rw [dif_pos hj, if_pos hj]
      exact d1 ⟨j, hj⟩
    · rw [dif_neg hj, if_neg hj]
  have e4 : basisAt (List.ofFn fun i => (x.idx i : ℕ)) cs = fun j => if h : j < x.n then List.ofFn fun k => .fin (T' ⟨j, h⟩ k) else [] := by
    funext j
    by_cases hj : j < x.n
    · rw [dif_pos hj]
      exact c1 ⟨j, hj⟩
    · rw [dif_neg hj]
      rcases basis_at (idx := List.ofFn fun i => (x.idx i : ℕ)) (cols := cs) (by rw [List.length_ofFn, hl]) j [] with ⟨g, -⟩ | ⟨i, i1, i2, i3, -⟩
      · exact g
      · rw [List.getElem_ofFn] at i3
        have := (x.idx ⟨i, by simpa using i1⟩).2
        omega
  rw [List.length_ofFn, List.length_ofFn]
  show PsrF.mk x.n (basisAt (List.ofFn fun i => (x.idx i : ℕ)) (((x.z.w.procs.map Proc.fl).map (procCols A P S (List.ofFn fun k => .fin (x.z.w.t k)) (List.ofFn fun k => .fin (x.z.w.f k)))).flatten ++ outs ++
    quantCols x.z.m (List.ofFn fun k => (x.z.ep k).map Fin.val))) _ _
    (fun j => if j < x.n then phiAt A (List.ofFn fun i => (x.idx i : ℕ)) (vs.flatten ++ List.replicate x.z.w.p (tmPriorF A) ++ ecorrVars A P (List.ofFn fun j => .fin (x.z.e j))) j else .fin 1) = _
  rw [hcs, hvv, e1, e2, e4]
  rfl

theorem full_all {H l : ℝ} (hN : N ≤ 2 ^ 16) (hK : K ≤ 2 ^ 22) (hκ : (H * l + 3 * K + 11) * eps ≤ 1) {xs : List FullPsr} {ps : List PsrF} (h : List.Forall₂ (FullPsr.Code A P S) xs ps)
    (hx : ∀ x ∈ xs, x.z.w.Ranges ∧ (∀ j, Rep (x.z.e j) ∧ |x.z.e j| ≤ 30) ∧ x.Combines ∧ x.Phases N H l ∧ CorePsr N K μ x.comb) :
    List.Forall₂ (fun p o => FullNear ((4 * N + 100) * (2 : ℝ) ^ (-50 : ℤ)) ((H * l + 3 * K + 11) * eps) p o ∧ CorePsr N K μ o) ps (xs.map FullPsr.comb) := by
  induction h with
  | nil => exact .nil
  | @cons x p xs ps h1 h2 ih =>
    obtain ⟨R, he, hc, F, I⟩ := hx x List.mem_cons_self
    exact .cons ⟨full_near A P S R he hc F I hN hK hκ h1, I⟩ (ih fun x hx' => hx x (List.mem_cons_of_mem _ hx'))

/-- C161: all signals, with combined columns, and the Gaussian log-likelihood of all of them, each with its own columns. -/
theorem C161_full (hL : GoodLog L) {H l : ℝ} (hN0 : 1 ≤ N) (hK : K ≤ 2 ^ 22) (hμ1 : μ ≤ 1) (hK2 : 800 * ((K + 3) * (2 : ℝ) ^ (-51 : ℤ) * N) ≤ μ)
    (hμ : 2 ^ 21 * N ^ 2 * (2 : ℝ) ^ (-51 : ℤ) ≤ μ) (hH : 300 * ((H * l + 3 * K + 11) * (2 : ℝ) ^ (-51 : ℤ) * N) ≤ μ) {xs : List FullPsr}
    (hx : ∀ x ∈ xs, x.z.w.Ranges ∧ (∀ j, Rep (x.z.e j) ∧ |x.z.e j| ≤ 30) ∧ x.Combines ∧ x.Phases N H l ∧ CorePsr N K μ x.comb) (h0 : xs ≠ []) (hP : xs.length ≤ 2 ^ 15) {ps : List PsrF}
    (h : List.Forall₂ (FullPsr.Code A P S) xs ps) {r : Except PyErr Fl} (hr : IsLikelihood A L ps r) :
    ∃ v, r = .ok (.fin v) ∧ |v - (xs.map fun x => x.z.exact.like).sum| ≤
      ((42600 * N ^ 2 + 87 * (K + 3) * N + 9 * H * l * N) / μ + 4 * xs.length) * (2 : ℝ) ^ (-51 : ℤ) * (xs.map fun x => x.comb.size).sum + (2 : ℝ) ^ (-999 : ℤ) := by
  have Hl : 0 ≤ H * l := by
    obtain ⟨x, hx'⟩ := List.exists_mem_of_ne_nil xs h0
    have F := (hx x hx').2.2.2.1
    exact mul_nonneg (by linarith [F.pos]) (by linarith [F.one])
  have := near_likelihood A L hL hN0 hK hμ1 hK2 hμ hH Hl (os := xs.map FullPsr.comb) (by simpa using h0) (by simpa using hP) (fun N3 hκ1 => full_all A P S N3 hK hκ1 h hx) hr
  rw [List.map_map, List.map_map, List.length_map] at this
  have e : xs.map (fun x => x.z.exact.like) = xs.map (GpPsr.like ∘ FullPsr.comb) := List.map_congr_left fun x hx' => (full_like (hx x hx').2.2.1).symm
  rw [e]
  exact this

/-- The numbers exist. -/
theorem exists_full {x : FullPsr} (R : x.z.w.Ranges) (hm : ∀ q ∈ x.z.w.procs, 2 * q.n ≤ N) (hN : N ≤ 2 ^ 16) : ∃ p, x.Code A P S p := by
  obtain ⟨outs, h⟩ := exists_cols A (List.ofFn fun j => (List.ofFn (x.z.w.D j)).map .fin)
  obtain ⟨vs, h1, -⟩ := shared_vars A P R hm hN
  exact ⟨_, outs, vs, h, h1, rfl⟩

/-! ## An example: two processes with the same columns, a timing model and one epoch -/

/-- The combined column of each column. -/
def exFullMap (i : ℕ) : Fin 4 := if i = 0 then 0 else if i = 1 then 1 else if i = 2 then 0 else if i = 3 then 1 else if i = 4 then 2 else 3

/-- Two power laws at one frequency, an offset, and an epoch of two TOAs. -/
noncomputable def exFull : FullPsr := ⟨⟨exShared.w, 1, (![some 0, some 0, none, none] : Fin 4 → Option (Fin 1)), fun _ => -1⟩, 4, fun i => exFullMap i, exE⟩

theorem exFull_coefs : exFull.z.coefs = [((![1, 0, -1, 0] : Fin 4 → ℝ), law 4 0 3 0), (![0, -1, 0, 1], law 4 0 3 0), (![1, 0, -1, 0], law 4 0 3 0), (![0, -1, 0, 1], law 4 0 3 0),
    (![1 / 2, 1 / 2, 1 / 2, 1 / 2], 10 ^ 40), (![1, 1, 0, 0], 1 / 100)] := by
  have h : exFull.z.coefs = HAppend.hAppend (α := List ((Fin 4 → ℝ) × ℝ)) (β := List ((Fin 4 → ℝ) × ℝ)) (γ := List ((Fin 4 → ℝ) × ℝ)) exShared.w.coefs [((fun k => if (![some 0, some 0, none, none] : Fin 4 → Option (Fin 1)) k = some 0 then 1 else 0 : Fin 4 → ℝ), (10 : ℝ) ^ (2 * (-1 : ℝ)))] := rfl
  have w5 : (fun k : Fin 4 => if (![some 0, some 0, none, none] : Fin 4 → Option (Fin 1)) k = some 0 then (1 : ℝ) else 0) = ![1, 1, 0, 0] := by
    funext k
    fin_cases k <;> simp
  have w6 : (10 : ℝ) ^ (2 * (-1 : ℝ)) = 1 / 100 := by
    rw [show (2 * (-1 : ℝ)) = ((-2 : ℤ) : ℝ) by norm_num, Real.rpow_intCast]
    norm_num
  refine h.trans ((congrArg (fun l : List ((Fin 4 → ℝ) × ℝ) => l ++ _) exShared_coefs).trans ?_)
  exact congrArg₂ (fun c v => [((![1, 0, -1, 0] : Fin 4 → ℝ), law 4 0 3 0), (![0, -1, 0, 1], law 4 0 3 0), (![1, 0, -1, 0], law 4 0 3 0), (![0, -1, 0, 1], law 4 0 3 0),
    (![1 / 2, 1 / 2, 1 / 2, 1 / 2], 10 ^ 40), (c, v)]) w5 w6

theorem exFull_combines : exFull.Combines := by
  have h : ∀ cs : List ((Fin 4 → ℝ) × ℝ), cs = [((![1, 0, -1, 0] : Fin 4 → ℝ), law 4 0 3 0), (![0, -1, 0, 1], law 4 0 3 0), (![1, 0, -1, 0], law 4 0 3 0), (![0, -1, 0, 1], law 4 0 3 0),
      (![1 / 2, 1 / 2, 1 / 2, 1 / 2], 10 ^ 40), (![1, 1, 0, 0], 1 / 100)] → (∀ (i : Fin cs.length) (k : Fin 4), (cs.get i).1 k = exE k (exFullMap i)) ∧ (∀ j, ∃ i : Fin cs.length, exFullMap i = j) ∧
      ∀ j, (List.ofFn fun i : Fin cs.length => (exFullMap i : ℕ)).count j ≤ 20 := by
    rintro _ rfl
    refine ⟨fun (i : Fin 6) (k : Fin 4) => ?_, fun j => ?_, fun j => ?_⟩
    · fin_cases i <;> fin_cases k <;> rfl
    · fin_cases j
      · exact ⟨(0 : Fin 6), rfl⟩
      · exact ⟨(1 : Fin 6), rfl⟩
      · exact ⟨(4 : Fin 6), rfl⟩
      · exact ⟨(5 : Fin 6), rfl⟩
    · refine List.count_le_length.trans ?_
      rw [List.length_ofFn]
      show 6 ≤ 20
      norm_num
  obtain ⟨h1, h2, h3⟩ := h _ exFull_coefs
  exact ⟨h1, h2, h3⟩

/-- The combined variances of the example. -/
noncomputable def exFullVar : Fin 4 → ℝ := ![law 4 0 3 0 + law 4 0 3 0, law 4 0 3 0 + law 4 0 3 0, 10 ^ 40, 1 / 100]

/-- The combined pulsar of the example. -/
noncomputable def exFullComb : GpPsr := ⟨4, 4, exE, fun _ => 2, ![3, 1, 2, 1], exFullVar⟩

theorem exFull_comb : exFull.comb = exFullComb := by
  have h : ∀ cs : List ((Fin 4 → ℝ) × ℝ), cs = [((![1, 0, -1, 0] : Fin 4 → ℝ), law 4 0 3 0), (![0, -1, 0, 1], law 4 0 3 0), (![1, 0, -1, 0], law 4 0 3 0), (![0, -1, 0, 1], law 4 0 3 0),
      (![1 / 2, 1 / 2, 1 / 2, 1 / 2], 10 ^ 40), (![1, 1, 0, 0], 1 / 100)] → ∀ ν : Fin 4 → ℝ, ν = (fun _ => 2) →
      (⟨4, 4, exE, ν, ![3, 1, 2, 1], fun j => ∑ i : Fin cs.length, if exFullMap i = j then (cs.get i).2 else 0⟩ : GpPsr) = exFullComb := by
    rintro _ rfl _ rfl
    have g : ∀ {v : Fin 4 → ℝ}, v = exFullVar → (⟨4, 4, exE, fun _ => 2, ![3, 1, 2, 1], v⟩ : GpPsr) = exFullComb := by
      rintro _ rfl
      rfl
    refine g (funext fun j => ?_)
    have h6 : (∑ i : Fin 6, if exFullMap i = j then (![law 4 0 3 0, law 4 0 3 0, law 4 0 3 0, law 4 0 3 0, 10 ^ 40, 1 / 100] : Fin 6 → ℝ) i else 0) = exFullVar j := by
      rw [Fin.sum_univ_six]
      fin_cases j <;> simp [exFullMap, exFullVar]
    refine Eq.trans (Finset.sum_congr rfl fun (i : Fin 6) _ => ?_) h6
    fin_cases i <;> rfl
  exact h _ exFull_coefs _ exShared_ν

theorem exFullVar_le (i : Fin 4) : 1 / 192 ≤ exFullVar i ∧ exFullVar i ≤ 10 ^ 40 := by
  fin_cases i
  · exact exW_le 0
  · exact exW_le 1
  · exact exW_le 2
  · show (1 : ℝ) / 192 ≤ 1 / 100 ∧ (1 : ℝ) / 100 ≤ 10 ^ 40
    norm_num

theorem exFullComb_prec (i j : Fin 4) : exFullComb.prec i j = exP i j + if i = j then (exFullVar i)⁻¹ else 0 := by
  refine (prec_apply (o := exFullComb) i j).trans ?_
  have e : ∑ k, exFullComb.T k i * exFullComb.T k j / exFullComb.ν k = exP i j := exE_dot i j
  rw [e]
  rfl

theorem exFullComb_margin {B : Matrix (Fin 4) (Fin 4) ℝ} (hB : ∀ i j, B i j = exP i j + if i = j then (exFullVar i)⁻¹ else 0) : (B - (1 / 2 : ℝ) • diagonal B.diag).PosSemidef := by
  have hφ : ∀ i : Fin 4, 0 < (exFullVar i)⁻¹ := fun i => inv_pos.2 (lt_of_lt_of_le (by norm_num) (exFullVar_le i).1)
  have hs : ∀ i j, exP i j = exP j i := fun i j => by fin_cases i <;> fin_cases j <;> norm_num [exP]
  have hH : (B - (1 / 2 : ℝ) • diagonal B.diag) = Matrix.of fun i j => if i = j then 1 / 2 * (exP i i + (exFullVar i)⁻¹) else exP i j := by
    refine Matrix.ext fun i j => ?_
    rw [Matrix.sub_apply, Matrix.smul_apply, Matrix.of_apply, smul_eq_mul]
    by_cases h : i = j
    · subst h
      rw [diagonal_apply_eq, diag_apply, hB, if_pos rfl, if_pos rfl]
      ring
    · rw [diagonal_apply_ne _ h, hB, if_neg h, if_neg h]
      ring
  rw [hH]
  refine PosSemidef.of_dotProduct_mulVec_nonneg (Matrix.ext fun i j => ?_) fun x => ?_
  · rw [conjTranspose_apply, Matrix.of_apply, Matrix.of_apply, star_trivial]
    by_cases h : i = j
    · subst h
      rfl
    · rw [if_neg h, if_neg (Ne.symm h), hs]
  · have h3 : (exFullVar 3)⁻¹ = 100 := by
      show ((1 : ℝ) / 100)⁻¹ = 100
      norm_num
    have e : star x ⬝ᵥ ((Matrix.of fun i j => if i = j then 1 / 2 * (exP i i + (exFullVar i)⁻¹) else exP i j) *ᵥ x) =
        1 / 2 * (1 + (exFullVar 0)⁻¹) * x 0 ^ 2 + 1 / 2 * (1 + (exFullVar 1)⁻¹) * x 1 ^ 2 + 1 / 2 * (1 / 2 + (exFullVar 2)⁻¹) * x 2 ^ 2 + 1 / 2 * (1 + (exFullVar 3)⁻¹) * x 3 ^ 2 + x 0 * x 3 - x 1 * x 3 + x 2 * x 3 := by
      simp [dotProduct, mulVec, Fin.sum_univ_four, exP]
      ring
    rw [e, h3]
    have p0 := mul_nonneg (hφ 0).le (sq_nonneg (x 0))
    have p1 := mul_nonneg (hφ 1).le (sq_nonneg (x 1))
    have p2 := mul_nonneg (hφ 2).le (sq_nonneg (x 2))
    nlinarith [sq_nonneg (x 0 + x 3), sq_nonneg (x 1 - x 3), sq_nonneg (x 2 + 2 * x 3), sq_nonneg (x 3)]

theorem exFullComb_core : CorePsr 4 4 (1 / 2) exFullComb := by
  have b : ∀ {e : ℤ} {x : ℝ}, 10 ≤ e → x ≤ 1024 → x ≤ (2 : ℝ) ^ e := fun h hx =>
    hx.trans ((by norm_num : (1024 : ℝ) ≤ (2 : ℝ) ^ (10 : ℤ)).trans (zpow_le_zpow_right₀ (by norm_num) h))
  have c : ∀ {e : ℤ} {x : ℝ}, e ≤ -140 → 1 / 10 ^ 40 ≤ x → (2 : ℝ) ^ e ≤ x := fun h hx =>
    ((zpow_le_zpow_right₀ (by norm_num) h).trans (by norm_num : (2 : ℝ) ^ (-140 : ℤ) ≤ 1 / 10 ^ 40)).trans hx
  have hφ0 : ∀ i : Fin 4, 0 < exFullVar i := fun i => lt_of_lt_of_le (by norm_num) (exFullVar_le i).1
  have hp : ∀ i : Fin 4, exFullComb.prec i i = exP i i + (exFullVar i)⁻¹ := fun i => (exFullComb_prec i i).trans (congrArg _ (if_pos rfl))
  have hd : ∀ i : Fin 4, 0 ≤ exP i i ∧ exP i i ≤ 1 := fun i => by fin_cases i <;> norm_num [exP]
  refine ⟨le_rfl, le_rfl, fun k => c (by norm_num) ?_, fun k => b (by norm_num) ?_, fun i => c (by norm_num) ?_, fun i => ?_, fun k i => b (by norm_num) ?_, fun k => b (by norm_num) ?_,
    fun i => c (by norm_num) ?_, fun i => b (by norm_num) ?_, b (by norm_num) ?_, ?_⟩
  · show (1 : ℝ) / 10 ^ 40 ≤ 2
    norm_num
  · show (2 : ℝ) ≤ 1024
    norm_num
  · exact le_trans (by norm_num) (exFullVar_le i).1
  · refine (exFullVar_le i).2.trans ?_
    exact (by norm_num : (10 : ℝ) ^ 40 ≤ (2 : ℝ) ^ (133 : ℤ)).trans (zpow_le_zpow_right₀ (by norm_num) (by norm_num))
  · have h : ∀ (k : Fin 4) (i : Fin 4), |exE k i| ≤ 1024 := fun k i => by
      fin_cases k <;> fin_cases i <;> norm_num [exE]
    exact h k i
  · have h : ∀ k : Fin 4, |(![3, 1, 2, 1] : Fin 4 → ℝ) k| ≤ 1024 := fun k => by fin_cases k <;> norm_num
    exact h k
  · refine le_trans ?_ (hp i).ge
    have h1 := inv_anti₀ (hφ0 i) (exFullVar_le i).2
    have h2 := (hd i).1
    rw [one_div]
    linarith
  · refine (hp i).trans_le ?_
    have : (exFullVar i)⁻¹ ≤ 192 := by
      have := inv_anti₀ (by norm_num) (exFullVar_le i).1
      linarith
    have := (hd i).2
    linarith
  · have e : exFullComb.ρ = ∑ k : Fin 4, (![3, 1, 2, 1] : Fin 4 → ℝ) k ^ 2 / 2 := rfl
    rw [e, ex_res4]
    norm_num
  · exact exFullComb_margin exFullComb_prec

theorem exFull_phases : exFull.Phases 4 160 2 := by
  have hf : ∀ k : Fin 4, (![1, 2, 3, 4] : Fin 4 → ℝ) k ≤ 4 := fun k => by fin_cases k <;> norm_num
  have hπ := Real.pi_lt_d2
  have hπ0 := Real.pi_pos
  refine ⟨by norm_num, by norm_num, fun q hq => ?_, fun q hq k => ?_, fun q hq k => ?_, fun q hq c _ j _ => ?_⟩
  · rcases List.mem_pair.1 hq with rfl | rfl <;> exact (by norm_num : 2 * 1 ≤ 4)
  · have h1 := mul_le_mul_of_nonneg_left (hf k) hπ0.le
    have h2 : 14 * (2 * Real.pi * (1 : ℕ) / 4 * (![1, 2, 3, 4] : Fin 4 → ℝ) k) + 61 ≤ 160 := by
      push_cast
      linarith
    rcases List.mem_pair.1 hq with rfl | rfl <;> exact h2
  · have h2 : 160 * (2 : ℝ) ^ (-51 : ℤ) * 1 ≤ 1 := by norm_num
    rcases List.mem_pair.1 hq with rfl | rfl <;> exact h2
  · have e : ∑ k, Proc.factor ⟨1, 4, 0, 3, none⟩ (exFull.z.w.f k) ^ 2 / exFull.z.w.ν k = 2 := by
      rw [show exFull.z.w.ν = fun _ => 2 from exShared_ν]
      show ∑ _k : Fin 4, (1 : ℝ) ^ 2 / 2 = 2
      norm_num
    have hp : ∀ o : GpPsr, o = exFullComb → ∀ j : Fin o.n, (1 : ℝ) / 2 ≤ o.prec j j := by
      rintro _ rfl j
      refine le_trans ?_ ((exFullComb_prec j j).trans (congrArg _ (if_pos rfl))).ge
      have h1 : 0 < (exFullVar j)⁻¹ := inv_pos.2 (lt_of_lt_of_le (by norm_num) (exFullVar_le j).1)
      have hd : ∀ i : Fin 4, 1 / 2 ≤ exP i i := fun i => by fin_cases i <;> norm_num [exP]
      have h2 := hd j
      linarith
    have h2 : (2 : ℝ) ≤ 2 ^ 2 * exFull.comb.prec j j := by linarith [hp _ exFull_comb j]
    rcases List.mem_pair.1 hq with rfl | rfl <;> exact e.trans_le h2

/-- C161 for such a pulsar: numbers and an outcome exist, and each outcome is within `2^-18` of the Gaussian log-likelihood. -/
example (hL : GoodLog L) : (∃ p r, exFull.Code A P S p ∧ IsLikelihood A L [p] r) ∧ ∀ p r, exFull.Code A P S p → IsLikelihood A L [p] r → ∃ v, r = .ok (.fin v) ∧
    |v - exFull.z.exact.like| ≤ (2 : ℝ) ^ (-18 : ℤ) := by
  constructor
  · obtain ⟨p, hp⟩ := exists_full A P S (x := exFull) exShared_ranges exFull_phases.modes (by norm_num)
    obtain ⟨r, hr⟩ := exists_likelihood A L [p]
    exact ⟨p, r, hp, hr⟩
  intro p r hp hr
  obtain ⟨v, e, hv⟩ := C161_full A L P S hL (N := 4) (K := 4) (μ := 1 / 2) (H := 160) (l := 2) (xs := [exFull]) (by norm_num) (by norm_num) (by norm_num) (by norm_num) (by norm_num) (by norm_num) (by
    intro z hz
    rw [List.mem_singleton] at hz
    subst hz
    refine ⟨exShared_ranges, fun _ => ?_, exFull_combines, exFull_phases, exFull_comb ▸ exFullComb_core⟩
    show Rep (-1 : ℝ) ∧ |(-1 : ℝ)| ≤ 30
    exact ⟨by simpa using rep_int (-1) (by norm_num), by norm_num⟩) (by simp) (by norm_num) (.cons hp .nil) hr
  refine ⟨v, e, ?_⟩
  have hlog : |Real.log 2| ≤ 1 := by
    rw [abs_of_pos (Real.log_pos (by norm_num))]
    linarith [Real.log_two_lt_d9]
  have hφ : ∀ i : Fin 4, |Real.log (exFullVar i)| ≤ 133 := by
    intro i
    obtain ⟨a, b⟩ := exFullVar_le i
    have l1 := Real.log_le_log (by norm_num) a
    have l2 := Real.log_le_log (lt_of_lt_of_le (by norm_num) a) b
    have l3 := abs_le.1 (log_nat (j := 133) (by norm_num) (by norm_num) : |Real.log ((10 : ℝ) ^ 40)| ≤ (133 : ℕ))
    have l4 := abs_le.1 (log_nat (j := 8) (by norm_num) (by norm_num) : |Real.log (192 : ℝ)| ≤ (8 : ℕ))
    rw [one_div, Real.log_inv] at l1
    push_cast at l3 l4
    exact abs_le.2 ⟨by linarith, by linarith⟩
  have e2 : exFull.comb.size ≤ 2100 := by
    rw [exFull_comb]
    show (∑ k : Fin 4, (![3, 1, 2, 1] : Fin 4 → ℝ) k ^ 2 / 2) + 2 + (∑ _k : Fin 4, (1 + |Real.log 2|)) + ∑ i : Fin 4, (376 + |Real.log (exFullVar i)|) ≤ 2100
    have h2 : ∑ _k : Fin 4, (1 + |Real.log 2|) ≤ 8 := by
      rw [Fin.sum_univ_four]
      linarith
    have h3 : ∑ i : Fin 4, (376 + |Real.log (exFullVar i)|) ≤ 2036 := by
      rw [Fin.sum_univ_four]
      linarith [hφ 0, hφ 1, hφ 2, hφ 3]
    rw [ex_res4]
    linarith
  simp only [List.map_cons, List.map_nil, List.sum_cons, List.sum_nil, add_zero, List.length_cons, List.length_nil] at hv
  refine hv.trans ?_
  have h3 : (2 : ℝ) ^ (-999 : ℤ) ≤ (2 : ℝ) ^ (-30 : ℤ) := zpow_le_zpow_right₀ (by norm_num) (by norm_num)
  refine (add_le_add (mul_le_mul_of_nonneg_left e2 (by positivity)) h3).trans ?_
  norm_num

end Verif.Ieee
