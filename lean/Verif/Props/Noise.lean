import Verif.Model.Noise
import Verif.Props.Quantize
import Verif.Lemmas.PulsarData
import Mathlib.LinearAlgebra.Matrix.SchurComplement
import Mathlib.Analysis.Matrix.PosDef
import Mathlib.Algebra.Order.Star.Real
import Mathlib.LinearAlgebra.Matrix.Notation
import Mathlib.Tactic.Linarith
import Mathlib.Tactic.NormNum
import Mathlib.Tactic.FieldSimp

/-!
C51, C52: the solves and the log determinant of `ShermanMorrison` are those of the matrix
`diag(nvec) + sum of j 1 1ᵀ over the epochs`.
-/

namespace Verif.Noise

open Matrix

section Spec

variable {K : Type} [Field K] {n : Nat}

/-- The covariance of one epoch: `j` between any two of its TOAs. -/
def epochMat (e : List (Fin n) × K) : Matrix (Fin n) (Fin n) K :=
  of fun a b => if a ∈ e.1 ∧ b ∈ e.1 then e.2 else 0

/-- The noise covariance meant by C51: the diagonal and one term per epoch. -/
def ecorrN (ep : List (List (Fin n) × K)) (v : Fin n → K) : Matrix (Fin n) (Fin n) K :=
  diagonal v + (ep.map epochMat).sum

/-- Disjoint epochs without repeated TOAs. -/
structure Epochs {α : Type} (ep : List (List (Fin n) × α)) : Prop where
  nodup : ∀ e ∈ ep, e.1.Nodup
  disj : ep.Pairwise fun e f => e.1.Disjoint f.1

/-- What `solve` should return for the covariance `N`: `N⁻¹ x`, `yᵀ N⁻¹ x`, `Zᵀ N⁻¹ x`, `N⁻¹ X`,
`yᵀ N⁻¹ X` or `Zᵀ N⁻¹ X`. -/
noncomputable def want (N : Matrix (Fin n) (Fin n) ℝ) : Arr n ℝ → Option (Arr n ℝ) → Option (Out ℝ)
  | .d1 x, none => some (.vec n (N⁻¹ *ᵥ x))
  | .d1 x, some (.d1 y) => some (.num (y ⬝ᵥ (N⁻¹ *ᵥ x)))
  | .d1 x, some (.d2 p Z) => some (.vec p (Zᵀ *ᵥ (N⁻¹ *ᵥ x)))
  | .d2 m X, none => some (.mat n m (N⁻¹ * X))
  | .d2 m X, some (.d1 y) => some (.vec m (y ᵥ* (N⁻¹ * X)))
  | .d2 m X, some (.d2 p Z) => some (.mat p m (Zᵀ * (N⁻¹ * X)))
  | _, _ => none

end Spec

section Field

variable {K : Type} [Field K] {n : Nat}

/-- Indicator of an epoch. -/
def ind (idx : List (Fin n)) : Fin n → K := fun i => if i ∈ idx then 1 else 0

/-- Indicator of an epoch divided by the diagonal. -/
def wt (v : Fin n → K) (idx : List (Fin n)) : Fin n → K := fun i => if i ∈ idx then 1 / v i else 0

/-- The closed form of the inverse. -/
def smInv (ep : List (List (Fin n) × K)) (v : Fin n → K) : Matrix (Fin n) (Fin n) K :=
  diagonal (fun i => 1 / v i) -
    (ep.map fun e => beta v e • vecMulVec (wt v e.1) (wt v e.1)).sum

theorem over_eq (idx : List (Fin n)) (h : idx.Nodup) (f : Fin n → K) :
    over idx f = ∑ i, if i ∈ idx then f i else 0 := by
  unfold over
  rw [← List.sum_toFinset f h, ← Finset.sum_filter]
  congr 1
  ext i; simp

theorem over_wt (v : Fin n → K) (idx : List (Fin n)) (h : idx.Nodup) (x : Fin n → K) :
    over idx (fun k => 1 / v k * x k) = wt v idx ⬝ᵥ x := by
  rw [over_eq idx h]
  unfold dotProduct wt
  refine Finset.sum_congr rfl fun i _ => ?_
  split <;> simp

theorem over_inv (v : Fin n → K) (idx : List (Fin n)) (h : idx.Nodup) :
    over idx (fun k => 1 / v k) = wt v idx ⬝ᵥ ind idx := by
  rw [over_eq idx h]
  unfold dotProduct wt ind
  refine Finset.sum_congr rfl fun i _ => ?_
  split <;> simp

theorem wt_ind_disj (v : Fin n → K) (a b : List (Fin n)) (h : a.Disjoint b) :
    wt v a ⬝ᵥ ind b = 0 := by
  refine Finset.sum_eq_zero fun i _ => ?_
  unfold wt ind
  by_cases ha : i ∈ a
  · rw [if_neg (fun hb => h ha hb), mul_zero]
  · rw [if_neg ha, zero_mul]

theorem ind_wt_disj (v : Fin n → K) (a b : List (Fin n)) (h : a.Disjoint b) :
    ind a ⬝ᵥ wt v b = 0 := by
  rw [dotProduct_comm]; exact wt_ind_disj v b a h.symm

theorem ind_ind_disj (a b : List (Fin n)) (h : a.Disjoint b) :
    ind (K := K) a ⬝ᵥ ind b = 0 := by
  refine Finset.sum_eq_zero fun i _ => ?_
  unfold ind
  by_cases ha : i ∈ a
  · rw [if_neg (fun hb => h ha hb), mul_zero]
  · rw [if_neg ha, zero_mul]

theorem epochMat_eq (e : List (Fin n) × K) : epochMat e = e.2 • vecMulVec (ind e.1) (ind e.1) := by
  ext a b
  simp only [epochMat, of_apply, Matrix.smul_apply, vecMulVec_apply, ind, smul_eq_mul]
  by_cases ha : a ∈ e.1 <;> by_cases hb : b ∈ e.1 <;> simp [ha, hb]

theorem ecorrN_cons (e : List (Fin n) × K) (ep : List (List (Fin n) × K)) (v : Fin n → K) :
    ecorrN (e :: ep) v = ecorrN ep v + e.2 • vecMulVec (ind e.1) (ind e.1) := by
  unfold ecorrN
  rw [List.map_cons, List.sum_cons, epochMat_eq]
  abel

theorem smInv_cons (e : List (Fin n) × K) (ep : List (List (Fin n) × K)) (v : Fin n → K) :
    smInv (e :: ep) v = smInv ep v - beta v e • vecMulVec (wt v e.1) (wt v e.1) := by
  unfold smInv
  rw [List.map_cons, List.sum_cons]
  abel

theorem ecorrN_wt (ep : List (List (Fin n) × K)) (v : Fin n → K) (hv : ∀ i, v i ≠ 0)
    (a : List (Fin n)) (h : ∀ e ∈ ep, a.Disjoint e.1) : ecorrN ep v *ᵥ wt v a = ind a := by
  induction ep with
  | nil =>
    funext i
    simp only [ecorrN, List.map_nil, List.sum_nil, add_zero, mulVec_diagonal, wt, ind]
    split <;> simp [hv i]
  | cons e t ih =>
    rw [ecorrN_cons, add_mulVec, ih fun f hf => h f (List.mem_cons_of_mem _ hf), smul_mulVec,
      vecMulVec_mulVec, ind_wt_disj v e.1 a (h e List.mem_cons_self).symm]
    simp

theorem ecorrN_symm (ep : List (List (Fin n) × K)) (v : Fin n → K) :
    (ecorrN ep v)ᵀ = ecorrN ep v := by
  induction ep with
  | nil => simp [ecorrN]
  | cons e t ih => rw [ecorrN_cons, transpose_add, ih, transpose_smul, transpose_vecMulVec]

theorem smInv_symm (ep : List (List (Fin n) × K)) (v : Fin n → K) :
    (smInv ep v)ᵀ = smInv ep v := by
  induction ep with
  | nil => simp [smInv]
  | cons e t ih => rw [smInv_cons, transpose_sub, ih, transpose_smul, transpose_vecMulVec]

theorem smInv_ind (ep : List (List (Fin n) × K)) (v : Fin n → K)
    (a : List (Fin n)) (h : ∀ e ∈ ep, a.Disjoint e.1) : smInv ep v *ᵥ ind a = wt v a := by
  induction ep with
  | nil =>
    funext i
    simp only [smInv, List.map_nil, List.sum_nil, sub_zero, mulVec_diagonal, wt, ind]
    split <;> simp
  | cons e t ih =>
    rw [smInv_cons, sub_mulVec, ih fun f hf => h f (List.mem_cons_of_mem _ hf), smul_mulVec,
      vecMulVec_mulVec, wt_ind_disj v e.1 a (h e List.mem_cons_self).symm]
    simp

/-- The number `1 + j sum(1 / nvec[idx])` of one epoch. -/
def gain (v : Fin n → K) (e : List (Fin n) × K) : K := 1 + e.2 * (wt v e.1 ⬝ᵥ ind e.1)

theorem beta_eq (v : Fin n → K) (e : List (Fin n) × K) (hn : e.1.Nodup) (hj : e.2 ≠ 0) :
    beta v e = e.2 / gain v e := by
  unfold beta
  rw [over_inv v e.1 hn]
  unfold gain
  have : wt v e.1 ⬝ᵥ ind e.1 + 1 / e.2 = (1 + e.2 * (wt v e.1 ⬝ᵥ ind e.1)) / e.2 := by
    field_simp; ring
  rw [this, one_div_div]

/-- The closed form is the inverse. -/
theorem ecorrN_mul_smInv (ep : List (List (Fin n) × K)) (v : Fin n → K) (hv : ∀ i, v i ≠ 0)
    (he : Epochs ep) (hj : ∀ e ∈ ep, e.2 ≠ 0) (hg : ∀ e ∈ ep, gain v e ≠ 0) :
    ecorrN ep v * smInv ep v = 1 := by
  induction ep with
  | nil =>
    simp only [ecorrN, smInv, List.map_nil, List.sum_nil, add_zero, sub_zero, diagonal_mul_diagonal]
    ext i j
    by_cases h : i = j
    · subst h; simp [hv i]
    · simp [h]
  | cons e t ih =>
    have hd := List.pairwise_cons.1 he.disj
    have ih' := ih ⟨fun f hf => he.nodup f (List.mem_cons_of_mem _ hf), hd.2⟩
      (fun f hf => hj f (List.mem_cons_of_mem _ hf)) (fun f hf => hg f (List.mem_cons_of_mem _ hf))
    have h1 := ecorrN_wt t v hv e.1 hd.1
    have h2 : ind e.1 ᵥ* smInv t v = wt v e.1 := by
      rw [← mulVec_transpose, smInv_symm, smInv_ind t v e.1 hd.1]
    have hb := beta_eq v e (he.nodup e List.mem_cons_self) (hj e List.mem_cons_self)
    have hge := hg e List.mem_cons_self
    rw [ecorrN_cons, smInv_cons, add_mul, mul_sub, mul_sub, ih', mul_smul_comm, mul_vecMulVec, h1,
      smul_mul_assoc, vecMulVec_mul, h2, smul_mul_assoc, mul_smul_comm, vecMulVec_mul_vecMulVec]
    have hgd : gain v e = 1 + e.2 * (ind e.1 ⬝ᵥ wt v e.1) := by
      rw [dotProduct_comm]; rfl
    ext a b
    simp only [Matrix.add_apply, Matrix.sub_apply, Matrix.smul_apply, vecMulVec_apply, smul_eq_mul, Pi.smul_apply,
      op_smul_eq_mul]
    rw [hb]
    have : e.2 - e.2 / gain v e - e.2 * (e.2 / gain v e) * (ind e.1 ⬝ᵥ wt v e.1) = 0 := by
      field_simp
      rw [hgd]; ring
    linear_combination (ind e.1 a * wt v e.1 b) * this

/-- The determinant. -/
theorem ecorrN_det (ep : List (List (Fin n) × K)) (v : Fin n → K) (hv : ∀ i, v i ≠ 0)
    (he : Epochs ep) (hj : ∀ e ∈ ep, e.2 ≠ 0) (hg : ∀ e ∈ ep, gain v e ≠ 0) :
    (ecorrN ep v).det = (∏ i, v i) * (ep.map (gain v)).prod := by
  induction ep with
  | nil => simp [ecorrN]
  | cons e t ih =>
    have hd := List.pairwise_cons.1 he.disj
    have het : Epochs t := ⟨fun f hf => he.nodup f (List.mem_cons_of_mem _ hf), hd.2⟩
    have hjt := fun f hf => hj f (List.mem_cons_of_mem _ hf)
    have hgt := fun f hf => hg f (List.mem_cons_of_mem _ hf)
    have hinv := ecorrN_mul_smInv t v hv het hjt hgt
    have hunit : IsUnit (ecorrN t v).det := isUnit_det_of_right_inverse hinv
    rw [ecorrN_cons, ← smul_vecMulVec, vecMulVec_eq Unit, det_add_replicateCol_mul_replicateRow hunit,
      ih het hjt hgt, inv_eq_right_inv hinv, Matrix.mul_assoc]
    have : (smInv t v) * replicateCol Unit (e.2 • ind e.1) =
        replicateCol Unit (e.2 • wt v e.1) := by
      rw [← replicateCol_mulVec, mulVec_smul, smInv_ind t v e.1 hd.1]
    rw [this, det_unique, Matrix.add_apply, one_apply_eq, List.map_cons, List.prod_cons,
      replicateRow_mul_replicateCol_apply]
    unfold gain
    rw [dotProduct_smul, dotProduct_comm]
    simp only [smul_eq_mul]
    ring

/-! ### The loops -/

theorem solveD1_eq (ep : List (List (Fin n) × K)) (v x : Fin n → K) (he : ∀ e ∈ ep, e.1.Nodup)
    (hl : ∀ e ∈ ep, 2 ≤ e.1.length) : solveD1 ep v x = smInv ep v *ᵥ x := by
  have key : ∀ (ep : List (List (Fin n) × K)) (acc : Fin n → K), (∀ e ∈ ep, e.1.Nodup) →
      (∀ e ∈ ep, 2 ≤ e.1.length) → ep.foldl (stepD1 v x) acc =
        acc - (ep.map fun e => beta v e • vecMulVec (wt v e.1) (wt v e.1)).sum *ᵥ x := by
    intro ep
    induction ep with
    | nil => intro acc _ _; simp
    | cons e t ih =>
      intro acc hn hl
      rw [List.foldl_cons, ih _ (fun f hf => hn f (List.mem_cons_of_mem _ hf))
        (fun f hf => hl f (List.mem_cons_of_mem _ hf)), List.map_cons, List.sum_cons, add_mulVec,
        smul_mulVec, vecMulVec_mulVec]
      have : stepD1 v x acc e = acc - beta v e • (MulOpposite.op (wt v e.1 ⬝ᵥ x) • wt v e.1) := by
        have h2 := hl e List.mem_cons_self
        funext i
        unfold stepD1
        rw [if_pos (by omega), over_wt v e.1 (hn e List.mem_cons_self)]
        simp only [Pi.sub_apply, Pi.smul_apply, op_smul_eq_mul, smul_eq_mul]
        by_cases hi : i ∈ e.1
        · rw [if_pos hi]; simp only [wt, if_pos hi]; ring
        · rw [if_neg hi]; simp only [wt, if_neg hi]; ring
      rw [this]; abel
  unfold solveD1 smInv
  rw [key ep _ he hl, sub_mulVec]
  congr 1
  funext i
  rw [mulVec_diagonal]; ring

theorem solve1D1_eq (ep : List (List (Fin n) × K)) (v x y : Fin n → K) (he : ∀ e ∈ ep, e.1.Nodup)
    (hl : ∀ e ∈ ep, 2 ≤ e.1.length) : solve1D1 ep v x y = y ⬝ᵥ (smInv ep v *ᵥ x) := by
  have key : ∀ (ep : List (List (Fin n) × K)) (acc : K), (∀ e ∈ ep, e.1.Nodup) →
      (∀ e ∈ ep, 2 ≤ e.1.length) → ep.foldl (fun yNx e =>
      if 1 < e.1.length then
        yNx - beta v e * over e.1 (fun k => 1 / v k * x k) *
          over e.1 (fun k => 1 / v k * y k)
      else yNx) acc =
        acc - y ⬝ᵥ ((ep.map fun e => beta v e • vecMulVec (wt v e.1) (wt v e.1)).sum *ᵥ x) := by
    intro ep
    induction ep with
    | nil => intro acc _ _; simp
    | cons e t ih =>
      intro acc hn hl
      have h2 := hl e List.mem_cons_self
      rw [List.foldl_cons, ih _ (fun f hf => hn f (List.mem_cons_of_mem _ hf))
        (fun f hf => hl f (List.mem_cons_of_mem _ hf)), List.map_cons, List.sum_cons, add_mulVec,
        smul_mulVec, vecMulVec_mulVec, if_pos (by omega), over_wt v e.1 (hn e List.mem_cons_self),
        over_wt v e.1 (hn e List.mem_cons_self), dotProduct_add, dotProduct_smul,
        dotProduct_smul, dotProduct_comm y (wt v e.1)]
      simp only [op_smul_eq_mul, smul_eq_mul]
      ring
  unfold solve1D1 smInv
  rw [key ep _ he hl, sub_mulVec, dotProduct_sub]
  congr 1
  unfold dotProduct
  refine Finset.sum_congr rfl fun i _ => ?_
  rw [mulVec_diagonal]; ring

theorem solve2D2_eq {m p : Nat} (ep : List (List (Fin n) × K)) (v : Fin n → K)
    (X : Matrix (Fin n) (Fin m) K) (Z : Matrix (Fin n) (Fin p) K) (he : ∀ e ∈ ep, e.1.Nodup)
    (hl : ∀ e ∈ ep, 2 ≤ e.1.length) : solve2D2 ep v X Z = Zᵀ * (smInv ep v * X) := by
  have key : ∀ (ep : List (List (Fin n) × K)) (acc : Matrix (Fin p) (Fin m) K),
      (∀ e ∈ ep, e.1.Nodup) → (∀ e ∈ ep, 2 ≤ e.1.length) → ep.foldl (step2D2 v X Z) acc =
        acc - Zᵀ * ((ep.map fun e => beta v e • vecMulVec (wt v e.1) (wt v e.1)).sum * X) := by
    intro ep
    induction ep with
    | nil => intro acc _ _; simp
    | cons e t ih =>
      intro acc hn hl
      have h2 := hl e List.mem_cons_self
      rw [List.foldl_cons, ih _ (fun f hf => hn f (List.mem_cons_of_mem _ hf))
        (fun f hf => hl f (List.mem_cons_of_mem _ hf)), List.map_cons, List.sum_cons,
        Matrix.add_mul, Matrix.mul_add, Matrix.smul_mul, vecMulVec_mul, Matrix.mul_smul,
        mul_vecMulVec, ← sub_sub]
      congr 1
      ext a b
      unfold step2D2
      rw [if_pos (by omega), of_apply, over_wt v e.1 (hn e List.mem_cons_self),
        over_wt v e.1 (hn e List.mem_cons_self), Matrix.sub_apply, Matrix.smul_apply,
        vecMulVec_apply, dotProduct_comm _ fun k => Z k a]
      rfl
  unfold solve2D2 smInv
  rw [key ep _ he hl, Matrix.sub_mul, Matrix.mul_sub]
  congr 1
  ext a b
  rw [Matrix.mul_apply, of_apply]
  refine Finset.sum_congr rfl fun i _ => ?_
  rw [diagonal_mul, transpose_apply]; ring

end Field

/-! ### Block matrices -/

section Block

variable {n : Nat}

/-- The covariance meant by a `BlockMatrix`: the diagonal and the blocks, each on its rows. -/
def blockN (bl : List (List (Fin n) × (Nat → Nat → ℝ))) (v : Fin n → ℝ) :
    Matrix (Fin n) (Fin n) ℝ :=
  diagonal v + (bl.map fun e => of fun a b =>
    if a ∈ e.1 ∧ b ∈ e.1 then e.2 (e.1.idxOf a) (e.1.idxOf b) else 0).sum

/-- Column selection of a block. -/
def sel (idx : List (Fin n)) : Matrix (Fin n) (Fin idx.length) ℝ :=
  of fun i p => if idx.get p = i then 1 else 0

/-- The block without the diagonal. -/
def rawMat (e : List (Fin n) × (Nat → Nat → ℝ)) : Matrix (Fin e.1.length) (Fin e.1.length) ℝ :=
  of fun p q => e.2 p q

theorem blockMat_eq (v : Fin n → ℝ) (e : List (Fin n) × (Nat → Nat → ℝ)) :
    blockMat v e = rawMat e + diagonal (v ∘ e.1.get) := by
  ext p q
  simp only [blockMat, rawMat, of_apply, Matrix.add_apply, diagonal_apply, Function.comp]

theorem selT_mul {m : Nat} (idx : List (Fin n)) (X : Matrix (Fin n) (Fin m) ℝ) :
    (sel idx)ᵀ * X = X.submatrix idx.get id := by
  ext p b
  simp [Matrix.mul_apply, sel]

theorem selT_sel (idx : List (Fin n)) (h : idx.Nodup) : (sel idx)ᵀ * sel idx = 1 := by
  rw [selT_mul]
  ext p q
  simp only [submatrix_apply, sel, of_apply, id, Matrix.one_apply]
  by_cases hpq : p = q
  · subst hpq; simp
  · rw [if_neg hpq, if_neg]
    intro h'
    exact hpq (List.nodup_iff_injective_get.1 h h').symm

theorem selT_sel_disj (a b : List (Fin n)) (h : a.Disjoint b) : (sel a)ᵀ * sel b = 0 := by
  rw [selT_mul]
  ext p q
  simp only [submatrix_apply, sel, of_apply, id, Matrix.zero_apply]
  rw [if_neg]
  intro h'
  exact h (List.get_mem a p) (h' ▸ List.get_mem b q)

theorem diag_sel (w : Fin n → ℝ) (idx : List (Fin n)) :
    diagonal w * sel idx = sel idx * diagonal (w ∘ idx.get) := by
  ext i p
  simp only [diagonal_mul, mul_diagonal, sel, of_apply, Function.comp]
  split
  · rename_i h; rw [h]; ring
  · ring

theorem selT_diag (w : Fin n → ℝ) (idx : List (Fin n)) :
    (sel idx)ᵀ * diagonal w = diagonal (w ∘ idx.get) * (sel idx)ᵀ := by
  have := congrArg Matrix.transpose (diag_sel w idx)
  rwa [transpose_mul, transpose_mul, diagonal_transpose, diagonal_transpose] at this

theorem sel_mul_in {m : Nat} (idx : List (Fin n)) (hn : idx.Nodup)
    (B : Matrix (Fin idx.length) (Fin m) ℝ)
    (i : Fin n) (b : Fin m) (h : i ∈ idx) :
    (sel idx * B) i b = B ⟨idx.idxOf i, List.idxOf_lt_length_iff.2 h⟩ b := by
  rw [Matrix.mul_apply, Finset.sum_eq_single ⟨idx.idxOf i, List.idxOf_lt_length_iff.2 h⟩]
  · simp [sel]
  · intro p _ hp
    simp only [sel, of_apply]
    rw [if_neg, zero_mul]
    intro h'
    apply hp
    apply List.nodup_iff_injective_get.1 hn
    rw [h']; simp
  · simp

theorem sel_mul_out {m : Nat} (idx : List (Fin n)) (B : Matrix (Fin idx.length) (Fin m) ℝ)
    (i : Fin n) (b : Fin m) (h : i ∉ idx) : (sel idx * B) i b = 0 := by
  rw [Matrix.mul_apply]
  refine Finset.sum_eq_zero fun p _ => ?_
  simp only [sel, of_apply]
  rw [if_neg, zero_mul]
  intro h'
  exact h (h' ▸ List.get_mem idx p)

theorem embed (e : List (Fin n) × (Nat → Nat → ℝ)) (hn : e.1.Nodup) :
    (of fun a b => if a ∈ e.1 ∧ b ∈ e.1 then e.2 (e.1.idxOf a) (e.1.idxOf b) else 0) =
      sel e.1 * rawMat e * (sel e.1)ᵀ := by
  ext a b
  rw [of_apply, Matrix.mul_assoc]
  by_cases ha : a ∈ e.1
  · rw [sel_mul_in _ hn _ _ _ ha, ← transpose_apply (rawMat e * _), transpose_mul,
      transpose_transpose]
    by_cases hb : b ∈ e.1
    · rw [sel_mul_in _ hn _ _ _ hb, if_pos ⟨ha, hb⟩]; rfl
    · rw [sel_mul_out _ _ _ _ hb, if_neg (fun h => hb h.2)]
  · rw [sel_mul_out _ _ _ _ ha, if_neg (fun h => ha h.1)]

theorem blockN_cons (e : List (Fin n) × (Nat → Nat → ℝ))
    (t : List (List (Fin n) × (Nat → Nat → ℝ))) (v : Fin n → ℝ) (hn : e.1.Nodup) :
    blockN (e :: t) v = blockN t v + sel e.1 * rawMat e * (sel e.1)ᵀ := by
  unfold blockN
  rw [List.map_cons, List.sum_cons, embed e hn]
  abel

/-- The closed form of the inverse. -/
noncomputable def blockInv (bl : List (List (Fin n) × (Nat → Nat → ℝ))) (v : Fin n → ℝ) :
    Matrix (Fin n) (Fin n) ℝ :=
  diagonal (fun i => 1 / v i) + (bl.map fun e => sel e.1 *
    ((blockMat v e)⁻¹ - diagonal ((fun i => 1 / v i) ∘ e.1.get)) * (sel e.1)ᵀ).sum

theorem blockInv_cons (e : List (Fin n) × (Nat → Nat → ℝ))
    (t : List (List (Fin n) × (Nat → Nat → ℝ))) (v : Fin n → ℝ) :
    blockInv (e :: t) v = blockInv t v + sel e.1 *
      ((blockMat v e)⁻¹ - diagonal ((fun i => 1 / v i) ∘ e.1.get)) * (sel e.1)ᵀ := by
  unfold blockInv
  rw [List.map_cons, List.sum_cons]
  abel

theorem blockN_sel (bl : List (List (Fin n) × (Nat → Nat → ℝ))) (v : Fin n → ℝ)
    (hn : ∀ e ∈ bl, e.1.Nodup) (a : List (Fin n)) (h : ∀ e ∈ bl, a.Disjoint e.1) :
    blockN bl v * sel a = sel a * diagonal (v ∘ a.get) := by
  induction bl with
  | nil => simp only [blockN, List.map_nil, List.sum_nil, add_zero, diag_sel]
  | cons e t ih =>
    rw [blockN_cons e t v (hn e List.mem_cons_self), Matrix.add_mul,
      ih (fun f hf => hn f (List.mem_cons_of_mem _ hf)) fun f hf => h f (List.mem_cons_of_mem _ hf),
      Matrix.mul_assoc, selT_sel_disj _ _ (h e List.mem_cons_self).symm]
    simp

theorem selT_blockInv (bl : List (List (Fin n) × (Nat → Nat → ℝ))) (v : Fin n → ℝ)
    (a : List (Fin n)) (h : ∀ e ∈ bl, a.Disjoint e.1) :
    (sel a)ᵀ * blockInv bl v = diagonal ((fun i => 1 / v i) ∘ a.get) * (sel a)ᵀ := by
  induction bl with
  | nil => simp only [blockInv, List.map_nil, List.sum_nil, add_zero, selT_diag]
  | cons e t ih =>
    rw [blockInv_cons, Matrix.mul_add, ih fun f hf => h f (List.mem_cons_of_mem _ hf),
      ← Matrix.mul_assoc, ← Matrix.mul_assoc, selT_sel_disj _ _ (h e List.mem_cons_self)]
    simp

theorem blockInv_sel (bl : List (List (Fin n) × (Nat → Nat → ℝ))) (v : Fin n → ℝ)
    (a : List (Fin n)) (h : ∀ e ∈ bl, a.Disjoint e.1) :
    blockInv bl v * sel a = sel a * diagonal ((fun i => 1 / v i) ∘ a.get) := by
  induction bl with
  | nil => simp only [blockInv, List.map_nil, List.sum_nil, add_zero, diag_sel]
  | cons e t ih =>
    rw [blockInv_cons, Matrix.add_mul, ih fun f hf => h f (List.mem_cons_of_mem _ hf),
      Matrix.mul_assoc, selT_sel_disj _ _ (h e List.mem_cons_self).symm]
    simp

theorem diag_inv (v : Fin n → ℝ) (hv : ∀ i, v i ≠ 0) (a : List (Fin n)) :
    diagonal (v ∘ a.get) * diagonal ((fun i => 1 / v i) ∘ a.get) = 1 := by
  rw [diagonal_mul_diagonal, ← diagonal_one]
  congr 1
  funext p
  simp [hv]

theorem blockN_mul_blockInv (bl : List (List (Fin n) × (Nat → Nat → ℝ))) (v : Fin n → ℝ)
    (hv : ∀ i, v i ≠ 0) (he : Epochs bl) (hp : ∀ e ∈ bl, (blockMat v e).PosDef) :
    blockN bl v * blockInv bl v = 1 := by
  induction bl with
  | nil =>
    simp only [blockN, blockInv, List.map_nil, List.sum_nil, add_zero, diagonal_mul_diagonal]
    rw [← diagonal_one]
    congr 1
    funext i
    simp [hv]
  | cons e t ih =>
    have hd := List.pairwise_cons.1 he.disj
    have hne := he.nodup e List.mem_cons_self
    have hnt := fun f hf => he.nodup f (List.mem_cons_of_mem _ hf)
    have ih' := ih ⟨hnt, hd.2⟩ (fun f hf => hp f (List.mem_cons_of_mem _ hf))
    have hA : blockMat v e * (blockMat v e)⁻¹ = 1 :=
      mul_nonsing_inv _ (isUnit_iff_ne_zero.2 (hp e List.mem_cons_self).det_pos.ne')
    rw [blockN_cons e t v hne, blockInv_cons, Matrix.add_mul, Matrix.mul_add, Matrix.mul_add, ih']
    have h1 := blockN_sel t v hnt e.1 hd.1
    have h2 := selT_blockInv t v e.1 hd.1
    have h3 := selT_sel e.1 hne
    have h4 := diag_inv v hv e.1
    set P := sel e.1
    set D := diagonal (v ∘ e.1.get)
    set I := diagonal ((fun i => 1 / v i) ∘ e.1.get)
    set A := blockMat v e
    set B := rawMat e
    have hAB : A = B + D := blockMat_eq v e
    have t1 : blockN t v * (P * (A⁻¹ - I) * Pᵀ) = P * (D * (A⁻¹ - I)) * Pᵀ := by
      rw [← Matrix.mul_assoc, ← Matrix.mul_assoc, h1, Matrix.mul_assoc P D]
    have t2 : P * B * Pᵀ * blockInv t v = P * (B * I) * Pᵀ := by
      rw [Matrix.mul_assoc (P * B), h2, ← Matrix.mul_assoc, Matrix.mul_assoc P B]
    have t3 : P * B * Pᵀ * (P * (A⁻¹ - I) * Pᵀ) = P * (B * (A⁻¹ - I)) * Pᵀ := by
      rw [Matrix.mul_assoc (P * B), Matrix.mul_assoc P (A⁻¹ - I), ← Matrix.mul_assoc Pᵀ, h3,
        Matrix.one_mul, ← Matrix.mul_assoc, Matrix.mul_assoc P B]
    rw [t1, t2, t3]
    have : D * (A⁻¹ - I) + (B * I + B * (A⁻¹ - I)) = 0 := by
      have : D * (A⁻¹ - I) + (B * I + B * (A⁻¹ - I)) = (B + D) * A⁻¹ - D * I := by
        rw [Matrix.mul_sub, Matrix.mul_sub, Matrix.add_mul]; abel
      rw [this, ← hAB, hA, h4, sub_self]
    have h5 : P * (D * (A⁻¹ - I)) * Pᵀ + (P * (B * I) * Pᵀ + P * (B * (A⁻¹ - I)) * Pᵀ) = 0 := by
      rw [← Matrix.add_mul, ← Matrix.mul_add, ← Matrix.add_mul, ← Matrix.mul_add, this]
      simp
    rw [add_assoc, h5, add_zero]

theorem blockN_det (bl : List (List (Fin n) × (Nat → Nat → ℝ))) (v : Fin n → ℝ)
    (hv : ∀ i, v i ≠ 0) (he : Epochs bl) (hp : ∀ e ∈ bl, (blockMat v e).PosDef) :
    (blockN bl v).det =
      (∏ i, v i) * (bl.map fun e => (blockMat v e).det * (e.1.map fun i => 1 / v i).prod).prod := by
  induction bl with
  | nil => simp [blockN]
  | cons e t ih =>
    have hd := List.pairwise_cons.1 he.disj
    have hne := he.nodup e List.mem_cons_self
    have hnt := fun f hf => he.nodup f (List.mem_cons_of_mem _ hf)
    have hpt := (fun f hf => hp f (List.mem_cons_of_mem _ hf))
    have hinv := blockN_mul_blockInv t v hv ⟨hnt, hd.2⟩ hpt
    rw [blockN_cons e t v hne, Matrix.mul_assoc, det_add_mul _ _ (isUnit_det_of_right_inverse hinv),
      ih ⟨hnt, hd.2⟩ hpt, inv_eq_right_inv hinv, Matrix.mul_assoc, blockInv_sel t v e.1 hd.1,
      Matrix.mul_assoc, ← Matrix.mul_assoc _ (sel e.1), selT_sel e.1 hne, Matrix.one_mul,
      ← diag_inv v hv e.1, ← Matrix.add_mul, add_comm (diagonal _), ← blockMat_eq, det_mul,
      det_diagonal, List.map_cons, List.prod_cons]
    have : (e.1.map fun i => 1 / v i).prod = ∏ p, ((fun i => 1 / v i) ∘ e.1.get) p := by
      rw [← List.prod_ofFn]
      congr 1
      conv_lhs => rw [← List.ofFn_get e.1]
      rw [List.map_ofFn]
    rw [this]; ring

theorem outside_cons (e : List (Fin n) × (Nat → Nat → ℝ))
    (t : List (List (Fin n) × (Nat → Nat → ℝ))) (i : Fin n) :
    outside (e :: t) i = (decide (i ∉ e.1) && outside t i) := rfl

theorem outside_of_disj (t : List (List (Fin n) × (Nat → Nat → ℝ))) (a : List (Fin n)) (i : Fin n)
    (hi : i ∈ a) (h : ∀ e ∈ t, a.Disjoint e.1) : outside t i = true := by
  unfold outside
  rw [List.all_eq_true]
  intro e he
  exact decide_eq_true fun h' => h e he hi h'

theorem sum_outside (bl : List (List (Fin n) × (Nat → Nat → ℝ))) (he : Epochs bl)
    (f : Fin n → ℝ) :
    (∑ i, if outside bl i then f i else 0) = ∑ i, f i - (bl.map fun e => over e.1 f).sum := by
  induction bl with
  | nil => simp [outside]
  | cons e t ih =>
    have hd := List.pairwise_cons.1 he.disj
    have hne := he.nodup e List.mem_cons_self
    have hnt := fun f hf => he.nodup f (List.mem_cons_of_mem _ hf)
    rw [List.map_cons, List.sum_cons, over_eq e.1 hne]
    have h2 := ih ⟨hnt, hd.2⟩
    have : (∑ i, if outside t i then f i else 0) =
        (∑ i, if outside (e :: t) i then f i else 0) + ∑ i, if i ∈ e.1 then f i else 0 := by
      rw [← Finset.sum_add_distrib]
      refine Finset.sum_congr rfl fun i _ => ?_
      rw [outside_cons]
      by_cases hi : i ∈ e.1
      · simp [hi, outside_of_disj t e.1 i hi hd.1]
      · simp [hi]
    rw [this] at h2
    linarith

theorem over_get (idx : List (Fin n)) (f : Fin n → ℝ) : over idx f = ∑ p, f (idx.get p) := by
  unfold over
  rw [← List.sum_ofFn]
  congr 1
  conv_lhs => rw [← List.ofFn_get idx]
  rw [List.map_ofFn]; rfl

/-- `Zᵀ R X` written as the code adds it up. -/
theorem blockInv_quad {m p : Nat} (bl : List (List (Fin n) × (Nat → Nat → ℝ))) (v : Fin n → ℝ)
    (X : Matrix (Fin n) (Fin m) ℝ) (Z : Matrix (Fin n) (Fin p) ℝ) (he : Epochs bl) :
    Zᵀ * (blockInv bl v * X) =
      (bl.map fun e => (Z.submatrix e.1.get id)ᵀ *
        ((blockMat v e)⁻¹ * X.submatrix e.1.get id)).sum +
      of fun a b => ∑ i, if outside bl i then Z i a * (X i b / v i) else 0 := by
  have h1 : (of fun a b => ∑ i, if outside bl i then Z i a * (X i b / v i) else 0) =
      Zᵀ * (diagonal (fun i => 1 / v i) * X) - (bl.map fun e => (Z.submatrix e.1.get id)ᵀ *
        (diagonal ((fun i => 1 / v i) ∘ e.1.get) * X.submatrix e.1.get id)).sum := by
    ext a b
    rw [of_apply, sum_outside bl he, Matrix.sub_apply]
    congr 1
    · rw [Matrix.mul_apply]
      refine Finset.sum_congr rfl fun i _ => ?_
      rw [diagonal_mul, transpose_apply]; ring
    · clear he
      induction bl with
      | nil => simp
      | cons e t ih =>
        rw [List.map_cons, List.sum_cons, List.map_cons, List.sum_cons, ih, Matrix.add_apply]
        congr 1
        rw [over_get, Matrix.mul_apply]
        refine Finset.sum_congr rfl fun i _ => ?_
        rw [diagonal_mul, transpose_apply]
        simp only [submatrix_apply, id, Function.comp]; ring
  rw [h1]
  unfold blockInv
  rw [Matrix.add_mul, Matrix.mul_add]
  have h2 : Zᵀ * ((bl.map fun e => sel e.1 *
      ((blockMat v e)⁻¹ - diagonal ((fun i => 1 / v i) ∘ e.1.get)) * (sel e.1)ᵀ).sum * X) =
      (bl.map fun e => (Z.submatrix e.1.get id)ᵀ *
        ((blockMat v e)⁻¹ * X.submatrix e.1.get id)).sum -
      (bl.map fun e => (Z.submatrix e.1.get id)ᵀ *
        (diagonal ((fun i => 1 / v i) ∘ e.1.get) * X.submatrix e.1.get id)).sum := by
    clear h1 he
    induction bl with
    | nil => simp
    | cons e t ih =>
      simp only [List.map_cons, List.sum_cons]
      rw [Matrix.add_mul, Matrix.mul_add, ih, Matrix.mul_assoc _ (sel e.1)ᵀ, selT_mul,
        Matrix.mul_assoc (sel e.1), ← Matrix.mul_assoc Zᵀ]
      have : Zᵀ * sel e.1 = (Z.submatrix e.1.get id)ᵀ := by
        rw [← selT_mul, transpose_mul, transpose_transpose]
      rw [this, Matrix.sub_mul, Matrix.mul_sub]
      abel
  rw [h2]; abel

theorem blockZNXLoop_ok {m p : Nat} (v : Fin n → ℝ) (X : Matrix (Fin n) (Fin m) ℝ)
    (Z : Matrix (Fin n) (Fin p) ℝ) (bl : List (List (Fin n) × (Nat → Nat → ℝ)))
    (hl : ∀ e ∈ bl, 2 ≤ e.1.length) (hp : ∀ e ∈ bl, (blockMat v e).PosDef)
    (acc : Matrix (Fin p) (Fin m) ℝ) :
    blockZNXLoop v X Z bl acc = .ok (acc + (bl.map fun e => (Z.submatrix e.1.get id)ᵀ *
      ((blockMat v e)⁻¹ * X.submatrix e.1.get id)).sum) := by
  induction bl generalizing acc with
  | nil => simp [blockZNXLoop]
  | cons e t ih =>
    have h2 := hl e List.mem_cons_self
    unfold blockZNXLoop blockTerm
    rw [if_pos (by omega), if_pos (hp e List.mem_cons_self)]
    simp only
    rw [ih (fun f hf => hl f (List.mem_cons_of_mem _ hf))
      (fun f hf => hp f (List.mem_cons_of_mem _ hf)), List.map_cons, List.sum_cons, add_assoc]

theorem blockInv_row {m : Nat} (bl : List (List (Fin n) × (Nat → Nat → ℝ))) (v : Fin n → ℝ)
    (X : Matrix (Fin n) (Fin m) ℝ) (i : Fin n) (b : Fin m) (h : outside bl i = true) :
    (blockInv bl v * X) i b = X i b / v i := by
  induction bl with
  | nil =>
    simp only [blockInv, List.map_nil, List.sum_nil, add_zero, diagonal_mul]; ring
  | cons e t ih =>
    rw [outside_cons, Bool.and_eq_true, decide_eq_true_iff] at h
    rw [blockInv_cons, Matrix.add_mul, Matrix.add_apply, ih h.2, Matrix.mul_assoc,
      Matrix.mul_assoc, sel_mul_out _ _ _ _ h.1, add_zero]

theorem blockNXLoop_ok {m : Nat} (v : Fin n → ℝ) (X : Matrix (Fin n) (Fin m) ℝ)
    (bl : List (List (Fin n) × (Nat → Nat → ℝ))) (he : Epochs bl)
    (hl : ∀ e ∈ bl, 2 ≤ e.1.length) (hp : ∀ e ∈ bl, (blockMat v e).PosDef)
    (acc : Matrix (Fin n) (Fin m) ℝ) :
    blockNXLoop v X bl acc =
      .ok (of fun i b => if outside bl i then acc i b else (blockInv bl v * X) i b) := by
  induction bl generalizing acc with
  | nil => rfl
  | cons e t ih =>
    have h2 := hl e List.mem_cons_self
    have hd := List.pairwise_cons.1 he.disj
    have hne := he.nodup e List.mem_cons_self
    have hnt := fun f hf => he.nodup f (List.mem_cons_of_mem _ hf)
    unfold blockNXLoop
    rw [if_pos (by omega), if_pos (hp e List.mem_cons_self), ih ⟨hnt, hd.2⟩
      (fun f hf => hl f (List.mem_cons_of_mem _ hf))
      (fun f hf => hp f (List.mem_cons_of_mem _ hf))]
    congr 1
    ext i b
    simp only [of_apply]
    rw [outside_cons, blockInv_cons, Matrix.add_mul, Matrix.add_apply]
    by_cases hi : i ∈ e.1
    · have ho := outside_of_disj t e.1 i hi hd.1
      rw [ho, if_pos rfl, dif_pos hi, blockInv_row t v X i b ho, Matrix.mul_assoc, Matrix.mul_assoc,
        sel_mul_in _ hne _ _ _ hi, selT_mul, Matrix.sub_mul, Matrix.sub_apply, diagonal_mul]
      simp only [hi, not_true_eq_false, decide_false, Bool.false_and, Bool.false_eq_true, if_false,
        submatrix_apply, id, Function.comp, List.get_eq_getElem, List.getElem_idxOf]
      ring
    · rw [Matrix.mul_assoc, Matrix.mul_assoc, sel_mul_out _ _ _ _ hi, add_zero, dif_neg hi]
      simp only [hi, not_false_eq_true, decide_true, Bool.true_and]

theorem blockLogdetLoop_ok (v : Fin n → ℝ) (bl : List (List (Fin n) × (Nat → Nat → ℝ)))
    (hl : ∀ e ∈ bl, 2 ≤ e.1.length) (hp : ∀ e ∈ bl, (blockMat v e).PosDef) (acc : ℝ) :
    blockLogdetLoop v bl acc =
      .ok (acc + (bl.map fun e => Real.log (blockMat v e).det).sum) := by
  induction bl generalizing acc with
  | nil => simp [blockLogdetLoop]
  | cons e t ih =>
    have h2 := hl e List.mem_cons_self
    unfold blockLogdetLoop
    rw [if_pos (by omega), if_pos (hp e List.mem_cons_self),
      ih (fun f hf => hl f (List.mem_cons_of_mem _ hf))
      (fun f hf => hp f (List.mem_cons_of_mem _ hf)), List.map_cons, List.sum_cons, add_assoc]

end Block

/-! ### C51 and C52 -/

section Real

variable {n : Nat}

theorem vecMulVec_posSemidef (a : Fin n → ℝ) (c : ℝ) (hc : 0 ≤ c) :
    (c • vecMulVec a a).PosSemidef := by
  have := posSemidef_vecMulVec_self_star a
  rw [star_trivial] at this
  exact this.smul hc

theorem ecorrN_posDef (ep : List (List (Fin n) × ℝ)) (v : Fin n → ℝ) (hv : ∀ i, 0 < v i)
    (hj : ∀ e ∈ ep, 0 ≤ e.2) : (ecorrN ep v).PosDef := by
  induction ep with
  | nil =>
    simp only [ecorrN, List.map_nil, List.sum_nil, add_zero]
    exact PosDef.diagonal hv
  | cons e t ih =>
    rw [ecorrN_cons]
    exact (ih fun f hf => hj f (List.mem_cons_of_mem _ hf)).add_posSemidef
      (vecMulVec_posSemidef _ _ (hj e List.mem_cons_self))

theorem gain_pos (v : Fin n → ℝ) (hv : ∀ i, 0 < v i) (e : List (Fin n) × ℝ) (hj : 0 ≤ e.2) :
    0 < gain v e := by
  unfold gain
  have : 0 ≤ wt v e.1 ⬝ᵥ ind e.1 := by
    refine Finset.sum_nonneg fun i _ => ?_
    unfold wt ind
    have := hv i
    split <;> simp [this.le]
  have := mul_nonneg hj this
  linarith

theorem ecorrN_inv (ep : List (List (Fin n) × ℝ)) (v : Fin n → ℝ) (hv : ∀ i, 0 < v i)
    (he : Epochs ep) (hj : ∀ e ∈ ep, 0 < e.2) : (ecorrN ep v)⁻¹ = smInv ep v :=
  inv_eq_right_inv (ecorrN_mul_smInv ep v (fun i => (hv i).ne') he (fun e h => (hj e h).ne')
    fun e h => (gain_pos v hv e (hj e h).le).ne')

/-- C51: for disjoint epochs of two or more TOAs, positive variances and positive amplitudes the
covariance is positive definite and every solve that `ShermanMorrison` implements (all but
`N⁻¹ X` for a two-dimensional `X`) is the solve of the covariance. -/
theorem C51_partial (ep : List (List (Fin n) × ℝ)) (v : Fin n → ℝ) (hv : ∀ i, 0 < v i)
    (he : Epochs ep) (hl : ∀ e ∈ ep, 2 ≤ e.1.length) (hj : ∀ e ∈ ep, 0 < e.2) :
    (ecorrN ep v).PosDef ∧ ∀ other left o, (∀ m X, other = .d2 m X → left ≠ none) →
      want (ecorrN ep v) other left = some o → smSolve ep v other left = .ok o := by
  refine ⟨ecorrN_posDef ep v hv fun e h => (hj e h).le, ?_⟩
  intro other left o hsup hw
  have hinv := ecorrN_inv ep v hv he hj
  unfold want at hw
  rw [hinv] at hw
  split at hw <;> simp only [Option.some.injEq, reduceCtorEq] at hw
  · subst hw; simp only [smSolve, solveD1_eq ep v _ he.nodup hl]
  · subst hw; simp only [smSolve, solve1D1_eq ep v _ _ he.nodup hl]
  · subst hw; simp only [smSolve, solveD1_eq ep v _ he.nodup hl]
  · exact absurd rfl (hsup _ _ rfl)
  · subst hw
    simp only [smSolve, solveD1_eq ep v _ he.nodup hl]
    rw [← vecMul_vecMul, ← mulVec_transpose, ← mulVec_transpose (smInv ep v), smInv_symm]
  · subst hw; simp only [smSolve, solve2D2_eq ep v _ _ he.nodup hl]

/-- The one solve that is missing says so. -/
theorem C51_missing (ep : List (List (Fin n) × ℝ)) (v : Fin n → ℝ) (m : Nat)
    (X : Matrix (Fin n) (Fin m) ℝ) : smSolve ep v (.d2 m X) none = .error .notImplementedError :=
  rfl

/-- C52: the log determinant. -/
theorem C52_partial (ep : List (List (Fin n) × ℝ)) (v : Fin n → ℝ) (hv : ∀ i, 0 < v i)
    (he : Epochs ep) (hl : ∀ e ∈ ep, 2 ≤ e.1.length) (hj : ∀ e ∈ ep, 0 < e.2) :
    smLogdet ep v = Real.log (ecorrN ep v).det := by
  rw [ecorrN_det ep v (fun i => (hv i).ne') he (fun e h => (hj e h).ne')
    fun e h => (gain_pos v hv e (hj e h).le).ne']
  have key : ∀ (ep : List (List (Fin n) × ℝ)) (acc : ℝ), 0 < acc → (∀ e ∈ ep, e.1.Nodup) →
      (∀ e ∈ ep, 2 ≤ e.1.length) → (∀ e ∈ ep, 0 < e.2) →
      ep.foldl (fun ld e =>
        if 1 < e.1.length then ld + (Real.log e.2 - Real.log (beta v e)) else ld) (Real.log acc) =
      Real.log (acc * (ep.map (gain v)).prod) := by
    intro ep
    induction ep with
    | nil => intro acc _ _ _ _; simp
    | cons e t ih =>
      intro acc ha hn hl hj
      have h2 := hl e List.mem_cons_self
      have hje := hj e List.mem_cons_self
      have hg := gain_pos v hv e hje.le
      rw [List.foldl_cons, if_pos (by omega), beta_eq v e (hn e List.mem_cons_self) hje.ne',
        Real.log_div hje.ne' hg.ne', sub_sub_cancel, ← Real.log_mul ha.ne' hg.ne',
        ih _ (mul_pos ha hg) (fun f hf => hn f (List.mem_cons_of_mem _ hf))
          (fun f hf => hl f (List.mem_cons_of_mem _ hf))
          (fun f hf => hj f (List.mem_cons_of_mem _ hf)), List.map_cons, List.prod_cons, mul_assoc]
  unfold smLogdet
  rw [← Real.log_prod fun i _ => (hv i).ne']
  exact key ep _ (Finset.prod_pos fun i _ => hv i) he.nodup hl hj

/-- The list of TOA numbers as it is used in the examples. -/
private def demoEp : List (List (Fin 5) × ℝ) := [([0, 2], 3), ([1, 3], 2)]

private theorem demoEp_ok : Epochs demoEp ∧ (∀ e ∈ demoEp, 2 ≤ e.1.length) ∧
    ∀ e ∈ demoEp, 0 < e.2 := by
  refine ⟨⟨?_, ?_⟩, ?_, ?_⟩ <;> simp [demoEp]

-- Five TOAs, two epochs of two TOAs, one TOA on its own: the hypotheses hold.
example : (∀ x, smSolve demoEp (fun _ => 1) (.d1 x) none =
      .ok (.vec 5 ((ecorrN demoEp fun _ => 1)⁻¹ *ᵥ x))) ∧
    smLogdet demoEp (fun _ => 1) = Real.log (ecorrN demoEp fun _ => 1).det :=
  ⟨fun x => (C51_partial demoEp (fun _ => 1) (fun _ => one_pos) demoEp_ok.1 demoEp_ok.2.1
      demoEp_ok.2.2).2 _ _ _ (by intro m X h; simp at h) rfl,
    C52_partial demoEp (fun _ => 1) (fun _ => one_pos) demoEp_ok.1 demoEp_ok.2.1 demoEp_ok.2.2⟩

/-- C51 and C52 fail for an epoch of a single TOA, whose amplitude is ignored. -/
theorem C51_single_false : ¬ ∀ (ep : List (List (Fin 1) × ℝ)) (v : Fin 1 → ℝ), (∀ i, 0 < v i) →
    Epochs ep → (∀ e ∈ ep, 0 < e.2) → ∀ x,
      smSolve ep v (.d1 x) none = .ok (.vec 1 ((ecorrN ep v)⁻¹ *ᵥ x)) := by
  intro h
  have := h [([0], 1)] (fun _ => 1) (fun _ => one_pos) ⟨by simp, by simp⟩ (by simp) fun _ => 1
  simp only [smSolve, solveD1, List.foldl_cons, List.foldl_nil, stepD1, List.length_singleton,
    Nat.lt_irrefl, if_false, Except.ok.injEq, Out.vec.injEq, heq_eq_eq, true_and] at this
  have h2 : ecorrN [([0], (1 : ℝ))] (fun _ : Fin 1 => (1 : ℝ)) = diagonal fun _ => 2 := by
    ext i j
    fin_cases i; fin_cases j
    simp [ecorrN, epochMat]; norm_num
  rw [h2] at this
  have h3 : (diagonal fun _ : Fin 1 => (2 : ℝ))⁻¹ = diagonal fun _ => 1 / 2 := by
    apply inv_eq_right_inv
    rw [diagonal_mul_diagonal, ← diagonal_one]; norm_num
  rw [h3] at this
  have := congrFun this 0
  rw [mulVec_diagonal] at this
  norm_num at this

theorem C52_single_false : ¬ ∀ (ep : List (List (Fin 1) × ℝ)) (v : Fin 1 → ℝ), (∀ i, 0 < v i) →
    Epochs ep → (∀ e ∈ ep, 0 < e.2) → smLogdet ep v = Real.log (ecorrN ep v).det := by
  intro h
  have := h [([0], 1)] (fun _ => 1) (fun _ => one_pos) ⟨by simp, by simp⟩ (by simp)
  simp only [smLogdet, List.foldl_cons, List.foldl_nil, List.length_singleton,
    Nat.lt_irrefl, if_false] at this
  have h2 : (ecorrN [([0], (1 : ℝ))] (fun _ : Fin 1 => (1 : ℝ))).det = 2 := by
    simp [ecorrN, epochMat]; norm_num
  rw [h2] at this
  have h3 : 0 < Real.log 2 := Real.log_pos (by norm_num)
  simp at this
  linarith

/-! ### C53 -/

/-- `b` solves with the covariance `N`: the three solves the likelihood needs, for arrays whose
numbers of columns are `good`, and the log determinant. -/
structure Exact (b : Base n ℝ) (N : Matrix (Fin n) (Fin n) ℝ) (good : Nat → Prop) : Prop where
  posDef : N.PosDef
  num : ∀ x y, b.solve (.d1 x) (some (.d1 y)) = .ok (.num (y ⬝ᵥ (N⁻¹ *ᵥ x)))
  vec : ∀ x p (Z : Matrix (Fin n) (Fin p) ℝ), good p →
    b.solve (.d1 x) (some (.d2 p Z)) = .ok (.vec p (Zᵀ *ᵥ (N⁻¹ *ᵥ x)))
  mat : ∀ m p (X : Matrix (Fin n) (Fin m) ℝ) (Z : Matrix (Fin n) (Fin p) ℝ), good m → good p →
    b.solve (.d2 m X) (some (.d2 p Z)) = .ok (.mat p m (Zᵀ * (N⁻¹ * X)))
  logdet : b.logdet = .ok (Real.log N.det)

theorem arr_exact (v : Fin n → ℝ) (hv : ∀ i, 0 < v i) :
    Exact (.arr v) (diagonal v) fun _ => True := by
  have hinv : (diagonal v)⁻¹ = diagonal fun i => 1 / v i := by
    apply inv_eq_right_inv
    rw [diagonal_mul_diagonal, ← diagonal_one]
    congr 1; funext i; simp [(hv i).ne']
  have h1 : ∀ x, (fun i => x i / v i) = (diagonal v)⁻¹ *ᵥ x := by
    intro x; funext i; rw [hinv, mulVec_diagonal]; ring
  refine ⟨PosDef.diagonal hv, ?_, ?_, ?_, ?_⟩
  · intro x y; simp only [Base.solve, arrSolve, dotLeft, h1]
  · intro x p Z _; simp only [Base.solve, arrSolve, dotLeft, h1]
  · intro m p X Z _ _
    have : (of fun i b => X i b / v i) = (diagonal v)⁻¹ * X := by
      ext i b; rw [hinv, diagonal_mul, of_apply]; ring
    simp only [Base.solve, arrSolve, dotLeft, this]
  · simp only [Base.logdet]
    rw [det_diagonal, Real.log_prod fun i _ => (hv i).ne']

theorem csc_exact (M : Matrix (Fin n) (Fin n) ℝ) (hM : M.PosDef) :
    Exact (.csc M) M fun _ => True := by
  refine ⟨hM, ?_, ?_, ?_, ?_⟩
  · intro x y; simp only [Base.solve, cscSolve, if_pos hM, dotLeft]
  · intro x p Z _; simp only [Base.solve, cscSolve, if_pos hM, dotLeft]
  · intro m p X Z _ _; simp only [Base.solve, cscSolve, if_pos hM, dotLeft]
  · simp only [Base.logdet, if_pos hM]

theorem sm_exact (ep : List (List (Fin n) × ℝ)) (v : Fin n → ℝ) (hv : ∀ i, 0 < v i)
    (he : Epochs ep) (hl : ∀ e ∈ ep, 2 ≤ e.1.length) (hj : ∀ e ∈ ep, 0 < e.2) :
    Exact (.sm ep (.arr v)) (ecorrN ep v) fun _ => True := by
  obtain ⟨hp, hs⟩ := C51_partial ep v hv he hl hj
  refine ⟨hp, ?_, ?_, ?_, ?_⟩
  · intro x y; exact hs (.d1 x) (some (.d1 y)) _ (by intro m X h; simp at h) rfl
  · intro x p Z _; exact hs (.d1 x) (some (.d2 p Z)) _ (by intro m X h; simp at h) rfl
  · intro m p X Z _ _; exact hs (.d2 m X) (some (.d2 p Z)) _ (by intro m X h; simp) rfl
  · simp only [Base.logdet]; rw [C52_partial ep v hv he hl hj]

theorem blockN_sub (bl : List (List (Fin n) × (Nat → Nat → ℝ))) (v : Fin n → ℝ) (he : Epochs bl)
    (e : List (Fin n) × (Nat → Nat → ℝ)) (hm : e ∈ bl) :
    (blockN bl v).submatrix e.1.get e.1.get = blockMat v e := by
  have hne := he.nodup e hm
  have hinj := List.nodup_iff_injective_get.1 hne
  have key : ∀ bl : List (List (Fin n) × (Nat → Nat → ℝ)), Epochs bl → e ∈ bl →
      ∀ a b, a ∈ e.1 → b ∈ e.1 →
      ((bl.map fun e => (of fun a b =>
        if a ∈ e.1 ∧ b ∈ e.1 then e.2 (e.1.idxOf a) (e.1.idxOf b) else 0 :
          Matrix (Fin n) (Fin n) ℝ)).sum) a b = e.2 (e.1.idxOf a) (e.1.idxOf b) := by
    intro bl
    induction bl with
    | nil => intro _ h; simp at h
    | cons f t ih =>
      intro he hm a b ha hb
      have hd := List.pairwise_cons.1 he.disj
      have hnt := fun f hf => he.nodup f (List.mem_cons_of_mem _ hf)
      rw [List.map_cons, List.sum_cons, Matrix.add_apply, of_apply]
      rcases List.mem_cons.1 hm with rfl | hm'
      · rw [if_pos ⟨ha, hb⟩]
        have : ∀ t : List (List (Fin n) × (Nat → Nat → ℝ)), (∀ f ∈ t, e.1.Disjoint f.1) →
            ((t.map fun e => (of fun a b =>
              if a ∈ e.1 ∧ b ∈ e.1 then e.2 (e.1.idxOf a) (e.1.idxOf b) else 0 :
              Matrix (Fin n) (Fin n) ℝ)).sum) a b = 0 := by
          intro t
          induction t with
          | nil => intro _; simp
          | cons g t ih2 =>
            intro hg
            rw [List.map_cons, List.sum_cons, Matrix.add_apply, of_apply,
              if_neg (fun h => hg g List.mem_cons_self ha h.1),
              ih2 fun f hf => hg f (List.mem_cons_of_mem _ hf), add_zero]
        rw [this t hd.1, add_zero]
      · rw [if_neg (fun h => hd.1 e hm' h.1 ha), zero_add, ih ⟨hnt, hd.2⟩ hm' a b ha hb]
  ext p q
  rw [submatrix_apply]
  unfold blockN blockMat
  rw [Matrix.add_apply, key bl he hm _ _ (List.get_mem _ _) (List.get_mem _ _), of_apply,
    diagonal_apply, add_comm]
  have hi : ∀ r : Fin e.1.length, e.1.idxOf (e.1.get r) = r := fun r => hne.idxOf_getElem r r.2
  rw [hi, hi]
  congr 1
  by_cases hpq : p = q
  · rw [if_pos hpq, if_pos (congrArg _ hpq)]
  · rw [if_neg hpq, if_neg (fun h => hpq (hinj h))]

/-- The shapes for which `BlockMatrix` returns an array of the shape that the other classes
return: it squeezes and it wants more than one left column. -/
def Fits (n : Nat) : Arr n ℝ → Option (Arr n ℝ) → Prop
  | .d1 _, none => n ≠ 1
  | .d2 m _, none => n ≠ 1 ∧ m ≠ 1
  | .d1 _, some (.d1 _) => True
  | .d1 _, some (.d2 p _) => 2 ≤ p
  | .d2 m _, some (.d2 p _) => 2 ≤ p ∧ m ≠ 1
  | _, _ => False

/-- `BlockMatrix` with any blocks: when the covariance is positive definite the solves and the log
determinant are those of the covariance. -/
theorem C53_block (bl : List (List (Fin n) × (Nat → Nat → ℝ))) (v : Fin n → ℝ) (hn : 0 < n)
    (hv : ∀ i, 0 < v i) (he : Epochs bl) (hl : ∀ e ∈ bl, 2 ≤ e.1.length)
    (hN : (blockN bl v).PosDef) :
    (∀ other left o, Fits n other left → want (blockN bl v) other left = some o →
      blockSolve bl v other left = .ok o) ∧
    blockLogdet bl v = .ok (Real.log (blockN bl v).det) := by
  have hv' : ∀ i, v i ≠ 0 := fun i => (hv i).ne'
  have hp : ∀ e ∈ bl, (blockMat v e).PosDef := by
    intro e hm
    rw [← blockN_sub bl v he e hm]
    exact hN.submatrix (List.nodup_iff_injective_get.1 (he.nodup e hm))
  have hz : ¬ ∀ i, v i = 0 := fun h => hv' ⟨0, hn⟩ (h _)
  have hinv : (blockN bl v)⁻¹ = blockInv bl v :=
    inv_eq_right_inv (blockN_mul_blockInv bl v hv' he hp)
  have hZNX : ∀ (m p : Nat) (X : Matrix (Fin n) (Fin m) ℝ) (Z : Matrix (Fin n) (Fin p) ℝ),
      blockZNX bl v X Z = squeezeZNX p m (Zᵀ * (blockInv bl v * X)) := by
    intro m p X Z
    unfold blockZNX
    rw [if_neg hz, blockZNXLoop_ok v X Z bl hl hp]
    simp only [zero_add]
    rw [blockInv_quad bl v X Z he]
  have hNX : ∀ (m : Nat) (X : Matrix (Fin n) (Fin m) ℝ),
      blockNX bl v X = .ok (squeezeNX m (blockInv bl v * X)) := by
    intro m X
    unfold blockNX
    rw [blockNXLoop_ok v X bl he hl hp]
    simp only
    congr 2
    ext i b
    rw [of_apply, of_apply]
    split
    · rename_i h; rw [blockInv_row bl v X i b h]
    · rfl
  constructor
  · intro other left o hf hw
    unfold want at hw
    rw [hinv] at hw
    split at hw <;> simp only [Option.some.injEq, reduceCtorEq] at hw <;> subst hw
    · simp only [Fits] at hf
      simp only [blockSolve, hNX, squeezeNX, dif_neg hf]
      rfl
    · simp only [blockSolve, hZNX, squeezeZNX]
      rfl
    · rename_i p _
      simp only [Fits] at hf
      simp only [blockSolve, hZNX, squeezeZNX]
      rw [if_pos (show 1 < p by omega)]
      rfl
    · simp only [Fits] at hf
      simp only [blockSolve, hNX, squeezeNX, dif_neg hf.1, dif_neg hf.2]
    · simp only [Fits] at hf
    · rename_i p _
      simp only [Fits] at hf
      simp only [blockSolve, hZNX, squeezeZNX]
      rw [if_pos (show 1 < p by omega), dif_neg hf.2]
  · unfold blockLogdet
    rw [if_neg hz, blockLogdetLoop_ok v bl hl hp, sum_outside bl he, blockN_det bl v hv' he hp]
    congr 1
    have key : ∀ (bl : List (List (Fin n) × (Nat → Nat → ℝ))) (acc : ℝ), 0 < acc →
        (∀ e ∈ bl, (blockMat v e).PosDef) →
        Real.log (acc * (bl.map fun e => (blockMat v e).det *
          (e.1.map fun i => 1 / v i).prod).prod) =
        Real.log acc - (bl.map fun e => over e.1 fun i => Real.log (v i)).sum +
          (bl.map fun e => Real.log (blockMat v e).det).sum := by
      intro bl
      induction bl with
      | nil => intro acc _ _; simp
      | cons e t ih =>
        intro acc ha hp
        have hd := (hp e List.mem_cons_self).det_pos
        have hpr : ∀ l : List (Fin n), 0 < (l.map fun i => 1 / v i).prod ∧
            Real.log (l.map fun i => 1 / v i).prod = - over l fun i => Real.log (v i) := by
          intro l
          induction l with
          | nil => simp [over]
          | cons i l ih =>
            have hvi : 0 < 1 / v i := one_div_pos.2 (hv i)
            refine ⟨?_, ?_⟩
            · rw [List.map_cons, List.prod_cons]; exact mul_pos hvi ih.1
            · rw [List.map_cons, List.prod_cons, Real.log_mul hvi.ne' ih.1.ne', ih.2, one_div,
                Real.log_inv]
              simp only [over, List.map_cons, List.sum_cons]; ring
        obtain ⟨h1, h2⟩ := hpr e.1
        rw [List.map_cons, List.prod_cons, ← mul_assoc,
          ih _ (mul_pos ha (mul_pos hd h1)) fun f hf => hp f (List.mem_cons_of_mem _ hf),
          Real.log_mul ha.ne' (mul_pos hd h1).ne', Real.log_mul hd.ne' h1.ne', h2]
        simp only [List.map_cons, List.sum_cons]
        ring
    rw [key bl _ (Finset.prod_pos fun i _ => hv i) hp, Real.log_prod fun i _ => hv' i]

theorem block_exact (bl : List (List (Fin n) × (Nat → Nat → ℝ))) (v : Fin n → ℝ) (hn : 0 < n)
    (hv : ∀ i, 0 < v i) (he : Epochs bl) (hl : ∀ e ∈ bl, 2 ≤ e.1.length)
    (hN : (blockN bl v).PosDef) :
    Exact (.block bl (.arr v)) (blockN bl v) fun p => 2 ≤ p := by
  obtain ⟨h1, h2⟩ := C53_block bl v hn hv he hl hN
  refine ⟨hN, ?_, ?_, ?_, h2⟩
  · intro x y; exact h1 (.d1 x) (some (.d1 y)) _ trivial rfl
  · intro x p Z hp; exact h1 (.d1 x) (some (.d2 p Z)) _ hp rfl
  · intro m p X Z hm hp; exact h1 (.d2 m X) (some (.d2 p Z)) _ ⟨hp, by omega⟩ rfl

theorem blockN_const (ep : List (List (Fin n) × ℝ)) (v : Fin n → ℝ) :
    blockN (ep.map fun e => (e.1, fun _ _ => e.2)) v = ecorrN ep v := by
  unfold blockN ecorrN
  rw [List.map_map]; rfl

theorem const_epochs (ep : List (List (Fin n) × ℝ)) (he : Epochs ep) :
    Epochs (ep.map fun e => (e.1, fun (_ _ : Nat) => e.2)) := by
  refine ⟨?_, by rw [List.pairwise_map]; exact he.disj⟩
  intro e h
  obtain ⟨f, hf, rfl⟩ := List.mem_map.1 h
  exact he.nodup f hf

theorem const_len (ep : List (List (Fin n) × ℝ)) (hl : ∀ e ∈ ep, 2 ≤ e.1.length) :
    ∀ e ∈ (ep.map fun e => (e.1, fun (_ _ : Nat) => e.2)), 2 ≤ e.1.length := by
  intro e h
  obtain ⟨f, hf, rfl⟩ := List.mem_map.1 h
  exact hl f hf

theorem csc_fold (ep : List (List (Fin n) × ℝ)) (M : Matrix (Fin n) (Fin n) ℝ)
    (hl : ∀ e ∈ ep, 2 ≤ e.1.length) (hd : ep.Pairwise fun e f => e.1.Disjoint f.1)
    (hM : ∀ e ∈ ep, ∀ a b, a ∈ e.1 → b ∈ e.1 → M a b = 0) :
    ep.foldl cscStep M = M + (ep.map epochMat).sum := by
  induction ep generalizing M with
  | nil => simp
  | cons e t ih =>
    have hd' := List.pairwise_cons.1 hd
    have h2 := hl e List.mem_cons_self
    have hstep : cscStep M e = M + epochMat e := by
      unfold cscStep
      rw [if_pos (by omega)]
      ext a b
      rw [of_apply, Matrix.add_apply, epochMat, of_apply]
      by_cases h : a ∈ e.1 ∧ b ∈ e.1
      · rw [if_pos h, if_pos h, hM e List.mem_cons_self a b h.1 h.2, zero_add]
      · rw [if_neg h, if_neg h, add_zero]
    rw [List.foldl_cons, hstep, ih _ (fun f hf => hl f (List.mem_cons_of_mem _ hf)) hd'.2 ?_,
      List.map_cons, List.sum_cons, add_assoc]
    intro f hf a b ha hb
    rw [Matrix.add_apply, hM f (List.mem_cons_of_mem _ hf) a b ha hb, epochMat, of_apply,
      if_neg (fun h => hd'.1 f hf h.1 ha), add_zero]

/-- C53: for disjoint epochs, at least one of them, each of two or more TOAs, the three methods
with a diagonal added make objects that solve with one and the same covariance, in every shape
that `BlockMatrix` supports, with the same log determinant. -/
theorem C53_partial (ep : List (List (Fin n) × ℝ)) (v : Fin n → ℝ) (hv : ∀ i, 0 < v i)
    (he : Epochs ep) (hl : ∀ e ∈ ep, 2 ≤ e.1.length) (hj : ∀ e ∈ ep, 0 < e.2) (hne : ep ≠ []) :
    ∃ S B C, (ecorrSM ep).add (.arr v) = .ok S ∧ (ecorrBlock ep).add (.arr v) = .ok B ∧
      (ecorrSparse ep).add (.arr v) = .ok C ∧
      (∀ other left o, Fits n other left → (∀ m X, other = .d2 m X → left ≠ none) →
        want (ecorrN ep v) other left = some o →
        S.solve other left = .ok o ∧ B.solve other left = .ok o ∧ C.solve other left = .ok o) ∧
      S.logdet = .ok (Real.log (ecorrN ep v).det) ∧
      B.logdet = .ok (Real.log (ecorrN ep v).det) ∧
      C.logdet = .ok (Real.log (ecorrN ep v).det) := by
  have hN := ecorrN_posDef ep v hv fun e h => (hj e h).le
  have hn : 0 < n := by
    obtain ⟨e, he⟩ := List.exists_mem_of_ne_nil ep hne
    have := hl e he
    cases h : e.1 with
    | nil => rw [h] at this; simp at this
    | cons i _ => exact i.pos
  have hblk : ¬ ((∃ i, v i ≠ 0) ∧ (ep.map fun e => (e.1, fun (_ _ : Nat) => e.2)) = []) := by
    rintro ⟨-, h⟩; exact hne (List.map_eq_nil_iff.1 h)
  have hcsc : (of fun i j => (ep.foldl cscStep 0) i j + if i = j then v i else 0) =
      ecorrN ep v := by
    ext i j
    rw [of_apply, csc_fold ep 0 hl he.disj (by simp), zero_add, ecorrN, Matrix.add_apply,
      diagonal_apply, add_comm]
  have heb : Epochs (ep.map fun e => (e.1, fun (_ _ : Nat) => e.2)) :=
    const_epochs ep he
  obtain ⟨h1, h2⟩ := C53_block (ep.map fun e => (e.1, fun _ _ => e.2)) v hn hv heb
    (const_len ep hl) (by rw [blockN_const]; exact hN)
  rw [blockN_const] at h1 h2
  refine ⟨.sm ep (.arr v), .block (ep.map fun e => (e.1, fun (_ _ : Nat) => e.2)) (.arr v),
    .csc (ecorrN ep v), rfl, ?_, ?_, ?_, ?_, ?_, (csc_exact _ hN).logdet⟩
  · simp only [ecorrBlock, Base.add, NV.add, mkBlock]
    rw [if_neg hblk]
  · simp only [ecorrSparse, Base.add]
    rw [hcsc]
  · intro other left o hf hsup hw
    refine ⟨(C51_partial ep v hv he hl hj).2 other left o hsup hw, h1 other left o hf hw, ?_⟩
    simp only [Base.solve, cscSolve, if_pos hN]
    unfold want at hw
    split at hw <;> simp only [Option.some.injEq, reduceCtorEq] at hw <;> subst hw <;> rfl
  · rw [← (sm_exact ep v hv he hl hj).logdet]
  · exact h2

example : ∃ S B C, (ecorrSM demoEp).add (.arr fun _ => 1) = .ok S ∧
    (ecorrBlock demoEp).add (.arr fun _ => 1) = .ok B ∧
    (ecorrSparse demoEp).add (.arr fun _ => 1) = .ok C ∧
    S.logdet = B.logdet ∧ B.logdet = C.logdet := by
  obtain ⟨S, B, C, h1, h2, h3, -, h4, h5, h6⟩ := C53_partial demoEp (fun _ => 1)
    (fun _ => one_pos) demoEp_ok.1 demoEp_ok.2.1 demoEp_ok.2.2 (by simp [demoEp])
  exact ⟨S, B, C, h1, h2, h3, by rw [h4, h5], by rw [h5, h6]⟩

/-- C53 fails for a pulsar without epochs: the block method raises `ValueError` when the first
diagonal is added, the others work. -/
theorem C53_no_epochs_false (v : Fin n → ℝ) (i : Fin n) (hv : v i ≠ 0) :
    (ecorrBlock ([] : List (List (Fin n) × ℝ))).add (.arr v) = .error .valueError ∧
    (ecorrSM ([] : List (List (Fin n) × ℝ))).add (.arr v) = .ok (.sm [] (.arr v)) ∧
    (ecorrSparse ([] : List (List (Fin n) × ℝ))).add (.arr v) = .ok (.csc (diagonal v)) := by
  refine ⟨?_, rfl, ?_⟩
  · simp only [ecorrBlock, List.map_nil, Base.add, NV.add, mkBlock]
    rw [if_pos ⟨⟨i, hv⟩, trivial⟩]
  · simp only [ecorrSparse, List.foldl_nil, Base.add]
    congr 2
    ext a b
    simp [diagonal_apply]

/-- C53 fails in the shapes: with a left array of one column the block method raises `TypeError`
for every right array of more than one column, the others return a matrix of one row. -/
theorem C53_shape_false (ep : List (List (Fin n) × ℝ)) (v : Fin n → ℝ) (hv : ∀ i, 0 < v i)
    (he : Epochs ep) (hl : ∀ e ∈ ep, 2 ≤ e.1.length) (hj : ∀ e ∈ ep, 0 < e.2) (hne : ep ≠ [])
    (m : Nat) (hm : 2 ≤ m) (X : Matrix (Fin n) (Fin m) ℝ) (Z : Matrix (Fin n) (Fin 1) ℝ) :
    blockSolve (ep.map fun e => (e.1, fun _ _ => e.2)) v (.d2 m X) (some (.d2 1 Z)) =
      .error .typeError ∧
    smSolve ep v (.d2 m X) (some (.d2 1 Z)) = .ok (.mat 1 m (Zᵀ * ((ecorrN ep v)⁻¹ * X))) := by
  refine ⟨?_, (C51_partial ep v hv he hl hj).2 _ _ _ (by intro m X h; simp) rfl⟩
  have hn : 0 < n := by
    obtain ⟨e, he⟩ := List.exists_mem_of_ne_nil ep hne
    have := hl e he
    cases h : e.1 with
    | nil => rw [h] at this; simp at this
    | cons i _ => exact i.pos
  have hz : ¬ ∀ i, v i = 0 := fun h => (hv ⟨0, hn⟩).ne' (h _)
  have heb : Epochs (ep.map fun e => (e.1, fun (_ _ : Nat) => e.2)) :=
    const_epochs ep he
  have hN := ecorrN_posDef ep v hv fun e h => (hj e h).le
  have hp : ∀ e ∈ (ep.map fun e => (e.1, fun (_ _ : Nat) => e.2)), (blockMat v e).PosDef := by
    intro e hm
    rw [← blockN_sub _ v heb e hm, blockN_const]
    exact hN.submatrix (List.nodup_iff_injective_get.1 (heb.nodup e hm))
  simp only [blockSolve, blockZNX]
  rw [if_neg hz, blockZNXLoop_ok v X Z _ (const_len ep hl) hp]
  simp only [squeezeZNX]
  rw [if_neg (by omega), dif_neg (by omega)]

/-! ### The epochs of `EcorrKernelNoise` -/

/-- Index lists below `n`, as lists of TOAs of an array of `n`. -/
theorem filterMap_fin (l : List Nat) (hl : ∀ i ∈ l, i < n) :
    (l.filterMap fun i => if h : i < n then some (⟨i, h⟩ : Fin n) else none).map Fin.val = l := by
  induction l with
  | nil => rfl
  | cons i t ih =>
    have hi := hl i List.mem_cons_self
    rw [List.filterMap_cons_some (b := ⟨i, hi⟩) (by simp [hi]), List.map_cons,
      ih fun k hk => hl k (List.mem_cons_of_mem _ hk)]

/-- C51 and C52 hold without condition on the sizes for the matrices that `EcorrKernelNoise` makes
from disjoint non-empty masks, since its epochs have at least two TOAs. -/
theorem C51_ecorr (argsort : List ℝ → List Nat) (hsort : ∀ l, Quantize.IsArgsort l (argsort l))
    (toas : List ℝ) (dt : ℝ) (hdt : 0 < dt) (masks : Dict String Mask) (amp : String → ℝ)
    (hamp : ∀ k, 0 < amp k)
    (hn : (masks.map Prod.fst).Nodup) (hlen : ∀ km ∈ masks, km.2.length = toas.length)
    (hdisj : MasksDisjoint masks) (hne : ∀ km ∈ masks, ∃ i, InMask km.2 i)
    (v : Fin toas.length → ℝ) (hv : ∀ i, 0 < v i) :
    ∃ idxs, Quantize.ecorrIdxs argsort toas dt masks = .ok idxs ∧
      Exact (.sm (epochsOf toas.length (Quantize.getJvecs idxs amp)) (.arr v))
        (ecorrN (epochsOf toas.length (Quantize.getJvecs idxs amp)) v) fun _ => True := by
  obtain ⟨idxs, hi, hll, hpd, heach, -⟩ :=
    Quantize.C12_ecorr_epochs argsort hsort toas dt hdt masks amp hn hlen hdisj hne
  refine ⟨idxs, hi, ?_⟩
  generalize hA : (Quantize.getJvecs idxs amp).1 = A at *
  generalize hJ : (Quantize.getJvecs idxs amp).2 = J at *
  have hep : epochsOf toas.length (Quantize.getJvecs idxs amp) = (A.map fun idx =>
      idx.filterMap fun i => if h : i < toas.length then some ⟨i, h⟩ else none).zip J := by
    unfold epochsOf; rw [hA, hJ]
  rw [hep]
  -- every index is in range
  have hall : ∀ e ∈ (A.map fun idx => idx.filterMap fun i =>
      if h : i < toas.length then some (⟨i, h⟩ : Fin toas.length) else none).zip J,
      ∃ idx ∈ A, e.1.map Fin.val = idx ∧ 2 ≤ idx.length ∧ idx.Nodup ∧ 0 < e.2 := by
    rintro ⟨a, j⟩ he
    obtain ⟨k, hk⟩ := List.mem_iff_getElem?.1 he
    rw [List.getElem?_zip_eq_some, List.getElem?_map] at hk
    obtain ⟨hk1, hk2⟩ := hk
    cases hAk : A[k]? with
    | none => rw [hAk] at hk1; simp at hk1
    | some idx =>
      rw [hAk] at hk1
      simp only [Option.map_some, Option.some.injEq] at hk1
      obtain ⟨h2, hlt, km, hkm, hj, hin, -⟩ := heach k idx j hAk hk2
      have hr : ∀ i ∈ idx, i < toas.length := by
        intro i hi
        have := hin i hi
        rw [← hlen km hkm]
        unfold InMask at this
        by_contra hc
        simp_all
      refine ⟨idx, List.mem_of_getElem? hAk, ?_, h2, hlt.imp (fun h => Nat.ne_of_lt h), ?_⟩
      · rw [← hk1]; exact filterMap_fin idx hr
      · simp only; rw [hj]; exact hamp _
  refine sm_exact _ v hv ⟨?_, ?_⟩ ?_ ?_
  · intro e he
    obtain ⟨idx, -, h1, -, h3, -⟩ := hall e he
    rw [← h1] at h3
    exact List.Nodup.of_map _ h3
  · have hfd : ∀ a b : List Nat, a.Disjoint b → List.Disjoint
        (a.filterMap fun i => if h : i < toas.length then some (⟨i, h⟩ : Fin toas.length) else none)
        (b.filterMap fun i => if h : i < toas.length then some (⟨i, h⟩ : Fin toas.length) else none)
        := by
      intro a b hab x hxa hxb
      simp only [List.mem_filterMap] at hxa hxb
      obtain ⟨i, hia, hi⟩ := hxa
      obtain ⟨i', hib, hi'⟩ := hxb
      split at hi <;> simp only [Option.some.injEq, reduceCtorEq] at hi
      split at hi' <;> simp only [Option.some.injEq, reduceCtorEq] at hi'
      subst hi
      have : i' = i := by simpa using hi'
      exact hab hia (this ▸ hib)
    clear hall hep heach hll hJ hA hi
    induction A generalizing J with
    | nil => simp
    | cons a A ih =>
      cases J with
      | nil => simp
      | cons j J =>
        have hc := List.pairwise_cons.1 hpd
        rw [List.map_cons, List.zip_cons_cons, List.pairwise_cons]
        refine ⟨?_, ih hc.2 J⟩
        intro e he
        obtain ⟨b, hb, hbe⟩ := List.mem_map.1 (List.of_mem_zip he).1
        rw [← hbe]
        exact hfd a b (hc.1 b hb)
  · intro e he
    obtain ⟨idx, -, h1, h2, -, -⟩ := hall e he
    rw [← h1, List.length_map] at h2
    exact h2
  · intro e he
    exact (hall e he).choose_spec.2.2.2.2

/-- The stable argsort is a numpy argsort. -/
theorem isArgsort_stable (l : List ℝ) : Quantize.IsArgsort l (PulsarData.argsortStable l) := by
  refine ⟨PulsarData.perm_argsortStable l, ?_⟩
  rw [List.pairwise_map]
  refine (PulsarData.pairwise_argsortStable l).imp fun h => ?_
  rcases h with h | h
  · exact h.le
  · exact h.1.le

-- Five TOAs, two back ends.
example : ∃ idxs, Quantize.ecorrIdxs PulsarData.argsortStable [(0 : ℝ), 0, 0, 9, 9] 1
      [("a", [true, true, true, false, false]), ("b", [false, false, false, true, true])]
        = .ok idxs ∧
    Exact (.sm (epochsOf 5 (Quantize.getJvecs idxs fun _ => (2 : ℝ))) (.arr fun _ => 1))
      (ecorrN (epochsOf 5 (Quantize.getJvecs idxs fun _ => 2)) fun _ => 1) fun _ => True := by
  refine C51_ecorr _ isArgsort_stable [(0 : ℝ), 0, 0, 9, 9] 1 one_pos _ _ (fun _ => two_pos)
    (by decide) (by simp) ?_ ?_ _ fun _ => one_pos
  · intro km h km' h' i hi hi'
    simp at h h'
    rcases h with rfl | rfl <;> rcases h' with rfl | rfl <;> first | rfl | skip
    all_goals
      simp only [InMask] at hi hi'
      match i with
      | 0 | 1 | 2 | 3 | 4 => simp at hi hi'
      | (n + 5) => simp at hi hi'
  · intro km h
    simp at h
    rcases h with rfl | rfl
    · exact ⟨0, rfl⟩
    · exact ⟨3, rfl⟩

end Real

end Verif.Noise
