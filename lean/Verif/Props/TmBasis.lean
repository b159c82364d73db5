import Mathlib.Tactic.Linarith
import Mathlib.Tactic.FieldSimp
import Mathlib.Tactic.Ring
import Mathlib.LinearAlgebra.Matrix.InvariantBasisNumber
import Verif.Model.Interp
import Verif.Props.Likelihood

/-!
# Timing-model bases: C91, C93
-/

namespace Verif.Interp

open Verif Matrix

variable {n m k k' : Nat}

/-! ## Specification -/

/-- The two bases allow for the same corrections of the residuals. -/
def SameSpan (A : Matrix (Fin n) (Fin k) ℝ) (B : Matrix (Fin n) (Fin k') ℝ) : Prop :=
  ∀ r : Fin n → ℝ, (∃ x, A *ᵥ x = r) ↔ ∃ x, B *ᵥ x = r

/-- The corrections by the design matrix in which the parameters with the numbers `excl` stay at zero. -/
def Corrections (M : Matrix (Fin n) (Fin m) ℝ) (excl : List Nat) (r : Fin n → ℝ) : Prop :=
  ∃ x : Fin m → ℝ, (∀ j : Fin m, j.val ∈ excl → x j = 0) ∧ M *ᵥ x = r

/-! ## Columns -/

theorem mulVec_eq_sum' (A : Matrix (Fin n) (Fin k) ℝ) (x : Fin k → ℝ) (i : Fin n) : (A *ᵥ x) i = ∑ j, A i j * x j := rfl

theorem mem_kept {excl : List Nat} {j : Fin m} : j ∈ keptCols m excl ↔ j.val ∉ excl := by
  simp [keptCols]

theorem kept_nodup (excl : List Nat) : (keptCols m excl).Nodup := (List.nodup_finRange m).filter _

theorem cols_inj {l : List (Fin m)} (hl : l.Nodup) : Function.Injective fun j : Fin l.length => l[j] := by
  intro a b h
  exact Fin.ext ((List.nodup_iff_injective_getElem.1 hl (a₁ := a) (a₂ := b) h) ▸ rfl)

theorem cols_key (M : Matrix (Fin n) (Fin m) ℝ) {l : List (Fin m)} (hl : l.Nodup) (x : Fin m → ℝ)
    (hx : ∀ j, j ∉ l → x j = 0) (i : Fin n) : ∑ j : Fin l.length, M i l[j] * x l[j] = (M *ᵥ x) i := by
  rw [mulVec_eq_sum']
  have := Finset.sum_image (s := Finset.univ) (g := fun j : Fin l.length => l[j]) (f := fun j => M i j * x j)
    (fun a _ b _ h => cols_inj hl h)
  rw [← this]
  apply Finset.sum_subset (Finset.subset_univ _)
  intro j _ hj
  have : j ∉ l := by
    intro hjl
    obtain ⟨a, ha, rfl⟩ := List.getElem_of_mem hjl
    exact hj (Finset.mem_image.2 ⟨⟨a, ha⟩, Finset.mem_univ _, rfl⟩)
  rw [hx j this, mul_zero]

/-- Coefficients of the columns in `l`, spread out over all columns. -/
theorem cols_spread (M : Matrix (Fin n) (Fin m) ℝ) (l : List (Fin m)) (hl : l.Nodup) (x : Fin l.length → ℝ) :
    ∃ x' : Fin m → ℝ, (∀ j, j ∉ l → x' j = 0) ∧ (∀ a : Fin l.length, x' l[a] = x a) ∧
      M *ᵥ x' = (of fun i (j : Fin l.length) => M i l[j] : Matrix (Fin n) (Fin l.length) ℝ) *ᵥ x := by
  classical
  have h1 : ∀ a : Fin l.length, (if h : ∃ b : Fin l.length, l[b] = l[a] then x h.choose else 0) = x a := by
    intro a
    have h : ∃ b : Fin l.length, l[b] = l[a] := ⟨a, rfl⟩
    rw [dif_pos h, cols_inj hl h.choose_spec]
  have h0 : ∀ j, j ∉ l → (if h : ∃ b : Fin l.length, l[b] = j then x h.choose else 0) = 0 := by
    intro j hj
    rw [dif_neg]
    rintro ⟨a, rfl⟩
    exact hj (List.getElem_mem _)
  refine ⟨fun j => if h : ∃ b : Fin l.length, l[b] = j then x h.choose else 0, h0, h1, ?_⟩
  funext i
  rw [← cols_key M hl _ h0 i, mulVec_eq_sum']
  refine Finset.sum_congr rfl fun a _ => ?_
  rw [h1]; rfl

/-- The kept columns, for an index list `l` without repetitions. -/
theorem cols_span (M : Matrix (Fin n) (Fin m) ℝ) (l : List (Fin m)) (hl : l.Nodup) (r : Fin n → ℝ) :
    (∃ x, (of fun i (j : Fin l.length) => M i l[j] : Matrix (Fin n) (Fin l.length) ℝ) *ᵥ x = r) ↔
      ∃ x : Fin m → ℝ, (∀ j, j ∉ l → x j = 0) ∧ M *ᵥ x = r := by
  constructor
  · rintro ⟨x, rfl⟩
    obtain ⟨x', h1, -, h2⟩ := cols_spread M l hl x
    exact ⟨x', h1, h2⟩
  · rintro ⟨x, hx, rfl⟩
    refine ⟨fun j => x l[j], ?_⟩
    funext i
    rw [← cols_key M hl x hx i]; rfl

/-- Leaving columns out leaves the corrections in which their parameters are zero. -/
theorem exclude_span {M : Matrix (Fin n) (Fin m) ℝ} {excl : List Nat} {B : Σ k : Nat, Matrix (Fin n) (Fin k) ℝ}
    (h : excludeCols M excl = .ok B) (r : Fin n → ℝ) : (∃ x, B.2 *ᵥ x = r) ↔ Corrections M excl r := by
  unfold excludeCols at h
  split at h
  · next he =>
    obtain rfl := Except.ok.inj h
    subst he
    simp [Corrections]
  · split at h
    · cases h
    · obtain rfl := Except.ok.inj h
      refine (cols_span M (keptCols m excl) (kept_nodup excl) r).trans ?_
      unfold Corrections
      simp only [mem_kept, not_not]

/-- Columns that are independent stay so when others are left out. -/
theorem exclude_inj {M : Matrix (Fin n) (Fin m) ℝ} {excl : List Nat} {B : Σ k : Nat, Matrix (Fin n) (Fin k) ℝ}
    (h : excludeCols M excl = .ok B)
    (hM : ∀ x : Fin m → ℝ, (∀ j : Fin m, j.val ∈ excl → x j = 0) → M *ᵥ x = 0 → x = 0) : Function.Injective B.2.mulVec := by
  have red : ∀ {k : Nat} (A : Matrix (Fin n) (Fin k) ℝ), (∀ x, A *ᵥ x = 0 → x = 0) → Function.Injective A.mulVec := by
    intro k A hA x y hxy
    have : A *ᵥ (x - y) = 0 := by rw [mulVec_sub]; exact sub_eq_zero.2 hxy
    exact sub_eq_zero.1 (hA _ this)
  unfold excludeCols at h
  split at h
  · next he =>
    obtain rfl := Except.ok.inj h
    subst he
    exact red _ fun x hx => hM x (by simp) hx
  · split at h
    · cases h
    · obtain rfl := Except.ok.inj h
      refine red _ fun x hx => ?_
      obtain ⟨x', h1, h2, h3⟩ := cols_spread M (keptCols m excl) (kept_nodup excl) x
      have h4 := hM x' (fun j hj => h1 j (by rw [mem_kept]; exact not_not.2 hj)) (h3.trans hx)
      funext a
      rw [← h2 a, h4]; rfl

/-- When columns are left the exclusion succeeds. -/
theorem exclude_ok (M : Matrix (Fin n) (Fin m) ℝ) (excl : List Nat) (h : excl = [] ∨ ∃ j : Fin m, j.val ∉ excl) :
    ∃ B, excludeCols M excl = .ok B := by
  unfold excludeCols
  by_cases he : excl = []
  · exact ⟨_, by rw [if_pos he]⟩
  · obtain ⟨j, hj⟩ := h.resolve_left he
    rw [if_neg he, if_neg (List.ne_nil_of_mem (mem_kept.2 hj))]
    exact ⟨_, rfl⟩

/-- Columns divided by numbers that are zero only for columns of zeros. -/
theorem divNorm_span (M : Matrix (Fin n) (Fin m) ℝ) (nrm : Fin m → ℝ) (h0 : ∀ j, nrm j = 0 → ∀ i, M i j = 0) :
    SameSpan (divNorm M nrm) M := by
  have key : ∀ i j (c : ℝ), (divNorm M nrm) i j * (nrm j * c) = M i j * c := by
    intro i j c
    unfold divNorm
    rw [of_apply]
    by_cases h : nrm j = 0
    · rw [if_pos h, h0 j h i]; simp
    · rw [if_neg h]; field_simp
  intro r
  constructor
  · rintro ⟨x, rfl⟩
    refine ⟨fun j => x j / nrm j, ?_⟩
    funext i
    rw [mulVec_eq_sum', mulVec_eq_sum']
    refine Finset.sum_congr rfl fun j _ => ?_
    rw [← key]
    unfold divNorm
    rw [of_apply]
    by_cases h : nrm j = 0
    · rw [if_pos h]; simp
    · rw [if_neg h]; field_simp
  · rintro ⟨x, rfl⟩
    refine ⟨fun j => nrm j * x j, ?_⟩
    funext i
    rw [mulVec_eq_sum', mulVec_eq_sum']
    exact Finset.sum_congr rfl fun j _ => key i j (x j)

theorem colNorm_zero (M : Matrix (Fin n) (Fin m) ℝ) (j : Fin m) : colNorm M j = 0 ↔ ∀ i, M i j = 0 := by
  unfold colNorm
  rw [Real.sqrt_eq_zero (Finset.sum_nonneg fun i _ => sq_nonneg _), Finset.sum_eq_zero_iff_of_nonneg fun i _ => sq_nonneg _]
  simp

/-- The columns of the normalised matrix have length one, or are the columns of zeros of the design matrix. -/
theorem divNorm_unit (M : Matrix (Fin n) (Fin m) ℝ) (j : Fin m) :
    (∑ i, divNorm M (colNorm M) i j ^ 2 = 1 ∧ ∃ i, M i j ≠ 0) ∨ (∀ i, divNorm M (colNorm M) i j = 0) ∧ ∀ i, M i j = 0 := by
  by_cases h : colNorm M j = 0
  · right
    exact ⟨fun i => by simp [divNorm, h], (colNorm_zero M j).1 h⟩
  · left
    constructor
    · have : colNorm M j ^ 2 = ∑ i, M i j ^ 2 := Real.sq_sqrt (Finset.sum_nonneg fun i _ => sq_nonneg _)
      simp only [divNorm, of_apply, if_neg h, div_pow]
      rw [← Finset.sum_div, ← this, div_self (pow_ne_zero 2 h)]
    · by_contra hc
      push Not at hc
      exact h ((colNorm_zero M j).2 hc)

/-! ## Singular vectors -/

theorem svd_mulVec {M : Matrix (Fin n) (Fin m) ℝ} (d : ThinSvd M) (x : Fin m → ℝ) :
    M *ᵥ x = d.u *ᵥ (diagonal d.s *ᵥ (d.v *ᵥ x)) := by
  conv_lhs => rw [d.prod]
  rw [← mulVec_mulVec, ← mulVec_mulVec]

theorem svd_inj {M : Matrix (Fin n) (Fin m) ℝ} (d : ThinSvd M) : Function.Injective d.u.mulVec := by
  intro x y h
  have := congrArg (fun z => d.uᵀ *ᵥ z) h
  simpa [mulVec_mulVec, d.hu] using this

/-- The left singular vectors allow for the same corrections exactly if no singular value is zero. -/
theorem svd_span {M : Matrix (Fin n) (Fin m) ℝ} (d : ThinSvd M) : SameSpan d.u M ↔ ∀ i, d.s i ≠ 0 := by
  constructor
  · intro h i hi
    obtain ⟨x, hx⟩ := (h (d.u *ᵥ Pi.single i 1)).1 ⟨_, rfl⟩
    rw [svd_mulVec d] at hx
    have := congrFun (svd_inj d hx) i
    rw [mulVec_diagonal, hi, zero_mul, Pi.single_eq_same] at this
    exact zero_ne_one this
  · intro h r
    constructor
    · rintro ⟨x, rfl⟩
      refine ⟨d.vᵀ *ᵥ fun i => x i / d.s i, ?_⟩
      rw [svd_mulVec d, mulVec_mulVec (M := d.v), d.hv, one_mulVec]
      congr 1
      funext i
      rw [mulVec_diagonal, mul_div_cancel₀ _ (h i)]
    · rintro ⟨x, rfl⟩
      exact ⟨_, (svd_mulVec d x).symm⟩

/-- Every correction by the design matrix is one by the singular vectors. -/
theorem svd_covers {M : Matrix (Fin n) (Fin m) ℝ} (d : ThinSvd M) (x : Fin m → ℝ) : ∃ y, d.u *ᵥ y = M *ᵥ x :=
  ⟨_, (svd_mulVec d x).symm⟩

/-- With independent columns no singular value is zero. -/
theorem svd_full {M : Matrix (Fin n) (Fin m) ℝ} (d : ThinSvd M) (hM : Function.Injective M.mulVec) : ∀ i, d.s i ≠ 0 := by
  intro i hi
  have h0 : M *ᵥ (d.vᵀ *ᵥ Pi.single i 1) = M *ᵥ 0 := by
    rw [svd_mulVec d, mulVec_mulVec (M := d.v), d.hv, one_mulVec, mulVec_zero]
    have : diagonal d.s *ᵥ Pi.single i (1 : ℝ) = 0 := by
      funext a
      rw [mulVec_diagonal, Pi.zero_apply]
      by_cases ha : a = i
      · subst ha; rw [hi, zero_mul]
      · rw [Pi.single_eq_of_ne ha, mul_zero]
    rw [this, mulVec_zero]
  have h1 := congrArg (fun z => d.v *ᵥ z) (hM h0)
  simp only [mulVec_mulVec, d.hv, one_mulVec, mulVec_zero] at h1
  have := congrFun h1 i
  rw [Pi.single_eq_same] at this
  exact one_ne_zero this

/-! ## C91 -/

variable (svd : ∀ {n m : Nat} (M : Matrix (Fin n) (Fin m) ℝ), ThinSvd M)

/-- **C91.**  `normed=False` and `normed=True`: the basis allows for exactly the corrections of the residuals in which
the excluded parameters stay where they are, and in the second case its columns have length one, but for columns of
zeros. -/
theorem C91_plain (M : Matrix (Fin n) (Fin m) ℝ) (excl : List Nat) (h : excl = [] ∨ ∃ j : Fin m, j.val ∉ excl) :
    (∃ B, tmBasis svd false .no excl M = .ok (B, .num) ∧ ∀ r, (∃ x, B.2 *ᵥ x = r) ↔ Corrections M excl r) ∧
    ∃ B, tmBasis svd false .yes excl M = .ok (B, .num) ∧ (∀ r, (∃ x, B.2 *ᵥ x = r) ↔ Corrections M excl r) ∧
      ∀ j, ∑ i, B.2 i j ^ 2 = 1 ∨ ∀ i, B.2 i j = 0 := by
  obtain ⟨B, hB⟩ := exclude_ok M excl h
  constructor
  · exact ⟨B, by simp [tmBasis, unnormed, hB, bind, Except.bind], exclude_span hB⟩
  · refine ⟨⟨B.1, divNorm B.2 (colNorm B.2)⟩, by simp [tmBasis, normed, hB, bind, Except.bind], fun r => ?_, fun j => ?_⟩
    · exact (divNorm_span B.2 _ (fun j hj => (colNorm_zero _ j).1 hj) r).trans (exclude_span hB r)
    · exact (divNorm_unit B.2 j).imp And.left And.left

/-- With norms given by the user, none of them zero, the corrections are the same too; a list of another length
raises. -/
theorem C91_given (M : Matrix (Fin n) (Fin m) ℝ) (l : List ℝ) (h0 : ∀ c ∈ l, c ≠ 0) :
    (l.length = m → ∃ B, tmBasis svd false (.given l) [] M = .ok (⟨m, B⟩, .num) ∧ SameSpan B M) ∧
    (l.length ≠ m → tmBasis svd false (.given l) [] M = .error .valueError) := by
  constructor
  · intro hl
    refine ⟨divNorm M fun j => l.getD j 0, by simp [tmBasis, normed, excludeCols, hl, bind, Except.bind],
      divNorm_span M _ fun j hj => ?_⟩
    exfalso
    have hj' : j.val < l.length := hl ▸ j.isLt
    rw [List.getD_eq_getElem?_getD, List.getElem?_eq_getElem hj', Option.getD_some] at hj
    exact h0 _ (List.getElem_mem hj') hj
  · intro hl
    simp [tmBasis, normed, excludeCols, hl, bind, Except.bind]

/-- The same with parameters left out: the list has to be as long as the number of columns that are left. -/
theorem C91_given_excluded (M : Matrix (Fin n) (Fin m) ℝ) (l : List ℝ) (h0 : ∀ c ∈ l, c ≠ 0) (excl : List Nat)
    (h : excl = [] ∨ ∃ j : Fin m, j.val ∉ excl) :
    ∃ k, (∃ B, tmBasis svd false .no excl M = .ok (⟨k, B⟩, .num)) ∧
      (l.length = k → ∃ B, tmBasis svd false (.given l) excl M = .ok (⟨k, B⟩, .num) ∧
        ∀ r, (∃ x, B *ᵥ x = r) ↔ Corrections M excl r) ∧
      (l.length ≠ k → tmBasis svd false (.given l) excl M = .error .valueError) := by
  obtain ⟨⟨k, A⟩, hA⟩ := exclude_ok M excl h
  refine ⟨k, ⟨A, by simp [tmBasis, unnormed, hA, bind, Except.bind]⟩, fun hl => ?_, fun hl => ?_⟩
  · refine ⟨divNorm A fun j => l.getD j 0, by simp [tmBasis, normed, hA, hl, bind, Except.bind], fun r => ?_⟩
    refine (divNorm_span A _ (fun j hj => ?_) r).trans (exclude_span hA r)
    exfalso
    have hj' : j.val < l.length := hl ▸ j.isLt
    rw [List.getD_eq_getElem?_getD, List.getElem?_eq_getElem hj', Option.getD_some] at hj
    exact h0 _ (List.getElem_mem hj') hj
  · simp [tmBasis, normed, hA, hl, bind, Except.bind]

/-- **C91.**  `use_svd=True`: the columns are orthonormal, every correction by the design matrix is possible, and the
corrections are the same if the columns of the design matrix are independent. -/
theorem C91_svd (M : Matrix (Fin n) (Fin m) ℝ) (excl : List Nat) (h : excl = [] ∨ ∃ j : Fin m, j.val ∉ excl) :
    ∃ k B w, tmBasis svd true .yes excl M = .ok (⟨k, B⟩, w) ∧ Bᵀ * B = 1 ∧
      (∀ r, Corrections M excl r → ∃ x, B *ᵥ x = r) ∧
      ((∀ x : Fin m → ℝ, (∀ j : Fin m, j.val ∈ excl → x j = 0) → M *ᵥ x = 0 → x = 0) →
        ∀ r, (∃ x, B *ᵥ x = r) ↔ Corrections M excl r) := by
  obtain ⟨A, hA⟩ := exclude_ok M excl h
  refine ⟨min n A.1, (svd A.2).u, .vec (min n A.1), by simp [tmBasis, svdBasis, hA, bind, Except.bind], (svd A.2).hu, ?_, ?_⟩
  · intro r hr
    obtain ⟨x, rfl⟩ := (exclude_span hA r).2 hr
    exact svd_covers _ x
  · intro hM r
    refine ((svd_span (svd A.2)).2 (svd_full _ (exclude_inj hA hM)) r).trans (exclude_span hA r)

/-- If a combination of the columns of the design matrix is zero (and there are at least as many TOAs as columns), then
the singular vectors allow for a correction that the design matrix does not: the two bases are different models. -/
theorem C91_svd_false (M : Matrix (Fin n) (Fin m) ℝ) (hnm : m ≤ n) (x : Fin m → ℝ) (hx : x ≠ 0) (hM : M *ᵥ x = 0) :
    ∃ k B w, tmBasis svd true .yes [] M = .ok (⟨k, B⟩, w) ∧ ∃ y, ¬ Corrections M [] (B *ᵥ y) := by
  refine ⟨min n m, (svd M).u, .vec (min n m), by simp [tmBasis, svdBasis, excludeCols, bind, Except.bind], ?_⟩
  by_contra hc
  push Not at hc
  have hspan : SameSpan (svd M).u M := by
    intro r
    constructor
    · rintro ⟨y, rfl⟩
      obtain ⟨z, -, hz⟩ := hc y
      exact ⟨z, hz⟩
    · rintro ⟨y, rfl⟩
      exact svd_covers _ y
  have hs := (svd_span _).1 hspan
  have hv : (svd M).vᵀ * (svd M).v = 1 :=
    (mul_eq_one_comm_of_card_eq _ _ _ (by simp [hnm])).1 (svd M).hv
  apply hx
  have h1 : (svd M).u *ᵥ (diagonal (svd M).s *ᵥ ((svd M).v *ᵥ x)) = (svd M).u *ᵥ 0 := by
    rw [← svd_mulVec, hM, mulVec_zero]
  have h2 := svd_inj _ h1
  have h3 : (svd M).v *ᵥ x = 0 := by
    funext i
    have := congrFun h2 i
    rw [mulVec_diagonal] at this
    exact (mul_eq_zero.1 this).resolve_left (hs i)
  have := congrArg (fun z => (svd M).vᵀ *ᵥ z) h3
  simpa [mulVec_mulVec, hv] using this

/-- Excluding every column raises. -/
theorem C91_none_left (M : Matrix (Fin n) (Fin m) ℝ) (excl : List Nat) (h0 : excl ≠ []) (h : ∀ j : Fin m, j.val ∈ excl)
    (useSvd : Bool) (nrm : NormArg) : ∃ e, tmBasis svd useSvd nrm excl M = .error e := by
  have he : excludeCols M excl = .error .indexError := by
    unfold excludeCols
    rw [if_neg h0, if_pos]
    apply List.eq_nil_iff_forall_not_mem.2
    intro j hj
    exact mem_kept.1 hj (h j)
  rcases useSvd <;> rcases nrm <;>
    simp [tmBasis, svdBasis, normed, unnormed, he, bind, Except.bind]

/-- `use_svd=True` with anything but `normed=True` raises. -/
theorem C91_svd_normed (M : Matrix (Fin n) (Fin m) ℝ) (excl : List Nat) (nrm : NormArg) (h : nrm ≠ .yes) :
    tmBasis svd true nrm excl M = .error .valueError := by
  rcases nrm with _ | _ | l
  · exact absurd rfl h
  · rfl
  · rfl

/-- Whichever basis is chosen, the prior gives every column the variance `1e40`. -/
theorem C91_prior (M : Matrix (Fin n) (Fin m) ℝ) (excl : List Nat) (useSvd : Bool) (nrm : NormArg)
    {k : Nat} {B : Matrix (Fin n) (Fin k) ℝ} {w : Weights} (h : tmBasis svd useSvd nrm excl M = .ok (⟨k, B⟩, w)) :
    tmPrior k w = .ok fun _ => 1e40 := by
  rcases he : excludeCols M excl with e | A
  · rcases useSvd <;> rcases nrm <;> simp [tmBasis, svdBasis, normed, unnormed, he, bind, Except.bind] at h
  · rcases useSvd <;> rcases nrm <;> simp [tmBasis, svdBasis, normed, unnormed, he, bind, Except.bind] at h
    · rw [← h.2]; rfl
    · rw [← h.2]; rfl
    · split at h
      · simp at h; rw [← h.2]; rfl
      · cases h
    · obtain ⟨⟨rfl, -⟩, rfl⟩ := h
      simp [tmPrior]

/-- `create_stabletimingdesignmatrix`: unless a column is zero, the columns have length one and allow for the same
corrections. -/
theorem C91_stable (M : Matrix (Fin n) (Fin m) ℝ) (h : ∀ j, ∃ i, M i j ≠ 0) :
    ∃ B, stableFast M = .ok B ∧ SameSpan B M ∧ ∀ j, ∑ i, B i j ^ 2 = 1 := by
  have h0 : ∀ j, colNorm M j ≠ 0 := by
    intro j hj
    obtain ⟨i, hi⟩ := h j
    exact hi ((colNorm_zero M j).1 hj i)
  have e : (of fun i j => M i j / colNorm M j) = divNorm M (colNorm M) := by
    ext i j; simp [divNorm, h0 j]
  refine ⟨divNorm M (colNorm M), by unfold stableFast; rw [if_pos h0, e],
    divNorm_span M _ fun j hj => absurd hj (h0 j), fun j => ?_⟩
  rcases divNorm_unit M j with h1 | h1
  · exact h1.1
  · obtain ⟨i, hi⟩ := h j
    exact absurd (h1.2 i) hi

/-! ## C93 -/

open Verif.Noise Verif.Likelihood
open Verif.Kernel (Kern)
open Verif.PhiInv (toMatrix)
open Verif.PtaPhi (entries)
open Verif.Partition (Svd)

/-- A change of basis. -/
theorem sameSpan_change {A : Matrix (Fin n) (Fin k) ℝ} {B : Matrix (Fin n) (Fin k') ℝ} (h : SameSpan A B) :
    ∃ D : Matrix (Fin k') (Fin k) ℝ, A = B * D := by
  have : ∀ j, ∃ d, B *ᵥ d = A.col j := fun j => (h _).1 ⟨Pi.single j 1, by simp⟩
  choose d hd using this
  refine ⟨of fun i j => d j i, ?_⟩
  ext i j
  have := congrFun (hd j) i
  rw [mul_apply]
  exact this.symm

theorem margLog_change {C : Matrix (Fin n) (Fin n) ℝ} (hC : C.PosDef) {B : Matrix (Fin n) (Fin k) ℝ}
    (hB : Function.Injective B.mulVec) {D : Matrix (Fin k) (Fin k) ℝ} (hD : IsUnit D.det) (r : Fin n → ℝ) :
    margLog C (B * D) r = margLog C B r + -Real.log |D.det| := by
  have hG := gram_posDef C B hC hB
  have hDt : IsUnit Dᵀ.det := by rwa [det_transpose]
  have e1 : (B * D)ᵀ * C⁻¹ * (B * D) = Dᵀ * (Bᵀ * C⁻¹ * B) * D := by
    rw [transpose_mul]; simp only [Matrix.mul_assoc]
  have e2 : projN C (B * D) = projN C B := by
    unfold projN
    rw [e1, Matrix.mul_inv_rev, Matrix.mul_inv_rev, transpose_mul]
    congr 1
    have h1 : D * D⁻¹ = 1 := mul_nonsing_inv D hD
    have h2 : (Dᵀ)⁻¹ * Dᵀ = 1 := nonsing_inv_mul _ hDt
    calc C⁻¹ * (B * D) * (D⁻¹ * ((Bᵀ * C⁻¹ * B)⁻¹ * (Dᵀ)⁻¹)) * (Dᵀ * Bᵀ) * C⁻¹
        = C⁻¹ * B * (D * D⁻¹) * (Bᵀ * C⁻¹ * B)⁻¹ * ((Dᵀ)⁻¹ * Dᵀ) * Bᵀ * C⁻¹ := by simp only [Matrix.mul_assoc]
      _ = C⁻¹ * B * (Bᵀ * C⁻¹ * B)⁻¹ * Bᵀ * C⁻¹ := by rw [h1, h2]; simp
  have hd : 0 < |D.det| := abs_pos.2 hD.ne_zero
  have e3 : Real.log (Dᵀ * (Bᵀ * C⁻¹ * B) * D).det = 2 * Real.log |D.det| + Real.log (Bᵀ * C⁻¹ * B).det := by
    rw [det_mul, det_mul, det_transpose, show D.det * (Bᵀ * C⁻¹ * B).det * D.det = |D.det| ^ 2 * (Bᵀ * C⁻¹ * B).det by
      rw [sq_abs]; ring, Real.log_mul (pow_ne_zero 2 hd.ne') hG.det_pos.ne', Real.log_pow]
    push_cast; ring
  unfold margLog
  rw [e1, e2, e3]
  ring

/-- Two bases for the same corrections give marginalized densities that differ by a constant, whatever the
covariance and the residuals. -/
theorem margLog_basis {A : Matrix (Fin n) (Fin k) ℝ} {B : Matrix (Fin n) (Fin k') ℝ} (h : SameSpan A B)
    (hA : Function.Injective A.mulVec) (hB : Function.Injective B.mulVec) :
    ∃ c, ∀ C : Matrix (Fin n) (Fin n) ℝ, C.PosDef → ∀ r, margLog C A r = margLog C B r + c := by
  obtain ⟨D, hD⟩ := sameSpan_change h
  obtain ⟨E, hE⟩ := sameSpan_change (A := B) (B := A) fun r => (h r).symm
  have inj : ∀ {p q : Nat} (P : Matrix (Fin n) (Fin p) ℝ) (X Y : Matrix (Fin p) (Fin q) ℝ), Function.Injective P.mulVec →
      P * X = P * Y → X = Y := by
    intro p q P X Y hP hXY
    ext i j
    have : P *ᵥ X.col j = P *ᵥ Y.col j := by
      funext a
      exact congrFun (congrFun hXY a) j
    exact congrFun (hP this) i
  have h1 : D * E = 1 := inj B _ _ hB (by rw [← Matrix.mul_assoc, ← hD, Matrix.mul_one, ← hE])
  have h2 : E * D = 1 := inj A _ _ hA (by rw [← Matrix.mul_assoc, ← hE, Matrix.mul_one, ← hD])
  have hk : k' = k := by simpa using square_of_invertible D E h1 h2
  subst hk
  have hu : IsUnit D.det := isUnit_det_of_right_inverse h1
  exact ⟨_, fun C hC r => by rw [hD]; exact margLog_change hC hB hu r⟩

/-- **C93.**  Two bases for the same corrections, in `MarginalizingTimingModel`s of one pulsar: the log likelihood of
the whole array changes by a constant.  The constant does not depend on residuals, delays, white noise, Gaussian
processes, priors or the other pulsars, so that posteriors do not depend on the choice. -/
theorem C93 {A : Matrix (Fin n) (Fin m) ℝ} {B : Matrix (Fin n) (Fin k') ℝ} (h : SameSpan A B)
    (hA : Function.Injective A.mulVec) (hB : Function.Injective B.mulVec) :
    ∃ c, ∀ (svd : ∀ {n : Nat} (M : Matrix (Fin n) (Fin n) ℝ), Svd M) (method : Method), method ≠ .other →
      ∀ (res : Fin n → ℝ) (delays : List (Option (Fin n → ℝ))) (basis : Option (Σ k, Matrix (Fin n) (Fin k) ℝ))
        (phi : Option (Kern ℝ)) (logprior : List ℝ) (sA sB : List (Option (Nmat n ℝ))) (b : Base n ℝ)
        (N : Matrix (Fin n) (Fin n) ℝ) (good : Nat → Prop) (k : Nat) (T : Matrix (Fin n) (Fin k) ℝ)
        (Φ : Matrix (Fin k) (Fin k) ℝ) (others : List Known),
        getNdiag sA.reduceOption = .ok (.marg m A b) → getNdiag sB.reduceOption = .ok (.marg k' B b) →
        Exact b N good → good m → good k' → good k → Φ.PosDef →
        ((basis = none ∧ phi = none ∧ k = 0) ∨
          (basis = some ⟨k, T⟩ ∧ ∃ κ, phi = some κ ∧ κ.size = k ∧ Φ = toMatrix k (entries κ))) →
        ∃ v, lnlike svd method (⟨n, res, delays, sA, basis, phi, logprior⟩ :: others.map Known.p) [] = .ok (some (v + c)) ∧
          lnlike svd method (⟨n, res, delays, sB, basis, phi, logprior⟩ :: others.map Known.p) [] = .ok (some v) := by
  obtain ⟨c, hc⟩ := margLog_basis h hA hB
  refine ⟨c, ?_⟩
  intro svd method hm res delays basis phi logprior sA sB b N good k T Φ others hsA hsB he hgm hgk' hgk hΦ hgp
  let qA : Known := ⟨⟨n, res, delays, sA, basis, phi, logprior⟩, m, k, N, A, T, Φ,
    ⟨_, good, hsA, Likelihood.whole_marg he hgm hA, hgk⟩, hgp, hΦ⟩
  let qB : Known := ⟨⟨n, res, delays, sB, basis, phi, logprior⟩, k', k, N, B, T, Φ,
    ⟨_, good, hsB, Likelihood.whole_marg he hgk' hB, hgk⟩, hgp, hΦ⟩
  have h1 := C84 svd method hm (qA :: others)
  have h2 := C84 svd method hm (qB :: others)
  have hC : qA.C.PosDef := full_posDef qA.hN qA.pos.posSemidef qA.T
  have e : margLog qA.C qA.M qA.r = margLog qB.C qB.M qB.r + c := hc qA.C hC qA.r
  refine ⟨_, ?_, h2⟩
  refine h1.trans ?_
  congr 2
  simp only [priors, List.map_cons, List.sum_cons]
  rw [e]
  have : qA.p.lnprior = qB.p.lnprior := rfl
  rw [this]
  ring

/-- The three bases for a design matrix of independent columns meet the hypotheses of `C93`. -/
theorem C93_bases (M : Matrix (Fin n) (Fin m) ℝ) (hM : Function.Injective M.mulVec) :
    (∃ B, tmBasis svd false .yes [] M = .ok (⟨m, B⟩, .num) ∧ SameSpan B M ∧ Function.Injective B.mulVec) ∧
    (∃ k B w, tmBasis svd true .yes [] M = .ok (⟨k, B⟩, w) ∧ SameSpan B M ∧ Function.Injective B.mulVec) ∧
    tmBasis svd false .no [] M = .ok (⟨m, M⟩, .num) := by
  refine ⟨⟨divNorm M (colNorm M), by simp [tmBasis, normed, excludeCols, bind, Except.bind],
    divNorm_span M _ fun j hj => (colNorm_zero _ j).1 hj, ?_⟩,
    ⟨_, (svd M).u, _, by simp [tmBasis, svdBasis, excludeCols, bind, Except.bind]; rfl,
      (svd_span _).2 (svd_full _ hM), svd_inj _⟩, by simp [tmBasis, unnormed, excludeCols, bind, Except.bind]⟩
  have h0 : ∀ j, colNorm M j ≠ 0 := by
    intro j hj
    have hz : M *ᵥ Pi.single j 1 = M *ᵥ 0 := by
      rw [mulVec_zero]
      funext i
      simp [(colNorm_zero M j).1 hj i]
    have := congrFun (hM hz) j
    rw [Pi.single_eq_same] at this
    exact one_ne_zero this
  have e : ∀ x, divNorm M (colNorm M) *ᵥ x = M *ᵥ fun j => x j / colNorm M j := by
    intro x
    funext i
    rw [mulVec_eq_sum', mulVec_eq_sum']
    refine Finset.sum_congr rfl fun j _ => ?_
    simp only [divNorm, of_apply, if_neg (h0 j)]
    ring
  intro x y hxy
  have hxy' : divNorm M (colNorm M) *ᵥ x = divNorm M (colNorm M) *ᵥ y := hxy
  rw [e, e] at hxy'
  funext j
  have := congrFun (hM hxy') j
  exact (div_left_inj' (h0 j)).1 this

/-- A column of ones and a column of twos, each added to white noise of variance 2. -/
example : let A : Matrix (Fin 3) (Fin 1) ℝ := of fun _ _ => 1
    let B : Matrix (Fin 3) (Fin 1) ℝ := of fun _ _ => 2
    let w : Base 3 ℝ := .arr fun _ => 2
    SameSpan A B ∧ getNdiag [.marg 1 A .zero, .base w] = .ok (.marg 1 A w) ∧
      getNdiag [.marg 1 B .zero, .base w] = .ok (.marg 1 B w) ∧ Exact w (diagonal fun _ => 2) (fun _ => True) := by
  refine ⟨fun r => ⟨?_, ?_⟩, ?_, ?_, arr_exact _ fun _ => by norm_num⟩
  · rintro ⟨x, rfl⟩
    exact ⟨fun j => x j / 2, by funext i; simp [mulVec, dotProduct]; ring⟩
  · rintro ⟨x, rfl⟩
    exact ⟨fun j => x j * 2, by funext i; simp [mulVec, dotProduct]; ring⟩
  · rfl
  · rfl

/-- Three columns of which the second is left out, and two norms (`C91_given_excluded`). -/
example : (∀ c ∈ ([2, 3] : List ℝ), c ≠ 0) ∧ (([1] : List Nat) = [] ∨ ∃ j : Fin 3, j.val ∉ [1]) := by
  refine ⟨fun c hc => ?_, .inr ⟨0, by simp⟩⟩
  rcases List.mem_pair.1 hc with rfl | rfl <;> norm_num

/-- A matrix of independent columns and one in which a combination of the columns is zero. -/
example : Function.Injective (!![1, 1; 0, 1; 0, 0] : Matrix (Fin 3) (Fin 2) ℝ).mulVec ∧
    (!![1, 2; 1, 2; 1, 2] : Matrix (Fin 3) (Fin 2) ℝ) *ᵥ ![2, -1] = 0 := by
  constructor
  · intro x y h
    have h0 := congrFun h 0
    have h1 := congrFun h 1
    simp [mulVec, dotProduct, Fin.sum_univ_two] at h0 h1
    funext i
    fin_cases i
    · simp; linarith
    · simpa using h1
  · funext i
    fin_cases i <;> simp [mulVec, dotProduct, Fin.sum_univ_two]

end Verif.Interp
