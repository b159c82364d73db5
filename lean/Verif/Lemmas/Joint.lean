import Verif.Lemmas.Gauss
import Mathlib.Logic.Equiv.Fin.Basic

/-!
Block-diagonal matrices and stacked vectors over a list, each element of which brings its block.
-/

namespace Verif.Joint

open Matrix Verif.Noise

variable {α : Type}

/-- Positions in the first block and in the rest. -/
def es (n : α → Nat) (a : α) (t : List α) : Fin (n a) ⊕ Fin (t.map n).sum ≃ Fin ((a :: t).map n).sum :=
  finSumFinEquiv.trans (finCongr (by rw [List.map_cons, List.sum_cons]))

/-- The block-diagonal matrix of the blocks `A a`. -/
noncomputable def jm (n k : α → Nat) (A : ∀ a, Matrix (Fin (n a)) (Fin (k a)) ℝ) :
    (l : List α) → Matrix (Fin (l.map n).sum) (Fin (l.map k).sum) ℝ
  | [] => of fun i _ => i.elim0
  | a :: t => (fromBlocks (A a) 0 0 (jm n k A t)).submatrix
      (es n a t).symm
      (es k a t).symm

/-- The stacked vector of the `v a`. -/
def jv (n : α → Nat) (v : ∀ a, Fin (n a) → ℝ) : (l : List α) → Fin (l.map n).sum → ℝ
  | [] => fun i => i.elim0
  | a :: t => Sum.elim (v a) (jv n v t) ∘ (es n a t).symm

variable {n k m : α → Nat}

theorem jm_mul (A : ∀ a, Matrix (Fin (n a)) (Fin (k a)) ℝ) (B : ∀ a, Matrix (Fin (k a)) (Fin (m a)) ℝ)
    (l : List α) : jm n k A l * jm k m B l = jm n m (fun a => A a * B a) l := by
  induction l with
  | nil => ext i; exact i.elim0
  | cons a t ih =>
    simp only [jm]
    have := submatrix_mul_equiv (fromBlocks (A a) 0 0 (jm n k A t)) (fromBlocks (B a) 0 0 (jm k m B t))
      (es n a t).symm
      (es k a t).symm
      (es m a t).symm
    refine Eq.trans this ?_
    rw [fromBlocks_multiply, ← ih]
    simp

theorem jm_transpose (A : ∀ a, Matrix (Fin (n a)) (Fin (k a)) ℝ) (l : List α) :
    (jm n k A l)ᵀ = jm k n (fun a => (A a)ᵀ) l := by
  induction l with
  | nil => ext i; exact i.elim0
  | cons a t ih =>
    simp only [jm]
    rw [transpose_submatrix, fromBlocks_transpose, ← ih]
    simp

theorem jm_add (A B : ∀ a, Matrix (Fin (n a)) (Fin (k a)) ℝ) (l : List α) :
    jm n k A l + jm n k B l = jm n k (fun a => A a + B a) l := by
  induction l with
  | nil => ext i; exact i.elim0
  | cons a t ih =>
    simp only [jm]
    rw [← ih, show (0 : Matrix (Fin (n a)) (Fin (t.map k).sum) ℝ) = 0 + 0 by simp,
      show (0 : Matrix (Fin (t.map n).sum) (Fin (k a)) ℝ) = 0 + 0 by simp, ← fromBlocks_add]
    simp
    rfl

theorem jm_sub (A B : ∀ a, Matrix (Fin (n a)) (Fin (k a)) ℝ) (l : List α) :
    jm n k A l - jm n k B l = jm n k (fun a => A a - B a) l := by
  rw [sub_eq_iff_eq_add, jm_add]
  simp

theorem jm_one (l : List α) : jm n n (fun _ => 1) l = 1 := by
  induction l with
  | nil => ext i; exact i.elim0
  | cons a t ih =>
    simp only [jm]
    rw [ih, fromBlocks_one]
    exact submatrix_one_equiv _

theorem jm_det (A : ∀ a, Matrix (Fin (n a)) (Fin (n a)) ℝ) (l : List α) :
    (jm n n A l).det = (l.map fun a => (A a).det).prod := by
  induction l with
  | nil => exact det_isEmpty (n := Fin 0)
  | cons a t ih =>
    refine Eq.trans ?_ (List.prod_cons).symm
    rw [← ih, ← det_fromBlocks_zero₂₁ (A a) 0]
    exact det_submatrix_equiv_self _ _

theorem jm_congr {A B : ∀ a, Matrix (Fin (n a)) (Fin (k a)) ℝ} {l : List α} (h : ∀ a ∈ l, A a = B a) :
    jm n k A l = jm n k B l := by
  induction l with
  | nil => rfl
  | cons a t ih =>
    simp only [jm]
    rw [h a (by simp), ih fun b hb => h b (by simp [hb])]

theorem jm_inv (A : ∀ a, Matrix (Fin (n a)) (Fin (n a)) ℝ) (l : List α) (h : ∀ a ∈ l, (A a).PosDef) :
    (jm n n A l)⁻¹ = jm n n (fun a => (A a)⁻¹) l := by
  apply inv_eq_right_inv
  rw [jm_mul, ← jm_one l]
  exact jm_congr fun a ha => mul_nonsing_inv _ (det_unit (h a ha))

theorem jm_mulVec (A : ∀ a, Matrix (Fin (n a)) (Fin (k a)) ℝ) (v : ∀ a, Fin (k a) → ℝ) (l : List α) :
    jm n k A l *ᵥ jv k v l = jv n (fun a => A a *ᵥ v a) l := by
  induction l with
  | nil => ext i; exact i.elim0
  | cons a t ih =>
    simp only [jm, jv]
    have := submatrix_mulVec_equiv (fromBlocks (A a) 0 0 (jm n k A t))
      (Sum.elim (v a) (jv k v t) ∘ (es k a t).symm)
      (es n a t).symm
      (es k a t).symm
    refine Eq.trans this ?_
    rw [Function.comp_assoc]
    simp only [Equiv.symm_symm, Equiv.symm_comp_self, Function.comp_id]
    rw [fromBlocks_mulVec, ← ih]
    simp

theorem jv_dot (v w : ∀ a, Fin (n a) → ℝ) (l : List α) :
    jv n v l ⬝ᵥ jv n w l = (l.map fun a => v a ⬝ᵥ w a).sum := by
  induction l with
  | nil => exact Finset.sum_of_isEmpty (ι := Fin 0) _
  | cons a t ih =>
    refine Eq.trans ?_ (List.sum_cons).symm
    rw [← ih]
    simp only [jv]
    have := comp_equiv_symm_dotProduct (Sum.elim (v a) (jv n v t))
      (Sum.elim (w a) (jv n w t) ∘ (es n a t).symm)
      (es n a t)
    refine Eq.trans this ?_
    rw [Function.comp_assoc]
    simp only [Equiv.symm_comp_self, Function.comp_id]
    rw [dotProduct_block]
    rfl

/-- A vector over the stacked index splits. -/
theorem jv_split (a : α) (t : List α) (y : Fin ((a :: t).map n).sum → ℝ) :
    ∃ (u : Fin (n a) → ℝ) (w : Fin (t.map n).sum → ℝ),
      y = Sum.elim u w ∘ (es n a t).symm := by
  refine ⟨fun i => y (es n a t (Sum.inl i)),
    fun i => y (es n a t (Sum.inr i)), ?_⟩
  funext i
  obtain ⟨j, rfl⟩ := (es n a t).surjective i
  simp only [Function.comp, Equiv.symm_apply_apply]
  cases j <;> rfl

theorem jm_cons_mulVec (A : ∀ a, Matrix (Fin (n a)) (Fin (k a)) ℝ) (a : α) (t : List α)
    (u : Fin (k a) → ℝ) (w : Fin (t.map k).sum → ℝ) :
    jm n k A (a :: t) *ᵥ (Sum.elim u w ∘ (es k a t).symm) =
      Sum.elim (A a *ᵥ u) (jm n k A t *ᵥ w) ∘ (es n a t).symm := by
  have := submatrix_mulVec_equiv (fromBlocks (A a) 0 0 (jm n k A t))
    (Sum.elim u w ∘ (es k a t).symm)
    (es n a t).symm
    (es k a t).symm
  refine Eq.trans this ?_
  rw [Function.comp_assoc]
  simp only [Equiv.symm_symm, Equiv.symm_comp_self, Function.comp_id]
  rw [fromBlocks_mulVec]
  simp

theorem jm_injective (A : ∀ a, Matrix (Fin (n a)) (Fin (k a)) ℝ) (l : List α)
    (h : ∀ a ∈ l, Function.Injective (A a).mulVec) : Function.Injective (jm n k A l).mulVec := by
  induction l with
  | nil => intro x y _; funext i; exact i.elim0
  | cons a t ih =>
    intro x y hxy
    obtain ⟨u, w, rfl⟩ := jv_split a t x
    obtain ⟨u', w', rfl⟩ := jv_split a t y
    rw [jm_cons_mulVec, jm_cons_mulVec] at hxy
    have := (es n a t).symm.surjective.injective_comp_right hxy
    have h1 : A a *ᵥ u = A a *ᵥ u' := by funext i; exact congrFun this (Sum.inl i)
    have h2 : jm n k A t *ᵥ w = jm n k A t *ᵥ w' := by funext i; exact congrFun this (Sum.inr i)
    rw [h a (by simp) h1, ih (fun b hb => h b (by simp [hb])) h2]

theorem jm_posDef (A : ∀ a, Matrix (Fin (n a)) (Fin (n a)) ℝ) (l : List α) (h : ∀ a ∈ l, (A a).PosDef) :
    (jm n n A l).PosDef := by
  have hs : (jm n n A l).IsHermitian := by
    rw [IsHermitian, conjTranspose_eq_transpose_of_trivial, jm_transpose]
    exact jm_congr fun a ha => by
      have := (h a ha).isHermitian
      rwa [IsHermitian, conjTranspose_eq_transpose_of_trivial] at this
  induction l with
  | nil => 
    refine PosDef.of_dotProduct_mulVec_pos hs fun x hx => ?_
    exact absurd (funext fun i => i.elim0) hx
  | cons a t ih =>
    refine PosDef.of_dotProduct_mulVec_pos hs fun x hx => ?_
    obtain ⟨u, w, rfl⟩ := jv_split a t x
    rw [jm_cons_mulVec, star_trivial]
    have e := comp_equiv_symm_dotProduct (Sum.elim u w)
      (Sum.elim (A a *ᵥ u) (jm n n A t *ᵥ w) ∘ (es n a t).symm)
      (es n a t)
    rw [Function.comp_assoc] at e
    simp only [Equiv.symm_comp_self, Function.comp_id] at e
    rw [dotProduct_block] at e
    refine lt_of_lt_of_eq ?_ e.symm
    have ht := ih (fun b hb => h b (by simp [hb])) (by
      rw [IsHermitian, conjTranspose_eq_transpose_of_trivial, jm_transpose]
      exact jm_congr fun a ha => by
        have := (h a (by simp [ha])).isHermitian
        rwa [IsHermitian, conjTranspose_eq_transpose_of_trivial] at this)
    have h1 := (h a (by simp)).posSemidef.dotProduct_mulVec_nonneg u
    have h2 := ht.posSemidef.dotProduct_mulVec_nonneg w
    simp only [star_trivial] at h1 h2
    by_cases hu : u = 0
    · have hw : w ≠ 0 := by
        rintro rfl
        apply hx
        subst hu
        funext i
        simp only [Function.comp, Pi.zero_apply]
        cases (es n a t).symm i <;> rfl
      have := ht.dotProduct_mulVec_pos hw
      simp only [star_trivial] at this
      exact add_pos_of_nonneg_of_pos h1 this
    · have := (h a (by simp)).dotProduct_mulVec_pos hu
      simp only [star_trivial] at this
      exact add_pos_of_pos_of_nonneg this h2

end Verif.Joint
