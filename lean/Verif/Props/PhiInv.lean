import Verif.Model.PhiInv
import Verif.Props.PtaPhi
import Mathlib.LinearAlgebra.Matrix.Block

/-!
# Property C49: inverting by cliques
-/

set_option linter.unusedSectionVars false

namespace Verif.PhiInv

open Verif Verif.Kernel Matrix

variable {n : Nat}

/-! ## Blocks -/

theorem invBlock_block (lab : Fin n → Int) (k : Int) (M : Matrix (Fin n) (Fin n) ℝ) :
    (invBlock lab k M).toSquareBlock lab k = (M.toSquareBlock lab k)⁻¹ := by
  ext i j
  simp only [toSquareBlock_def, invBlock, of_apply]
  rw [dif_pos ⟨i.2, j.2⟩]

theorem invBlock_other (lab : Fin n → Int) (k : Int) (M : Matrix (Fin n) (Fin n) ℝ) (i j : Fin n)
    (h : ¬ (lab i = k ∧ lab j = k)) : invBlock lab k M i j = M i j := by
  simp only [invBlock, of_apply]
  rw [dif_neg h]

theorem cliqueLoop_ok (lab : Fin n → Int) (ks : List Nat) : ∀ (M : Matrix (Fin n) (Fin n) ℝ) (ld : ℝ), ks.Nodup →
    (∀ k ∈ ks, (M.toSquareBlock lab (k : Int)).det ≠ 0) →
    ∃ M', cliqueLoop lab ks M ld = .ok (M', ld + (ks.map fun k : Nat => Real.log |(M.toSquareBlock lab (k : Int)).det|).sum) ∧
      (∀ k ∈ ks, M'.toSquareBlock lab (k : Int) = (M.toSquareBlock lab (k : Int))⁻¹) ∧
      ∀ i j, (¬ ∃ k ∈ ks, lab i = (k : Int) ∧ lab j = (k : Int)) → M' i j = M i j := by
  induction ks with
  | nil => intro M ld _ _; exact ⟨M, by simp [cliqueLoop], by simp, by simp⟩
  | cons k t ih =>
    intro M ld hn hd
    rw [List.nodup_cons] at hn
    have hsame : ∀ k' ∈ t, (invBlock lab k M).toSquareBlock lab (k' : Int) = M.toSquareBlock lab (k' : Int) := by
      intro k' hk'
      ext i j
      simp only [toSquareBlock_def, of_apply]
      apply invBlock_other
      rintro ⟨h, -⟩
      have := i.2
      rw [h] at this
      exact hn.1 (by have : k = k' := by exact_mod_cast this
                     rw [this]; exact hk')
    rw [cliqueLoop]
    by_cases hex : ∃ i, lab i = (k : Int)
    · rw [if_pos hex, if_neg (hd k (by simp))]
      obtain ⟨M', e, h1, h2⟩ := ih (invBlock lab k M) (ld + Real.log |(M.toSquareBlock lab (k : Int)).det|) hn.2
        (fun k' hk' => by rw [hsame k' hk']; exact hd k' (by simp [hk']))
      refine ⟨M', ?_, ?_, ?_⟩
      · rw [e, List.map_cons, List.sum_cons, ← add_assoc]
        congr 4
        apply List.map_congr_left
        intro k' hk'
        rw [hsame k' hk']
      · intro k' hk'
        rcases List.mem_cons.1 hk' with rfl | hk'
        · rw [← invBlock_block]
          ext i j
          simp only [toSquareBlock_def, of_apply]
          apply h2
          rintro ⟨k, hk, h, -⟩
          have := i.2
          rw [h] at this
          exact hn.1 (by have : k = k' := by exact_mod_cast this
                         rw [← this]; exact hk)
        · rw [h1 k' hk', hsame k' hk']
      · intro i j hij
        rw [h2 i j fun ⟨k', hk', h⟩ => hij ⟨k', by simp [hk'], h⟩]
        exact invBlock_other lab k M i j fun h => hij ⟨k, by simp, h⟩
    · rw [if_neg hex]
      have hempty : IsEmpty {i // lab i = (k : Int)} := ⟨fun i => hex ⟨i.1, i.2⟩⟩
      obtain ⟨M', e, h1, h2⟩ := ih M ld hn.2 fun k' hk' => hd k' (by simp [hk'])
      refine ⟨M', ?_, ?_, ?_⟩
      · rw [e, List.map_cons, List.sum_cons, det_isEmpty]
        simp
      · intro k' hk'
        rcases List.mem_cons.1 hk' with rfl | hk'
        · ext i; exact hempty.elim i
        · exact h1 k' hk'
      · intro i j hij
        exact h2 i j fun ⟨k', hk', h⟩ => hij ⟨k', by simp [hk'], h⟩

/-- Labels between -1 and the count, and zero entries between different labels and for label -1 off the
diagonal. -/
structure Separates (lab : Fin n → Int) (count : Nat) (M : Matrix (Fin n) (Fin n) ℝ) : Prop where
  range : ∀ i, lab i = -1 ∨ ∃ k : Nat, k < count ∧ lab i = (k : Int)
  zero : ∀ i j, i ≠ j → M i j ≠ 0 → lab i = lab j ∧ lab i ≠ -1

theorem sep_det {lab : Fin n → Int} {count : Nat} {M : Matrix (Fin n) (Fin n) ℝ} (h : Separates lab count M) :
    M.det = (∏ k ∈ Finset.range count, (M.toSquareBlock lab (k : Int)).det) * ∏ i, if lab i = -1 then M i i else 1 := by
  have hbt : M.BlockTriangular lab := by
    intro i j hij
    by_contra hne
    have : i ≠ j := fun e => by rw [e] at hij; exact lt_irrefl _ hij
    have := (h.zero i j this hne).1
    omega
  rw [hbt.det]
  have hsub : Finset.univ.image lab ⊆ insert (-1) ((Finset.range count).image fun k : Nat => (k : Int)) := by
    intro a ha
    obtain ⟨i, -, rfl⟩ := Finset.mem_image.1 ha
    rcases h.range i with e | ⟨k, hk, e⟩
    · rw [e]; exact Finset.mem_insert_self ..
    · rw [e]; exact Finset.mem_insert_of_mem (Finset.mem_image.2 ⟨k, Finset.mem_range.2 hk, rfl⟩)
  rw [Finset.prod_subset hsub]
  · rw [Finset.prod_insert]
    · rw [Finset.prod_image (by intro a _ b _ h; simpa using h), mul_comm]
      congr 1
      have hdiag : M.toSquareBlock lab (-1) = Matrix.diagonal fun i : {i // lab i = -1} => M i i := by
        ext i j
        simp only [toSquareBlock_def, of_apply, diagonal_apply]
        split
        · rename_i e; rw [e]
        · rename_i e
          by_contra hne
          exact (h.zero i.1 j.1 (fun e' => e (Subtype.ext e')) hne).2 i.2
      rw [hdiag, det_diagonal, Finset.prod_ite, Finset.prod_const_one, mul_one]
      exact (Finset.prod_subtype (Finset.univ.filter fun i => lab i = -1) (by simp) fun i => M i i).symm
    · intro hm
      obtain ⟨k, -, e⟩ := Finset.mem_image.1 hm
      omega
  · intro a _ ha
    have : IsEmpty {i // lab i = a} := ⟨fun i => ha (Finset.mem_image.2 ⟨i.1, Finset.mem_univ _, i.2⟩)⟩
    exact det_isEmpty

/-- C49: if the labels separate the covariance, the result is its inverse and the logarithm of its
determinant. -/
theorem C49_separated (lab : Fin n → Int) (count : Nat) (M : Matrix (Fin n) (Fin n) ℝ) (h : Separates lab count M)
    (hd : M.det ≠ 0) : cliqueInv lab count M = .ok (M⁻¹, Real.log |M.det|) := by
  have hdet := sep_det h
  have hb : ∀ k ∈ List.range count, (M.toSquareBlock lab (k : Int)).det ≠ 0 := by
    intro k hk e
    apply hd
    rw [hdet, Finset.prod_eq_zero (Finset.mem_range.2 (List.mem_range.1 hk)) e, zero_mul]
  have hdg : ∀ i, lab i = -1 → M i i ≠ 0 := by
    intro i hi e
    apply hd
    rw [hdet, Finset.prod_eq_zero (f := fun i => if lab i = -1 then M i i else 1) (Finset.mem_univ i) (by simp [hi, e]), mul_zero]
  obtain ⟨R, e, h1, h2⟩ := cliqueLoop_ok lab (List.range count) M 0 List.nodup_range hb
  have hRd : ∀ i, lab i = -1 → ∀ j, R i j = M i j := by
    intro i hi j
    apply h2
    rintro ⟨k, -, hk, -⟩
    omega
  unfold cliqueInv
  rw [e]
  simp only [Except.ok.injEq, Prod.mk.injEq]
  constructor
  · symm
    apply inv_eq_right_inv
    ext i j
    rw [mul_apply]
    simp only [of_apply]
    rcases h.range i with hi | ⟨k, hk, hi⟩
    · -- a diagonal row
      rw [Finset.sum_eq_single i]
      · by_cases hij : i = j
        · subst hij
          rw [if_pos ⟨rfl, hi⟩, one_apply_eq, hRd i hi]
          exact mul_one_div_cancel (hdg i hi)
        · rw [if_neg (fun h => hij h.1), hRd i hi, one_apply_ne hij]
          have : M i j = 0 := by
            by_contra hne
            exact (h.zero i j hij hne).2 hi
          rw [this, mul_zero]
      · intro l _ hl
        have : M i l = 0 := by
          by_contra hne
          exact (h.zero i l hl.symm hne).2 hi
        rw [this, zero_mul]
      · intro h; exact absurd (Finset.mem_univ i) h
    · -- a row of clique k
      have hkr : k ∈ List.range count := List.mem_range.2 hk
      by_cases hj : lab j = (k : Int)
      · have hinv : M.toSquareBlock lab (k : Int) * R.toSquareBlock lab (k : Int) = 1 := by
          rw [h1 k hkr]
          exact mul_nonsing_inv _ (isUnit_iff_ne_zero.2 (hb k hkr))
        have hij := congrFun (congrFun hinv ⟨i, hi⟩) ⟨j, hj⟩
        rw [mul_apply] at hij
        simp only [toSquareBlock_def, of_apply] at hij
        have hone : (1 : Matrix {a // lab a = (k : Int)} {a // lab a = (k : Int)} ℝ) ⟨i, hi⟩ ⟨j, hj⟩ =
            (1 : Matrix (Fin n) (Fin n) ℝ) i j := by
          by_cases e : i = j
          · subst e; simp
          · rw [one_apply_ne e, one_apply_ne (fun h => e (Subtype.mk.inj h))]
        rw [hone] at hij
        rw [← hij]
        rw [← Finset.sum_subtype (Finset.univ.filter fun a => lab a = (k : Int)) (by simp) (fun l => M i l * R l j)]
        symm
        rw [Finset.sum_filter]
        apply Finset.sum_congr rfl
        intro l _
        by_cases hl : lab l = (k : Int)
        · rw [if_pos hl, if_neg (fun h => by have := h.2; omega)]
        · rw [if_neg hl]
          have : M i l = 0 := by
            by_contra hne
            have hil : i ≠ l := fun e => hl (e ▸ hi)
            exact hl ((h.zero i l hil hne).1 ▸ hi)
          rw [this, zero_mul]
      · have hij : i ≠ j := fun e => hj (e ▸ hi)
        rw [one_apply_ne hij]
        apply Finset.sum_eq_zero
        intro l _
        by_cases hl : lab l = (k : Int)
        · have hlj : l ≠ j := fun e => hj (e ▸ hl)
          rw [if_neg (fun h => hlj h.1), h2 l j (by
            rintro ⟨k', -, e1, e2⟩
            exact hj (by rw [e2, ← e1, hl]))]
          have : M l j = 0 := by
            by_contra hne
            exact hj ((h.zero l j hlj hne).1 ▸ hl)
          rw [this, mul_zero]
        · have : M i l = 0 := by
            by_contra hne
            have hil : i ≠ l := fun e => hl (e ▸ hi)
            exact hl ((h.zero i l hil hne).1 ▸ hi)
          rw [this, zero_mul]
  · rw [hdet, abs_mul, Real.log_mul]
    · rw [zero_add, Finset.abs_prod, Real.log_prod (fun k hk => abs_ne_zero.2 (hb k (List.mem_range.2 (Finset.mem_range.1 hk))))]
      congr 1
      rw [Finset.abs_prod, Real.log_prod]
      · apply Finset.sum_congr rfl
        intro i _
        by_cases hi : lab i = -1
        · rw [if_pos hi, if_pos hi, hRd i hi, Real.log_abs]
        · rw [if_neg hi, if_neg hi]; simp
      · intro i _
        by_cases hi : lab i = -1
        · rw [if_pos hi]; exact abs_ne_zero.2 (hdg i hi)
        · rw [if_neg hi]; simp
    · exact abs_ne_zero.2 (Finset.prod_ne_zero_iff.2 fun k hk => hb k (List.mem_range.2 (Finset.mem_range.1 hk)))
    · apply abs_ne_zero.2
      apply Finset.prod_ne_zero_iff.2
      intro i _
      split
      · rename_i hi; exact hdg i hi
      · exact one_ne_zero

end Verif.PhiInv
