import Verif.Props.ToaOrder
import Mathlib.Analysis.Matrix.Spectrum
import Mathlib.Analysis.Matrix.PosDef

/-!
# A wide prior and a marginalized timing model

C128: `TimingModel` gives each column of the timing model a prior of variance `1e40`, `MarginalizingTimingModel` marginalizes over the
columns analytically.  The two log-likelihoods differ by no more than `1e-40 / 2` times the square of the least-squares fit
of the columns and the trace of its covariance, and the wide prior is the smaller.
-/

namespace Verif.Wide

open Verif Verif.Likelihood Verif.Noise Verif.Combine Verif.Joined Verif.Standard Verif.Background Verif.StdArray Matrix
open Verif.Orf (Pos orfMatrix)
open Verif.Partition (Svd)

variable {n m : Nat}

/-! ## The specification -/

/-- The generalized least-squares cost of the parameters `x`. -/
noncomputable def cost (C : Matrix (Fin n) (Fin n) ℝ) (M : Matrix (Fin n) (Fin m) ℝ) (r : Fin n → ℝ) (x : Fin m → ℝ) : ℝ :=
  (r - M *ᵥ x) ⬝ᵥ (C⁻¹ *ᵥ (r - M *ᵥ x))

/-- `x` is the generalized least-squares fit of the columns `M` to `r`. -/
def IsFit (C : Matrix (Fin n) (Fin n) ℝ) (M : Matrix (Fin n) (Fin m) ℝ) (r : Fin n → ℝ) (x : Fin m → ℝ) : Prop :=
  ∀ y, cost C M r x ≤ cost C M r y

/-! ## Two bounds -/

theorem log_det_le {D : Matrix (Fin m) (Fin m) ℝ} (hD : D.PosDef) : Real.log D.det ≤ D.trace - m := by
  have hpos := hD.eigenvalues_pos
  have e1 : D.det = ∏ i, hD.1.eigenvalues i := by simpa using hD.1.det_eq_prod_eigenvalues
  have e2 : D.trace = ∑ i, hD.1.eigenvalues i := by simpa using hD.1.trace_eq_sum_eigenvalues
  rw [e1, e2, Real.log_prod fun i _ => (hpos i).ne']
  have : (∑ i, Real.log (hD.1.eigenvalues i)) ≤ ∑ i, (hD.1.eigenvalues i - 1) :=
    Finset.sum_le_sum fun i _ => Real.log_le_sub_one_of_pos (hpos i)
  simpa [Finset.sum_sub_distrib] using this

theorem trace_pos {D : Matrix (Fin m) (Fin m) ℝ} (hD : D.PosDef) : 0 ≤ D.trace := by
  have e2 : D.trace = ∑ i, hD.1.eigenvalues i := by simpa using hD.1.trace_eq_sum_eigenvalues
  rw [e2]
  exact Finset.sum_nonneg fun i _ => (hD.eigenvalues_pos i).le

theorem log_det_bound {A : Matrix (Fin m) (Fin m) ℝ} (hA : A.PosDef) {ε : ℝ} (hε : 0 < ε) :
    Real.log A.det ≤ Real.log (A + ε • 1).det ∧ Real.log (A + ε • 1).det ≤ Real.log A.det + ε * A⁻¹.trace := by
  have hB : (A + ε • (1 : Matrix (Fin m) (Fin m) ℝ)).PosDef := hA.add (PosDef.one.smul hε)
  set B := A + ε • (1 : Matrix (Fin m) (Fin m) ℝ) with hBd
  have hAu : IsUnit A.det := isUnit_iff_ne_zero.2 hA.det_pos.ne'
  have hBu : IsUnit B.det := isUnit_iff_ne_zero.2 hB.det_pos.ne'
  have hD : ((1 : Matrix (Fin m) (Fin m) ℝ) + ε • A⁻¹).PosDef := PosDef.one.add (hA.inv.smul hε)
  have e1 : A * (1 + ε • A⁻¹) = B := by
    rw [Matrix.mul_add, Matrix.mul_one, Matrix.mul_smul, mul_nonsing_inv _ hAu]
  have e2 : Real.log B.det = Real.log A.det + Real.log (1 + ε • A⁻¹).det := by
    rw [← e1, det_mul, Real.log_mul hA.det_pos.ne' hD.det_pos.ne']
  have e3 : (1 + ε • A⁻¹)⁻¹ = 1 - ε • B⁻¹ := by
    apply inv_eq_right_inv
    have h1 : (1 + ε • A⁻¹) = A⁻¹ * B := by
      rw [← e1, ← Matrix.mul_assoc, nonsing_inv_mul _ hAu, Matrix.one_mul]
    rw [Matrix.mul_sub, Matrix.mul_one, Matrix.mul_smul]
    nth_rw 2 [h1]
    rw [Matrix.mul_assoc, mul_nonsing_inv _ hBu, Matrix.mul_one]
    abel
  constructor
  · have h := log_det_le hD.inv
    rw [det_nonsing_inv, Ring.inverse_eq_inv', Real.log_inv, e3, trace_sub, trace_smul, trace_one, Fintype.card_fin, smul_eq_mul] at h
    have := mul_nonneg hε.le (trace_pos hB.inv)
    linarith
  · have h := log_det_le hD
    rw [trace_add, trace_smul, trace_one, Fintype.card_fin, smul_eq_mul] at h
    linarith

theorem quad_bound {A : Matrix (Fin m) (Fin m) ℝ} (hA : A.PosDef) {ε : ℝ} (hε : 0 < ε) (x : Fin m → ℝ) :
    (A *ᵥ x) ⬝ᵥ ((A + ε • 1)⁻¹ *ᵥ (A *ᵥ x)) ≤ (A *ᵥ x) ⬝ᵥ x ∧
      (A *ᵥ x) ⬝ᵥ x ≤ (A *ᵥ x) ⬝ᵥ ((A + ε • 1)⁻¹ *ᵥ (A *ᵥ x)) + ε * (x ⬝ᵥ x) := by
  have hB : (A + ε • (1 : Matrix (Fin m) (Fin m) ℝ)).PosDef := hA.add (PosDef.one.smul hε)
  set B := A + ε • (1 : Matrix (Fin m) (Fin m) ℝ) with hBd
  have hBu : IsUnit B.det := isUnit_iff_ne_zero.2 hB.det_pos.ne'
  have hAt : Aᵀ = A := by simpa [conjTranspose_eq_transpose_of_trivial] using hA.1.eq
  obtain ⟨z, hz⟩ : ∃ z, z = B⁻¹ *ᵥ x := ⟨_, rfl⟩
  have hx : A *ᵥ z + ε • z = x := by
    have : B *ᵥ z = x := by rw [hz, mulVec_mulVec, mul_nonsing_inv _ hBu, one_mulVec]
    rwa [hBd, add_mulVec, smul_mulVec, one_mulVec] at this
  have h1 : B⁻¹ *ᵥ (A *ᵥ x) = x - ε • z := by
    have : A *ᵥ x = B *ᵥ x - ε • x := by rw [hBd, add_mulVec, smul_mulVec, one_mulVec]; abel
    rw [this, mulVec_sub, mulVec_mulVec, nonsing_inv_mul _ hBu, one_mulVec, mulVec_smul, hz]
  have h2 : (A *ᵥ x) ⬝ᵥ z = x ⬝ᵥ (A *ᵥ z) := by
    rw [dotProduct_mulVec, ← mulVec_transpose, hAt]
  have h3 : A *ᵥ z = x - ε • z := by rw [← hx]; abel
  have hzz : 0 ≤ z ⬝ᵥ (A *ᵥ z) := by simpa using hA.posSemidef.dotProduct_mulVec_nonneg z
  have hAA : 0 ≤ (A *ᵥ z) ⬝ᵥ (A *ᵥ z) := Finset.sum_nonneg fun i _ => mul_self_nonneg _
  have hz2 : 0 ≤ z ⬝ᵥ z := Finset.sum_nonneg fun i _ => mul_self_nonneg _
  rw [h1, dotProduct_sub, dotProduct_smul, smul_eq_mul, h2]
  constructor
  · have : x ⬝ᵥ (A *ᵥ z) = (A *ᵥ z) ⬝ᵥ (A *ᵥ z) + ε * (z ⬝ᵥ (A *ᵥ z)) := by
      nth_rw 1 [← hx]
      rw [add_dotProduct, smul_dotProduct, smul_eq_mul]
    rw [this]
    have := mul_nonneg hε.le (add_nonneg hAA (mul_nonneg hε.le hzz))
    linarith
  · have e : x ⬝ᵥ (A *ᵥ z) = x ⬝ᵥ x - ε * (x ⬝ᵥ z) := by
      rw [h3, dotProduct_sub, dotProduct_smul, smul_eq_mul]
    have : x ⬝ᵥ z = z ⬝ᵥ (A *ᵥ z) + ε * (z ⬝ᵥ z) := by
      nth_rw 1 [← hx]
      rw [add_dotProduct, smul_dotProduct, smul_eq_mul, dotProduct_comm]
    have h4 : 0 ≤ x ⬝ᵥ z := by rw [this]; exact add_nonneg hzz (mul_nonneg hε.le hz2)
    rw [e]
    nlinarith [mul_nonneg hε.le (mul_nonneg hε.le h4)]

/-! ## The fit -/

theorem fit_ok {C : Matrix (Fin n) (Fin n) ℝ} {M : Matrix (Fin n) (Fin m) ℝ} (hC : C.PosDef) (hM : Function.Injective M.mulVec)
    (r : Fin n → ℝ) : ∃ x, IsFit C M r x ∧ (Mᵀ * C⁻¹ * M) *ᵥ x = Mᵀ *ᵥ (C⁻¹ *ᵥ r) := by
  have hG := gram_posDef C M hC hM
  have hGu : IsUnit (Mᵀ * C⁻¹ * M).det := isUnit_iff_ne_zero.2 hG.det_pos.ne'
  have hCt : C⁻¹ᵀ = C⁻¹ := by simpa [conjTranspose_eq_transpose_of_trivial] using hC.inv.1.eq
  refine ⟨(Mᵀ * C⁻¹ * M)⁻¹ *ᵥ (Mᵀ *ᵥ (C⁻¹ *ᵥ r)), ?_, by rw [mulVec_mulVec, mul_nonsing_inv _ hGu, one_mulVec]⟩
  obtain ⟨x, hx⟩ : ∃ x, x = (Mᵀ * C⁻¹ * M)⁻¹ *ᵥ (Mᵀ *ᵥ (C⁻¹ *ᵥ r)) := ⟨_, rfl⟩
  have hn : (Mᵀ * C⁻¹ * M) *ᵥ x = Mᵀ *ᵥ (C⁻¹ *ᵥ r) := by rw [hx, mulVec_mulVec, mul_nonsing_inv _ hGu, one_mulVec]
  rw [← hx]
  intro y
  obtain ⟨u, hu⟩ : ∃ u, u = r - M *ᵥ x := ⟨_, rfl⟩
  obtain ⟨w, hw⟩ : ∃ w, w = M *ᵥ (x - y) := ⟨_, rfl⟩
  have e1 : r - M *ᵥ y = u + w := by rw [hu, hw, mulVec_sub]; abel
  have e2 : w ⬝ᵥ (C⁻¹ *ᵥ u) = 0 := by
    have : Mᵀ *ᵥ (C⁻¹ *ᵥ u) = 0 := by
      rw [hu, mulVec_sub, mulVec_sub, ← hn, sub_eq_zero]
      simp only [mulVec_mulVec, Matrix.mul_assoc]
    rw [hw, dotProduct_comm, dotProduct_mulVec, ← mulVec_transpose, this, zero_dotProduct]
  have e3 : u ⬝ᵥ (C⁻¹ *ᵥ w) = 0 := by
    rw [dotProduct_mulVec, ← mulVec_transpose, hCt, dotProduct_comm, e2]
  have e4 : 0 ≤ w ⬝ᵥ (C⁻¹ *ᵥ w) := by simpa using hC.inv.posSemidef.dotProduct_mulVec_nonneg w
  unfold cost
  rw [e1, ← hu, mulVec_add, add_dotProduct, dotProduct_add, dotProduct_add, e2, e3]
  linarith

/-- C128: the log density with a prior of variance `s` for each column is below the marginalized log density, corrected by
`m/2 (log s - log 1e40)`, by no more than half of the square of the fit and the trace of its covariance over `s`. -/
theorem C128_prior {C : Matrix (Fin n) (Fin n) ℝ} {M : Matrix (Fin n) (Fin m) ℝ} (hC : C.PosDef) (hM : Function.Injective M.mulVec)
    (r : Fin n → ℝ) {s : ℝ} (hs : 0 < s) : ∃ x, IsFit C M r x ∧
      gaussLog (C + s • (M * Mᵀ)) r + m / 2 * (Real.log s - Real.log (10 ^ 40)) ≤ margLog C M r ∧
      margLog C M r ≤ gaussLog (C + s • (M * Mᵀ)) r + m / 2 * (Real.log s - Real.log (10 ^ 40)) +
        1 / 2 * (s⁻¹ * (x ⬝ᵥ x + (Mᵀ * C⁻¹ * M)⁻¹.trace)) := by
  obtain ⟨x, hf, hx⟩ := fit_ok hC hM r
  refine ⟨x, hf, ?_⟩
  have hG := gram_posDef C M hC hM
  have hGu : IsUnit (Mᵀ * C⁻¹ * M).det := isUnit_iff_ne_zero.2 hG.det_pos.ne'
  have hCt : C⁻¹ᵀ = C⁻¹ := by simpa [conjTranspose_eq_transpose_of_trivial] using hC.inv.1.eq
  obtain ⟨hinv, hdet⟩ := wideN_inv hC hM s hs
  have hi := inv_pos.2 hs
  have hGs : (Mᵀ * C⁻¹ * M + s⁻¹ • (1 : Matrix (Fin m) (Fin m) ℝ)).PosDef := hG.add (PosDef.one.smul hi)
  have hl : Real.log (wideN C M s).det = m * Real.log s + Real.log C.det +
      Real.log (Mᵀ * C⁻¹ * M + s⁻¹ • (1 : Matrix (Fin m) (Fin m) ℝ)).det := by
    rw [hdet, Real.log_mul (mul_pos (pow_pos hs m) hC.det_pos).ne' hGs.det_pos.ne',
      Real.log_mul (pow_pos hs m).ne' hC.det_pos.ne', Real.log_pow]
  have hq : ∀ K : Matrix (Fin m) (Fin m) ℝ, r ⬝ᵥ ((C⁻¹ - C⁻¹ * M * K * Mᵀ * C⁻¹) *ᵥ r) =
      r ⬝ᵥ (C⁻¹ *ᵥ r) - ((Mᵀ * C⁻¹ * M) *ᵥ x) ⬝ᵥ (K *ᵥ ((Mᵀ * C⁻¹ * M) *ᵥ x)) := by
    intro K
    rw [hx, sub_mulVec, dotProduct_sub]
    congr 1
    have : (C⁻¹ * M * K * Mᵀ * C⁻¹) *ᵥ r = C⁻¹ *ᵥ (M *ᵥ (K *ᵥ (Mᵀ *ᵥ (C⁻¹ *ᵥ r)))) := by simp only [mulVec_mulVec, Matrix.mul_assoc]
    rw [this, dotProduct_mulVec, ← mulVec_transpose, hCt, dotProduct_mulVec, ← mulVec_transpose]
  have hb := quad_bound hG hi x
  have hd := log_det_bound hG hi
  have e1 : r ⬝ᵥ (projN C M *ᵥ r) = r ⬝ᵥ (C⁻¹ *ᵥ r) - ((Mᵀ * C⁻¹ * M) *ᵥ x) ⬝ᵥ x := by
    have h := hq (Mᵀ * C⁻¹ * M)⁻¹
    rw [mulVec_mulVec _ (Mᵀ * C⁻¹ * M)⁻¹ (Mᵀ * C⁻¹ * M), nonsing_inv_mul _ hGu, one_mulVec] at h
    exact h
  have e2 : r ⬝ᵥ ((wideN C M s)⁻¹ *ᵥ r) = r ⬝ᵥ (C⁻¹ *ᵥ r) -
      ((Mᵀ * C⁻¹ * M) *ᵥ x) ⬝ᵥ ((Mᵀ * C⁻¹ * M + s⁻¹ • (1 : Matrix (Fin m) (Fin m) ℝ))⁻¹ *ᵥ ((Mᵀ * C⁻¹ * M) *ᵥ x)) := by
    rw [hinv, hq]
  have e3 : gaussLog (C + s • (M * Mᵀ)) r = -(1 / 2) * (r ⬝ᵥ ((wideN C M s)⁻¹ *ᵥ r) + Real.log (wideN C M s).det) := rfl
  rw [e3, e2, hl]
  unfold margLog
  rw [e1]
  constructor
  · linarith [hb.1, hd.1, hb.2, hd.2]
  · linarith [hb.1, hd.1, hb.2, hd.2]

/-! ## The columns of an array -/

theorem jm_rect_of {α : Type} (k l : α → Nat) (A : ∀ a, Matrix (Fin (k a)) (Fin (l a)) ℝ) (f : α → Nat → Nat → ℝ)
    (h : ∀ a i j, A a i j = f a i j) (t : List α) : ∀ i j, Joint.jm k l A t i j = rect (t.map fun a => (k a, l a, f a)) i j := by
  induction t with
  | nil => intro i; exact i.elim0
  | cons a t ih =>
    intro i j
    obtain ⟨i, rfl⟩ := (Joint.es k a t).surjective i
    obtain ⟨j, rfl⟩ := (Joint.es l a t).surjective j
    simp only [Joint.jm, submatrix_apply, Equiv.symm_apply_apply, List.map_cons, rect]
    rcases i with i | i <;> rcases j with j | j <;> simp [es_inl, es_inr, ih, h]

theorem rect_square {α : Type} (k : α → Nat) (f : α → Nat → Nat → ℝ) (l : List α) : ∀ (a b : Nat) (p q : α) (i j : Nat), l[a]? = some p →
    l[b]? = some q → i < k p → j < k q →
    rect (l.map fun x => (k x, k x, f x)) (((l.take a).map k).sum + i) (((l.take b).map k).sum + j) = if a = b then f p i j else 0 := by
  induction l with
  | nil => intro a b p q i j h; simp at h
  | cons c t ih =>
    intro a b p q i j ha hb hi hj
    rcases a with _ | a <;> rcases b with _ | b
    · obtain rfl : c = p := by simpa using ha
      obtain rfl : c = q := by simpa using hb
      simp [rect, hi, hj]
    · obtain rfl : c = p := by simpa using ha
      simp [rect, hi, Nat.add_assoc]
    · obtain rfl : c = q := by simpa using hb
      simp [rect, hj, Nat.add_assoc]
    · have := ih a b p q i j (by simpa using ha) (by simpa using hb) hi hj
      simp only [List.map_cons, rect, List.take_succ_cons, List.sum_cons]
      rw [if_neg (by omega), if_neg (by omega), Nat.add_assoc, Nat.add_assoc, Nat.add_sub_cancel_left, Nat.add_sub_cancel_left, this]
      simp

/-- The columns of a pulsar that are marginalized over. -/
noncomputable def own (d : Std × Labels) : Matrix (Fin d.1.toas.length) (Fin d.1.wide) ℝ := Matrix.of fun i c => spanned d.1.tm.2 i c

theorem columns_jm (ds : List (Std × Labels)) : columns ds = Joint.jm (fun d => d.1.toas.length) (fun d => d.1.wide) own ds := by
  ext i j
  exact (jm_rect_of (fun d : Std × Labels => d.1.toas.length) (fun d => d.1.wide) own (fun d => spanned d.1.tm.2) (fun _ _ _ => rfl) ds i j).symm

theorem columns_injective {seeded : Int → Bases.Rng} {ds : List (Std × Labels)} (h : ∀ d ∈ ds, d.1.Ok seeded d.2) :
    Function.Injective (columns ds).mulVec := by
  rw [columns_jm]
  refine Joint.jm_injective _ _ fun d hd => ?_
  cases hm : d.1.marg with
  | false =>
    have hw : d.1.wide = 0 := by simp [Std.wide, hm]
    intro x y _
    funext c
    exact (Fin.cast hw c).elim0
  | true =>
    have hw : d.1.wide = d.1.tm.1 := by simp [Std.wide, hm]
    have hi := (h d hd).indep hm
    intro x y hxy
    have key : ∀ z : Fin d.1.wide → ℝ, own d *ᵥ z = d.1.tm.2 *ᵥ fun c => z (Fin.cast hw.symm c) := by
      intro z
      funext i
      simp only [mulVec, dotProduct, own, of_apply]
      refine Fintype.sum_equiv (finCongr hw) _ _ fun c => ?_
      have : (i : Nat) < d.1.toas.length ∧ (c : Nat) < d.1.tm.1 := ⟨i.2, hw ▸ c.2⟩
      simp only [spanned, dif_pos this]
      rfl
    have h1 := hi ((key x).symm.trans (hxy.trans (key y)))
    funext c
    exact congrFun h1 (Fin.cast hw c)

theorem columns_gram (ds : List (Std × Labels)) (a b : Nat) (d d' : Std × Labels) (ha : ds[a]? = some d) (hb : ds[b]? = some d') (i j : Nat)
    (hi : i < d.1.toas.length) (hj : j < d'.1.toas.length) (r s : Fin (size ds)) (hr : (r : Nat) = size (ds.take a) + i)
    (hs : (s : Nat) = size (ds.take b) + j) : (columns ds * (columns ds)ᵀ) r s =
      if a = b then (if d.1.marg then ∑ c : Fin d.1.tm.1, spanned d.1.tm.2 i c * spanned d.1.tm.2 j c else 0) else 0 := by
  have e : columns ds * (columns ds)ᵀ =
      Joint.jm (fun d : Std × Labels => d.1.toas.length) (fun d => d.1.toas.length) (fun d => own d * (own d)ᵀ) ds := by
    rw [columns_jm]
    exact (congrArg _ (Joint.jm_transpose own ds)).trans (Joint.jm_mul own (fun d => (own d)ᵀ) ds)
  rw [e]
  refine (jm_rect_of (fun d : Std × Labels => d.1.toas.length) (fun d => d.1.toas.length) (fun d => own d * (own d)ᵀ)
    (fun d i j => ∑ c ∈ Finset.range d.1.wide, spanned d.1.tm.2 i c * spanned d.1.tm.2 j c) ?_ ds r s).trans ?_
  rotate_left
  · have h := rect_square (fun d : Std × Labels => d.1.toas.length)
      (fun d i j => ∑ c ∈ Finset.range d.1.wide, spanned d.1.tm.2 i c * spanned d.1.tm.2 j c) ds a b d d' i j ha hb hi hj
    rw [hr, hs]
    refine h.trans ?_
    refine if_congr Iff.rfl ?_ rfl
    cases hm : d.1.marg with
    | false => simp [Std.wide, hm]
    | true =>
      simp only [Std.wide, hm, if_true]
      exact (Fin.sum_univ_eq_sum_range (fun c => spanned d.1.tm.2 i c * spanned d.1.tm.2 j c) d.1.tm.1).symm
  · intro d i j
    simp only [Matrix.mul_apply, transpose_apply, own, of_apply]
    exact Fin.sum_univ_eq_sum_range (fun c => spanned d.1.tm.2 i c * spanned d.1.tm.2 j c) d.1.wide

/-! ## Arrays -/

/-- The pulsar with its timing model as a process of variance `1e40`. -/
def narrow (d : Std × Labels) : Std × Labels := ({ d.1 with marg := false }, d.2)

theorem narrow_ok {seeded : Int → Bases.Rng} {d : Std × Labels} (h : d.1.Ok seeded d.2) : (narrow d).1.Ok seeded (narrow d).2 := by
  obtain ⟨h1, h2, h3, h4, h5, h6, h7, h8, h9, h10, h11, h12, h13, h14, h15, h16⟩ := h
  refine ⟨h1, h2, h3, h4, h5, h6, h7, h8, h9, h10, h11, h12, h13, h14, ?_, fun h => by cases h⟩
  have key : ∀ j j' : Fin d.1.tm.1, (∀ i, d.1.tm.2 i j = d.1.tm.2 i j') → j = j' := ?_
  · exact fun _ => key
  intro j j' hjj
  cases hm : d.1.marg with
  | false => exact h15 hm j j' hjj
  | true =>
    by_contra hne
    have h := h16 hm (a₁ := fun c : Fin d.1.tm.1 => if c = j then 1 else 0) (a₂ := fun c : Fin d.1.tm.1 => if c = j' then 1 else 0) (by
      funext i
      simpa [mulVec, dotProduct] using hjj i)
    have h0 : (if j = j then (1 : ℝ) else 0) = if j = j' then 1 else 0 := congrFun h j
    rw [if_pos rfl, if_neg hne] at h0
    exact one_ne_zero h0

theorem narrow_own (d : Std × Labels) (same same' : Nat → Nat → Bool) (h : Epoch d.1.toas d.1.dt d.1.emasks same)
    (h' : Epoch d.1.toas d.1.dt d.1.emasks same') (i j : Nat) : (narrow d).1.own (narrow d).2 same' i j =
      d.1.own d.2 same i j + (1e40 : ℝ) * if d.1.marg then ∑ c : Fin d.1.tm.1, spanned d.1.tm.2 i c * spanned d.1.tm.2 j c else 0 := by
  have hsame : same' i j = same i j := by rw [Bool.eq_iff_iff, h.exact, h'.exact]
  unfold Std.own
  rw [hsame]
  show _ + _ + _ + (if false = true then (0 : ℝ) else _) = _
  cases hm : d.1.marg with
  | false => simp [narrow]; exact .inl rfl
  | true => simp [narrow]; exact .inl rfl

variable {H : Type} [DecidableEq H]

/-- C128: in an array with `MarginalizingTimingModel` the log-likelihood is above that of the same array with `TimingModel`, by no more than
`1e-40 / 2` times the square of the least-squares fit of the columns and the trace of its covariance. -/
theorem C128_array (hash : Col ℝ → H) (hh : Function.Injective hash) (svd : ∀ {n : Nat} (M : Matrix (Fin n) (Fin n) ℝ), Svd M)
    (method : Method) (argsort : List ℝ → List Nat) (hsort : ∀ l, Quantize.IsArgsort l (argsort l)) (seeded : Int → Bases.Rng)
    (orf : Nat → Pos → Pos → ℝ) (ks : List Plaw) (hu : ∀ k ∈ ks, k.Usual) (hs : Suits method ks)
    (ds : List (Std × Labels)) (h0 : ks ≠ [] ∨ ∀ d ∈ ds, d.1.procs ≠ [] ∨ d.1.marg = false) (hds : ∀ d ∈ ds, d.1.Ok seeded d.2)
    (horf : ∀ c, c < ks.length → (orfMatrix (orf c) fun u : Fin ds.length => (ds[u]).1.pos).PosDef)
    (hd : ∀ k ∈ ks, k.combine = true → ∀ d ∈ ds, DistinctAt k.args.nmodes k.T d.1.toas) (rng rng' : Bases.Rng) :
    ∃ ps ps' v v', pta argsort seeded (ks.map Plaw.common) (ds.map Prod.fst) rng = .ok ps ∧
      pta argsort seeded (ks.map Plaw.common) (ds.map fun d => { d.1 with marg := false }) rng' = .ok ps' ∧
      likelihood hash svd method orf ps = .ok (some v) ∧ likelihood hash svd method orf ps' = .ok (some v') ∧
      ∃ same : Nat → Nat → Nat → Bool, (∀ a d, ds[a]? = some d → Epoch d.1.toas d.1.dt d.1.emasks (same a)) ∧
        ∃ C, C.PosDef ∧ IsCov orf ks ds same C ∧ ∃ x, IsFit C (columns ds) (residuals ds) x ∧
          v' ≤ v ∧ v ≤ v' + 1 / 2 * (1e-40 * (x ⬝ᵥ x + ((columns ds)ᵀ * C⁻¹ * columns ds)⁻¹.trace)) := by
  have hds' : ∀ d ∈ ds.map narrow, d.1.Ok seeded d.2 := by
    intro d hm
    obtain ⟨d, hm', rfl⟩ := List.mem_map.1 hm
    exact narrow_ok (hds d hm')
  have horf' : ∀ c, c < ks.length → (orfMatrix (orf c) fun u : Fin (ds.map narrow).length => ((ds.map narrow)[u]).1.pos).PosDef := by
    intro c hc
    have hl : (ds.map narrow).length = ds.length := List.length_map _
    have e : (orfMatrix (orf c) fun u : Fin (ds.map narrow).length => ((ds.map narrow)[u]).1.pos) =
        (orfMatrix (orf c) fun u : Fin ds.length => (ds[u]).1.pos).submatrix (finCongr hl) (finCongr hl) := by
      ext u v
      show orf c ((ds.map narrow)[u.1]).1.pos ((ds.map narrow)[v.1]).1.pos = _
      rw [List.getElem_map, List.getElem_map]
      rfl
    rw [e]
    exact (horf c hc).submatrix (finCongr hl).injective
  have hd' : ∀ k ∈ ks, k.combine = true → ∀ d ∈ ds.map narrow, DistinctAt k.args.nmodes k.T d.1.toas := by
    intro k hk hc d hm
    obtain ⟨d, hm', rfl⟩ := List.mem_map.1 hm
    exact hd k hk hc d hm'
  obtain ⟨ps, p1, same, p2, C, hC, p3, p4⟩ := C116_array hash hh svd method argsort hsort seeded orf ks hu hs ds h0 hds horf hd rng
  obtain ⟨ps', q1, same', q2, C', -, q3, q4⟩ := C116_array hash hh svd method argsort hsort seeded orf ks hu hs _ (.inr fun d hm => by
    obtain ⟨d, -, rfl⟩ := List.mem_map.1 hm
    exact .inr rfl) hds' horf' hd' rng'
  rw [List.map_map] at q1
  obtain ⟨x, hx, b1, b2⟩ := C128_prior hC (columns_injective hds) (residuals ds) (s := 1e40) (by norm_num)
  refine ⟨ps, ps', _, _, p1, q1, p4, q4, same, p2, C, hC, p3, x, hx, ?_⟩
  have hsz : ∀ t : List (Std × Labels), size (t.map narrow) = size t := fun t => by unfold size; rw [List.map_map]; rfl
  have hw : ((ds.map narrow).map fun d => d.1.wide).sum = 0 := by
    rw [List.map_map]
    refine List.sum_eq_zero fun w hw => ?_
    obtain ⟨d, -, rfl⟩ := List.mem_map.1 hw
    rfl
  have e : margLog C' (columns (ds.map narrow)) (residuals (ds.map narrow)) =
      gaussLog (C + (1e40 : ℝ) • (columns ds * (columns ds)ᵀ)) (residuals ds) := by
    rw [← margLog_zero _ 0]
    refine margLog_ext (hsz ds) hw _ _ _ _ _ _ (fun r s => ?_) (fun i j => (Fin.cast hw j).elim0) fun i => ?_
    · have hloc : ∀ r : Fin (size (ds.map narrow)), ∃ (a : Nat) (d : Std × Labels) (i : Nat), ds[a]? = some d ∧ i < d.1.toas.length ∧
          (r : Nat) = size (ds.take a) + i := by
        intro r
        obtain ⟨a, b, i, h1, h2, h3, -⟩ := locate (ds.map fun d => (d.1.toas.length, id)) r (by
          rw [List.map_map]; exact lt_of_lt_of_eq r.2 (hsz ds))
        rw [List.getElem?_map] at h1
        obtain ⟨d, h4, rfl⟩ := Option.map_eq_some_iff.1 h1
        refine ⟨a, d, i, h4, h2, ?_⟩
        rw [h3, ← List.map_take, List.map_map]
        rfl
      obtain ⟨a, d, i, h1, h2, h3⟩ := hloc r
      obtain ⟨b, d', j, g1, g2, g3⟩ := hloc s
      have n1 : (ds.map narrow)[a]? = some (narrow d) := by rw [List.getElem?_map, h1]; rfl
      have n2 : (ds.map narrow)[b]? = some (narrow d') := by rw [List.getElem?_map, g1]; rfl
      rw [q3 a b _ _ n1 n2 i j h2 g2 r s (by rw [h3, ← List.map_take, hsz (ds.take a)])
        (by rw [g3, ← List.map_take, hsz (ds.take b)])]
      rw [Matrix.add_apply, Matrix.smul_apply, p3 a b d d' h1 g1 i j h2 g2 (Fin.cast (hsz ds) r) (Fin.cast (hsz ds) s) h3 g3,
        columns_gram ds a b d d' h1 g1 i j h2 g2 (Fin.cast (hsz ds) r) (Fin.cast (hsz ds) s) h3 g3, smul_eq_mul]
      by_cases hab : a = b
      · subst hab
        rw [if_pos rfl, if_pos rfl, if_pos rfl, narrow_own d (same a) (same' a) (p2 a d h1) (q2 a (narrow d) n1) i j]
        show _ + (∑ c : Fin ks.length, orf c d.1.pos d'.1.pos * (ks[c]).cov (d.1.toas.getD i 0) (d'.1.toas.getD j 0)) = _
        ring
      · rw [if_neg hab, if_neg hab, if_neg hab]
        show _ + (∑ c : Fin ks.length, orf c d.1.pos d'.1.pos * (ks[c]).cov (d.1.toas.getD i 0) (d'.1.toas.getD j 0)) = _
        ring
    · unfold residuals
      rw [List.map_map]
      rfl
  have e40 : (1e40 : ℝ) = 10 ^ 40 := by norm_num
  have e41 : (1e40 : ℝ)⁻¹ = 1e-40 := by norm_num
  rw [e]
  rw [e41] at b2
  have hz : (((ds.map fun d => d.1.wide).sum : Nat) : ℝ) / 2 * (Real.log 1e40 - Real.log (10 ^ 40)) = 0 := by rw [e40]; ring
  rw [hz, add_zero] at b1 b2
  exact ⟨b1, b2⟩

/-- C128, for a Hellings-Downs background in pulsars in different directions. -/
theorem C128_background (hash : Col ℝ → H) (hh : Function.Injective hash) (svd : ∀ {n : Nat} (M : Matrix (Fin n) (Fin n) ℝ), Svd M)
    (method : Method) (hm : method ≠ .other) (argsort : List ℝ → List Nat) (hsort : ∀ l, Quantize.IsArgsort l (argsort l))
    (seeded : Int → Bases.Rng) (k : Plaw) (hu : k.Usual) (ds : List (Std × Labels)) (hds : ∀ d ∈ ds, d.1.Ok seeded d.2)
    (hunit : ∀ d ∈ ds, Orf.IsUnit3 d.1.pos) (hne : (ds.map fun d => d.1.pos).Nodup)
    (hd : k.combine = true → ∀ d ∈ ds, DistinctAt k.args.nmodes k.T d.1.toas) (rng rng' : Bases.Rng) :
    ∃ ps ps' v v', pta argsort seeded [k.common] (ds.map Prod.fst) rng = .ok ps ∧
      pta argsort seeded [k.common] (ds.map fun d => { d.1 with marg := false }) rng' = .ok ps' ∧
      likelihood hash svd method (fun _ => Orf.hdOrf) ps = .ok (some v) ∧ likelihood hash svd method (fun _ => Orf.hdOrf) ps' = .ok (some v') ∧
      ∃ same : Nat → Nat → Nat → Bool, (∀ a d, ds[a]? = some d → Epoch d.1.toas d.1.dt d.1.emasks (same a)) ∧
        ∃ C, C.PosDef ∧ IsCov (fun _ => Orf.hdOrf) [k] ds same C ∧ ∃ x, IsFit C (columns ds) (residuals ds) x ∧
          v' ≤ v ∧ v ≤ v' + 1 / 2 * (1e-40 * (x ⬝ᵥ x + ((columns ds)ᵀ * C⁻¹ * columns ds)⁻¹.trace)) := by
  refine C128_array hash hh svd method argsort hsort seeded _ [k] (by simpa using hu) (.inr (.inr ⟨hm, by simp⟩)) ds (.inl (by simp)) hds (fun c _ => ?_)
    (by simpa using hd) rng rng'
  refine (Orf.C71_hd_distinct _ (fun i => hunit _ (List.getElem_mem _)) ?_).1
  intro u v huv
  have hinj := List.nodup_iff_injective_get.1 hne
  have := @hinj ⟨u.1, by simp⟩ ⟨v.1, by simp⟩ (by simpa using huv)
  exact Fin.ext (by simpa using this)

/-! ## Cases meeting the hypotheses -/

/-- A column of ones in two TOAs. -/
def ones : Matrix (Fin 2) (Fin 1) ℝ := Matrix.of fun _ _ => 1

/-- TOAs of variance 1 with residuals 1 and 3: the fit is 2, the trace of its covariance is 1/2. -/
example : (1 : Matrix (Fin 2) (Fin 2) ℝ).PosDef ∧ Function.Injective ones.mulVec ∧ IsFit 1 ones ![1, 3] ![2] ∧
    (onesᵀ * (1 : Matrix (Fin 2) (Fin 2) ℝ)⁻¹ * ones)⁻¹.trace = 1 / 2 := by
  refine ⟨PosDef.one, fun x y h => ?_, fun y => ?_, ?_⟩
  · funext c
    fin_cases c
    simpa [mulVec, dotProduct, ones] using congrFun h 0
  · rw [cost, cost, inv_one, one_mulVec, one_mulVec]
    simp only [mulVec, dotProduct, Fin.sum_univ_two, Fin.sum_univ_one, ones, of_apply, Pi.sub_apply, cons_val_zero, cons_val_one]
    nlinarith [sq_nonneg (y 0 - 2)]
  · have : onesᵀ * (1 : Matrix (Fin 2) (Fin 2) ℝ)⁻¹ * ones = Matrix.of fun _ _ => 2 := by
      rw [inv_one, Matrix.mul_one]
      ext i j
      simp only [Matrix.mul_apply, Fin.sum_univ_two, ones, of_apply, transpose_apply]
      norm_num
    rw [this, inv_eq_right_inv (B := Matrix.of fun _ _ => 1 / 2)]
    · simp [trace]
    · ext i j
      fin_cases i
      fin_cases j
      simp [Matrix.mul_apply]

/-- A background in two pulsars, one with a marginalized timing model. -/
example (hash : Col ℝ → H) (hh : Function.Injective hash) (svd : ∀ {n : Nat} (M : Matrix (Fin n) (Fin n) ℝ), Svd M)
    (argsort : List ℝ → List Nat) (hsort : ∀ l, Quantize.IsArgsort l (argsort l)) (seeded : Int → Bases.Rng) (rng rng' : Bases.Rng) :
    ∃ ps ps' v v', pta argsort seeded [(⟨{ nmodes := 1 }, true, -14, 13 / 3, 4⟩ : Plaw).common] [StdArray.exA, StdArray.exB] rng = .ok ps ∧
      pta argsort seeded [(⟨{ nmodes := 1 }, true, -14, 13 / 3, 4⟩ : Plaw).common] [{ StdArray.exA with marg := false }, StdArray.exB] rng' = .ok ps' ∧
      likelihood hash svd .sparse (fun _ => Orf.hdOrf) ps = .ok (some v) ∧ likelihood hash svd .sparse (fun _ => Orf.hdOrf) ps' = .ok (some v') ∧
      v' ≤ v := by
  have mem : ∀ d ∈ [(StdArray.exA, exL), (StdArray.exB, exL)], d = (StdArray.exA, exL) ∨ d = (StdArray.exB, exL) := by
    intro d hd
    simpa using hd
  obtain ⟨ps, ps', v, v', h1, h2, h3, h4, -, -, -, -, -, -, -, h5, -⟩ := C128_background hash hh svd .sparse (by simp) argsort hsort seeded
    ⟨{ nmodes := 1 }, true, -14, 13 / 3, 4⟩ ⟨⟨rfl, rfl, rfl, rfl⟩, rfl, rfl, by simp, by norm_num⟩ [(StdArray.exA, exL), (StdArray.exB, exL)]
    (fun d hd => by
      rcases mem d hd with rfl | rfl
      · exact (ex_ok seeded).1
      · exact (ex_ok seeded).2)
    (fun d hd => by
      rcases mem d hd with rfl | rfl
      · norm_num [StdArray.exA, Orf.IsUnit3, Orf.dot, Fin.sum_univ_three]
        rfl
      · norm_num [StdArray.exB, Orf.IsUnit3, Orf.dot, Fin.sum_univ_three]
        rfl)
    (by
      have hne : StdArray.exA.pos ≠ StdArray.exB.pos := by
        intro h
        have := congrFun h 0
        simp [StdArray.exA, StdArray.exB] at this
      simpa using hne)
    (fun _ d hd c c' hc hc' hne => by
      have h0 : (0 : ℝ) ∈ d.1.toas := by
        rcases mem d hd with rfl | rfl <;> simp [StdArray.exA, StdArray.exB]
      refine ⟨0, h0, ?_⟩
      have hc : c < 2 := hc
      have hc' : c' < 2 := hc'
      have : c = 0 ∧ c' = 1 ∨ c = 1 ∧ c' = 0 := by omega
      rcases this with ⟨rfl, rfl⟩ | ⟨rfl, rfl⟩ <;> simp [Bases.row, Bases.harmonics])
    rng rng'
  exact ⟨ps, ps', v, v', h1, h2, h3, h4, h5⟩

end Verif.Wide
