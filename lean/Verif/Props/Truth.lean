import Verif.Props.Proper
import Verif.Lemmas.GaussInt

/-!
# The likelihood as a density of the data

C134: over all residuals the likelihood integrates to the same constant whatever the parameters, and the expected log-likelihood is largest for the parameters that made the data.
-/

namespace Verif.Truth

open Verif Verif.Likelihood Verif.Noise Verif.Combine Verif.Joined Verif.Standard Verif.Background Verif.StdArray Verif.Limit Matrix
open MeasureTheory (Integrable)
open Verif.Orf (Pos orfMatrix)
open Verif.Partition (Svd)

variable {n : Nat}

/-! ## Gaussian integrals -/

/-- A quadratic form is bounded by a multiple of a positive one. -/
theorem quad_le {P : Matrix (Fin n) (Fin n) ℝ} (hP : P.PosDef) (Q : Matrix (Fin n) (Fin n) ℝ) :
    ∃ b : ℝ, 0 ≤ b ∧ ∀ x : Fin n → ℝ, |x ⬝ᵥ (Q *ᵥ x)| ≤ b * (x ⬝ᵥ (P *ᵥ x)) := by
  obtain ⟨B, hB, hd, -⟩ := GaussInt.exists_factor hP
  have hu : IsUnit B.det := isUnit_iff_ne_zero.2 hd
  refine ⟨∑ i, ∑ j, |((B⁻¹)ᵀ * Q * B⁻¹) i j|, Finset.sum_nonneg fun i _ => Finset.sum_nonneg fun j _ => abs_nonneg _, fun x => ?_⟩
  have hx : x = B⁻¹ *ᵥ (B *ᵥ x) := by rw [mulVec_mulVec, nonsing_inv_mul _ hu, one_mulVec]
  have e1 : x ⬝ᵥ (Q *ᵥ x) = (B *ᵥ x) ⬝ᵥ (((B⁻¹)ᵀ * Q * B⁻¹) *ᵥ (B *ᵥ x)) := by
    conv_lhs => rw [hx]
    rw [← mulVec_mulVec, ← mulVec_mulVec, dotProduct_mulVec (B *ᵥ x), vecMul_transpose]
  have e2 : x ⬝ᵥ (P *ᵥ x) = (B *ᵥ x) ⬝ᵥ (B *ᵥ x) := by rw [hB, GaussInt.quad_factor]
  rw [e1, e2]
  generalize B *ᵥ x = z
  generalize (B⁻¹)ᵀ * Q * B⁻¹ = M
  have hz : ∀ i j, |z i| * |z j| ≤ z ⬝ᵥ z := by
    intro i j
    have h1 : ∀ i, z i ^ 2 ≤ z ⬝ᵥ z := by
      intro i
      rw [dotProduct, sq]
      exact Finset.single_le_sum (f := fun i => z i * z i) (fun i _ => mul_self_nonneg _) (Finset.mem_univ i)
    nlinarith [h1 i, h1 j, sq_abs (z i), sq_abs (z j), sq_nonneg (|z i| - |z j|)]
  generalize z ⬝ᵥ z = S at hz
  simp only [dotProduct, mulVec, Finset.mul_sum, Finset.sum_mul]
  refine (Finset.abs_sum_le_sum_abs _ _).trans (Finset.sum_le_sum fun i _ => (Finset.abs_sum_le_sum_abs _ _).trans ?_)
  refine Finset.sum_le_sum fun j _ => ?_
  rw [abs_mul, abs_mul]
  calc |z i| * (|M i j| * |z j|) = |M i j| * (|z i| * |z j|) := by ring
    _ ≤ _ := mul_le_mul_of_nonneg_left (hz i j) (abs_nonneg _)

theorem gauss_integrable {P : Matrix (Fin n) (Fin n) ℝ} (hP : P.PosDef) : Integrable fun x : Fin n → ℝ => Real.exp (-(1 / 2) * (x ⬝ᵥ (P *ᵥ x))) := by
  by_contra h
  have h1 := GaussInt.gauss_integral hP
  rw [MeasureTheory.integral_undef h] at h1
  have : 0 < Real.sqrt ((2 * Real.pi) ^ n / P.det) := Real.sqrt_pos.2 (div_pos (by positivity) hP.det_pos)
  exact absurd h1 this.ne

theorem exp_gauss {C : Matrix (Fin n) (Fin n) ℝ} (x : Fin n → ℝ) :
    Real.exp (gaussLog C x) = Real.exp (-(1 / 2) * Real.log C.det) * Real.exp (-(1 / 2) * (x ⬝ᵥ (C⁻¹ *ᵥ x))) := by
  rw [gaussLog, ← Real.exp_add]
  congr 1
  ring

theorem gauss_continuous (C : Matrix (Fin n) (Fin n) ℝ) (D : Fin n → ℝ) : Continuous fun y => gaussLog C (y - D) := by
  unfold gaussLog
  simp only [dotProduct, mulVec, Pi.sub_apply]
  fun_prop

/-- The exponential of the log-likelihood is integrable over the data, and its integral depends on their number only. -/
theorem density {C : Matrix (Fin n) (Fin n) ℝ} (hC : C.PosDef) (D : Fin n → ℝ) :
    Integrable (fun y : Fin n → ℝ => Real.exp (gaussLog C (y - D))) ∧
      ∫ y : Fin n → ℝ, Real.exp (gaussLog C (y - D)) = Real.sqrt ((2 * Real.pi) ^ n) := by
  constructor
  · refine Integrable.comp_sub_right (f := fun y => Real.exp (gaussLog C y)) ?_ D
    simp only [exp_gauss]
    exact (gauss_integrable hC.inv).const_mul _
  · rw [MeasureTheory.integral_sub_right_eq_self (fun y => Real.exp (gaussLog C y)) D]
    simp only [exp_gauss]
    rw [MeasureTheory.integral_const_mul, GaussInt.gauss_integral hC.inv, det_nonsing_inv, Ring.inverse_eq_inv', div_inv_eq_mul,
      Real.sqrt_mul (by positivity)]
    have : Real.exp (-(1 / 2) * Real.log C.det) = (Real.sqrt C.det)⁻¹ := by
      rw [Real.sqrt_eq_rpow, ← Real.rpow_neg hC.det_pos.le, Real.rpow_def_of_pos hC.det_pos]
      congr 1
      ring
    rw [this]
    have h0 : Real.sqrt C.det ≠ 0 := (Real.sqrt_pos.2 hC.det_pos).ne'
    field_simp

/-- Any other log-likelihood has an expectation. -/
theorem mean_integrable {C C' : Matrix (Fin n) (Fin n) ℝ} (hC : C.PosDef) (hC' : C'.PosDef) (D D' : Fin n → ℝ) :
    Integrable fun y : Fin n → ℝ => Real.exp (gaussLog C (y - D)) * gaussLog C' (y - D') := by
  obtain ⟨b, hb, hle⟩ := quad_le hC.inv C'⁻¹
  have e : ∀ y : Fin n → ℝ, Real.exp (gaussLog C (y - D)) * gaussLog C' (y - D') =
      (fun x => Real.exp (gaussLog C x) * gaussLog C' (x + (D - D'))) (y - D) := by
    intro y
    simp only
    congr 2
    abel
  simp only [e]
  refine Integrable.comp_sub_right (f := fun x => Real.exp (gaussLog C x) * gaussLog C' (x + (D - D'))) ?_ D
  set u := D - D' with hu
  set K := Real.exp (-(1 / 2) * Real.log C.det) with hK
  have hKp : 0 ≤ K := (Real.exp_pos _).le
  set c := u ⬝ᵥ (C'⁻¹ *ᵥ u) with hc
  have hc0 : 0 ≤ c := by simpa using hC'.inv.posSemidef.dotProduct_mulVec_nonneg u
  have h2 : ((1 / 2 : ℝ) • C⁻¹).PosDef := hC.inv.smul (by norm_num)
  have hdom : Integrable fun x : Fin n → ℝ => 4 * b * K * Real.exp (-(1 / 2) * (x ⬝ᵥ (((1 / 2 : ℝ) • C⁻¹) *ᵥ x))) +
      (c + |Real.log C'.det|) * K * Real.exp (-(1 / 2) * (x ⬝ᵥ (C⁻¹ *ᵥ x))) :=
    ((gauss_integrable h2).const_mul _).add ((gauss_integrable hC.inv).const_mul _)
  refine hdom.mono' ?_ (.of_forall fun x => ?_)
  · refine Continuous.aestronglyMeasurable ?_
    unfold gaussLog
    simp only [dotProduct, mulVec, Pi.add_apply]
    fun_prop
  · rw [Real.norm_eq_abs, abs_mul, abs_of_pos (Real.exp_pos _), exp_gauss, smul_mulVec, dotProduct_smul, smul_eq_mul]
    set q := x ⬝ᵥ (C⁻¹ *ᵥ x) with hq
    have hq0 : 0 ≤ q := by simpa using hC.inv.posSemidef.dotProduct_mulVec_nonneg x
    have hsum : (x + u) ⬝ᵥ (C'⁻¹ *ᵥ (x + u)) ≤ 2 * (b * q) + 2 * c := by
      have h3 : 0 ≤ (x - u) ⬝ᵥ (C'⁻¹ *ᵥ (x - u)) := by simpa using hC'.inv.posSemidef.dotProduct_mulVec_nonneg (x - u)
      have h4 := (le_abs_self _).trans (hle x)
      simp only [mulVec_add, mulVec_sub, dotProduct_add, add_dotProduct, dotProduct_sub, sub_dotProduct] at h3 ⊢
      linarith
    have hs0 : 0 ≤ (x + u) ⬝ᵥ (C'⁻¹ *ᵥ (x + u)) := by simpa using hC'.inv.posSemidef.dotProduct_mulVec_nonneg (x + u)
    have habs : |gaussLog C' (x + u)| ≤ b * q + c + |Real.log C'.det| := by
      have h5 := neg_abs_le (Real.log C'.det)
      have h6 := le_abs_self (Real.log C'.det)
      rw [gaussLog, abs_le]
      constructor <;> linarith [abs_nonneg (Real.log C'.det)]
    have hexp : q * Real.exp (-(1 / 2) * q) ≤ 4 * Real.exp (-(1 / 2) * (1 / 2 * q)) := by
      have e1 : Real.exp (-(1 / 2) * q) = Real.exp (-(1 / 4 * q)) * Real.exp (-(1 / 4 * q)) := by rw [← Real.exp_add]; congr 1; ring
      have e2 : Real.exp (-(1 / 2) * (1 / 2 * q)) = Real.exp (-(1 / 4 * q)) := by congr 1; ring
      have h7 := Real.add_one_le_exp (1 / 4 * q)
      have h8 : Real.exp (1 / 4 * q) * Real.exp (-(1 / 4 * q)) = 1 := by rw [← Real.exp_add]; simp
      have h9 := Real.exp_pos (-(1 / 4 * q))
      have h10 : q * Real.exp (-(1 / 4 * q)) ≤ 4 := by nlinarith
      rw [e1, e2]
      nlinarith
    have hE := (Real.exp_pos (-(1 / 2) * q)).le
    calc K * Real.exp (-(1 / 2) * q) * |gaussLog C' (x + u)| ≤ K * Real.exp (-(1 / 2) * q) * (b * q + c + |Real.log C'.det|) :=
          mul_le_mul_of_nonneg_left habs (mul_nonneg hKp hE)
      _ = b * K * (q * Real.exp (-(1 / 2) * q)) + (c + |Real.log C'.det|) * K * Real.exp (-(1 / 2) * q) := by ring
      _ ≤ b * K * (4 * Real.exp (-(1 / 2) * (1 / 2 * q))) + (c + |Real.log C'.det|) * K * Real.exp (-(1 / 2) * q) := by
          gcongr
      _ = _ := by ring

/-- Gibbs' inequality for continuous log-densities with the same integral, with equality for the same density only. -/
theorem gibbs {f g : (Fin n → ℝ) → ℝ} (hf : Continuous f) (hg : Continuous g) (h1 : Integrable fun y => Real.exp (f y))
    (h2 : Integrable fun y => Real.exp (g y)) (he : ∫ y, Real.exp (f y) = ∫ y, Real.exp (g y)) (h3 : Integrable fun y => Real.exp (f y) * f y)
    (h4 : Integrable fun y => Real.exp (f y) * g y) :
    ∫ y, Real.exp (f y) * g y ≤ ∫ y, Real.exp (f y) * f y ∧
      (∫ y, Real.exp (f y) * g y = ∫ y, Real.exp (f y) * f y → g = f) := by
  have hI : Integrable fun y => (Real.exp (g y) - Real.exp (f y)) - (Real.exp (f y) * g y - Real.exp (f y) * f y) := (h2.sub h1).sub (h4.sub h3)
  have hval : ∫ y, ((Real.exp (g y) - Real.exp (f y)) - (Real.exp (f y) * g y - Real.exp (f y) * f y)) =
      (∫ y, Real.exp (f y) * f y) - ∫ y, Real.exp (f y) * g y := by
    have i1 : Integrable fun y => Real.exp (g y) - Real.exp (f y) := h2.sub h1
    have i2 : Integrable fun y => Real.exp (f y) * g y - Real.exp (f y) * f y := h4.sub h3
    rw [MeasureTheory.integral_sub i1 i2, MeasureTheory.integral_sub h2 h1, MeasureTheory.integral_sub h4 h3, he]
    ring
  have e : ∀ y, (Real.exp (g y) - Real.exp (f y)) - (Real.exp (f y) * g y - Real.exp (f y) * f y) =
      Real.exp (f y) * (Real.exp (g y - f y) - (g y - f y + 1)) := by
    intro y
    have : Real.exp (g y) = Real.exp (f y) * Real.exp (g y - f y) := by rw [← Real.exp_add]; congr 1; ring
    rw [this]
    ring
  have hpos : ∀ y, 0 ≤ (Real.exp (g y) - Real.exp (f y)) - (Real.exp (f y) * g y - Real.exp (f y) * f y) := by
    intro y
    rw [e]
    exact mul_nonneg (Real.exp_pos _).le (sub_nonneg.2 (Real.add_one_le_exp _))
  have h0 : 0 ≤ ∫ y, ((Real.exp (g y) - Real.exp (f y)) - (Real.exp (f y) * g y - Real.exp (f y) * f y)) := MeasureTheory.integral_nonneg hpos
  constructor
  · rw [hval] at h0
    linarith
  · intro heq
    rw [heq, sub_self, MeasureTheory.integral_eq_zero_iff_of_nonneg hpos hI] at hval
    have hc : Continuous fun y => (Real.exp (g y) - Real.exp (f y)) - (Real.exp (f y) * g y - Real.exp (f y) * f y) := by fun_prop
    have hz := (hc.ae_eq_iff_eq MeasureTheory.volume (continuous_const (y := (0 : ℝ)))).1 hval
    funext y
    have := congrFun hz y
    rw [e] at this
    by_contra hne
    have h5 := Real.add_one_lt_exp (sub_ne_zero.2 hne)
    have h6 := Real.exp_pos (f y)
    nlinarith

/-- The log-likelihood, as a function of the data, determines the covariance and the delays. -/
theorem identify {C C' : Matrix (Fin n) (Fin n) ℝ} (hC : C.PosDef) (hC' : C'.PosDef) (D D' : Fin n → ℝ)
    (h : ∀ y, gaussLog C (y - D) = gaussLog C' (y - D')) : C = C' ∧ D = D' := by
  have hq : ∀ y, (y - D) ⬝ᵥ (C⁻¹ *ᵥ (y - D)) + Real.log C.det = (y - D') ⬝ᵥ (C'⁻¹ *ᵥ (y - D')) + Real.log C'.det := by
    intro y
    have := h y
    unfold gaussLog at this
    linarith
  have hnn : ∀ {A : Matrix (Fin n) (Fin n) ℝ}, A.PosDef → ∀ x, 0 ≤ x ⬝ᵥ (A⁻¹ *ᵥ x) := fun hA x => by
    simpa using hA.inv.posSemidef.dotProduct_mulVec_nonneg x
  have hD : D = D' := by
    by_contra hne
    have h1 := hq D
    have h2 := hq D'
    simp only [sub_self, zero_dotProduct, zero_add] at h1 h2
    have h3 : 0 < (D' - D) ⬝ᵥ (C⁻¹ *ᵥ (D' - D)) := by
      simpa using hC.inv.dotProduct_mulVec_pos (sub_ne_zero.2 (Ne.symm hne))
    have h4 := hnn hC' (D - D')
    linarith
  subst hD
  refine ⟨?_, rfl⟩
  have h1 := hq D
  simp only [sub_self, zero_dotProduct, zero_add] at h1
  have h2 : ∀ x, x ⬝ᵥ (C⁻¹ *ᵥ x) = x ⬝ᵥ (C'⁻¹ *ᵥ x) := by
    intro x
    have := hq (x + D)
    rw [add_sub_cancel_right, h1] at this
    linarith
  have hs : ∀ {A : Matrix (Fin n) (Fin n) ℝ}, A.PosDef → ∀ x y, x ⬝ᵥ (A⁻¹ *ᵥ y) = y ⬝ᵥ (A⁻¹ *ᵥ x) := by
    intro A hA x y
    have hsym : (A⁻¹)ᵀ = A⁻¹ := by rw [← conjTranspose_eq_transpose_of_trivial]; exact hA.inv.1
    rw [dotProduct_mulVec, ← mulVec_transpose, hsym, dotProduct_comm]
  have h3 : C⁻¹ = C'⁻¹ := by
    ext i j
    have h4 := h2 (Pi.single i 1 + Pi.single j 1)
    have h5 := h2 (Pi.single i 1)
    have h6 := h2 (Pi.single j 1)
    simp only [mulVec_add, dotProduct_add, add_dotProduct] at h4
    rw [hs hC (Pi.single j 1), hs hC' (Pi.single j 1)] at h4
    have h7 : Pi.single i 1 ⬝ᵥ (C⁻¹ *ᵥ Pi.single j 1) = Pi.single i 1 ⬝ᵥ (C'⁻¹ *ᵥ Pi.single j 1) := by linarith
    simpa using h7
  have := congrArg (fun A : Matrix (Fin n) (Fin n) ℝ => A⁻¹) h3
  simpa [nonsing_inv_nonsing_inv _ (Noise.det_unit hC), nonsing_inv_nonsing_inv _ (Noise.det_unit hC')] using this

/-! ## Arrays of pulsars with other data -/

/-- The pulsars with the residuals `y`, one pulsar after the other. -/
def give : List (Std × Labels) → (Nat → ℝ) → List (Std × Labels)
  | [], _ => []
  | d :: t, y => ({ d.1 with res := fun i => y i }, d.2) :: give t fun i => y (d.1.toas.length + i)

/-- The delays, one pulsar after the other. -/
noncomputable def delaysOf (ds : List (Std × Labels)) (r : Nat) : ℝ :=
  concatOf (ds.map fun d => ⟨d.1.toas.length, d.1.delays.reduceOption.sum⟩) r

/-- A vector as a function of all numbers. -/
noncomputable def out {N : Nat} (y : Fin N → ℝ) (r : Nat) : ℝ := if h : r < N then y ⟨r, h⟩ else 0

theorem give_same (ds : List (Std × Labels)) : ∀ y, List.Forall₂ (fun d d' => ∃ r, d' = ({ d.1 with res := r }, d.2)) ds (give ds y) := by
  induction ds with
  | nil => exact fun _ => .nil
  | cons d t ih => exact fun y => .cons ⟨_, rfl⟩ (ih _)

theorem give_map {α : Type} (f : Std × Labels → α) (hf : ∀ d r, f ({ d.1 with res := r }, d.2) = f d) (ds : List (Std × Labels)) (y : Nat → ℝ) :
    (give ds y).map f = ds.map f :=
  map_of (give_same ds y) f f fun d d' ⟨r, h⟩ => by rw [h, hf]

theorem give_get {ds : List (Std × Labels)} {y : Nat → ℝ} {a : Nat} {d' : Std × Labels} (h : (give ds y)[a]? = some d') :
    ∃ d r, ds[a]? = some d ∧ d' = ({ d.1 with res := r }, d.2) := by
  induction ds generalizing y a with
  | nil => simp [give] at h
  | cons d t ih =>
    cases a with
    | zero => exact ⟨d, _, rfl, (by simpa [give] using h.symm)⟩
    | succ a => exact ih (by simpa [give] using h)

theorem give_mem {ds : List (Std × Labels)} {y : Nat → ℝ} {d' : Std × Labels} (h : d' ∈ give ds y) :
    ∃ d r, d ∈ ds ∧ d' = ({ d.1 with res := r }, d.2) := by
  obtain ⟨a, ha⟩ := List.mem_iff_getElem?.1 h
  obtain ⟨d, r, h1, h2⟩ := give_get ha
  exact ⟨d, r, List.mem_of_getElem? h1, h2⟩

theorem size_give (ds : List (Std × Labels)) (y : Nat → ℝ) : size (give ds y) = size ds := by
  unfold size
  rw [give_map (fun d => d.1.toas.length) fun _ _ => rfl]

theorem size_take_give (ds : List (Std × Labels)) (a : Nat) (y : Nat → ℝ) : size ((give ds y).take a) = size (ds.take a) := by
  unfold size
  rw [List.map_take, List.map_take, give_map (fun d => d.1.toas.length) fun _ _ => rfl]

theorem residuals_give (ds : List (Std × Labels)) : ∀ (y : Nat → ℝ) (r : Nat), r < size ds →
    concatOf ((give ds y).map fun d => ⟨d.1.toas.length, d.1.res - d.1.delays.reduceOption.sum⟩) r = y r - delaysOf ds r := by
  induction ds with
  | nil => intro y r hr; simp [size] at hr
  | cons d t ih =>
    intro y r hr
    simp only [give, delaysOf, List.map_cons, concatOf]
    by_cases h : r < d.1.toas.length
    · rw [dif_pos h, dif_pos h]
      rfl
    · rw [dif_neg h, dif_neg h, ih _ _ (by simp only [size, List.map_cons, List.sum_cons] at hr ⊢; omega)]
      have : d.1.toas.length + (r - d.1.toas.length) = r := by omega
      simp only [this]
      rfl

theorem ok_give {seeded : Int → Bases.Rng} {d : Std × Labels} (h : d.1.Ok seeded d.2) (r : Fin d.1.toas.length → ℝ) :
    Std.Ok { d.1 with res := r } seeded d.2 :=
  ⟨h.toas, h.nu, h.errs, h.white, h.masks, h.key, h.dt, h.ekeys, h.elen, h.edisj, h.esome, h.ekey, h.procs, h.cols, h.distinct, h.indep⟩

/-- Whatever the residuals, the log-likelihood is the same function of them: one covariance, and the residuals without the delays. -/
theorem data {H : Type} [DecidableEq H] (hash : Col ℝ → H) (hh : Function.Injective hash)
    (svd : ∀ {n : Nat} (M : Matrix (Fin n) (Fin n) ℝ), Svd M) (method : Method) (argsort : List ℝ → List Nat)
    (hsort : ∀ l, Quantize.IsArgsort l (argsort l)) (seeded : Int → Bases.Rng) (orf : Nat → Pos → Pos → ℝ)
    (ks : List Plaw) (hu : ∀ k ∈ ks, k.Usual) (hs : Suits method ks) (ds : List (Std × Labels))
    (h0 : ks ≠ [] ∨ ∀ d ∈ ds, d.1.procs ≠ [] ∨ d.1.marg = false) (hds : ∀ d ∈ ds, d.1.Ok seeded d.2)
    (horf : ∀ c, c < ks.length → (orfMatrix (orf c) fun u : Fin ds.length => (ds[u]).1.pos).PosDef)
    (hd : ∀ k ∈ ks, k.combine = true → ∀ d ∈ ds, DistinctAt k.args.nmodes k.T d.1.toas) :
    ∃ same : Nat → Nat → Nat → Bool, (∀ a d, ds[a]? = some d → Epoch d.1.toas d.1.dt d.1.emasks (same a)) ∧
      ∃ C, C.PosDef ∧ IsCov orf ks ds same C ∧ ∀ (y : Fin (size ds) → ℝ) (rng : Bases.Rng),
        ∃ ps, pta argsort seeded (ks.map Plaw.common) ((give ds (out y)).map Prod.fst) rng = .ok ps ∧
          likelihood hash svd method orf ps = .ok (some (margLog C (StdArray.columns ds) (y - fun r : Fin (size ds) => delaysOf ds r))) := by
  have run := fun (y : Nat → ℝ) (rng : Bases.Rng) => C116_array hash hh svd method argsort hsort seeded orf ks hu hs (give ds y)
      (h0.imp_right fun h d hd => by obtain ⟨d, r, hd', rfl⟩ := give_mem hd; exact h d hd')
      (fun d hd => by obtain ⟨d, r, hd', rfl⟩ := give_mem hd; exact ok_give (hds d hd') r)
      (fun c hc => posDef_of (fun d : Std × Labels => d.1.pos) (fun d : Std × Labels => d.1.pos)
        (give_map (fun d => d.1.pos) (fun _ _ => rfl) ds y) (orf c) (horf c hc))
      (fun k hk hkc d hd' => by
        obtain ⟨d, r, hd'', rfl⟩ := give_mem hd'
        exact hd k hk hkc d hd'') rng
  obtain ⟨-, -, same, p2, C, p3, p4, -⟩ := C116_array hash hh svd method argsort hsort seeded orf ks hu hs ds h0 hds horf hd (fun _ => 0)
  refine ⟨same, p2, C, p3, p4, fun y rng => ?_⟩
  obtain ⟨ps, q1, same', q2, C', q3, q4, q5⟩ := run (out y) rng
  refine ⟨ps, q1, ?_⟩
  rw [q5]
  have hw : ((give ds (out y)).map fun d => d.1.wide).sum = (ds.map fun d => d.1.wide).sum := by rw [give_map (fun d => d.1.wide) fun _ _ => rfl]
  have hsz := size_give ds (out y)
  congr 2
  refine margLog_ext hsz hw _ _ _ _ _ _ (fun i j => ?_) (fun i j => ?_) fun i => ?_
  · obtain ⟨a, d, i', h1, h2, h3⟩ := find _ i.1 i.2
    obtain ⟨b, d', j', h1', h2', h3'⟩ := find _ j.1 j.2
    obtain ⟨c, r, hca, rfl⟩ := give_get h1
    obtain ⟨c', r', hcb, rfl⟩ := give_get h1'
    rw [q4 a b _ _ h1 h1' i' j' h2 h2' i j h3 h3', p4 a b c c' hca hcb i' j' h2 h2' (Fin.cast hsz i) (Fin.cast hsz j)
      (by rw [← size_take_give ds a (out y)]; exact h3) (by rw [← size_take_give ds b (out y)]; exact h3')]
    have hsame : same' a = same a := by
      funext i j
      exact Bool.eq_iff_iff.2 (((q2 a _ h1).exact i j).trans ((p2 a c hca).exact i j).symm)
    rw [hsame]
    rfl
  · simp only [StdArray.columns, of_apply]
    rw [give_map (fun d => (d.1.toas.length, d.1.wide, spanned d.1.tm.2)) fun _ _ => rfl]
    rfl
  · have hi : i.1 < size ds := i.2.trans_eq hsz
    show concatOf _ i.1 = y (Fin.cast hsz i) - delaysOf ds i.1
    rw [residuals_give ds _ _ hi, out, dif_pos hi]
    rfl

/-- A model of an array: the usual common processes with overlaps that are positive definite, and pulsars with the usual signals and a timing
model that is not marginalized over. -/
structure Fit (method : Method) (seeded : Int → Bases.Rng) (orf : Nat → Pos → Pos → ℝ) (ks : List Plaw) (ds : List (Std × Labels)) : Prop where
  usual : ∀ k ∈ ks, k.Usual
  suits : Suits method ks
  ok : ∀ d ∈ ds, d.1.Ok seeded d.2
  marg : ∀ d ∈ ds, d.1.marg = false
  orf : ∀ c, c < ks.length → (orfMatrix (orf c) fun u : Fin ds.length => (ds[u]).1.pos).PosDef
  distinct : ∀ k ∈ ks, k.combine = true → ∀ d ∈ ds, DistinctAt k.args.nmodes k.T d.1.toas

theorem Fit.data {H : Type} [DecidableEq H] (hash : Col ℝ → H) (hh : Function.Injective hash)
    (svd : ∀ {n : Nat} (M : Matrix (Fin n) (Fin n) ℝ), Svd M) {method : Method} (argsort : List ℝ → List Nat)
    (hsort : ∀ l, Quantize.IsArgsort l (argsort l)) {seeded : Int → Bases.Rng} {orf : Nat → Pos → Pos → ℝ} {ks : List Plaw}
    {ds : List (Std × Labels)} (h : Fit method seeded orf ks ds) {N : Nat} (hN : size ds = N) :
    ∃ same : Nat → Nat → Nat → Bool, (∀ a d, ds[a]? = some d → Epoch d.1.toas d.1.dt d.1.emasks (same a)) ∧
      ∃ C : Matrix (Fin N) (Fin N) ℝ, C.PosDef ∧ IsCov orf ks ds same (C.submatrix (Fin.cast hN) (Fin.cast hN)) ∧
        ∀ (y : Fin N → ℝ) (rng : Bases.Rng), ∃ ps, pta argsort seeded (ks.map Plaw.common) ((give ds (out y)).map Prod.fst) rng = .ok ps ∧
          likelihood hash svd method orf ps = .ok (some (gaussLog C (y - fun r : Fin N => delaysOf ds r))) := by
  subst hN
  obtain ⟨same, h1, C, h2, h3, h4⟩ := Truth.data hash hh svd method argsort hsort seeded orf ks h.usual h.suits ds (.inr fun d hd => .inr (h.marg d hd))
    h.ok h.orf h.distinct
  have hw : (ds.map fun d => d.1.wide).sum = 0 := by
    refine List.sum_eq_zero fun x hx => ?_
    obtain ⟨d, hd, rfl⟩ := List.mem_map.1 hx
    simp [Std.wide, h.marg d hd]
  refine ⟨same, h1, C, h2, h3, fun y rng => ?_⟩
  obtain ⟨ps, h5, h6⟩ := h4 y rng
  refine ⟨ps, h5, h6.trans ?_⟩
  have : ∀ {m : Nat} (_ : m = 0) (M : Matrix (Fin (size ds)) (Fin m) ℝ) (r : Fin (size ds) → ℝ), margLog C M r = gaussLog C r := by
    rintro m rfl M r
    exact margLog_zero C M r
  rw [this hw]

/-- C134: without marginalization the likelihood is a density of the residuals, up to a constant that depends on their number only: whatever the
parameters of the noise, the processes and the delays, the integral over all residuals is `(2π)^(N/2)`. -/
theorem C134_density {H : Type} [DecidableEq H] (hash : Col ℝ → H) (hh : Function.Injective hash)
    (svd : ∀ {n : Nat} (M : Matrix (Fin n) (Fin n) ℝ), Svd M) {method : Method} (argsort : List ℝ → List Nat)
    (hsort : ∀ l, Quantize.IsArgsort l (argsort l)) {seeded : Int → Bases.Rng} {orf : Nat → Pos → Pos → ℝ} {ks : List Plaw}
    {ds : List (Std × Labels)} (h : Fit method seeded orf ks ds) {N : Nat} (hN : (ds.map fun d => d.1.toas.length).sum = N) :
    ∃ L : (Fin N → ℝ) → ℝ,
      (∀ (y : Fin N → ℝ) (rng : Bases.Rng), ∃ ps, pta argsort seeded (ks.map Plaw.common) ((give ds (out y)).map Prod.fst) rng = .ok ps ∧
        likelihood hash svd method orf ps = .ok (some (L y))) ∧
      Integrable (fun y => Real.exp (L y)) ∧ ∫ y, Real.exp (L y) = Real.sqrt ((2 * Real.pi) ^ N) := by
  obtain ⟨same, h1, C, h2, h3, h4⟩ := h.data hash hh svd argsort hsort hN
  exact ⟨_, h4, density h2 _⟩

theorem size_of {ds ds' : List (Std × Labels)} (h : (ds'.map fun d => d.1.toas) = ds.map fun d => d.1.toas) : size ds' = size ds := by
  have := congrArg (fun l : List (List ℝ) => (l.map List.length).sum) h
  simpa [size, Function.comp_def] using this

/-- C134: if the data are drawn from the likelihood of one model, then no other model of the same TOAs has a larger expected log-likelihood, and it
is as large only if the other model has the same covariance and the same delays. -/
theorem C134_truth {H : Type} [DecidableEq H] (hash : Col ℝ → H) (hh : Function.Injective hash)
    (svd : ∀ {n : Nat} (M : Matrix (Fin n) (Fin n) ℝ), Svd M) {method method' : Method} (argsort : List ℝ → List Nat)
    (hsort : ∀ l, Quantize.IsArgsort l (argsort l)) {seeded : Int → Bases.Rng} {orf orf' : Nat → Pos → Pos → ℝ} {ks ks' : List Plaw}
    {ds ds' : List (Std × Labels)} (h : Fit method seeded orf ks ds) (h' : Fit method' seeded orf' ks' ds')
    (hsame : (ds'.map fun d => d.1.toas) = ds.map fun d => d.1.toas) {N : Nat} (hN : size ds = N) :
    ∃ (same same' : Nat → Nat → Nat → Bool) (C C' : Matrix (Fin N) (Fin N) ℝ) (L L' : (Fin N → ℝ) → ℝ),
      (∀ a d, ds[a]? = some d → Epoch d.1.toas d.1.dt d.1.emasks (same a)) ∧
      (∀ a d, ds'[a]? = some d → Epoch d.1.toas d.1.dt d.1.emasks (same' a)) ∧
      IsCov orf ks ds same (C.submatrix (Fin.cast hN) (Fin.cast hN)) ∧ IsCov orf' ks' ds' same' (C'.submatrix (Fin.cast ((size_of hsame).trans hN)) (Fin.cast ((size_of hsame).trans hN))) ∧
      (∀ (y : Fin N → ℝ) (rng : Bases.Rng), ∃ ps, pta argsort seeded (ks.map Plaw.common) ((give ds (out y)).map Prod.fst) rng = .ok ps ∧
        likelihood hash svd method orf ps = .ok (some (L y))) ∧
      (∀ (y : Fin N → ℝ) (rng : Bases.Rng), ∃ ps, pta argsort seeded (ks'.map Plaw.common) ((give ds' (out y)).map Prod.fst) rng = .ok ps ∧
        likelihood hash svd method' orf' ps = .ok (some (L' y))) ∧
      Integrable (fun y => Real.exp (L y) * L y) ∧ Integrable (fun y => Real.exp (L y) * L' y) ∧
      ∫ y, Real.exp (L y) * L' y ≤ ∫ y, Real.exp (L y) * L y ∧
      (∫ y, Real.exp (L y) * L' y = ∫ y, Real.exp (L y) * L y ↔ C = C' ∧ ∀ r, r < N → delaysOf ds r = delaysOf ds' r) := by
  obtain ⟨same, h1, C, h2, h3, h4⟩ := h.data hash hh svd argsort hsort hN
  obtain ⟨same', h1', C', h2', h3', h4'⟩ := h'.data hash hh svd argsort hsort ((size_of hsame).trans hN)
  have i1 := density h2 fun r : Fin N => delaysOf ds r
  have i2 := density h2' fun r : Fin N => delaysOf ds' r
  have i3 := mean_integrable h2 h2 (fun r : Fin N => delaysOf ds r) fun r : Fin N => delaysOf ds r
  have i4 := mean_integrable h2 h2' (fun r : Fin N => delaysOf ds r) fun r : Fin N => delaysOf ds' r
  have hg := gibbs (gauss_continuous C _) (gauss_continuous C' _) i1.1 i2.1 (i1.2.trans i2.2.symm) i3 i4
  refine ⟨same, same', C, C', _, _, h1, h1', h3, h3', h4, h4', i3, i4, hg.1, fun he => ?_, fun ⟨e1, e2⟩ => ?_⟩
  · have := identify h2 h2' _ _ fun y => (congrFun (hg.2 he) y).symm
    exact ⟨this.1, fun r hr => congrFun this.2 ⟨r, hr⟩⟩
  · subst e1
    have : (fun r : Fin N => delaysOf ds r) = fun r : Fin N => delaysOf ds' r := funext fun r => e2 r r.2
    rw [this]

/-! ## The amplitude of a common process -/

theorem plaw_pos (A γ T : ℝ) (hT : 0 < T) (j : Nat) : 0 < Fourier.plaw A γ T j := by
  have h1 : (0 : ℝ) < 10 ^ A := Real.rpow_pos_of_pos (by norm_num) A
  have h2 : 0 < Spectra.yearly := by unfold Spectra.yearly; positivity
  have := Real.pi_pos
  unfold Fourier.plaw
  positivity

theorem plaw_ratio (A A' γ T : ℝ) (j : Nat) : Fourier.plaw A' γ T j = ((10 : ℝ) ^ (A' - A)) ^ 2 * Fourier.plaw A γ T j := by
  unfold Fourier.plaw
  have : (10 : ℝ) ^ A' = 10 ^ (A' - A) * 10 ^ A := by rw [← Real.rpow_add (by norm_num)]; congr 1; ring
  rw [this]
  ring

theorem cov_ratio (k : Plaw) (A' t t' : ℝ) : ({ k with A := A' } : Plaw).cov t t' = ((10 : ℝ) ^ (A' - k.A)) ^ 2 * k.cov t t' := by
  unfold Plaw.cov
  rw [Finset.mul_sum]
  refine Finset.sum_congr rfl fun n _ => ?_
  rw [plaw_ratio k.A A']
  ring

theorem cov_pos {k : Plaw} (h : k.Usual) (t : ℝ) : 0 < k.cov t t := by
  unfold Plaw.cov
  refine Finset.sum_pos (fun n _ => ?_) (Finset.nonempty_range_iff.2 h.modes)
  rw [sub_self, mul_zero, Real.cos_zero, mul_one]
  exact plaw_pos _ _ _ h.span n

/-- The processes with another amplitude of one of them. -/
def retune (ks : List Plaw) (c : Nat) (A' : ℝ) : List Plaw := ks.modify c fun k => { k with A := A' }

theorem retune_mem {ks : List Plaw} {c : Nat} {A' : ℝ} {k' : Plaw} (h : k' ∈ retune ks c A') : ∃ k ∈ ks, ∃ A, k' = { k with A := A } := by
  obtain ⟨i, hi⟩ := List.mem_iff_getElem?.1 h
  rw [retune, List.getElem?_modify] at hi
  obtain ⟨k, hk, rfl⟩ := Option.map_eq_some_iff.1 hi
  refine ⟨k, List.mem_of_getElem? hk, ?_⟩
  by_cases hc : c = i
  · exact ⟨A', by rw [if_pos hc]⟩
  · exact ⟨k.A, by rw [if_neg hc]⟩

theorem retune_get (ks : List Plaw) (c : Nat) (A' : ℝ) (i : Nat) (h : i < (retune ks c A').length) (h' : i < ks.length) :
    (retune ks c A')[i] = if c = i then { ks[i] with A := A' } else ks[i] := by
  have := List.getElem?_modify (fun k : Plaw => { k with A := A' }) c ks i
  rw [← retune, List.getElem?_eq_getElem h, List.getElem?_eq_getElem h', Option.map_eq_map, Option.map_some, Option.some_inj] at this
  rw [this]

theorem Fit.retune {method : Method} {seeded : Int → Bases.Rng} {orf : Nat → Pos → Pos → ℝ} {ks : List Plaw} {ds : List (Std × Labels)}
    (h : Fit method seeded orf ks ds) (c : Nat) (A' : ℝ) : Fit method seeded orf (retune ks c A') ds where
  usual := fun k hk => by
    obtain ⟨k, hk', A, rfl⟩ := retune_mem hk
    have := h.usual k hk'
    exact ⟨this.plain, this.pshift, this.pseed, this.modes, this.span⟩
  suits := by
    rcases h.suits with h | ⟨h1, h2, T, h3⟩ | ⟨h1, h2⟩
    · exact .inl h
    · refine .inr (.inl ⟨h1, fun k hk => ?_, T, fun k hk => ?_⟩)
      · obtain ⟨k, hk', A, rfl⟩ := retune_mem hk; exact h2 k hk'
      · obtain ⟨k, hk', A, rfl⟩ := retune_mem hk; exact h3 k hk'
    · exact .inr (.inr ⟨h1, by simpa [Truth.retune] using h2⟩)
  ok := h.ok
  marg := h.marg
  orf := fun c' hc => h.orf c' (by simpa [Truth.retune] using hc)
  distinct := fun k hk hc => by
    obtain ⟨k, hk', A, rfl⟩ := retune_mem hk
    exact h.distinct k hk' hc

/-- C134: the amplitude of a common process is told apart: if the data are drawn with one amplitude, then the expected log-likelihood is strictly
larger at this amplitude than at any other. -/
theorem C134_amplitude {H : Type} [DecidableEq H] (hash : Col ℝ → H) (hh : Function.Injective hash)
    (svd : ∀ {n : Nat} (M : Matrix (Fin n) (Fin n) ℝ), Svd M) {method : Method} (argsort : List ℝ → List Nat)
    (hsort : ∀ l, Quantize.IsArgsort l (argsort l)) {seeded : Int → Bases.Rng} {orf : Nat → Pos → Pos → ℝ} {ks : List Plaw}
    {ds : List (Std × Labels)} (h : Fit method seeded orf ks ds) (hne : ds ≠ []) {N : Nat} (hN : size ds = N) (c : Fin ks.length) {A' : ℝ}
    (hA : A' ≠ (ks[c]).A) :
    ∃ L L' : (Fin N → ℝ) → ℝ,
      (∀ (y : Fin N → ℝ) (rng : Bases.Rng), ∃ ps, pta argsort seeded (ks.map Plaw.common) ((give ds (out y)).map Prod.fst) rng = .ok ps ∧
        likelihood hash svd method orf ps = .ok (some (L y))) ∧
      (∀ (y : Fin N → ℝ) (rng : Bases.Rng), ∃ ps, pta argsort seeded ((retune ks c A').map Plaw.common) ((give ds (out y)).map Prod.fst) rng =
        .ok ps ∧ likelihood hash svd method orf ps = .ok (some (L' y))) ∧
      ∫ y, Real.exp (L y) * L' y < ∫ y, Real.exp (L y) * L y := by
  obtain ⟨same, same', C, C', L, L', h1, h1', h3, h3', h4, h4', -, -, h5, h6⟩ :=
    C134_truth hash hh svd argsort hsort h (h.retune c A') rfl hN
  refine ⟨L, L', h4, h4', lt_of_le_of_ne h5 fun he => ?_⟩
  obtain ⟨hC, -⟩ := h6.1 he
  subst hC
  obtain ⟨d, t, rfl⟩ := List.exists_cons_of_ne_nil hne
  have hdok := h.ok d (by simp)
  have hpos : 0 < d.1.toas.length := List.length_pos_iff.2 hdok.toas
  have hsz : 0 < size (d :: t) := by simp only [size, List.map_cons, List.sum_cons]; omega
  have e1 := h3 0 0 d d rfl rfl 0 0 hpos hpos ⟨0, hsz⟩ ⟨0, hsz⟩ (by simp [size]) (by simp [size])
  have e2 := h3' 0 0 d d rfl rfl 0 0 hpos hpos ⟨0, hsz⟩ ⟨0, hsz⟩ (by simp [size]) (by simp [size])
  have hsame : same' 0 = same 0 := by
    funext i j
    exact Bool.eq_iff_iff.2 (((h1' 0 d rfl).exact i j).trans ((h1 0 d rfl).exact i j).symm)
  have hlen : (retune ks c A').length = ks.length := by simp [retune]
  have hsum : ∑ c' : Fin (retune ks c A').length, orf c' d.1.pos d.1.pos * ((retune ks c A')[c']).cov (d.1.toas.getD 0 0) (d.1.toas.getD 0 0) =
      ∑ c' : Fin ks.length, orf c' d.1.pos d.1.pos *
        ((if c = c' then ((10 : ℝ) ^ (A' - (ks[c]).A)) ^ 2 else 1) * (ks[c']).cov (d.1.toas.getD 0 0) (d.1.toas.getD 0 0)) := by
    refine Fintype.sum_equiv (finCongr hlen) _ _ fun c' => ?_
    have hc' : c'.1 < ks.length := c'.2.trans_eq hlen
    have hget : (retune ks c A')[c'] = if c.1 = c'.1 then { (ks[c'.1]'hc') with A := A' } else ks[c'.1]'hc' := by
      exact retune_get ks c A' c'.1 c'.2 hc'
    show orf c' d.1.pos d.1.pos * _ = orf c' d.1.pos d.1.pos * _
    congr 1
    rw [hget]
    by_cases hcc : c.1 = c'.1
    · have : c = Fin.cast hlen c' := Fin.ext hcc
      rw [if_pos hcc, if_pos (by exact this), cov_ratio]
      have e : ks[c] = ks[c'.1]'hc' := by simp only [Fin.getElem_fin, hcc]
      rw [e]
      rfl
    · have : ¬ c = Fin.cast hlen c' := fun h => hcc (congrArg Fin.val h)
      rw [if_neg hcc, if_neg (by exact this), one_mul]
      rfl
  rw [if_pos rfl, hsum, hsame, e1, if_pos rfl] at e2
  have e3 := add_left_cancel e2
  rw [← sub_eq_zero, ← Finset.sum_sub_distrib, Finset.sum_eq_single c] at e3
  · rw [if_pos rfl] at e3
    have horf : 0 < orf c d.1.pos d.1.pos := by
      have := (h.orf c c.2).diag_pos (i := ⟨0, by simp⟩)
      simpa [orfMatrix] using this
    have hcov := cov_pos (h.usual (ks[c]) (List.getElem_mem _)) (d.1.toas.getD 0 0)
    have hr : ((10 : ℝ) ^ (A' - (ks[c]).A)) ^ 2 ≠ 1 := by
      have h10 : (0 : ℝ) < 10 ^ (A' - (ks[c]).A) := Real.rpow_pos_of_pos (by norm_num) _
      intro h1
      have h2 : (10 : ℝ) ^ (A' - (ks[c]).A) = 1 := by nlinarith
      have h3 := congrArg Real.log h2
      rw [Real.log_rpow (by norm_num), Real.log_one, mul_eq_zero] at h3
      rcases h3 with h3 | h3
      · exact hA (sub_eq_zero.1 h3)
      · exact absurd h3 (Real.log_pos (by norm_num)).ne'
    have : orf c d.1.pos d.1.pos * (ks[c]).cov (d.1.toas.getD 0 0) (d.1.toas.getD 0 0) * (1 - ((10 : ℝ) ^ (A' - (ks[c]).A)) ^ 2) = 0 := by
      linear_combination e3
    rcases mul_eq_zero.1 this with h7 | h7
    · exact absurd h7 (mul_pos horf hcov).ne'
    · exact hr (by linarith)
  · intro c' _ hc'
    rw [if_neg (Ne.symm hc'), one_mul, sub_self]
  · simp

/-- A background of unknown amplitude in a pulsar with white noise, a process and a timing model. -/
theorem ex_fit (seeded : Int → Bases.Rng) (A : ℝ) :
    Fit .cliques seeded (fun _ _ _ => 1) [⟨{ nmodes := 1 }, true, A, 13 / 3, 4⟩] [(StdArray.exB, StdArray.exL)] where
  usual := fun k hk => by
    obtain rfl : k = ⟨{ nmodes := 1 }, true, A, 13 / 3, 4⟩ := by simpa using hk
    exact ⟨⟨rfl, rfl, rfl, rfl⟩, rfl, rfl, by simp, by norm_num⟩
  suits := .inr (.inr ⟨by simp, by simp⟩)
  ok := fun d hd => by
    obtain rfl := List.mem_singleton.1 hd
    exact (ex_ok seeded).2
  marg := fun d hd => by
    obtain rfl := List.mem_singleton.1 hd
    rfl
  orf := fun c _ => by
    have : (orfMatrix (fun _ _ => 1) fun u : Fin [(StdArray.exB, StdArray.exL)].length => ([(StdArray.exB, StdArray.exL)][u]).1.pos) = 1 := by
      ext i j
      obtain rfl : i = j := Subsingleton.elim (α := Fin 1) i j
      rw [Matrix.one_apply_eq]
      rfl
    rw [this]
    exact PosDef.one
  distinct := fun k hk _ d hd => by
    obtain rfl : k = ⟨{ nmodes := 1 }, true, A, 13 / 3, 4⟩ := by simpa using hk
    obtain rfl := List.mem_singleton.1 hd
    exact one_distinct

example {H : Type} [DecidableEq H] (hash : Col ℝ → H) (hh : Function.Injective hash) (svd : ∀ {n : Nat} (M : Matrix (Fin n) (Fin n) ℝ), Svd M)
    (argsort : List ℝ → List Nat) (hsort : ∀ l, Quantize.IsArgsort l (argsort l)) (seeded : Int → Bases.Rng) :
    ∃ L L' : (Fin 2 → ℝ) → ℝ,
      (∀ (y : Fin 2 → ℝ) (rng : Bases.Rng), ∃ ps, pta argsort seeded [(⟨{ nmodes := 1 }, true, -14, 13 / 3, 4⟩ : Plaw).common]
        [{ StdArray.exB with res := fun i => out y i }] rng = .ok ps ∧
        likelihood hash svd .cliques (fun _ _ _ => 1) ps = .ok (some (L y))) ∧
      (∀ (y : Fin 2 → ℝ) (rng : Bases.Rng), ∃ ps, pta argsort seeded [(⟨{ nmodes := 1 }, true, -15, 13 / 3, 4⟩ : Plaw).common]
        [{ StdArray.exB with res := fun i => out y i }] rng = .ok ps ∧
        likelihood hash svd .cliques (fun _ _ _ => 1) ps = .ok (some (L' y))) ∧
      ∫ y, Real.exp (L y) * L' y < ∫ y, Real.exp (L y) * L y :=
  C134_amplitude hash hh svd argsort hsort (ex_fit seeded (-14)) (by simp) (N := 2) rfl ⟨0, by simp⟩ (A' := -15) (by
    show (-15 : ℝ) ≠ -14
    norm_num)

end Verif.Truth
