import Verif.Props.Likelihood

/-!
The likelihood with common signals (C57): the joint density for the three ways of inverting the prior
covariance, and agreement with the likelihood pulsar by pulsar.
-/

namespace Verif.Likelihood

open Verif Verif.Noise Verif.Joint Matrix
open Verif.Kernel (Kern)
open Verif.PhiInv (toMatrix)
open Verif.PtaPhi (Klass KlassOk entries slices getPhi)
open Verif.Partition (Svd kernInv)

/-- The prior covariances of the pulsars. -/
abbrev phisOf (qs : List Known) : List (Option (Kern ℝ)) := (qs.map Known.p).map PsrEval.phi

theorem total_width (qs : List Known) : PtaPhi.total (phisOf qs) = width qs := by
  unfold width phisOf
  induction qs with
  | nil => rfl
  | cons q t ih =>
    simp only [List.map_cons, List.sum_cons]
    rcases q.gp with ⟨-, h, h0⟩ | ⟨-, κ, h1, h2, -⟩
    · rw [h, PtaPhi.total, ih, h0, zero_add]
    · rw [h1, PtaPhi.total, ih, h2]

/-- The joint log density with the prior covariance `F` of all coefficients. -/
noncomputable def jointLog (qs : List Known) (F : Matrix (Fin (width qs)) (Fin (width qs)) ℝ) : ℝ :=
  margLog (jointCov qs F) (jointM qs) (jointR qs)

theorem sparse_inv (svd : ∀ {n : Nat} (M : Matrix (Fin n) (Fin n) ℝ), Svd M)
    (phis : List (Option (Kern ℝ))) (cs : List (Klass ℝ)) (F : Nat → Nat → ℝ)
    (e : getPhi phis cs = .ok (.big (PtaPhi.total phis) F))
    (hF : (toMatrix (PtaPhi.total phis) F).PosDef) :
    bigPhiinv svd phis cs .sparse =
      .ok ((toMatrix (PtaPhi.total phis) F)⁻¹, Real.log (toMatrix (PtaPhi.total phis) F).det) := by
  simp only [bigPhiinv, e, if_pos hF]

/-- C57, method `sparse`: whatever the classes and the priors, the likelihood is the density of the
joint covariance with the prior covariance that `get_phi` returns. -/
theorem C57_sparse (svd : ∀ {n : Nat} (M : Matrix (Fin n) (Fin n) ℝ), Svd M) (qs : List Known)
    (hb : ∀ q ∈ qs, q.p.basis ≠ none) (cs : List (Klass ℝ)) (h0 : cs ≠ []) (F : Nat → Nat → ℝ)
    (e : getPhi (phisOf qs) cs = .ok (.big (PtaPhi.total (phisOf qs)) F))
    (hF : (toMatrix (width qs) F).PosDef) :
    lnlike svd .sparse (qs.map Known.p) cs =
      .ok (some (jointLog qs (toMatrix (width qs) F) + priors qs)) := by
  refine common_ok svd .sparse qs hb cs h0 F hF (sparse_inv svd _ cs F e ?_)
  rw [total_width]; exact hF

/-- C57, method `cliques`: the same when the labels separate the prior covariance (the hypotheses of
C49). -/
theorem C57_cliques (svd : ∀ {n : Nat} (M : Matrix (Fin n) (Fin n) ℝ), Svd M) (qs : List Known)
    (hb : ∀ q ∈ qs, q.p.basis ≠ none) (cs : List (Klass ℝ)) (h0 : cs ≠ [])
    (hk : ∀ k ∈ cs, KlassOk (slices (phisOf qs) 0) k) (hv : ∀ k ∈ cs, PhiInv.VecKlass k)
    (hs : ∀ k, some k ∈ phisOf qs → PhiInv.KernSep k)
    (ht : PhiInv.TouchClasses (slices (phisOf qs) 0)
      (PtaPhi.setPulsarCliques (phisOf qs) 0 Kernel.Cliques.none) cs) :
    ∃ F, getPhi (phisOf qs) cs = .ok (.big (PtaPhi.total (phisOf qs)) F) ∧
      ((toMatrix (width qs) F).PosDef → lnlike svd .cliques (qs.map Known.p) cs =
        .ok (some (jointLog qs (toMatrix (width qs) F) + priors qs))) := by
  obtain ⟨F, e, h⟩ := PhiInv.C49_partial (phisOf qs) cs h0 hk hv hs ht
  refine ⟨F, e, fun hF => common_ok svd .cliques qs hb cs h0 F hF ?_⟩
  have hF' : (toMatrix (PtaPhi.total (phisOf qs)) F).PosDef := by rw [total_width]; exact hF
  rw [bigPhiinv, h hF'.det_pos.ne', abs_of_pos hF'.det_pos]

/-- C57: one class of common signals on distinct pulsars with diagonal priors. Whatever the method, the
likelihood is the density of the joint covariance. -/
theorem C57_one_class (svd : ∀ {n : Nat} (M : Matrix (Fin n) (Fin n) ℝ), Svd M) (qs : List Known)
    (hb : ∀ q ∈ qs, q.p.basis ≠ none) (c : Klass ℝ) (h2 : 2 ≤ c.items.length)
    (hd : ∀ x, some x ∈ phisOf qs → ∃ n v, x = .one n v) (hk : KlassOk (slices (phisOf qs) 0) c)
    (hv : PhiInv.VecKlass c) (hp : ∀ it ∈ c.items, it.psr < (phisOf qs).length)
    (hdist : c.items.Pairwise fun x y => x.psr ≠ y.psr) :
    ∃ F, getPhi (phisOf qs) [c] = .ok (.big (PtaPhi.total (phisOf qs)) F) ∧
      ((toMatrix (width qs) F).PosDef → ∀ method, method ≠ .other →
        lnlike svd method (qs.map Known.p) [c] =
          .ok (some (jointLog qs (toMatrix (width qs) F) + priors qs))) := by
  obtain ⟨F, e, h⟩ := PhiInv.C49_one_class (phisOf qs) c h2 hd hk hv hp hdist
  obtain ⟨F', e', h'⟩ := Partition.C50_partial svd true (phisOf qs) c h2 hd hk hv hp hdist
  rw [e] at e'
  obtain rfl : F = F' := by simpa using e'
  refine ⟨F, e, fun hF method hm => ?_⟩
  have hF' : (toMatrix (PtaPhi.total (phisOf qs)) F).PosDef := by rw [total_width]; exact hF
  refine common_ok svd method qs hb [c] (by simp) F hF ?_
  cases method with
  | cliques => rw [bigPhiinv, h hF'.det_pos.ne', abs_of_pos hF'.det_pos]
  | partition =>
    obtain ⟨R, eR, hR⟩ := h' hF'
    simp only [bigPhiinv, eR, if_true, hR]
  | sparse => exact sparse_inv svd _ _ F e hF'
  | other => exact absurd rfl hm

/-! ## Without correlations -/

theorem blockDiag_jm (qs : List Known) :
    toMatrix (width qs) (PtaPhi.blockDiag (phisOf qs)) = jm Known.k Known.k (fun q => q.Φ) qs := by
  unfold width phisOf
  induction qs with
  | nil => ext i; exact i.elim0
  | cons q t ih =>
    ext i j
    obtain ⟨i, rfl⟩ := (es Known.k q t).surjective i
    obtain ⟨j, rfl⟩ := (es Known.k q t).surjective j
    have ih' := fun i j => congrFun (congrFun ih i) j
    simp only [toMatrix, of_apply] at ih'
    simp only [jm, submatrix_apply, Equiv.symm_apply_apply, toMatrix, of_apply, List.map_cons]
    rcases q.gp with ⟨-, h, h0⟩ | ⟨-, κ, h1, h2, h3⟩
    · rw [h, PtaPhi.blockDiag]
      rcases i with i | i
      · exact absurd i.2 (by omega)
      rcases j with j | j
      · exact absurd j.2 (by omega)
      simp [es_inr, h0, ← ih']
    · rw [h1, PtaPhi.blockDiag]
      have hΦ : ∀ i j, q.Φ i j = entries κ i j := by
        intro i j; rw [h3]; rfl
      rcases i with i | i <;> rcases j with j | j <;>
        simp [es_inl, es_inr, ← ih', h2, hΦ, i.2, j.2]

/-- With independent pulsars the joint density is the sum. -/
theorem jointLog_indep (qs : List Known) :
    jointLog qs (jm Known.k Known.k (fun q => q.Φ) qs) =
      (qs.map fun q => margLog q.C q.M q.r).sum := by
  have hC : jointCov qs (jm Known.k Known.k (fun q => q.Φ) qs) =
      jm (fun q : Known => q.p.n) (fun q => q.p.n) Known.C qs := by
    rw [jointCov, jm_transpose, jm_mul, jm_mul, jm_add]; rfl
  have hpos : ∀ q : Known, q.C.PosDef := fun q => full_posDef q.hN q.pos.posSemidef q.T
  unfold jointLog
  rw [hC]
  unfold margLog
  have hproj : projN (jm (fun q : Known => q.p.n) (fun q => q.p.n) Known.C qs) (jointM qs) =
      jm (fun q : Known => q.p.n) (fun q => q.p.n) (fun q => projN q.C q.M) qs := by
    unfold projN jointM
    rw [jm_inv _ _ fun q _ => hpos q, jm_transpose, jm_mul, jm_mul, jm_mul,
      jm_inv _ _ fun q _ => gram_posDef q.C q.M (hpos q) q.hM, jm_mul, jm_mul, jm_mul, jm_sub]
  rw [hproj]
  unfold jointM jointR
  rw [jm_inv _ _ fun q _ => hpos q, jm_transpose, jm_mul, jm_mul, jm_det, jm_det,
    sum_log _ _ fun q _ => (hpos q).det_pos,
    sum_log _ _ fun q _ => (gram_posDef q.C q.M (hpos q) q.hM).det_pos, jm_mulVec, jv_dot]
  clear hC hproj
  induction qs with
  | nil => simp
  | cons q t ih =>
    simp only [List.map_cons, List.sum_cons, Nat.cast_add]
    rw [← ih]
    ring

/-- All cross terms are zero. -/
def ZeroCross (c : Klass ℝ) : Prop :=
  ∀ xy ∈ PtaPhi.pairs c.items.zipIdx, match c.cross xy.1.2 xy.2.2 with
    | .one _ w => ∀ i, w i = 0
    | .two _ _ W => ∀ i j, W i j = 0

theorem spread_zero (s1 : Nat) (l1 : List Nat) (s2 : Nat) (l2 : List Nat) (X : Kernel.Arr ℝ) (i j : Nat)
    (h : match X with | .one _ w => ∀ i, w i = 0 | .two _ _ W => ∀ i j, W i j = 0) :
    PtaPhi.spread s1 l1 s2 l2 (Combine.amat X) i j = 0 := by
  apply Finset.sum_eq_zero
  intro p _
  apply Finset.sum_eq_zero
  intro q _
  cases X with
  | one m w => simp [Combine.amat, h]
  | two a b W => simp [Combine.amat, h]

theorem klassTerm_zero (sl : List (Nat × Nat)) (c : Klass ℝ) (h : ZeroCross c) (i j : Nat) :
    PtaPhi.klassTerm sl i j c = 0 := by
  apply List.sum_eq_zero
  intro x hx
  obtain ⟨xy, hxy, rfl⟩ := List.mem_map.1 hx
  simp only [PtaPhi.pairTerm]
  rw [spread_zero _ _ _ _ _ _ _ (h xy hxy), spread_zero _ _ _ _ _ _ _ (h xy hxy), add_zero]

theorem getPhi_zero (phis : List (Option (Kern ℝ))) (cs : List (Klass ℝ)) (h0 : cs ≠ [])
    (hk : ∀ c ∈ cs, KlassOk (slices phis 0) c) (hz : ∀ c ∈ cs, ZeroCross c) :
    getPhi phis cs = .ok (.big (PtaPhi.total phis) (PtaPhi.blockDiag phis)) := by
  obtain ⟨F, e, hF⟩ := PtaPhi.C48_entries phis cs h0 hk
  have : F = PtaPhi.blockDiag phis := by
    funext i j
    rw [hF, List.sum_eq_zero, add_zero]
    intro x hx
    obtain ⟨c, hc, rfl⟩ := List.mem_map.1 hx
    exact klassTerm_zero _ c (hz c hc) i j
  rw [e, this]

/-- C57: with zero cross-correlations the big-matrix branch returns what the loop over the pulsars does
(method `sparse`: any classes and priors). -/
theorem C57_agree_sparse (svd : ∀ {n : Nat} (M : Matrix (Fin n) (Fin n) ℝ), Svd M) (qs : List Known)
    (hb : ∀ q ∈ qs, q.p.basis ≠ none) (cs : List (Klass ℝ)) (h0 : cs ≠ [])
    (hk : ∀ c ∈ cs, KlassOk (slices (phisOf qs) 0) c) (hz : ∀ c ∈ cs, ZeroCross c) :
    lnlike svd .sparse (qs.map Known.p) cs = lnlike svd .sparse (qs.map Known.p) [] := by
  have hF : (toMatrix (width qs) (PtaPhi.blockDiag (phisOf qs))).PosDef := by
    rw [blockDiag_jm]; exact jm_posDef _ _ fun q _ => q.pos
  rw [C57_sparse svd qs hb cs h0 _ (getPhi_zero _ cs h0 hk hz) hF, blockDiag_jm, jointLog_indep,
    C84 svd .sparse (by simp) qs]

/-- C57: one class of common signals, every method. -/
theorem C57_agree (svd : ∀ {n : Nat} (M : Matrix (Fin n) (Fin n) ℝ), Svd M) (qs : List Known)
    (hb : ∀ q ∈ qs, q.p.basis ≠ none) (c : Klass ℝ) (h2 : 2 ≤ c.items.length)
    (hd : ∀ x, some x ∈ phisOf qs → ∃ n v, x = .one n v) (hk : KlassOk (slices (phisOf qs) 0) c)
    (hv : PhiInv.VecKlass c) (hp : ∀ it ∈ c.items, it.psr < (phisOf qs).length)
    (hdist : c.items.Pairwise fun x y => x.psr ≠ y.psr) (hz : ZeroCross c)
    (method method' : Method) (hm : method ≠ .other) (hm' : method' ≠ .other) :
    lnlike svd method (qs.map Known.p) [c] = lnlike svd method' (qs.map Known.p) [] := by
  obtain ⟨F, e, h⟩ := C57_one_class svd qs hb c h2 hd hk hv hp hdist
  rw [getPhi_zero _ [c] (by simp) (by simpa using hk) (by simpa using hz)] at e
  obtain rfl : PtaPhi.blockDiag (phisOf qs) = F := by simpa using e
  have hF : (toMatrix (width qs) (PtaPhi.blockDiag (phisOf qs))).PosDef := by
    rw [blockDiag_jm]; exact jm_posDef _ _ fun q _ => q.pos
  rw [h hF method hm, blockDiag_jm, jointLog_indep, C84 svd method' hm' qs]

theorem allSome_none {α : Type} (l : List (Option α)) (h : none ∈ l) : allSome l = .error .valueError := by
  induction l with
  | nil => simp at h
  | cons a t ih =>
    cases a with
    | none => rfl
    | some a =>
      have : none ∈ t := by simpa using h
      simp only [allSome, ih this]

/-- C57 fails when a pulsar has no Gaussian process: pulsar by pulsar it is skipped, with common signals
stacking the pieces raises. -/
theorem C57_no_basis_false (svd : ∀ {n : Nat} (M : Matrix (Fin n) (Fin n) ℝ), Svd M) (method : Method)
    (qs : List Known) (cs : List (Klass ℝ)) (h0 : cs ≠ []) (q : Known) (hq : q ∈ qs)
    (hb : q.p.basis = none) (R : Matrix (Fin (PtaPhi.total (phisOf qs))) (Fin (PtaPhi.total (phisOf qs))) ℝ) (ld : ℝ)
    (hinv : bigPhiinv svd (phisOf qs) cs method = .ok (R, ld)) (hm : method ≠ .other) :
    lnlike svd method (qs.map Known.p) cs = .error .valueError ∧
      ∃ x, lnlike svd method (qs.map Known.p) [] = .ok (some x) := by
  refine ⟨?_, _, C84 svd method hm qs⟩
  have h1 := mapM_ok Known.p PsrEval.TNr Known.oTNr qs fun q _ => q.TNr_eq
  have h2 := mapM_ok Known.p PsrEval.TNT Known.oTNT qs fun q _ => q.TNT_eq
  have h3 := mapM_ok Known.p PsrEval.rNr (fun q => q.r ⬝ᵥ (q.P *ᵥ q.r) + q.ld) qs fun q _ => q.rNr_ok
  have hn : none ∈ qs.map Known.oTNT := List.mem_map.2 ⟨q, hq, by rw [Known.oTNT, hb]; rfl⟩
  unfold lnlike
  rw [h1, h2, h3]
  cases cs with
  | nil => exact absurd rfl h0
  | cons c t =>
    simp only [bind, Except.bind, hinv, commonTerm, allSome_none _ hn]

/-! ## The marginalized density as a limit -/

open Filter Topology in
/-- C84: the marginalized density is the limit of the density with a prior variance `s` for each column,
corrected by `m/2 (log s - log 1e40)`. -/
theorem C84_limit {n m : Nat} {C : Matrix (Fin n) (Fin n) ℝ} {M : Matrix (Fin n) (Fin m) ℝ}
    (hC : C.PosDef) (hM : Function.Injective M.mulVec) (r : Fin n → ℝ) :
    Tendsto (fun s => gaussLog (C + s • (M * Mᵀ)) r + m / 2 * (Real.log s - Real.log (10 ^ 40))) atTop
      (𝓝 (margLog C M r)) := by
  have hG := gram_posDef C M hC hM
  have h1 : Tendsto (fun s => r ⬝ᵥ ((wideN C M s)⁻¹ *ᵥ r)) atTop (𝓝 (r ⬝ᵥ (projN C M *ᵥ r))) := by
    have hc : Continuous fun A : Matrix (Fin n) (Fin n) ℝ => r ⬝ᵥ (A *ᵥ r) := by fun_prop
    exact (hc.tendsto _).comp (wide_tendsto hC hM)
  have h2 : Tendsto (fun s : ℝ => Real.log (Mᵀ * C⁻¹ * M + s⁻¹ • (1 : Matrix (Fin m) (Fin m) ℝ)).det) atTop
      (𝓝 (Real.log (Mᵀ * C⁻¹ * M).det)) := by
    have hd := (continuous_id.matrix_det.tendsto (Mᵀ * C⁻¹ * M)).comp (gram_tendsto C M)
    exact (Real.continuousAt_log hG.det_pos.ne').tendsto.comp hd
  have h3 := ((h1.add_const (Real.log C.det)).add h2).add_const (m * Real.log (10 ^ 40))
  have h4 := h3.const_mul (-(1 / 2 : ℝ))
  refine h4.congr' ?_
  filter_upwards [eventually_gt_atTop (0 : ℝ)] with s hs
  have hdet := (wideN_inv hC hM s hs).2
  have hGs : (Mᵀ * C⁻¹ * M + s⁻¹ • (1 : Matrix (Fin m) (Fin m) ℝ)).PosDef :=
    hG.add (PosDef.one.smul (inv_pos.2 hs))
  have hl : Real.log (wideN C M s).det = m * Real.log s + Real.log C.det +
      Real.log (Mᵀ * C⁻¹ * M + s⁻¹ • (1 : Matrix (Fin m) (Fin m) ℝ)).det := by
    rw [hdet, Real.log_mul (mul_pos (pow_pos hs m) hC.det_pos).ne' hGs.det_pos.ne',
      Real.log_mul (pow_pos hs m).ne' hC.det_pos.ne', Real.log_pow]
  unfold gaussLog
  show _ = -(1 / 2) * (r ⬝ᵥ ((wideN C M s)⁻¹ *ᵥ r) + Real.log (wideN C M s).det) + _
  rw [hl]
  ring

/-! ## Cases meeting the hypotheses -/

/-- A pulsar with two TOAs of variance 3 and a constant process of variance `v`. -/
noncomputable def samplePsr (v : ℝ) : PsrEval where
  n := 2
  res := ![1, 2]
  delays := [none, some ![0, 1]]
  noise := [some (.base (.arr fun _ => 3)), none]
  basis := some ⟨1, of fun _ _ => 1⟩
  phi := some (.one 1 fun _ => v)
  logprior := [0, 1]

noncomputable def sample (v : ℝ) (hv : 0 < v) : Known where
  p := samplePsr v
  m := 0
  k := 1
  N := diagonal fun _ => 3
  M := of fun _ j => j.elim0
  T := of fun _ _ => 1
  Φ := diagonal fun _ => v
  noise := ⟨.base (.arr fun _ => 3), fun _ => True, rfl,
    whole_base (arr_exact (fun _ : Fin 2 => (3 : ℝ)) fun _ => by norm_num) _, trivial⟩
  gp := .inr ⟨rfl, _, rfl, rfl, by
    ext i j
    simp [toMatrix, entries, Kernel.diagMat, Matrix.diagonal_apply, Fin.ext_iff]⟩
  pos := PosDef.diagonal fun _ => hv

/-- The same with a marginalized offset instead of the process, and no Gaussian process. -/
noncomputable def sampleMarg : Known where
  p := { samplePsr 1 with noise := [some (.marg 1 (of fun _ _ => 1) .zero), some (.base (.arr fun _ => 3))],
                          basis := none, phi := none }
  m := 1
  k := 0
  N := diagonal fun _ => 3
  M := of fun _ _ => 1
  T := of fun _ j => j.elim0
  Φ := of fun i _ => i.elim0
  noise := ⟨.marg 1 (of fun _ _ => 1) (.arr fun _ => 3), fun _ => True, rfl,
    whole_marg (arr_exact (fun _ : Fin 2 => (3 : ℝ)) fun _ => by norm_num) trivial (by
      intro x y h
      funext i
      have := congrFun h (⟨0, by decide⟩ : Fin 2)
      rw [Fin.eq_zero i]
      have h' : ∑ j : Fin 1, (1 : ℝ) * x j = ∑ j : Fin 1, (1 : ℝ) * y j := this
      simpa using h'), trivial⟩
  gp := .inl ⟨rfl, rfl, rfl⟩
  pos := by
    refine PosDef.of_dotProduct_mulVec_pos (by ext i; exact i.elim0) fun x hx => ?_
    exact absurd (funext fun i => i.elim0) hx

example : ∀ q ∈ [sample 2 (by norm_num), sample 5 (by norm_num)], q.m = 0 := by simp [sample]

/-- Two pulsars and a class of common signals on their columns. -/
noncomputable def sampleClass (x : ℝ) : Klass ℝ := ⟨[⟨0, [0]⟩, ⟨1, [0]⟩], fun _ _ => .one 1 fun _ => x⟩

example : let qs := [sample 2 (by norm_num), sample 5 (by norm_num)]
    let c := sampleClass 0
    (∀ q ∈ qs, q.p.basis ≠ none) ∧ 2 ≤ c.items.length ∧ (∀ x, some x ∈ phisOf qs → ∃ n v, x = .one n v) ∧
      KlassOk (slices (phisOf qs) 0) c ∧ PhiInv.VecKlass c ∧ (∀ it ∈ c.items, it.psr < (phisOf qs).length) ∧
      (c.items.Pairwise fun x y => x.psr ≠ y.psr) ∧ ZeroCross c := by
  refine ⟨by simp [sample, samplePsr], by simp [sampleClass], ?_, ?_, fun _ _ => ⟨_, _, rfl⟩,
    by simp [sampleClass, phisOf], by simp [sampleClass], ?_⟩
  · intro x hx
    simp only [phisOf, List.map_cons, List.map_nil, sample, samplePsr, List.mem_cons, Option.some.injEq,
      List.not_mem_nil, or_false] at hx
    rcases hx with rfl | rfl <;> exact ⟨_, _, rfl⟩
  · simp [sampleClass, KlassOk, PtaPhi.ItemOk, PtaPhi.CrossOk, PtaPhi.pairs, slices, phisOf, sample, samplePsr,
      Kern.size]
  · intro xy _ ; simp [sampleClass]

-- With cross-correlation 1 the prior covariance of the two is positive definite.
example : (!![2, 1; 1, 5] : Matrix (Fin 2) (Fin 2) ℝ).PosDef := by
  refine PosDef.of_dotProduct_mulVec_pos (by ext i j; fin_cases i <;> fin_cases j <;> simp) fun x hx => ?_
  simp only [star_trivial, dotProduct, mulVec, Fin.sum_univ_two]
  simp
  have : x 0 ≠ 0 ∨ x 1 ≠ 0 := by
    by_contra h
    push Not at h
    exact hx (funext fun i => by fin_cases i <;> simp [h.1, h.2])
  rcases this with h | h
  · nlinarith [sq_nonneg (x 0 + x 1), sq_pos_of_ne_zero h, sq_nonneg (x 1)]
  · nlinarith [sq_nonneg (x 0 + x 1), sq_pos_of_ne_zero h, sq_nonneg (x 0)]

end Verif.Likelihood
