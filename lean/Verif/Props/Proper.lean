import Verif.Props.Units
import Mathlib.Analysis.Matrix.Order
import Mathlib.MeasureTheory.Integral.Bochner.Basic
import Mathlib.MeasureTheory.Constructions.BorelSpace.Basic

/-!
# The likelihood is bounded

C133: no choice of the parameters of the processes brings the log-likelihood above a bound set by the white noise, so the posterior is proper.
-/

namespace Verif.Proper

open Verif Verif.Likelihood Verif.Noise Verif.Combine Verif.Joined Verif.Standard Verif.Background Verif.StdArray Verif.Limit Matrix Filter Topology
open Verif.Orf (Pos orfMatrix)
open Verif.Partition (Svd)

/-! ## Determinants -/

variable {n m : Nat}

theorem one_le_det {S : Matrix (Fin n) (Fin n) ℝ} (hS : S.PosSemidef) : 1 ≤ (1 + S).det := by
  have hD : (1 + S).PosDef := PosDef.one.add_posSemidef hS
  have e1 : (1 + S).det = ∏ i, hD.1.eigenvalues i := by simpa using hD.1.det_eq_prod_eigenvalues
  have hl : ∀ i, 1 ≤ hD.1.eigenvalues i := by
    intro i
    have h2 := hD.1.mulVec_eigenvectorBasis i
    set x : Fin n → ℝ := ⇑(hD.1.eigenvectorBasis i) with hx
    have hxx : 0 < x ⬝ᵥ x := by
      have h0 : x ≠ 0 := by
        intro h
        refine hD.1.eigenvectorBasis.toBasis.ne_zero i ?_
        ext j
        simpa [hx] using congrFun h j
      simpa using (dotProduct_star_self_pos_iff (v := x)).2 h0
    have hSx : 0 ≤ x ⬝ᵥ (S *ᵥ x) := by simpa using hS.dotProduct_mulVec_nonneg x
    have h3 := congrArg (fun y => x ⬝ᵥ y) h2
    simp only [add_mulVec, one_mulVec, dotProduct_add, dotProduct_smul, smul_eq_mul] at h3
    nlinarith
  rw [e1]
  calc (1 : ℝ) = ∏ _i : Fin n, (1 : ℝ) := by simp
    _ ≤ _ := Finset.prod_le_prod (fun _ _ => zero_le_one) fun i _ => hl i

open scoped MatrixOrder in
theorem det_mono {A B : Matrix (Fin n) (Fin n) ℝ} (hA : A.PosDef) (h : (B - A).PosSemidef) : A.det ≤ B.det := by
  obtain ⟨Q, hQ⟩ := CStarAlgebra.nonneg_iff_eq_star_mul_self.mp h.nonneg
  rw [star_eq_conjTranspose, conjTranspose_eq_transpose_of_trivial] at hQ
  have hu : IsUnit A.det := isUnit_iff_ne_zero.2 hA.det_pos.ne'
  have e : B = A * (1 + A⁻¹ * Qᵀ * Q) := by
    rw [Matrix.mul_add, Matrix.mul_one, Matrix.mul_assoc A⁻¹, ← Matrix.mul_assoc A, mul_nonsing_inv _ hu, Matrix.one_mul, ← hQ]
    abel
  have hS : (Q * (A⁻¹ * Qᵀ)).PosSemidef := by
    have := hA.inv.posSemidef.mul_mul_conjTranspose_same Q
    rwa [conjTranspose_eq_transpose_of_trivial, Matrix.mul_assoc] at this
  rw [e, det_mul, det_one_add_mul_comm]
  exact le_mul_of_one_le_right hA.det_pos.le (one_le_det hS)

/-- The determinants of the density are at least those of white noise. -/
theorem dets_le {C : Matrix (Fin n) (Fin n) ℝ} {M : Matrix (Fin n) (Fin m) ℝ} {v : ℝ} (hv : 0 < v) (hC : C.PosDef) (h : (C - v • 1).PosSemidef)
    (hM : Function.Injective M.mulVec) : v ^ n * ((v⁻¹ ^ m) * (Mᵀ * M).det) ≤ C.det * (Mᵀ * C⁻¹ * M).det := by
  have hG := gram_posDef C M hC hM
  have key : ∀ ε : ℝ, 0 < ε → v ^ n * (ε • (1 : Matrix (Fin m) (Fin m) ℝ) + v⁻¹ • (Mᵀ * M)).det ≤ C.det * (ε • 1 + Mᵀ * C⁻¹ * M).det := by
    intro ε hε
    have hV : (v • (1 : Matrix (Fin n) (Fin n) ℝ)).PosDef := PosDef.one.smul hv
    have hMM : (M * Mᵀ).PosSemidef := by
      have := posSemidef_self_mul_conjTranspose M
      rwa [conjTranspose_eq_transpose_of_trivial] at this
    have h1 := det_mono (A := v • 1 + ε⁻¹ • (M * Mᵀ)) (B := C + ε⁻¹ • (M * Mᵀ)) (hV.add_posSemidef (hMM.smul (by positivity)))
      (by rwa [add_sub_add_right_eq_sub])
    have gen : ∀ {N : Matrix (Fin n) (Fin n) ℝ}, N.PosDef → ε ^ m * (N + ε⁻¹ • (M * Mᵀ)).det = N.det * (ε • 1 + Mᵀ * N⁻¹ * M).det := by
      intro N hN
      have hu : IsUnit N.det := isUnit_iff_ne_zero.2 hN.det_pos.ne'
      have e : N + ε⁻¹ • (M * Mᵀ) = N * (1 + (N⁻¹ * M) * (ε⁻¹ • Mᵀ)) := by
        rw [Matrix.mul_add, Matrix.mul_one, Matrix.mul_assoc, ← Matrix.mul_assoc N, mul_nonsing_inv _ hu, Matrix.one_mul, Matrix.mul_smul]
      have e2 : (ε • 1 + Mᵀ * N⁻¹ * M) = ε • (1 + (ε⁻¹ • Mᵀ) * (N⁻¹ * M)) := by
        rw [smul_add, Matrix.smul_mul, smul_smul, mul_inv_cancel₀ hε.ne', one_smul, Matrix.mul_assoc]
      rw [e, det_mul, det_one_add_mul_comm, e2, det_smul, Fintype.card_fin]
      ring
    have h2 := mul_le_mul_of_nonneg_left h1 (pow_nonneg hε.le m)
    have hvi : (v • (1 : Matrix (Fin n) (Fin n) ℝ))⁻¹ = v⁻¹ • 1 := by
      refine inv_eq_right_inv ?_
      rw [smul_mul_smul_comm, mul_inv_cancel₀ hv.ne', one_smul, Matrix.one_mul]
    rw [gen hC, gen hV, hvi, det_smul, Fintype.card_fin, det_one, mul_one, Matrix.mul_smul, Matrix.smul_mul, Matrix.mul_one] at h2
    exact h2
  have hc : ∀ G : Matrix (Fin m) (Fin m) ℝ, Tendsto (fun ε : ℝ => (ε • 1 + G).det) (𝓝[>] 0) (𝓝 G.det) := by
    intro G
    have : Continuous fun ε : ℝ => (ε • (1 : Matrix (Fin m) (Fin m) ℝ) + G).det := by fun_prop
    have := this.tendsto 0
    rw [zero_smul, zero_add] at this
    exact this.mono_left nhdsWithin_le_nhds
  have := le_of_tendsto_of_tendsto ((hc (v⁻¹ • (Mᵀ * M))).const_mul (v ^ n)) ((hc (Mᵀ * C⁻¹ * M)).const_mul C.det)
    (by filter_upwards [self_mem_nhdsWithin] with ε hε using key ε hε)
  rwa [det_smul, Fintype.card_fin] at this

/-- The bound: `n` TOAs with white noise of variance `v`, of which the columns `M` are marginalized over. -/
noncomputable def bound {n m : Nat} (v : ℝ) (M : Matrix (Fin n) (Fin m) ℝ) : ℝ :=
  -(1 / 2) * (((n : ℝ) - m) * Real.log v + Real.log (Mᵀ * M).det + m * Real.log (10 ^ 40))

theorem margLog_le {C : Matrix (Fin n) (Fin n) ℝ} {M : Matrix (Fin n) (Fin m) ℝ} {v : ℝ} (hv : 0 < v) (hC : C.PosDef) (h : (C - v • 1).PosSemidef)
    (hM : Function.Injective M.mulVec) (r : Fin n → ℝ) : margLog C M r ≤ bound v M := by
  have hG := gram_posDef C M hC hM
  have hMM : (Mᵀ * M).PosDef := by
    have := gram_posDef 1 M PosDef.one hM
    rwa [inv_one, Matrix.mul_one] at this
  have h1 : 0 ≤ r ⬝ᵥ (projN C M *ᵥ r) := by simpa using (projN_posSemidef hC hM).dotProduct_mulVec_nonneg r
  have h2 := Real.log_le_log (by have := hMM.det_pos; positivity) (dets_le hv hC h hM)
  rw [Real.log_mul hC.det_pos.ne' hG.det_pos.ne', Real.log_mul (by positivity) (mul_pos (by positivity) hMM.det_pos).ne',
    Real.log_mul (by positivity) hMM.det_pos.ne', Real.log_pow, Real.log_pow, Real.log_inv] at h2
  simp only [margLog, bound]
  linarith

/-! ## White noise taken off -/

/-- The variance of the white noise of TOA `i`. -/
noncomputable def floor (d : Std × Labels) (i : Nat) : ℝ := d.1.white.var (d.2.key i) (d.1.errs.getD i 0)

/-- The pulsar with white noise of less variance: `v - δ` less. -/
noncomputable def less (v δ : ℝ) (d : Std × Labels) : Std × Labels :=
  ({ d.1 with
      errs := (List.range d.1.toas.length).map fun i => Real.sqrt (floor d i - v)
      white := .t2 (fun _ => 1) fun _ => Real.logb 10 (Real.sqrt δ) }, d.2)

theorem less_ok {seeded : Int → Bases.Rng} {d : Std × Labels} (h : d.1.Ok seeded d.2) (v δ : ℝ) : (less v δ d).1.Ok seeded (less v δ d).2 where
  toas := h.toas
  nu := h.nu
  errs := by simp [less]
  white := fun _ => one_ne_zero
  masks := h.masks
  key := h.key
  dt := h.dt
  ekeys := h.ekeys
  elen := h.elen
  edisj := h.edisj
  esome := h.esome
  ekey := h.ekey
  procs := h.procs
  cols := h.cols
  distinct := h.distinct
  indep := h.indep

theorem less_own (d : Std × Labels) (same : Nat → Nat → Bool) {v δ : ℝ} (hδ : 0 < δ) (i j : Nat) (hi : i < d.1.toas.length) (hv : v ≤ floor d i) :
    (less v δ d).1.own (less v δ d).2 same i j = d.1.own d.2 same i j + if i = j then δ - v else 0 := by
  have he : (less v δ d).1.errs.getD i 0 = Real.sqrt (floor d i - v) := by
    show ((List.range d.1.toas.length).map fun i => Real.sqrt (floor d i - v)).getD i 0 = _
    simp [List.getD, List.getElem?_map, List.getElem?_range hi]
  have hw : (less v δ d).1.white.var ((less v δ d).2.key i) (Real.sqrt (floor d i - v)) = floor d i - v + δ := by
    show (White.t2 _ _).var _ _ = _
    simp only [White.var]
    rw [Real.rpow_logb (by norm_num) (by norm_num) (Real.sqrt_pos.2 hδ), Real.sq_sqrt hδ.le, Real.sq_sqrt (sub_nonneg.2 hv)]
    ring
  unfold Std.own
  rw [he, hw]
  show _ + (if same i j = true then ((10 : ℝ) ^ d.1.log10Ecorr (d.2.ekey i)) ^ 2 else 0) +
    (d.1.procs.map fun g => g.cov d.1.toas d.1.nu (d.2.T g) i j).sum +
    (if d.1.marg then 0 else 1e40 * ∑ c : Fin d.1.tm.1, spanned d.1.tm.2 i c * spanned d.1.tm.2 j c) = _
  by_cases hij : i = j
  · simp only [if_pos hij, floor]
    ring
  · simp only [if_neg hij]
    ring

theorem size_less (v δ : ℝ) (ds : List (Std × Labels)) : size (ds.map (less v δ)) = size ds := by
  simp only [size, List.map_map]
  rfl

theorem size_take (ds : List (Std × Labels)) (a : Nat) (d : Std × Labels) (h : ds[a]? = some d) (b : Nat) (hab : a < b) :
    size (ds.take a) + d.1.toas.length ≤ size (ds.take b) := by
  induction ds generalizing a b with
  | nil => simp at h
  | cons x t ih =>
    obtain ⟨b, rfl⟩ : ∃ b', b = b' + 1 := ⟨b - 1, by omega⟩
    cases a with
    | zero =>
      obtain rfl : x = d := by simpa using h
      simp [size]
    | succ a =>
      have := ih a (by simpa using h) b (by omega)
      simp only [size, List.take_succ_cons, List.map_cons, List.sum_cons] at this ⊢
      omega

theorem place_unique (ds : List (Std × Labels)) {a b i j : Nat} {d d' : Std × Labels} (ha : ds[a]? = some d) (hb : ds[b]? = some d')
    (hi : i < d.1.toas.length) (hj : j < d'.1.toas.length) (h : size (ds.take a) + i = size (ds.take b) + j) : a = b ∧ i = j := by
  rcases Nat.lt_trichotomy a b with hab | rfl | hab
  · have := size_take ds a d ha b hab
    omega
  · exact ⟨rfl, by omega⟩
  · have := size_take ds b d' hb a hab
    omega

/-! ## The bound -/

/-- C133: the log-likelihood is at most that of white noise of variance `v` and residuals zero, if no TOA has white noise of less variance: there is
no bound on ECORR and on amplitudes and slopes of the processes, and no condition on delays and residuals. -/
theorem C133_bound {H : Type} [DecidableEq H] (hash : Col ℝ → H) (hh : Function.Injective hash)
    (svd : ∀ {n : Nat} (M : Matrix (Fin n) (Fin n) ℝ), Svd M) (method : Method) (argsort : List ℝ → List Nat)
    (hsort : ∀ l, Quantize.IsArgsort l (argsort l)) (seeded : Int → Bases.Rng) (orf : Nat → Pos → Pos → ℝ)
    (ks : List Plaw) (hu : ∀ k ∈ ks, k.Usual) (hs : Suits method ks) (ds : List (Std × Labels))
    (h0 : ks ≠ [] ∨ ∀ d ∈ ds, d.1.procs ≠ [] ∨ d.1.marg = false) (hds : ∀ d ∈ ds, d.1.Ok seeded d.2)
    (horf : ∀ c, c < ks.length → (orfMatrix (orf c) fun u : Fin ds.length => (ds[u]).1.pos).PosDef)
    (hd : ∀ k ∈ ks, k.combine = true → ∀ d ∈ ds, DistinctAt k.args.nmodes k.T d.1.toas) (rng : Bases.Rng) {v : ℝ} (hv : 0 < v)
    (hfl : ∀ d ∈ ds, ∀ i, i < d.1.toas.length → v ≤ d.1.white.var (d.2.key i) (d.1.errs.getD i 0)) :
    ∃ ps y, pta argsort seeded (ks.map Plaw.common) (ds.map Prod.fst) rng = .ok ps ∧ likelihood hash svd method orf ps = .ok (some y) ∧
      y ≤ bound v (columns ds) := by
  obtain ⟨ps, p1, same, p2, C, p3, p4, p5⟩ := C116_array hash hh svd method argsort hsort seeded orf ks hu hs ds h0 hds horf hd rng
  refine ⟨ps, _, p1, p5, margLog_le hv p3 ?_ (Wide.columns_injective hds) _⟩
  have key : ∀ δ : ℝ, 0 < δ → (C - v • 1 + δ • 1).PosDef := by
    intro δ hδ
    obtain ⟨ps', q1, same', q2, C', q3, q4, q5⟩ := C116_array hash hh svd method argsort hsort seeded orf ks hu hs (ds.map (less v δ))
      (h0.imp_right fun h d hd => by obtain ⟨d, hd', rfl⟩ := List.mem_map.1 hd; exact h d hd')
      (fun d hd => by obtain ⟨d, hd', rfl⟩ := List.mem_map.1 hd; exact less_ok (hds d hd') v δ)
      (fun c hc => posDef_of (fun d : Std × Labels => d.1.pos) (fun d : Std × Labels => d.1.pos) (by simp only [List.map_map]; rfl) (orf c)
        (horf c hc))
      (fun k hk hkc d hd' => by
        obtain ⟨d, hd'', rfl⟩ := List.mem_map.1 hd'
        exact hd k hk hkc d hd'') rng
    have hsz := size_less v δ ds
    have e : C - v • 1 + δ • 1 = C'.submatrix (Fin.cast hsz.symm) (Fin.cast hsz.symm) := by
      ext r s
      obtain ⟨a, d, i, h1, h2, h3⟩ := find _ r.1 r.2
      obtain ⟨b, d', j, h1', h2', h3'⟩ := find _ s.1 s.2
      have hdm : d ∈ ds := List.mem_of_getElem? h1
      have htake : ∀ a, size ((ds.map (less v δ)).take a) = size (ds.take a) := by
        intro a
        rw [← List.map_take, size_less]
      rw [submatrix_apply, q4 a b (less v δ d) (less v δ d') (by simp [h1]) (by simp [h1']) i j h2 h2' _ _ (by rw [htake]; exact h3)
        (by rw [htake]; exact h3'), Matrix.add_apply, Matrix.sub_apply, Matrix.smul_apply, Matrix.smul_apply, smul_eq_mul, smul_eq_mul,
        p4 a b d d' h1 h1' i j h2 h2' r s h3 h3', Matrix.one_apply]
      have hrs : r = s ↔ a = b ∧ i = j := by
        constructor
        · rintro rfl
          exact place_unique ds h1 h1' h2 h2' (h3.symm.trans h3')
        · rintro ⟨rfl, rfl⟩
          exact Fin.ext (h3.trans h3'.symm)
      show _ = _ + ∑ c : Fin ks.length, orf c d.1.pos d'.1.pos * (ks[c]).cov (d.1.toas.getD i 0) (d'.1.toas.getD j 0)
      by_cases hab : a = b
      · have hsame : same' a = same a := by
          funext i j
          exact Bool.eq_iff_iff.2 (((q2 a _ (by simp [h1] : _ = some (less v δ d))).exact i j).trans ((p2 a d h1).exact i j).symm)
        rw [if_pos hab, if_pos hab, hsame, less_own d _ hδ i j h2 (hfl d hdm i h2)]
        by_cases hij : i = j
        · rw [if_pos (hrs.2 ⟨hab, hij⟩), if_pos hij]
          ring
        · rw [if_neg fun h => hij (hrs.1 h).2, if_neg hij]
          ring
      · rw [if_neg hab, if_neg hab, if_neg fun h => hab (hrs.1 h).1]
        ring
    rw [e]
    exact q3.submatrix (Fin.cast_injective hsz.symm)
  have hsymm : (C - v • (1 : Matrix (Fin (size ds)) (Fin (size ds)) ℝ)).IsHermitian := p3.1.sub (by
    rw [IsHermitian, conjTranspose_eq_transpose_of_trivial, transpose_smul, transpose_one])
  refine PosSemidef.of_dotProduct_mulVec_nonneg hsymm fun x => ?_
  refine le_of_forall_pos_le_add fun η hη => ?_
  have hxx : 0 ≤ x ⬝ᵥ x := Finset.sum_nonneg fun i _ => mul_self_nonneg _
  have h1 := (key (η / (x ⬝ᵥ x + 1)) (by positivity)).posSemidef.dotProduct_mulVec_nonneg x
  rw [add_mulVec, dotProduct_add, smul_mulVec, one_mulVec, dotProduct_smul, smul_eq_mul] at h1
  have h2 : η / (x ⬝ᵥ x + 1) * (x ⬝ᵥ x) ≤ η := by
    rw [div_mul_eq_mul_div, div_le_iff₀ (by positivity)]
    nlinarith
  have h3 : star x ⬝ᵥ x = x ⬝ᵥ x := by simp
  rw [h3] at h1
  linarith

/-! ## The evidence -/

theorem bound_ext {n n' m m' : Nat} (hn : n = n') (hm : m = m') (v : ℝ) (M : Matrix (Fin n) (Fin m) ℝ) (M' : Matrix (Fin n') (Fin m') ℝ)
    (hM : ∀ i j, M i j = M' (Fin.cast hn i) (Fin.cast hm j)) : bound v M = bound v M' := by
  subst hn hm
  congr 1
  ext i j
  exact hM i j

/-- C133: with parameters that depend continuously on `x` and any normalised prior of `x`, the posterior is proper: the evidence, the integral of
the likelihood over the prior, is positive and finite. -/
theorem C133_evidence {H ι : Type} [DecidableEq H] (hash : Col ℝ → H) (hh : Function.Injective hash)
    (svd : ∀ {n : Nat} (M : Matrix (Fin n) (Fin n) ℝ), Svd M) (method : Method) (argsort : List ℝ → List Nat)
    (hsort : ∀ l, Quantize.IsArgsort l (argsort l)) (seeded : Int → Bases.Rng) (orf : Nat → Pos → Pos → ℝ)
    [TopologicalSpace ι] [MeasurableSpace ι] [BorelSpace ι] (prior : MeasureTheory.Measure ι) [MeasureTheory.IsProbabilityMeasure prior]
    (ks : ι → List Plaw) (hk : ∀ x₀, CommonTend (𝓝 x₀) ks (ks x₀)) (hu : ∀ x, ∀ k ∈ ks x, k.Usual) (hs : ∀ x, Suits method (ks x))
    (cs : List (Curve ι)) (hc : ∀ x₀, ∀ c ∈ cs, (c.seen x₀).Tends (𝓝 x₀))
    (h0 : ∀ x, ks x ≠ [] ∨ ∀ c ∈ cs, (c.v x).procs ≠ [] ∨ c.d.marg = false) (hok : ∀ c ∈ cs, ∀ x, (c.at x).1.Ok seeded c.L)
    (horf : ∀ x c, c < (ks x).length → (orfMatrix (orf c) fun u : Fin cs.length => (cs[u]).d.pos).PosDef)
    (hd : ∀ x, ∀ k ∈ ks x, k.combine = true → ∀ c ∈ cs, DistinctAt k.args.nmodes k.T c.d.toas) (rng : ι → Bases.Rng) {v : ℝ} (hv : 0 < v)
    (hfl : ∀ x, ∀ c ∈ cs, ∀ i, i < c.d.toas.length → v ≤ (c.v x).white.var (c.L.key i) (c.d.errs.getD i 0)) :
    ∃ (ps : ι → List JPsr) (y : ι → ℝ),
      (∀ x, pta argsort seeded ((ks x).map Plaw.common) (cs.map fun c => (c.at x).1) (rng x) = .ok (ps x) ∧
        likelihood hash svd method orf (ps x) = .ok (some (y x))) ∧
      MeasureTheory.Integrable (fun x => Real.exp (y x)) prior ∧ 0 < ∫ x, Real.exp (y x) ∂prior ∧
        ∫ x, Real.exp (y x) ∂prior ≤ Real.exp (bound v (columns (cs.map Curve.lim))) := by
  obtain ⟨ps, y, h1, hy⟩ := C129_continuous hash hh svd method argsort hsort seeded orf ks hk hu hs cs hc h0 hok horf hd rng
  have hle : ∀ x, y x ≤ bound v (columns (cs.map Curve.lim)) := by
    intro x
    obtain ⟨ps', y', q1, q2, q3⟩ := C133_bound hash hh svd method argsort hsort seeded orf (ks x) (hu x) (hs x) (cs.map fun c => c.at x)
      ((h0 x).imp_right fun h d hd => by obtain ⟨c, hc, rfl⟩ := List.mem_map.1 hd; exact h c hc)
      (fun d hd => by obtain ⟨c, hc, rfl⟩ := List.mem_map.1 hd; exact hok c hc x)
      (fun k hk => posDef_of (fun c : Curve ι => c.d.pos) (fun d : Std × Labels => d.1.pos) (by simp only [List.map_map]; rfl) (orf k) (horf x k hk))
      (fun k hk hkc d hdm => by obtain ⟨c, hc, rfl⟩ := List.mem_map.1 hdm; exact hd x k hk hkc c hc) (rng x) hv
      (fun d hdm => by obtain ⟨c, hc, rfl⟩ := List.mem_map.1 hdm; exact hfl x c hc)
    rw [List.map_map] at q1
    have e1 : ps' = ps x := Except.ok.inj (q1.symm.trans (h1 x).1)
    rw [e1, (h1 x).2] at q2
    have e2 : y x = y' := by simpa using q2
    rw [e2]
    refine q3.trans_eq (bound_ext (size_at cs x) (by simp only [List.map_map]; rfl) v _ _ fun i j => ?_)
    simp only [StdArray.columns, of_apply, List.map_map]
    rfl
  have hb : ∀ x, ‖Real.exp (y x)‖ ≤ Real.exp (bound v (columns (cs.map Curve.lim))) := fun x => by
    rw [Real.norm_eq_abs, abs_of_pos (Real.exp_pos _)]
    exact Real.exp_le_exp.2 (hle x)
  have hint : MeasureTheory.Integrable (fun x => Real.exp (y x)) prior :=
    MeasureTheory.Integrable.of_bound (Real.continuous_exp.comp hy).measurable.aestronglyMeasurable _ (.of_forall hb)
  refine ⟨ps, y, h1, hint, MeasureTheory.integral_exp_pos hint, ?_⟩
  have := MeasureTheory.integral_mono hint (MeasureTheory.integrable_const _) fun x => Real.exp_le_exp.2 (hle x)
  simpa using this

/-- A pulsar with ECORR, a process and a marginalized timing model, and a background whose amplitude has any normalised prior. -/
example {H : Type} [DecidableEq H] (hash : Col ℝ → H) (hh : Function.Injective hash) (svd : ∀ {n : Nat} (M : Matrix (Fin n) (Fin n) ℝ), Svd M)
    (argsort : List ℝ → List Nat) (hsort : ∀ l, Quantize.IsArgsort l (argsort l)) (seeded : Int → Bases.Rng) (rng : ℝ → Bases.Rng)
    (prior : MeasureTheory.Measure ℝ) [MeasureTheory.IsProbabilityMeasure prior] :
    ∃ (ps : ℝ → List JPsr) (y : ℝ → ℝ), (∀ x, pta argsort seeded [(⟨{ nmodes := 1 }, true, x, 13 / 3, 4⟩ : Plaw).common] [StdArray.exA] (rng x) =
      .ok (ps x) ∧ likelihood hash svd .cliques (fun _ _ _ => 1) (ps x) = .ok (some (y x))) ∧
      MeasureTheory.Integrable (fun x => Real.exp (y x)) prior ∧ 0 < ∫ x, Real.exp (y x) ∂prior ∧
        ∫ x, Real.exp (y x) ∂prior ≤ Real.exp (bound 1 (columns [(StdArray.exA, StdArray.exL)])) := by
  refine C133_evidence hash hh svd .cliques argsort hsort seeded (fun _ _ _ => 1) prior (fun x => [⟨{ nmodes := 1 }, true, x, 13 / 3, 4⟩])
    (fun x₀ => ?_) ?_ (fun _ => .inr (.inr ⟨by simp, by simp⟩)) [still ℝ (StdArray.exA, StdArray.exL)] ?_ (fun _ => .inl (by simp)) ?_ ?_ ?_ rng
    (v := 1) one_pos ?_
  · exact CommonTend.tends (k := ⟨{ nmodes := 1 }, true, x₀, 13 / 3, 4⟩) (A := fun x => x) (γ := fun _ => 13 / 3) tendsto_id
      tendsto_const_nhds .nil
  · intro x k hk
    obtain rfl : k = ⟨{ nmodes := 1 }, true, x, 13 / 3, 4⟩ := by simpa using hk
    exact ⟨⟨rfl, rfl, rfl, rfl⟩, rfl, rfl, by simp, by norm_num⟩
  · intro x₀ c hc
    obtain rfl := List.mem_singleton.1 hc
    exact still_tends _ (StdArray.exA, StdArray.exL)
  · intro c hc x
    obtain rfl := List.mem_singleton.1 hc
    exact (ex_ok seeded).1
  · intro x c hc
    have : (orfMatrix (fun _ _ => 1) fun u : Fin [still ℝ (StdArray.exA, StdArray.exL)].length =>
        ([still ℝ (StdArray.exA, StdArray.exL)][u]).d.pos) = 1 := by
      ext i j
      obtain rfl : i = j := Subsingleton.elim (α := Fin 1) i j
      rw [Matrix.one_apply_eq]
      rfl
    rw [this]
    exact PosDef.one
  · intro x k hk _ c hc
    obtain rfl : k = ⟨{ nmodes := 1 }, true, x, 13 / 3, 4⟩ := by simpa using hk
    obtain rfl := List.mem_singleton.1 hc
    exact one_distinct
  · intro x c hc i hi
    obtain rfl := List.mem_singleton.1 hc
    have hi : i < 2 := hi
    have : i = 0 ∨ i = 1 := by omega
    show (1 : ℝ) ≤ 1 ^ 2 * ((([1, 2] : List ℝ).getD i 0) ^ 2 + ((10 : ℝ) ^ (-6 : ℝ)) ^ 2)
    have h10 := sq_nonneg ((10 : ℝ) ^ (-6 : ℝ))
    rcases this with rfl | rfl <;> simp only [List.getD_cons_zero, List.getD_cons_succ] <;> nlinarith

end Verif.Proper
