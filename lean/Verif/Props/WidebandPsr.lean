import Verif.Model.WidebandPsr
import Verif.Props.Wideband
import Verif.Props.Collect
import Verif.Props.Evidence

/-!
# Property C117: the wideband likelihood is the integral over the dispersion measures
-/

namespace Verif.Wideband

open Verif Verif.Combine Verif.Collect Verif.Likelihood Verif.Spec Verif.Evidence MeasureTheory
open Matrix hiding map
open Verif.PhiInv (toMatrix)
open Verif.Partition (Svd)

variable {H : Type} [DecidableEq H] {n : Nat}

/-! ## Specification -/

/-- The density of a measurement `d` with standard deviation `e` of a quantity `x`. -/
noncomputable def measured (x e d : ℝ) : ℝ := Real.exp (-((d - x) ^ 2 / (2 * e ^ 2))) / (Real.sqrt (2 * Real.pi) * e)

/-- The dispersion delay of TOA `i`, beyond the one of the timing model, when the dispersion measure in interval `j` is `x j`. -/
noncomputable def dispersion (s : Signal n) (β : Fin n → Fin s.bins.length) (x : Fin s.bins.length → ℝ) (i : Fin n) : ℝ :=
  (x (β i) - (s.psr.dm + (s.bins.get (β i)).dmx)) / (2.41e-4 * s.psr.freqs i ^ 2)

/-- Column `a` of the design matrix belongs to an interval. -/
def IsDmx (s : Signal n) (a : Nat) : Prop := ∃ b ∈ s.bins, b.index = a

open Classical in
/-- The covariance of the residuals due to the parameters of the timing model that are not dispersion measures. -/
noncomputable def timing (s : Signal n) (mmat : List (Col ℝ)) : Matrix (Fin n) (Fin n) ℝ :=
  Matrix.of fun i k => ∑ a ∈ Finset.range mmat.length, if IsDmx s a then 0 else 1e40 * ((mmat.getD a fun _ => 0) i * (mmat.getD a fun _ => 0) k)

/-- The design matrix has a column for every parameter.  The column of an interval is, up to the sign, the derivative of the
dispersion delay of its TOAs. -/
structure Design (s : Signal n) (β : Fin n → Fin s.bins.length) (mmat : List (Col ℝ)) : Prop where
  length : mmat.length = s.psr.fitpars.length
  col : ∀ j : Fin s.bins.length, ∃ ε : ℝ, ε ^ 2 = 1 ∧ ∀ i : Fin n,
    (mmat.getD (s.bins.get j).index fun _ => 0) i = ε * if β i = j then 1 / (2.41e-4 * s.psr.freqs i ^ 2) else 0

/-! ## The covariance -/

/-- `F φ Fᵀ` as a product of matrices. -/
theorem sigMat_prod (n : Nat) (b : BSig ℝ) (F : List (Col ℝ)) (hb : b.basis = some F) :
    sigMat n b = (Matrix.of fun (i : Fin n) (p : Fin b.basisAt.length) => (b.basisAt.getD p fun _ => 0) i) *
      toMatrix b.basisAt.length (amat b.phi) *
        (Matrix.of fun (i : Fin n) (p : Fin b.basisAt.length) => (b.basisAt.getD p fun _ => 0) i)ᵀ := by
  ext i k
  simp only [sigMat, sigCov, hb, quad, Matrix.of_apply, Matrix.mul_apply, Matrix.transpose_apply, toMatrix]
  rw [Finset.sum_comm, ← Fin.sum_univ_eq_sum_range fun q => ∑ p ∈ Finset.range b.basisAt.length, (b.basisAt.getD p fun _ => 0) i * amat b.phi p q * (b.basisAt.getD q fun _ => 0) k]
  refine Finset.sum_congr rfl fun q _ => ?_
  rw [Finset.sum_mul, ← Fin.sum_univ_eq_sum_range fun p => (b.basisAt.getD p fun _ => 0) i * amat b.phi p q * (b.basisAt.getD q fun _ => 0) k]

theorem sigMat_posSemidef (n : Nat) (b : BSig ℝ) (h : PriorPos b) : (sigMat n b).PosSemidef := by
  cases hb : b.basis with
  | none =>
    have : sigMat n b = 0 := by ext i k; simp [sigMat, sigCov, hb]
    rw [this]; exact PosSemidef.zero
  | some F =>
    rw [sigMat_prod n b F hb]
    have := (h (by rw [hb]; simp)).posSemidef.mul_mul_conjTranspose_same
      (Matrix.of fun (i : Fin n) (p : Fin b.basisAt.length) => (b.basisAt.getD p fun _ => 0) i)
    rwa [conjTranspose_eq_transpose_of_trivial] at this

theorem sum_posSemidef (n : Nat) (l : List (BSig ℝ)) (h : ∀ b ∈ l, PriorPos b) : ((l.map (sigMat n)).sum).PosSemidef := by
  induction l with
  | nil => exact PosSemidef.zero
  | cons b t ih =>
    rw [List.map_cons, List.sum_cons]
    exact (sigMat_posSemidef n b (h b (by simp))).add (ih fun b hb => h b (by simp [hb]))

theorem timing_posSemidef (s : Signal n) (mmat : List (Col ℝ)) : (timing s mmat).PosSemidef := by
  classical
  have e : timing s mmat = ∑ a ∈ Finset.range mmat.length, (if IsDmx s a then (0 : ℝ) else 1e40) •
      Matrix.vecMulVec (fun i : Fin n => (mmat.getD a fun _ => 0) i) (fun i : Fin n => (mmat.getD a fun _ => 0) i) := by
    ext i k
    rw [Matrix.sum_apply]
    simp only [timing, Matrix.of_apply, Matrix.smul_apply, Matrix.vecMulVec_apply, smul_eq_mul]
    refine Finset.sum_congr rfl fun a _ => ?_
    split <;> simp
  rw [e]
  refine Matrix.posSemidef_sum _ fun a _ => ?_
  refine PosSemidef.smul ?_ (by split <;> norm_num)
  have := Matrix.posSemidef_vecMulVec_self_star (fun i : Fin n => (mmat.getD a fun _ => 0) (i : Nat))
  simpa using this

/-- The derivatives of the dispersion delays. -/
noncomputable def slope (s : Signal n) (β : Fin n → Fin s.bins.length) : Matrix (Fin n) (Fin s.bins.length) ℝ :=
  Matrix.of fun i j => if β i = j then 1 / (2.41e-4 * s.psr.freqs i ^ 2) else 0

theorem slope_mulVec (s : Signal n) (β : Fin n → Fin s.bins.length) (x : Fin s.bins.length → ℝ) (i : Fin n) :
    (slope s β *ᵥ x) i = x (β i) / (2.41e-4 * s.psr.freqs i ^ 2) := by
  simp only [slope, mulVec, dotProduct, Matrix.of_apply, ite_mul, zero_mul]
  rw [Finset.sum_ite_eq, if_pos (Finset.mem_univ _)]
  ring

/-- The wideband signal contributes the covariance of the other timing parameters, and of the dispersion measures with the variances
`φ`. -/
theorem tm_cov (s : Signal n) (β : Fin n → Fin s.bins.length) (mmat : List (Col ℝ)) (hd : Design s β mmat)
    (hp : s.bins.Pairwise fun a b => a.index ≠ b.index) (hi : ∀ b ∈ s.bins, b.index < s.psr.fitpars.length)
    (phi : List ℝ) (φ : Fin s.bins.length → ℝ)
    (h1 : ∀ j : Fin s.bins.length, phi[(s.bins.get j).index]? = some (φ j))
    (h2 : ∀ a, a < s.psr.fitpars.length → (∀ b ∈ s.bins, b.index ≠ a) → phi[a]? = some 1e40) :
    sigMat n (tmSig mmat phi) = timing s mmat + slope s β * Matrix.diagonal φ * (slope s β)ᵀ := by
  classical
  have hinj : Function.Injective fun j : Fin s.bins.length => (s.bins.get j).index := by
    intro j k e
    by_contra hne
    rcases lt_or_gt_of_ne hne with hlt | hlt
    · exact List.pairwise_iff_get.1 hp j k hlt e
    · exact List.pairwise_iff_get.1 hp k j hlt e.symm
  ext i k
  have hl : sigMat n (tmSig mmat phi) i k = ∑ a ∈ Finset.range mmat.length,
      phi.getD a 0 * ((mmat.getD a fun _ => 0) i * (mmat.getD a fun _ => 0) k) := by
    simp only [sigMat, sigCov, tmSig, quad, Matrix.of_apply, amat]
    refine Finset.sum_congr rfl fun a ha => ?_
    simp only [mul_ite, mul_zero, ite_mul, zero_mul]
    rw [Finset.sum_ite_eq, if_pos ha]
    ring
  have hr : (slope s β * Matrix.diagonal φ * (slope s β)ᵀ) i k =
      ∑ j : Fin s.bins.length, φ j * ((mmat.getD (s.bins.get j).index fun _ => 0) i * (mmat.getD (s.bins.get j).index fun _ => 0) k) := by
    rw [Matrix.mul_apply]
    refine Finset.sum_congr rfl fun j _ => ?_
    obtain ⟨ε, hε, hcol⟩ := hd.col j
    rw [Matrix.mul_diagonal, hcol, hcol, Matrix.transpose_apply]
    simp only [slope, Matrix.of_apply]
    linear_combination (-(φ j * ((if β i = j then 1 / (2.41e-4 * s.psr.freqs i ^ 2) else 0) *
      (if β k = j then 1 / (2.41e-4 * s.psr.freqs k ^ 2) else 0)))) * hε
  rw [Matrix.add_apply, hl, hr]
  simp only [timing, Matrix.of_apply]
  rw [show ∑ j : Fin s.bins.length, φ j * ((mmat.getD (s.bins.get j).index fun _ => 0) i * (mmat.getD (s.bins.get j).index fun _ => 0) k) =
      ∑ a ∈ Finset.univ.image (fun j : Fin s.bins.length => (s.bins.get j).index),
        phi.getD a 0 * ((mmat.getD a fun _ => 0) i * (mmat.getD a fun _ => 0) k) from by
    rw [Finset.sum_image (fun j _ k _ e => hinj e)]
    refine Finset.sum_congr rfl fun j _ => ?_
    rw [List.getD_eq_getElem?_getD (l := phi), h1]
    rfl]
  have hsub : Finset.univ.image (fun j : Fin s.bins.length => (s.bins.get j).index) = (Finset.range mmat.length).filter (IsDmx s) := by
    ext a
    simp only [Finset.mem_image, Finset.mem_univ, true_and, Finset.mem_filter, Finset.mem_range]
    constructor
    · rintro ⟨j, rfl⟩
      exact ⟨by rw [hd.length]; exact hi _ (List.get_mem _ _), _, List.get_mem _ _, rfl⟩
    · rintro ⟨-, b, hb, rfl⟩
      obtain ⟨j, rfl⟩ := List.get_of_mem hb
      exact ⟨j, rfl⟩
  rw [hsub, Finset.sum_filter, ← Finset.sum_add_distrib]
  refine Finset.sum_congr rfl fun a ha => ?_
  by_cases h : IsDmx s a
  · simp [h]
  · rw [if_neg h, if_neg h, add_zero, List.getD_eq_getElem?_getD (l := phi), h2 a (by rw [← hd.length]; exact Finset.mem_range.1 ha)
      (fun b hb e => h ⟨b, hb, e⟩)]
    rfl

/-! ## The integral -/

/-- The product of the densities of the measurements, from C69. -/
theorem prod_measured (s : Signal n) (β : Fin n → Fin s.bins.length) {dm dme : Fin n → ℝ} (hpos : ∀ i, 0 < dme i)
    (L : ℝ) (mean φ : Fin s.bins.length → ℝ) (hφ : ∀ j, 0 < φ j)
    (h : ∀ x : Fin s.bins.length → ℝ, ∑ i, (-(1 / 2) * ((dm i - x (β i)) ^ 2 / dme i ^ 2) - Real.log (dme i)) =
      ∑ j, (-(1 / 2) * ((x j - mean j) ^ 2 / φ j) - 1 / 2 * Real.log (φ j)) + L) (x : Fin s.bins.length → ℝ) :
    mvn (Matrix.diagonal φ) (x - mean) * Real.exp L =
      Real.sqrt ((2 * Real.pi) ^ n) / Real.sqrt ((2 * Real.pi) ^ s.bins.length) * ∏ i, measured (x (β i)) (dme i) (dm i) := by
  have h2 := Real.two_pi_pos
  have e1 : ∏ i, measured (x (β i)) (dme i) (dm i) =
      Real.exp (∑ i, (-(1 / 2) * ((dm i - x (β i)) ^ 2 / dme i ^ 2) - Real.log (dme i))) / Real.sqrt ((2 * Real.pi) ^ n) := by
    have : ∀ i, measured (x (β i)) (dme i) (dm i) =
        Real.exp (-(1 / 2) * ((dm i - x (β i)) ^ 2 / dme i ^ 2) - Real.log (dme i)) / Real.sqrt (2 * Real.pi) := by
      intro i
      rw [measured, Real.exp_sub, Real.exp_log (hpos i), div_div, mul_comm (dme i)]
      congr 2
      have := (hpos i).ne'
      field_simp
    simp only [this]
    rw [Finset.prod_div_distrib, Real.exp_sum, Finset.prod_const, Finset.card_univ, Fintype.card_fin]
    congr 1
    exact (Real.sqrt_eq_iff_mul_self_eq (by positivity) (by positivity)).2 (by rw [← mul_pow, Real.mul_self_sqrt h2.le]) |>.symm
  have e2 : mvn (Matrix.diagonal φ) (x - mean) =
      Real.exp (∑ j, (-(1 / 2) * ((x j - mean j) ^ 2 / φ j) - 1 / 2 * Real.log (φ j))) / Real.sqrt ((2 * Real.pi) ^ s.bins.length) := by
    have hdet : 0 < ∏ j, φ j := Finset.prod_pos fun j _ => hφ j
    have hinv : (Matrix.diagonal φ)⁻¹ = Matrix.diagonal fun j => (φ j)⁻¹ := by
      apply Matrix.inv_eq_right_inv
      rw [Matrix.diagonal_mul_diagonal]
      rw [show (fun j => φ j * (φ j)⁻¹) = fun _ => 1 from funext fun j => mul_inv_cancel₀ (hφ j).ne', Matrix.diagonal_one]
    rw [mvn_eq, Matrix.det_diagonal, hinv, Finset.sum_sub_distrib, Real.exp_sub, div_div, mul_comm ((2 * Real.pi) ^ s.bins.length),
      Real.sqrt_mul hdet.le]
    congr 2
    · congr 1
      simp only [dotProduct, Matrix.mulVec_diagonal, Pi.sub_apply]
      rw [Finset.mul_sum]
      refine Finset.sum_congr rfl fun j _ => ?_
      ring
    · rw [← Finset.mul_sum, ← Real.log_prod (fun j _ => (hφ j).ne'), Real.sqrt_eq_rpow, Real.rpow_def_of_pos hdet, mul_comm]
  rw [e1, e2, h x, Real.exp_add]
  have := Real.sqrt_pos.2 (pow_pos h2 n)
  field_simp

/-- What is asked of the other signals: noise that can be solved exactly with covariance `N` and columns `M` marginalized over, and
Gaussian processes as in C46, with positive definite priors. -/
structure Others (hash : Col ℝ → H) (p : WPsr) {m : Nat} (N : Matrix (Fin p.n) (Fin p.n) ℝ) (M : Matrix (Fin p.n) (Fin m) ℝ) : Prop where
  noise : ∃ o, Noise.getNdiag p.noise.reduceOption = .ok o ∧ Whole o N M fun _ => True
  ok : ∀ b ∈ p.before ++ p.after, SigOk b
  ordered : Ordered (p.before ++ p.after)
  hash : HashOk hash (p.before ++ tmSig p.mmat [] :: p.after)
  pos : ∀ b ∈ p.before ++ p.after, PriorPos b

/-- The covariance of the residuals when the dispersion measures are known: noise, other Gaussian processes, other timing parameters. -/
noncomputable def known (p : WPsr) (N : Matrix (Fin p.n) (Fin p.n) ℝ) : Matrix (Fin p.n) (Fin p.n) ℝ :=
  N + ((p.before ++ p.after).map (sigMat p.n)).sum + timing p.signal p.mmat

theorem ordered_insert (b : BSig ℝ) (hv : b.varying = false) (hc : b.combine = false) (l r : List (BSig ℝ)) (h : Ordered (l ++ r)) :
    Ordered (l ++ b :: r) := by
  induction l with
  | nil => exact ⟨fun _ h => by simp [hv] at h, h⟩
  | cons x t ih =>
    refine ⟨fun h1 h2 y hy h3 h4 => ?_, ih h.2⟩
    rcases List.mem_append.1 hy with hy | hy
    · exact h.1 h1 h2 y (List.mem_append_left _ hy) h3 h4
    · rcases List.mem_cons.1 hy with rfl | hy
      · exact hc
      · exact h.1 h1 h2 y (List.mem_append_right _ hy) h3 h4

/-- **C117.**  The exponential of the likelihood of a pulsar with the wideband timing model is, up to powers of `2π` and the other terms
of the prior, the integral over the dispersion measures `x` of all intervals, and over the timing corrections `ξ` that the noise marginalizes over,
of the density of the residuals without the dispersion delays times the densities of the measured dispersion measures. -/
theorem C117 (hash : Col ℝ → H) (svd : ∀ {n : Nat} (M : Matrix (Fin n) (Fin n) ℝ), Svd M) (method : Method)
    (hm : method ≠ .other) (p : WPsr) (params : Dict String ℝ) {β : Fin p.n → Fin p.signal.bins.length} (h : Assigned p.signal.bins β)
    (hp : p.signal.bins.Pairwise fun a b => a.index ≠ b.index) (hi : ∀ b ∈ p.signal.bins, b.index < p.signal.psr.fitpars.length)
    {dm dme : Fin p.n → ℝ} (hdm : getDm p.signal params = .ok dm) (hdme : getDme p.signal params = .ok dme) (hpos : ∀ i, 0 < dme i)
    (hd : Design p.signal β p.mmat) (hne : p.mmat ≠ [])
    (m : Nat) (N : Matrix (Fin p.n) (Fin p.n) ℝ) (M : Matrix (Fin p.n) (Fin m) ℝ) (ho : Others hash p N M) :
    ∃ l, p.likelihood hash svd method params = .ok (some l) ∧
      Real.exp l = Real.sqrt ((2 * Real.pi) ^ p.n) * (Real.sqrt ((2 * Real.pi) ^ p.n) / Real.sqrt ((2 * Real.pi) ^ p.signal.bins.length)) *
        (∫ ξ, (∫ x, mvn (known p N) (p.res - p.delays.reduceOption.sum - M *ᵥ ξ - dispersion p.signal β x) *
          ∏ i, measured (x (β i)) (dme i) (dm i)) / Real.sqrt ((2 * Real.pi * 10 ^ 40) ^ m)) * Real.exp p.logprior.sum := by
  obtain ⟨L, phi, mean, φ, c1, c2, c3, c4, c5, c6, c7⟩ := C69 p.signal params h hp hi hdm hdme hpos
  obtain ⟨d, d1, d2⟩ := C69_delay p.signal params h hdm hdme
  have hdelay : d = dispersion p.signal β mean := by
    funext i
    have := d2 mean i
    rw [c3, sub_self, zero_div, add_zero] at this
    exact this
  have hlen : phi.length = p.mmat.length := by
    have : ∀ (l : List (Bin p.n)) (v : List ℝ) (g : Bin p.n → ℝ), (l.foldl (fun phi b => phi.set b.index (g b)) v).length = v.length := by
      intro l
      induction l with
      | nil => intro v g; rfl
      | cons b t ih => intro v g; rw [List.foldl_cons, ih, List.length_set]
    simp only [getPhi, hdme, bind, Except.bind] at c2
    cases c2
    rw [this, List.length_replicate, hd.length]
  have hphi : ∀ a, a < phi.length → 0 < phi.getD a 0 := by
    intro a ha
    by_cases hx : IsDmx p.signal a
    · obtain ⟨b, hb, rfl⟩ := hx
      obtain ⟨j, rfl⟩ := List.get_of_mem hb
      rw [List.getD_eq_getElem?_getD, c5]
      exact c4 j
    · rw [List.getD_eq_getElem?_getD, c6 a (by rw [← hd.length, ← hlen]; exact ha) fun b hb e => hx ⟨b, hb, e⟩]
      show (0 : ℝ) < 1e40
      norm_num
  have hcol : p.collection params = .ok (⟨p.n, p.res, some d :: p.delays, none :: p.noise,
      p.before ++ tmSig p.mmat phi :: p.after, L :: p.logprior⟩ : Collect.Psr) := by
    simp only [WPsr.collection, d1, c1, c2, bind, Except.bind]
  have hfine : Fine hash (⟨p.n, p.res, some d :: p.delays, none :: p.noise, p.before ++ tmSig p.mmat phi :: p.after, L :: p.logprior⟩ : Collect.Psr) m N M := by
    refine ⟨?_, ?_, ?_, ?_, ?_⟩
    · obtain ⟨o, o1, o2⟩ := ho.noise
      exact ⟨o, by simpa [List.reduceOption] using o1, o2⟩
    · intro b hb F hF
      have hb : b ∈ p.before ++ tmSig p.mmat phi :: p.after := hb
      rcases List.mem_append.1 hb with hb | hb
      · exact ho.ok b (List.mem_append_left _ hb) F hF
      · rcases List.mem_cons.1 hb with rfl | hb
        · cases hF
          exact ⟨hne, rfl, fun _ => rfl, hlen, fun _ hc => by simp [tmSig] at hc⟩
        · exact ho.ok b (List.mem_append_right _ hb) F hF
    · exact ordered_insert _ rfl rfl _ _ ho.ordered
    · intro b hb b' hb' F F' hF hF'
      have conv : ∀ b F, b ∈ p.before ++ tmSig p.mmat phi :: p.after → b.basis = some F →
          ∃ b0 ∈ p.before ++ tmSig p.mmat [] :: p.after, b0.basis = some F := by
        intro b F hb hF
        rcases List.mem_append.1 hb with hb | hb
        · exact ⟨b, List.mem_append_left _ hb, hF⟩
        · rcases List.mem_cons.1 hb with rfl | hb
          · exact ⟨tmSig p.mmat [], by simp, hF⟩
          · exact ⟨b, by simp [hb], hF⟩
      obtain ⟨b0, g1, g2⟩ := conv b F hb hF
      obtain ⟨b1, g3, g4⟩ := conv b' F' hb' hF'
      exact ho.hash b0 g1 b1 g3 F F' g2 g4
    · intro b hb
      have hb : b ∈ p.before ++ tmSig p.mmat phi :: p.after := hb
      rcases List.mem_append.1 hb with hb | hb
      · exact ho.pos b (List.mem_append_left _ hb)
      · rcases List.mem_cons.1 hb with rfl | hb
        · intro _
          have e : toMatrix p.mmat.length (amat (tmSig p.mmat phi).phi) = Matrix.diagonal fun i : Fin p.mmat.length => phi.getD i 0 := by
            ext i j
            simp [toMatrix, tmSig, amat, Matrix.diagonal_apply, Fin.ext_iff]
          show (toMatrix p.mmat.length (amat (tmSig p.mmat phi).phi)).PosDef
          rw [e]
          exact PosDef.diagonal fun i => hphi i (by rw [hlen]; exact i.2)
        · exact ho.pos b (List.mem_append_right _ hb)
  have hlik := C105_one hash svd method hm
    (⟨p.n, p.res, some d :: p.delays, none :: p.noise, p.before ++ tmSig p.mmat phi :: p.after, L :: p.logprior⟩ : Collect.Psr) m N M hfine
  refine ⟨_, by rw [WPsr.likelihood, hcol]; exact hlik, ?_⟩
  obtain ⟨o, -, hw⟩ := ho.noise
  have hK : (known p N).PosDef := by
    rw [known, add_assoc]
    exact hw.posDef.add_posSemidef ((sum_posSemidef p.n _ ho.pos).add (timing_posSemidef _ _))
  have hΦ : (Matrix.diagonal φ).PosDef := PosDef.diagonal c4
  have hcov : N + ((p.before ++ tmSig p.mmat phi :: p.after).map (sigMat p.n)).sum =
      known p N + slope p.signal β * Matrix.diagonal φ * (slope p.signal β)ᵀ := by
    rw [known, List.map_append, List.map_cons, List.sum_append, List.sum_cons, List.map_append, List.sum_append,
      tm_cov p.signal β p.mmat hd hp hi phi φ c5 c6]
    abel
  have hleft : left (⟨p.n, p.res, some d :: p.delays, none :: p.noise, p.before ++ tmSig p.mmat phi :: p.after, L :: p.logprior⟩ : Collect.Psr) =
      p.res - p.delays.reduceOption.sum - dispersion p.signal β mean := by
    have : (some d :: p.delays).reduceOption.sum = d + p.delays.reduceOption.sum := by
      simp [List.reduceOption]
    show p.res - (some d :: p.delays).reduceOption.sum = _
    rw [this, hdelay]
    abel
  show Real.exp (margLog (N + ((p.before ++ tmSig p.mmat phi :: p.after).map (sigMat p.n)).sum) M
    (left (⟨p.n, p.res, some d :: p.delays, none :: p.noise, p.before ++ tmSig p.mmat phi :: p.after, L :: p.logprior⟩ : Collect.Psr)) +
      (L :: p.logprior).sum) = _
  rw [hcov, hleft, Real.exp_add, exp_margLog hK hΦ hw.inj, List.sum_cons, Real.exp_add, evidence]
  have hshift : ∀ ξ : Fin m → ℝ, (∫ b, mvn (known p N) (p.res - p.delays.reduceOption.sum - dispersion p.signal β mean - M *ᵥ ξ - slope p.signal β *ᵥ b) *
      mvn (Matrix.diagonal φ) b) * Real.exp L = Real.sqrt ((2 * Real.pi) ^ p.n) / Real.sqrt ((2 * Real.pi) ^ p.signal.bins.length) *
        ∫ x, mvn (known p N) (p.res - p.delays.reduceOption.sum - M *ᵥ ξ - dispersion p.signal β x) *
          ∏ i, measured (x (β i)) (dme i) (dm i) := by
    intro ξ
    rw [← integral_sub_right_eq_self (fun b => mvn (known p N) (p.res - p.delays.reduceOption.sum - dispersion p.signal β mean - M *ᵥ ξ - slope p.signal β *ᵥ b) *
      mvn (Matrix.diagonal φ) b) mean, ← integral_mul_const, ← integral_const_mul]
    congr 1
    funext x
    have e : p.res - p.delays.reduceOption.sum - dispersion p.signal β mean - M *ᵥ ξ - slope p.signal β *ᵥ (x - mean) =
        p.res - p.delays.reduceOption.sum - M *ᵥ ξ - dispersion p.signal β x := by
      funext i
      simp only [Pi.sub_apply, slope_mulVec, dispersion]
      ring
    rw [e, mul_assoc, prod_measured p.signal β hpos L mean φ c4 c7 x]
    ring
  have hout : (∫ ξ, (∫ b, mvn (known p N) (p.res - p.delays.reduceOption.sum - dispersion p.signal β mean - M *ᵥ ξ - slope p.signal β *ᵥ b) *
      mvn (Matrix.diagonal φ) b) / Real.sqrt ((2 * Real.pi * 10 ^ 40) ^ m)) * Real.exp L =
      Real.sqrt ((2 * Real.pi) ^ p.n) / Real.sqrt ((2 * Real.pi) ^ p.signal.bins.length) *
        ∫ ξ, (∫ x, mvn (known p N) (p.res - p.delays.reduceOption.sum - M *ᵥ ξ - dispersion p.signal β x) *
          ∏ i, measured (x (β i)) (dme i) (dm i)) / Real.sqrt ((2 * Real.pi * 10 ^ 40) ^ m) := by
    rw [← integral_mul_const, ← integral_const_mul]
    congr 1
    funext ξ
    rw [div_mul_eq_mul_div, hshift ξ, mul_div_assoc]
  rw [← mul_assoc, mul_assoc (Real.sqrt _) _ (Real.exp L), hout]
  ring

/-- The design matrix by names: it has a column for every parameter in the fit, and the column of an entry of `psr.dmx` is, up to the
sign, the derivative of the dispersion delay of the TOAs in the interval. -/
structure Named (psr : Psr n) (dmx : Dict String Dmx) (mmat : List (Col ℝ)) : Prop where
  length : mmat.length = psr.fitpars.length
  col : ∀ kd ∈ dmx, ∀ a, psr.fitpars[a]? = some kd.1 → ∃ ε : ℝ, ε ^ 2 = 1 ∧ ∀ i : Fin n,
    (Interval kd.2 (psr.stoas i) → (mmat.getD a fun _ => 0) i = ε * (1 / (2.41e-4 * psr.freqs i ^ 2))) ∧
    (¬ Interval kd.2 (psr.stoas i) → (mmat.getD a fun _ => 0) i = 0)

/-- The constructor arranges the intervals as C117 asks, when they are disjoint and none is without TOAs: `β i` is the interval of TOA `i`. -/
theorem C117_made {psr : Psr n} {dmefac : Proto} {dmequad dmjump : Option Proto} {sel jsel : Dict String Mask}
    {ref : Option String} {s : Signal n} (h : make psr dmefac dmequad dmjump sel jsel ref = .ok s) {dmx : Dict String Dmx}
    (hd : psr.dmx = some dmx) (hn : (dmx.map Prod.fst).Nodup)
    (hdis : ∀ a ∈ dmx, ∀ b ∈ dmx, ∀ x, Interval a.2 x → Interval b.2 x → a = b)
    (hfull : ∀ a ∈ dmx, ∃ i, Interval a.2 (psr.stoas i)) (hfit : psr.fitpars.Nodup) (mmat : List (Col ℝ)) (hm : Named psr dmx mmat) :
    ∃ β, Assigned s.bins β ∧ (s.bins.Pairwise fun a b => a.index ≠ b.index) ∧ (∀ b ∈ s.bins, b.index < s.psr.fitpars.length) ∧
      Design s β mmat ∧
      ∀ i, ∃ kd ∈ dmx, Interval kd.2 (psr.stoas i) ∧ ∀ x, dispersion s β x i = (x (β i) - (psr.dm + kd.2.DMX)) / (2.41e-4 * psr.freqs i ^ 2) := by
  classical
  obtain ⟨⟨β, hβ, hk⟩, hp, hi⟩ := assigned_of_make h hd hn hdis hfull
  obtain ⟨-, -, -, -, -, hs⟩ := make_ok h
  refine ⟨β, hβ, hp, hi, ⟨by rw [hs]; exact hm.length, fun j => ?_⟩, fun i => ?_⟩
  · obtain ⟨i0, rfl⟩ := hβ.full j
    obtain ⟨kd, k1, k2, k3, k4⟩ := hk i0
    obtain ⟨ε, hε, hcol⟩ := hm.col kd k1 _ k4
    refine ⟨ε, hε, fun i => ?_⟩
    have hiff : Interval kd.2 (psr.stoas i) ↔ β i = β i0 := by
      obtain ⟨kd', g1, g2, g3, g4⟩ := hk i
      constructor
      · intro hI
        obtain rfl := hdis _ k1 _ g1 _ hI g2
        by_contra hne
        have hidx : (s.bins.get (β i)).index = (s.bins.get (β i0)).index := by
          obtain ⟨h1, e1⟩ := List.getElem?_eq_some_iff.1 g4
          obtain ⟨h2, e2⟩ := List.getElem?_eq_some_iff.1 k4
          exact (List.Nodup.getElem_inj_iff hfit).1 (e1.trans e2.symm)
        rcases lt_or_gt_of_ne hne with hlt | hlt
        · exact List.pairwise_iff_get.1 hp _ _ hlt hidx
        · exact List.pairwise_iff_get.1 hp _ _ hlt hidx.symm
      · intro e
        rw [e, k4] at g4
        have : kd = kd' := by
          have hinj := List.inj_on_of_nodup_map hn
          exact hinj k1 g1 (Option.some.inj g4)
        rw [this]; exact g2
    rw [hs]
    by_cases e : β i = β i0
    · rw [if_pos e]; exact (hcol i).1 (hiff.2 e)
    · rw [if_neg e, mul_zero]; exact (hcol i).2 fun hI => e (hiff.1 hI)
  · obtain ⟨kd, k1, k2, k3, -⟩ := hk i
    exact ⟨kd, k1, k2, fun x => by rw [dispersion, hs, k3]⟩


/-! ## A case meeting the hypotheses -/

/-- Two TOAs at 1000 and 2000 MHz in one interval; two parameters in the fit, the dispersion measure and a constant. -/
noncomputable def exSignal : Signal 2 where
  psr := ⟨"p", ![86400, 172800], ![1000, 2000], ![10, 10.2], ![0.1, 0.2], 10, none, ["Offset", "DMX_0001"]⟩
  dmMasks := [[true, true]]
  jumpMasks := []
  dmefacs := [⟨"p_dmefac", none⟩]
  dmequads := []
  dmjumps := []
  bins := [⟨0.01, 1, fun _ => true⟩]

/-- The pulsar with white noise and another process, of which the column is a straight line. -/
noncomputable def exW : WPsr where
  n := 2
  signal := exSignal
  mmat := [fun _ => 1, fun i => -(if i = 0 then 1 / (2.41e-4 * 1000 ^ 2) else 1 / (2.41e-4 * 2000 ^ 2))]
  res := ![1, 2]
  delays := [none, some ![0, 1]]
  noise := [some (.base (.arr ![1, 2]))]
  before := []
  after := [⟨true, false, some [fun i => i + 1], [fun i => i + 1], .one 1 fun _ => 3⟩]
  logprior := [0]

example : ∃ (dm dme : Fin 2 → ℝ), getDm exW.signal [("p_dmefac", 2)] = .ok dm ∧ getDme exW.signal [("p_dmefac", 2)] = .ok dme ∧
    (∀ i, 0 < dme i) ∧ Assigned exW.signal.bins (fun _ => ⟨0, by simp [exW, exSignal]⟩) ∧
    (exW.signal.bins.Pairwise fun a b => a.index ≠ b.index) ∧ (∀ b ∈ exW.signal.bins, b.index < exW.signal.psr.fitpars.length) ∧
    Design exW.signal (fun _ => ⟨0, by simp [exW, exSignal]⟩) exW.mmat ∧ exW.mmat ≠ [] ∧
    Others (fun c : Col ℝ => (c 0, c 1)) exW (m := 0) (diagonal ![1, 2]) 0 := by
  have hv : ∀ i, 0 < (![1, 2] : Fin 2 → ℝ) i := by intro i; fin_cases i <;> simp
  have hone : ∀ j : Fin exW.signal.bins.length, j = ⟨0, by simp [exW, exSignal]⟩ := fun j => Fin.ext (by
    have : j.1 < 1 := j.2
    show j.1 = 0
    omega)
  refine ⟨_, _, rfl, rfl, ?_, ⟨?_, ?_⟩, ?_, ?_, ⟨rfl, ?_⟩, by simp [exW], ⟨⟨.base (.arr ![1, 2]), ?_, whole_base (Noise.arr_exact _ hv) 0⟩, ?_, ?_, ?_, ?_⟩⟩
  · intro i
    apply Real.sqrt_pos.2
    have h1 : (0 : ℝ) < (maskSum [2] [[true, true]] (n := 2) i) ^ 2 := by
      revert i
      show ∀ i : Fin 2, (0 : ℝ) < (maskSum [2] [[true, true]] i) ^ 2
      intro i
      fin_cases i <;> simp [maskSum]
    refine mul_pos h1 ?_
    clear h1
    revert i
    show ∀ i : Fin 2, (0 : ℝ) < (![0.1, 0.2] : Fin 2 → ℝ) i ^ 2
    intro i
    fin_cases i <;> norm_num
  · intro i j
    rw [hone j]
    simp [exW, exSignal]
  · intro j
    exact ⟨(0 : Fin 2), (hone j).symm⟩
  · simp [exW, exSignal]
  · intro b hb
    obtain rfl := List.mem_singleton.1 hb
    decide
  · intro j
    rw [hone j]
    refine ⟨-1, by norm_num, fun i => ?_⟩
    fin_cases i <;> simp [exW, exSignal]
  · simp [exW, Noise.getNdiag, List.reduceOption, pure, Except.pure, bind, Except.bind]
    rfl
  · intro b hb F hF
    simp only [exW, List.nil_append, List.mem_cons, List.not_mem_nil, or_false] at hb
    subst hb
    cases hF
    simp [SizeOk]
  · exact ⟨fun _ h => by simp at h, trivial⟩
  · intro a ha b hb F F' hF hF' c hc c' hc' he
    have hcol : ∀ a ∈ exW.before ++ tmSig exW.mmat [] :: exW.after, ∀ F, a.basis = some F → ∀ c ∈ F, c = (fun _ => 1) ∨
        c = (fun i => -(if i = 0 then 1 / (2.41e-4 * 1000 ^ 2) else 1 / (2.41e-4 * 2000 ^ 2))) ∨ c = (fun i : Nat => (i : ℝ) + 1) := by
      intro a ha F hF c hc
      simp only [exW, List.nil_append, List.mem_cons, List.not_mem_nil, or_false] at ha
      rcases ha with rfl | rfl
      · cases hF
        rcases List.mem_cons.1 hc with h | h
        · exact .inl h
        · exact .inr (.inl (List.mem_singleton.1 h))
      · cases hF
        exact .inr (.inr (List.mem_singleton.1 hc))
    rcases hcol a ha F hF c hc with rfl | rfl | rfl <;> rcases hcol b hb F' hF' c' hc' with rfl | rfl | rfl <;>
      first | rfl | (norm_num at he)
  · intro b hb
    simp only [exW, List.nil_append, List.mem_cons, List.not_mem_nil, or_false] at hb
    subst hb
    intro _
    have e : toMatrix 1 (amat (Kernel.Arr.one 1 fun _ => (3 : ℝ))) = Matrix.diagonal fun _ => 3 := by
      ext i j
      simp [toMatrix, amat, Matrix.diagonal_apply, Fin.ext_iff]
    show (toMatrix 1 (amat (Kernel.Arr.one 1 fun _ => (3 : ℝ)))).PosDef
    rw [e]
    exact PosDef.diagonal fun _ => by norm_num

/-- The design matrix of the pulsar of `Props/Wideband`. -/
example : pair.fitpars.Nodup ∧ Named pair [("DMX_0001", ⟨0.01, 0, 2, true⟩), ("DMX_0002", ⟨-0.02, 10, 12, true⟩)]
    [fun i => i, fun i => if i = 0 then -(1 / (2.41e-4 * 1400 ^ 2)) else 0, fun i => if i = 1 then 1 / (2.41e-4 * 1400 ^ 2) else 0] := by
  refine ⟨by simp [pair], rfl, ?_⟩
  have hlt : ∀ {a : Nat} {k : String}, pair.fitpars[a]? = some k → a < 3 := fun h => (List.getElem?_eq_some_iff.1 h).1
  have n1 : ¬ Interval ⟨0.01, 0, 2, true⟩ (pair.stoas 1) := by
    simp only [Interval, pair, Matrix.cons_val_one]; norm_num
  have n2 : ¬ Interval ⟨-0.02, 10, 12, true⟩ (pair.stoas 0) := by
    simp only [Interval, pair, Matrix.cons_val_zero]; norm_num
  intro kd hkd a ha
  have h3 := hlt ha
  simp only [List.mem_cons, List.not_mem_nil, or_false] at hkd
  rcases hkd with rfl | rfl
  · obtain rfl : a = 1 := by
      interval_cases a <;> simp [pair] at ha ⊢
    refine ⟨-1, by norm_num, fun i => ?_⟩
    fin_cases i
    · exact ⟨fun _ => by simp [pair], fun h => absurd pair_in.1 h⟩
    · exact ⟨fun h => absurd h n1, fun _ => by simp⟩
  · obtain rfl : a = 2 := by
      interval_cases a <;> simp [pair] at ha ⊢
    refine ⟨1, by norm_num, fun i => ?_⟩
    fin_cases i
    · exact ⟨fun h => absurd h n2, fun _ => by simp⟩
    · exact ⟨fun _ => by simp [pair], fun h => absurd pair_in.2 h⟩

end Verif.Wideband
