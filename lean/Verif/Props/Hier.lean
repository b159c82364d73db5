import Verif.Props.LikelihoodJoint
import Verif.Model.Coefficients

/-!
Coefficients as parameters (C58): the hierarchical and the marginalized likelihood.
-/

namespace Verif.Coefficients

open Verif Verif.Noise Verif.Joint Verif.Likelihood Matrix
open Verif.Kernel (Kern)
open Verif.PhiInv (toMatrix)
open Verif.PtaPhi (entries)
open Verif.Partition (Svd kernInv)

/-! ## Specification -/

/-- The log density at `c` of a Gaussian of mean `μ` and precision (inverse covariance) `S`. -/
noncomputable def normalLog {d : Nat} (μ : Fin d → ℝ) (S : Matrix (Fin d) (Fin d) ℝ) (c : Fin d → ℝ) : ℝ :=
  -(1 / 2) * ((c - μ) ⬝ᵥ (S *ᵥ (c - μ))) + 1 / 2 * Real.log S.det - 1 / 2 * d * Real.log (2 * Real.pi)

/-! ## The prior of the coefficients -/

theorem log_det_inv {d : Nat} (φ : Matrix (Fin d) (Fin d) ℝ) : Real.log φ⁻¹.det = -Real.log φ.det := by
  rw [det_nonsing_inv, Ring.inverse_eq_inv', Real.log_inv]

theorem keyLogprior_one (svd : ∀ {n : Nat} (M : Matrix (Fin n) (Fin n) ℝ), Svd M) (n : Nat) (v : Nat → ℝ)
    (hκ : (toMatrix n (Kernel.diagMat v)).PosDef) (c : Fin n → ℝ) :
    keyLogprior svd (.one n v) c = normalLog 0 (toMatrix n (Kernel.diagMat v))⁻¹ c := by
  obtain ⟨-, h2, h3⟩ := Partition.C82_partial svd (.one n v) (kern_pos (.one n v) hκ)
  have h2' : toMatrix n (Kernel.diagMat fun i => 1 / v i) = (toMatrix n (Kernel.diagMat v))⁻¹ := h2
  have h3' : ∑ i ∈ Finset.range n, Real.log (v i) = Real.log (toMatrix n (Kernel.diagMat v)).det := h3
  have e : toMatrix n (Kernel.diagMat fun i => 1 / v i) = diagonal fun i : Fin n => 1 / v i := by
    ext i j
    simp [toMatrix, Kernel.diagMat, Matrix.diagonal_apply, Fin.ext_iff]
  unfold normalLog
  rw [log_det_inv, sub_zero, ← h2', ← h3', e]
  have : c ⬝ᵥ ((diagonal fun i : Fin n => 1 / v i) *ᵥ c) = ∑ i : Fin n, c i * c i / v i := by
    simp only [dotProduct, mulVec_diagonal]
    exact Finset.sum_congr rfl fun i _ => by ring
  rw [this, Finset.sum_range]
  show -(1 / 2) * ∑ i : Fin n, c i * c i / v i - 1 / 2 * ∑ i : Fin n, Real.log (v i) -
      1 / 2 * n * Real.log (2 * Real.pi) = _
  ring

theorem keyLogprior_two (svd : ∀ {n : Nat} (M : Matrix (Fin n) (Fin n) ℝ), Svd M) (n : Nat) (M : Nat → Nat → ℝ)
    (cl : Kernel.Cliques) (hκ : (toMatrix n M).PosDef) (c : Fin n → ℝ) :
    keyLogprior svd (.two n M cl) c = normalLog 0 (toMatrix n M)⁻¹ c := by
  obtain ⟨-, h2, h3⟩ := Partition.C82_partial svd (.two n M Kernel.Cliques.none) hκ
  have h2' : toMatrix n (entries (kernInv svd (.two n M Kernel.Cliques.none)).1) = (toMatrix n M)⁻¹ := h2
  have h3' : (kernInv svd (.two n M Kernel.Cliques.none)).2 = Real.log (toMatrix n M).det := h3
  unfold normalLog
  rw [log_det_inv, sub_zero]
  show -(1 / 2) * (c ⬝ᵥ (toMatrix n (entries (kernInv svd (.two n M Kernel.Cliques.none)).1) *ᵥ c)) -
      1 / 2 * (kernInv svd (.two n M Kernel.Cliques.none)).2 - 1 / 2 * n * Real.log (2 * Real.pi) = _
  rw [h2', h3']
  ring

/-- The log prior of the coefficients of one key is the normal log density. -/
theorem keyLogprior_eq (svd : ∀ {n : Nat} (M : Matrix (Fin n) (Fin n) ℝ), Svd M) (κ : Kern ℝ)
    (hκ : (toMatrix κ.size (entries κ)).PosDef) (c : Fin κ.size → ℝ) :
    keyLogprior svd κ c = normalLog 0 (toMatrix κ.size (entries κ))⁻¹ c := by
  cases κ with
  | one n v => exact keyLogprior_one svd n v hκ c
  | two n M cl => exact keyLogprior_two svd n M cl hκ c

/-- The prior covariance and the coefficients of one key. -/
structure Key where
  κ : Kern ℝ
  c : Fin κ.size → ℝ
  pos : (toMatrix κ.size (entries κ)).PosDef

namespace Key

def size (k : Key) : Nat := k.κ.size
noncomputable def φ (k : Key) : Matrix (Fin k.size) (Fin k.size) ℝ := toMatrix k.κ.size (entries k.κ)
def coef (k : Key) : Fin k.size → ℝ := k.c

end Key

/-- The prior covariance of all the coefficients of a signal. -/
noncomputable def keysPhi (ks : List Key) : Matrix (Fin (ks.map Key.size).sum) (Fin (ks.map Key.size).sum) ℝ :=
  jm Key.size Key.size Key.φ ks

/-- All the coefficients of a signal. -/
noncomputable def keysCoef (ks : List Key) : Fin (ks.map Key.size).sum → ℝ := jv Key.size Key.coef ks

theorem keysPhi_pos (ks : List Key) : (keysPhi ks).PosDef := jm_posDef _ _ fun k _ => k.pos

/-- The sum of the log priors of the keys is the normal log density of all coefficients. -/
theorem keys_logprior (svd : ∀ {n : Nat} (M : Matrix (Fin n) (Fin n) ℝ), Svd M) (ks : List Key) :
    (ks.map fun k => keyLogprior svd k.κ k.c).sum = normalLog 0 (keysPhi ks)⁻¹ (keysCoef ks) := by
  have h : ∀ k : Key, keyLogprior svd k.κ k.c = normalLog 0 k.φ⁻¹ k.coef := fun k => keyLogprior_eq svd k.κ k.pos k.c
  simp only [h, normalLog, sub_zero]
  unfold keysPhi keysCoef
  rw [jm_inv _ _ fun k _ => k.pos, jm_mulVec, jv_dot, jm_det, sum_log _ _ fun k _ => PosDef.det_pos (PosDef.inv k.pos)]
  induction ks with
  | nil => simp
  | cons k t ih =>
    simp only [List.map_cons, List.sum_cons, Nat.cast_add]
    rw [ih]
    ring

theorem coefDelay_eq {n : Nat} (ks : List Key) (F : Matrix (Fin n) (Fin (ks.map Key.size).sum) ℝ) :
    coefDelay F (ks.map fun k => ⟨k.size, k.coef⟩) = F *ᵥ keysCoef ks := by
  have := concatOf_jv Key.size Key.coef ks
  unfold coefDelay keysCoef
  rw [← this]

/-! ## The identity -/

section Identity

variable {n m d : Nat} {C : Matrix (Fin n) (Fin n) ℝ} {M : Matrix (Fin n) (Fin m) ℝ} {φ : Matrix (Fin d) (Fin d) ℝ}

/-- The precision of the coefficients given the data. -/
noncomputable def post (C : Matrix (Fin n) (Fin n) ℝ) (M : Matrix (Fin n) (Fin m) ℝ) (F : Matrix (Fin n) (Fin d) ℝ)
    (φ : Matrix (Fin d) (Fin d) ℝ) : Matrix (Fin d) (Fin d) ℝ := Fᵀ * (projN C M * F) + φ⁻¹

/-- Their mean. -/
noncomputable def postMean (C : Matrix (Fin n) (Fin n) ℝ) (M : Matrix (Fin n) (Fin m) ℝ) (F : Matrix (Fin n) (Fin d) ℝ)
    (φ : Matrix (Fin d) (Fin d) ℝ) (r : Fin n → ℝ) : Fin d → ℝ := (post C M F φ)⁻¹ *ᵥ (Fᵀ *ᵥ (projN C M *ᵥ r))

theorem dot_symm {k : Nat} {A : Matrix (Fin k) (Fin k) ℝ} (hA : Aᵀ = A) (x y : Fin k → ℝ) :
    x ⬝ᵥ (A *ᵥ y) = y ⬝ᵥ (A *ᵥ x) := by
  rw [dotProduct_mulVec, ← mulVec_transpose, hA, dotProduct_comm]

theorem hier_identity (hC : C.PosDef) (hM : Function.Injective M.mulVec) (hφ : φ.PosDef)
    (F : Matrix (Fin n) (Fin d) ℝ) (r : Fin n → ℝ) (c : Fin d → ℝ) :
    margLog C M (r - F *ᵥ c) + normalLog 0 φ⁻¹ c =
      margLog (C + F * φ * Fᵀ) M r + normalLog (postMean C M F φ r) (post C M F φ) c := by
  have hS : (post C M F φ).PosDef := sigma_posDef hC hM hφ F
  have hP := projN_symm C M hC hM
  have hSs : (post C M F φ)ᵀ = post C M F φ := by
    have := hS.isHermitian
    rwa [IsHermitian, conjTranspose_eq_transpose_of_trivial] at this
  have hdet : Real.log φ⁻¹.det = -Real.log φ.det := by
    rw [det_nonsing_inv, Ring.inverse_eq_inv', Real.log_inv]
  rw [margLog_split hC hM hφ F r]
  have e1 : (r - F *ᵥ c) ⬝ᵥ (projN C M *ᵥ (r - F *ᵥ c)) = r ⬝ᵥ (projN C M *ᵥ r) -
      2 * (c ⬝ᵥ (Fᵀ *ᵥ (projN C M *ᵥ r))) + c ⬝ᵥ ((Fᵀ * (projN C M * F)) *ᵥ c) := by
    have h1 : (F *ᵥ c) ⬝ᵥ (projN C M *ᵥ r) = c ⬝ᵥ (Fᵀ *ᵥ (projN C M *ᵥ r)) := by
      rw [dotProduct_mulVec c, vecMul_transpose]
    have h2 : r ⬝ᵥ (projN C M *ᵥ (F *ᵥ c)) = c ⬝ᵥ (Fᵀ *ᵥ (projN C M *ᵥ r)) := by
      rw [dot_symm hP, h1]
    have h3 : (F *ᵥ c) ⬝ᵥ (projN C M *ᵥ (F *ᵥ c)) = c ⬝ᵥ ((Fᵀ * (projN C M * F)) *ᵥ c) := by
      rw [← mulVec_mulVec c, dotProduct_mulVec c, vecMul_transpose, mulVec_mulVec]
    rw [mulVec_sub, dotProduct_sub, sub_dotProduct, sub_dotProduct, h1, h2, h3]
    ring
  have e2 : (c - postMean C M F φ r) ⬝ᵥ (post C M F φ *ᵥ (c - postMean C M F φ r)) =
      c ⬝ᵥ ((Fᵀ * (projN C M * F)) *ᵥ c) + c ⬝ᵥ (φ⁻¹ *ᵥ c) - 2 * (c ⬝ᵥ (Fᵀ *ᵥ (projN C M *ᵥ r))) +
        (Fᵀ *ᵥ (projN C M *ᵥ r)) ⬝ᵥ ((post C M F φ)⁻¹ *ᵥ (Fᵀ *ᵥ (projN C M *ᵥ r))) := by
    have h0 : post C M F φ *ᵥ postMean C M F φ r = Fᵀ *ᵥ (projN C M *ᵥ r) := by
      rw [postMean, mulVec_mulVec, mul_nonsing_inv _ (det_unit hS), one_mulVec]
    have h1 : postMean C M F φ r ⬝ᵥ (post C M F φ *ᵥ c) = c ⬝ᵥ (Fᵀ *ᵥ (projN C M *ᵥ r)) := by
      rw [dot_symm hSs, h0]
    have h2 : postMean C M F φ r ⬝ᵥ (post C M F φ *ᵥ postMean C M F φ r) =
        (Fᵀ *ᵥ (projN C M *ᵥ r)) ⬝ᵥ ((post C M F φ)⁻¹ *ᵥ (Fᵀ *ᵥ (projN C M *ᵥ r))) := by
      rw [h0, dotProduct_comm]; rfl
    rw [mulVec_sub, dotProduct_sub, sub_dotProduct, sub_dotProduct, h0, h1]
    rw [h0] at h2
    rw [h2]
    have h3 : c ⬝ᵥ (post C M F φ *ᵥ c) = c ⬝ᵥ ((Fᵀ * (projN C M * F)) *ᵥ c) + c ⬝ᵥ (φ⁻¹ *ᵥ c) := by
      rw [post, add_mulVec, dotProduct_add]
    rw [h3]
    ring
  unfold normalLog
  rw [e2, hdet, sub_zero]
  unfold margLog
  rw [e1]
  show _ = _ + 1 / 2 * ((Fᵀ *ᵥ (projN C M *ᵥ r)) ⬝ᵥ ((post C M F φ)⁻¹ *ᵥ (Fᵀ *ᵥ (projN C M *ᵥ r))) -
    Real.log (post C M F φ).det - Real.log φ.det) + _
  ring

end Identity

/-! ## The code -/

/-- The Gaussian processes of a pulsar that are marginalized over (possibly none). -/
structure Gp (n : Nat) where
  k : Nat
  T : Matrix (Fin n) (Fin k) ℝ
  Φ : Matrix (Fin k) (Fin k) ℝ
  basis : Option (Σ k, Matrix (Fin n) (Fin k) ℝ)
  phi : Option (Kern ℝ)
  gp : (basis = none ∧ phi = none ∧ k = 0) ∨
    (basis = some ⟨k, T⟩ ∧ ∃ κ, phi = some κ ∧ κ.size = k ∧ Φ = toMatrix k (entries κ))
  pos : Φ.PosDef

/-- The pulsar with other Gaussian processes, and further delays. -/
def withGp (p : PsrEval) (g : Gp p.n) (d : List (Option (Fin p.n → ℝ))) : PsrEval :=
  { p with delays := p.delays ++ d, basis := g.basis, phi := g.phi }

/-- The noise of a pulsar. -/
structure NoiseOf (p : PsrEval) where
  m : Nat
  N : Matrix (Fin p.n) (Fin p.n) ℝ
  M : Matrix (Fin p.n) (Fin m) ℝ
  good : Nat → Prop
  noise : ∃ o, getNdiag p.noise.reduceOption = .ok o ∧ Whole o N M good

def known (p : PsrEval) (s : NoiseOf p) (g : Gp p.n) (d : List (Option (Fin p.n → ℝ))) (hg : s.good g.k) : Known where
  p := withGp p g d
  m := s.m
  k := g.k
  N := s.N
  M := s.M
  T := g.T
  Φ := g.Φ
  noise := by
    obtain ⟨o, h, w⟩ := s.noise
    exact ⟨o, s.good, h, w, hg⟩
  gp := g.gp
  pos := g.pos

/-- C58: take a pulsar (in an array without common signals) whose Gaussian processes add up to the
covariance `T Φ Tᵀ`, and the same pulsar with one process, of basis `F` and prior `φ`, in coefficient mode
and the others marginalized. For all coefficients, the likelihood of the second plus the log prior of the
coefficients is the likelihood of the first plus the log density of a Gaussian in the coefficients, which has
the mean and the precision of the coefficients given the data. -/
theorem C58 (svd : ∀ {n : Nat} (M : Matrix (Fin n) (Fin n) ℝ), Svd M) (method : Method) (hm : method ≠ .other)
    (p : PsrEval) (s : NoiseOf p) (g g' : Gp p.n) (hg : s.good g.k) (hg' : s.good g'.k) (ks : List Key)
    (F : Matrix (Fin p.n) (Fin (ks.map Key.size).sum) ℝ)
    (hcov : g.T * g.Φ * g.Tᵀ = g'.T * g'.Φ * g'.Tᵀ + F * keysPhi ks * Fᵀ) (rest : List Known) :
    ∃ L L', lnlike svd method (withGp p g [] :: rest.map Known.p) [] = .ok (some L) ∧
      lnlike svd method (withGp p g' [some (coefDelay F (ks.map fun k => ⟨k.size, k.coef⟩))] ::
        rest.map Known.p) [] = .ok (some L') ∧
      L' + (ks.map fun k => keyLogprior svd k.κ k.c).sum =
        L + normalLog (postMean (s.N + g'.T * g'.Φ * g'.Tᵀ) s.M F (keysPhi ks) p.detres)
          (post (s.N + g'.T * g'.Φ * g'.Tᵀ) s.M F (keysPhi ks)) (keysCoef ks) := by
  have h1 := C84 svd method hm (known p s g [] hg :: rest)
  have h2 := C84 svd method hm
    (known p s g' [some (coefDelay F (ks.map fun k => ⟨k.size, k.coef⟩))] hg' :: rest)
  refine ⟨_, _, h1, h2, ?_⟩
  rw [keys_logprior]
  simp only [List.map_cons, List.sum_cons, priors]
  have hr : (known p s g [] hg).r = p.detres := by
    show p.res - (p.delays ++ []).reduceOption.sum = _
    rw [List.append_nil]; rfl
  have hr' : (known p s g' [some (coefDelay F (ks.map fun k => ⟨k.size, k.coef⟩))] hg').r =
      p.detres - F *ᵥ keysCoef ks := by
    show p.res - (p.delays ++ [some (coefDelay F (ks.map fun k => ⟨k.size, k.coef⟩))]).reduceOption.sum = _
    rw [List.reduceOption_append, List.sum_append, coefDelay_eq]
    simp only [List.reduceOption_singleton, PsrEval.detres, PsrEval.delay]
    simp [sub_sub]
  have hN : s.N.PosDef := (known p s g [] hg).hN
  have hM : Function.Injective s.M.mulVec := (known p s g [] hg).hM
  have key := hier_identity (full_posDef hN g'.pos.posSemidef g'.T) hM (keysPhi_pos ks) F p.detres (keysCoef ks)
  have hC : (known p s g [] hg).C = s.N + g'.T * g'.Φ * g'.Tᵀ + F * keysPhi ks * Fᵀ := by
    show s.N + g.T * g.Φ * g.Tᵀ = _
    rw [hcov, add_assoc]
  have l1 : margLog (known p s g [] hg).C (known p s g [] hg).M (known p s g [] hg).r =
      margLog (full s.N g'.T g'.Φ + F * keysPhi ks * Fᵀ) s.M p.detres := by
    rw [hr, hC]; rfl
  have l2 : margLog (known p s g' [some (coefDelay F (ks.map fun k => ⟨k.size, k.coef⟩))] hg').C
      (known p s g' [some (coefDelay F (ks.map fun k => ⟨k.size, k.coef⟩))] hg').M
      (known p s g' [some (coefDelay F (ks.map fun k => ⟨k.size, k.coef⟩))] hg').r =
      margLog (full s.N g'.T g'.Φ) s.M (p.detres - F *ᵥ keysCoef ks) := by
    rw [hr']; rfl
  rw [l1, l2]
  have l3 : (known p s g' [some (coefDelay F (ks.map fun k => ⟨k.size, k.coef⟩))] hg').p.lnprior =
    (known p s g [] hg).p.lnprior := rfl
  rw [l3]
  show _ = _ + normalLog (postMean (full s.N g'.T g'.Φ) s.M F (keysPhi ks) p.detres)
    (post (full s.N g'.T g'.Φ) s.M F (keysPhi ks)) (keysCoef ks)
  linarith

end Verif.Coefficients
