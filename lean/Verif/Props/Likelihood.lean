import Verif.Lemmas.Joint
import Verif.Model.Likelihood
import Verif.Props.Partition
import Verif.Props.Cliques

/-!
The likelihood of an array of pulsars (C56, C57, C84).
-/

namespace Verif.Likelihood

open Verif Verif.Noise Verif.Joint Matrix
open Verif.Kernel (Kern)
open Verif.PhiInv (toMatrix)
open Verif.PtaPhi (Klass entries blockDiag)
open Verif.Partition (Svd kernInv)

/-! ## Specification -/

/-- The logarithm, without the constant `-(n/2) log 2π`, of the density at `r` of a Gaussian of
covariance `C`. -/
noncomputable def gaussLog {n : Nat} (C : Matrix (Fin n) (Fin n) ℝ) (r : Fin n → ℝ) : ℝ :=
  -(1 / 2) * (r ⬝ᵥ (C⁻¹ *ᵥ r) + Real.log C.det)

/-- The same with the columns of `M` marginalized over: the log determinant of `C` and of
`Mᵀ C⁻¹ M`, and `log 1e40` per column (the limit of `gaussLog (C + s M Mᵀ)` up to a constant, see
`C84_limit`). -/
noncomputable def margLog {n m : Nat} (C : Matrix (Fin n) (Fin n) ℝ) (M : Matrix (Fin n) (Fin m) ℝ)
    (r : Fin n → ℝ) : ℝ :=
  -(1 / 2) * (r ⬝ᵥ (projN C M *ᵥ r) + Real.log C.det + Real.log (Mᵀ * C⁻¹ * M).det +
    m * Real.log (10 ^ 40))

theorem projN_zero {n : Nat} (C : Matrix (Fin n) (Fin n) ℝ) (M : Matrix (Fin n) (Fin 0) ℝ) :
    projN C M = C⁻¹ := by
  have : C⁻¹ * M * (Mᵀ * C⁻¹ * M)⁻¹ * Mᵀ * C⁻¹ = 0 := by
    rw [show M = 0 from by ext i j; exact j.elim0]; simp
  rw [projN, this, sub_zero]

/-- Without columns to marginalize over. -/
theorem margLog_zero {n : Nat} (C : Matrix (Fin n) (Fin n) ℝ) (M : Matrix (Fin n) (Fin 0) ℝ)
    (r : Fin n → ℝ) : margLog C M r = gaussLog C r := by
  simp [margLog, gaussLog, projN_zero]

/-! ## What a pulsar must bring -/

/-- The noise object solves exactly, for the covariance `N` with the columns of `M` marginalized
over. -/
structure Whole {n m : Nat} (o : Nmat n ℝ) (N : Matrix (Fin n) (Fin n) ℝ)
    (M : Matrix (Fin n) (Fin m) ℝ) (good : Nat → Prop) : Prop where
  posDef : N.PosDef
  inj : Function.Injective M.mulVec
  num : ∀ x, o.solve (.d1 x) .same true = .ok (.num (x ⬝ᵥ (projN N M *ᵥ x)),
    some (Real.log N.det + Real.log (Mᵀ * N⁻¹ * M).det + m * Real.log (10 ^ 40)))
  vec : ∀ x k (T : Matrix (Fin n) (Fin k) ℝ), good k →
    o.solve (.d1 x) (.other (.d2 k T)) false = .ok (.vec k (Tᵀ *ᵥ (projN N M *ᵥ x)), none)
  mat : ∀ k (T : Matrix (Fin n) (Fin k) ℝ), good k →
    o.solve (.d2 k T) .same false = .ok (.mat k k (Tᵀ * (projN N M * T)), none)

/-- Any of the noise matrices of C51–C53. -/
theorem whole_base {n : Nat} {b : Base n ℝ} {N : Matrix (Fin n) (Fin n) ℝ} {good : Nat → Prop}
    (he : Exact b N good) (M : Matrix (Fin n) (Fin 0) ℝ) : Whole (.base b) N M good := by
  refine ⟨he.posDef, fun x y _ => funext fun i => i.elim0, fun x => ?_, fun x k T hk => ?_,
    fun k T hk => ?_⟩
  · simp [Nmat.solve, he.num, he.logdet, bind, Except.bind, pure, Except.pure, projN_zero]
  · simp [Nmat.solve, he.vec x k T hk, bind, Except.bind, pure, Except.pure, projN_zero]
  · simp [Nmat.solve, he.mat k k T T hk hk, bind, Except.bind, pure, Except.pure, projN_zero]

/-- The marginalizing timing model of C55. -/
theorem whole_marg {n m : Nat} {b : Base n ℝ} {N : Matrix (Fin n) (Fin n) ℝ} {good : Nat → Prop}
    {M : Matrix (Fin n) (Fin m) ℝ} (he : Exact b N good) (hm : good m)
    (hM : Function.Injective M.mulVec) : Whole (.marg m M b) N M good := by
  obtain ⟨h1, h2, h3, -, -⟩ := C55_solve he hm hM
  exact ⟨he.posDef, hM, fun x => by simp only [Nmat.solve, h1, if_true],
    fun x k T hk => by simp only [Nmat.solve, h2 x k T false hk],
    fun k T hk => by simp only [Nmat.solve, h3 k T false hk]⟩

/-- A pulsar of which the noise covariance `N`, the columns `M` marginalized over, the basis `T` and
the prior covariance `Φ` are known. A pulsar without Gaussian processes has `k = 0`. -/
structure Known where
  p : PsrEval
  m : Nat
  k : Nat
  N : Matrix (Fin p.n) (Fin p.n) ℝ
  M : Matrix (Fin p.n) (Fin m) ℝ
  T : Matrix (Fin p.n) (Fin k) ℝ
  Φ : Matrix (Fin k) (Fin k) ℝ
  noise : ∃ o good, getNdiag p.noise.reduceOption = .ok o ∧ Whole o N M good ∧ good k
  gp : (p.basis = none ∧ p.phi = none ∧ k = 0) ∨
    (p.basis = some ⟨k, T⟩ ∧ ∃ κ, p.phi = some κ ∧ κ.size = k ∧ Φ = toMatrix k (entries κ))
  pos : Φ.PosDef

namespace Known

/-- Residuals minus delays. -/
noncomputable def r (q : Known) : Fin q.p.n → ℝ := q.p.detres

/-- The covariance of the residuals of one pulsar. -/
noncomputable def C (q : Known) : Matrix (Fin q.p.n) (Fin q.p.n) ℝ := q.N + q.T * q.Φ * q.Tᵀ

noncomputable def P (q : Known) : Matrix (Fin q.p.n) (Fin q.p.n) ℝ := projN q.N q.M

noncomputable def b (q : Known) : Fin q.k → ℝ := q.Tᵀ *ᵥ (q.P *ᵥ q.r)

noncomputable def A (q : Known) : Matrix (Fin q.k) (Fin q.k) ℝ := q.Tᵀ * (q.P * q.T)

noncomputable def ld (q : Known) : ℝ :=
  Real.log q.N.det + Real.log (q.Mᵀ * q.N⁻¹ * q.M).det + q.m * Real.log (10 ^ 40)

theorem hN (q : Known) : q.N.PosDef := by
  obtain ⟨o, g, -, h, -⟩ := q.noise
  exact h.posDef

theorem hM (q : Known) : Function.Injective q.M.mulVec := by
  obtain ⟨o, g, -, h, -⟩ := q.noise
  exact h.inj

theorem rNr_ok (q : Known) : q.p.rNr = .ok (q.r ⬝ᵥ (q.P *ᵥ q.r) + q.ld) := by
  obtain ⟨o, g, h, w, -⟩ := q.noise
  simp only [PsrEval.rNr, h, bind, Except.bind, w.num, asNum]
  rfl

theorem TNr_ok (q : Known) (hb : q.p.basis = some ⟨q.k, q.T⟩) : q.p.TNr = .ok (some ⟨q.k, q.b⟩) := by
  obtain ⟨o, g, h, w, hk⟩ := q.noise
  simp only [PsrEval.TNr, hb, h, bind, Except.bind, w.vec _ _ _ hk, asVec, dite_true]
  rfl

theorem TNT_ok (q : Known) (hb : q.p.basis = some ⟨q.k, q.T⟩) : q.p.TNT = .ok (some ⟨q.k, q.A⟩) := by
  obtain ⟨o, g, h, w, hk⟩ := q.noise
  simp only [PsrEval.TNT, hb, h, bind, Except.bind, w.mat _ _ hk, asMat, and_self, dite_true]
  rfl

theorem TNr_none (q : Known) (hb : q.p.basis = none) : q.p.TNr = .ok none := by
  simp only [PsrEval.TNr, hb]

theorem TNT_none (q : Known) (hb : q.p.basis = none) : q.p.TNT = .ok none := by
  simp only [PsrEval.TNT, hb]

end Known

/-! ## The algebra of one term -/

theorem sigma_posDef {n m k : Nat} {N : Matrix (Fin n) (Fin n) ℝ} {M : Matrix (Fin n) (Fin m) ℝ}
    {Φ : Matrix (Fin k) (Fin k) ℝ} (hN : N.PosDef) (hM : Function.Injective M.mulVec)
    (hΦ : Φ.PosDef) (T : Matrix (Fin n) (Fin k) ℝ) :
    (Tᵀ * (projN N M * T) + Φ⁻¹).PosDef := by
  rw [← Matrix.mul_assoc]
  exact sig_posDef _ (projN_posSemidef hN hM) T hΦ

/-- The two pieces of the likelihood together are the density of the full covariance. -/
theorem margLog_split {n m k : Nat} {N : Matrix (Fin n) (Fin n) ℝ} {M : Matrix (Fin n) (Fin m) ℝ}
    {Φ : Matrix (Fin k) (Fin k) ℝ} (hN : N.PosDef) (hM : Function.Injective M.mulVec)
    (hΦ : Φ.PosDef) (T : Matrix (Fin n) (Fin k) ℝ) (r : Fin n → ℝ) :
    margLog (N + T * Φ * Tᵀ) M r =
      -(1 / 2) * (r ⬝ᵥ (projN N M *ᵥ r) +
        (Real.log N.det + Real.log (Mᵀ * N⁻¹ * M).det + m * Real.log (10 ^ 40))) +
      1 / 2 * ((Tᵀ *ᵥ (projN N M *ᵥ r)) ⬝ᵥ
          ((Tᵀ * (projN N M * T) + Φ⁻¹)⁻¹ *ᵥ (Tᵀ *ᵥ (projN N M *ᵥ r))) -
        Real.log (Tᵀ * (projN N M * T) + Φ⁻¹).det - Real.log Φ.det) := by
  have hC := full_posDef hN hΦ.posSemidef T
  have hS := sig_posDef (projN N M) (projN_posSemidef hN hM) T hΦ
  have hG := gram_posDef N M hN hM
  have hGC := gram_posDef (full N T Φ) M hC hM
  have hdet := congrArg Real.log (full_proj_det hN hΦ hM T)
  rw [Real.log_mul hC.det_pos.ne' hGC.det_pos.ne',
    Real.log_mul (mul_pos (mul_pos hN.det_pos hG.det_pos) hΦ.det_pos).ne' hS.det_pos.ne',
    Real.log_mul (mul_pos hN.det_pos hG.det_pos).ne' hΦ.det_pos.ne',
    Real.log_mul hN.det_pos.ne' hG.det_pos.ne'] at hdet
  have hsig : Tᵀ * (projN N M * T) + Φ⁻¹ = sig (projN N M) T Φ := by
    rw [sig, Matrix.mul_assoc]
  have hquad : r ⬝ᵥ (projN (full N T Φ) M *ᵥ r) = r ⬝ᵥ (projN N M *ᵥ r) -
      (Tᵀ *ᵥ (projN N M *ᵥ r)) ⬝ᵥ
          ((sig (projN N M) T Φ)⁻¹ *ᵥ (Tᵀ *ᵥ (projN N M *ᵥ r))) := by
    rw [full_proj hN hΦ hM T, sub_mulVec, dotProduct_sub]
    congr 1
    rw [dotProduct_mulVec r]
    have : r ᵥ* (projN N M * T * (sig (projN N M) T Φ)⁻¹ * Tᵀ * projN N M) =
        (Tᵀ *ᵥ (projN N M *ᵥ r)) ᵥ* ((sig (projN N M) T Φ)⁻¹ * (Tᵀ * projN N M)) := by
      rw [← vecMul_transpose, ← vecMul_transpose, projN_symm N M hN hM, transpose_transpose]
      simp only [vecMul_vecMul, Matrix.mul_assoc]
    rw [this, ← dotProduct_mulVec]
    simp only [mulVec_mulVec, Matrix.mul_assoc]
  rw [hsig]
  show -(1 / 2) * (r ⬝ᵥ (projN (full N T Φ) M *ᵥ r) + Real.log (full N T Φ).det +
    Real.log (Mᵀ * (full N T Φ)⁻¹ * M).det + m * Real.log (10 ^ 40)) = _
  rw [hquad]
  linarith

/-- The Gaussian-process term of one pulsar. -/
noncomputable def gpOf (q : Known) : ℝ :=
  1 / 2 * (q.b ⬝ᵥ ((q.A + q.Φ⁻¹)⁻¹ *ᵥ q.b) - Real.log (q.A + q.Φ⁻¹).det - Real.log q.Φ.det)

theorem margLog_known (q : Known) :
    margLog q.C q.M q.r = -(1 / 2) * (q.r ⬝ᵥ (q.P *ᵥ q.r) + q.ld) + gpOf q :=
  margLog_split q.hN q.hM q.pos q.T q.r

theorem gpOf_zero (q : Known) (h : q.k = 0) : gpOf q = 0 := by
  have : ∀ (k : Nat) (b : Fin k → ℝ) (A Φ : Matrix (Fin k) (Fin k) ℝ), k = 0 →
      1 / 2 * (b ⬝ᵥ ((A + Φ⁻¹)⁻¹ *ᵥ b) - Real.log (A + Φ⁻¹).det - Real.log Φ.det) = 0 := by
    intro k b A Φ h
    subst h
    simp
  exact this _ _ _ _ h

/-! ## Without common signals -/

theorem mapM_ok {α β γ : Type} (f : α → β) (g : β → Except PyErr γ) (v : α → γ) (l : List α)
    (h : ∀ a ∈ l, g (f a) = .ok (v a)) : (l.map f).mapM g = .ok (l.map v) := by
  induction l with
  | nil => rfl
  | cons a t ih =>
    rw [List.map_cons, List.mapM_cons, h a (by simp), ih fun b hb => h b (by simp [hb])]
    rfl

/-- The value of `get_TNr`. -/
noncomputable def Known.oTNr (q : Known) : Option (Σ k, Fin k → ℝ) :=
  q.p.basis.map fun _ => ⟨q.k, q.b⟩

/-- The value of `get_TNT`. -/
noncomputable def Known.oTNT (q : Known) : Option (Σ k, Matrix (Fin k) (Fin k) ℝ) :=
  q.p.basis.map fun _ => ⟨q.k, q.A⟩

theorem Known.TNr_eq (q : Known) : q.p.TNr = .ok q.oTNr := by
  rcases q.gp with ⟨h, -, -⟩ | ⟨h, -⟩
  · rw [q.TNr_none h, Known.oTNr, h]; rfl
  · rw [q.TNr_ok h, Known.oTNr, h]; rfl

theorem Known.TNT_eq (q : Known) : q.p.TNT = .ok q.oTNT := by
  rcases q.gp with ⟨h, -, -⟩ | ⟨h, -⟩
  · rw [q.TNT_none h, Known.oTNT, h]; rfl
  · rw [q.TNT_ok h, Known.oTNT, h]; rfl

theorem kern_pos (κ : Kern ℝ) : (toMatrix κ.size (entries κ)).PosDef →
    match κ with | .one n v => ∀ i, i < n → 0 < v i | .two n M _ => (toMatrix n M).PosDef := by
  intro h
  cases κ with
  | one n v =>
    intro i hi
    have := h.diag_pos (i := ⟨i, hi⟩)
    simpa [toMatrix, entries, Kernel.diagMat] using this
  | two n M c => exact h

theorem gpTerm_posDef {k : Nat} {S : Matrix (Fin k) (Fin k) ℝ} (h : S.PosDef) (b : Fin k → ℝ) (ld : ℝ) :
    gpTerm S b ld = some (1 / 2 * (b ⬝ᵥ (S⁻¹ *ᵥ b) - Real.log S.det - ld)) := if_pos h

theorem psrLoop_ok (svd : ∀ {n : Nat} (M : Matrix (Fin n) (Fin n) ℝ), Svd M) (qs : List Known) (ll : ℝ) :
    psrLoop ((qs.map Known.oTNr).zip ((qs.map Known.oTNT).zip
      ((qs.map fun q => q.p.phi).map fun o => o.map (kernInv svd)))) ll =
        .ok (some (ll + (qs.map gpOf).sum)) := by
  induction qs generalizing ll with
  | nil => simp [psrLoop]
  | cons q t ih =>
    simp only [List.map_cons, List.zip_cons_cons, List.sum_cons]
    rcases q.gp with ⟨h, -, h0⟩ | ⟨h, κ, hφ, hs, hΦ⟩
    · have e : q.oTNr = none := by rw [Known.oTNr, h]; rfl
      rw [e, gpOf_zero q h0, zero_add, ← ih ll]
      rfl
    · have e : q.oTNr = some ⟨q.k, q.b⟩ := by rw [Known.oTNr, h]; rfl
      have e' : q.oTNT = some ⟨q.k, q.A⟩ := by rw [Known.oTNT, h]; rfl
      have hp := q.pos
      rw [hΦ] at hp
      obtain ⟨c1, c2, c3⟩ := Partition.C82_partial svd κ (kern_pos κ (by rw [hs]; exact hp))
      rw [hs] at c1 c2 c3
      rw [e, e', hφ]
      simp only [Option.map_some]
      have hsq : asSquare q.k (kernInv svd κ).1 = .ok q.Φ⁻¹ := by
        rw [asSquare, if_pos c1, c2, hΦ]
      have hpos := sigma_posDef q.hN q.hM q.pos q.T
      have := gpTerm_posDef hpos q.b (kernInv svd κ).2
      rw [show kernInv svd κ = ((kernInv svd κ).1, (kernInv svd κ).2) from rfl, psrLoop, dif_pos rfl, hsq]
      simp only
      rw [show (q.A.submatrix (Fin.cast (rfl : q.k = q.k)) (Fin.cast (rfl : q.k = q.k))) =
        q.Tᵀ * (projN q.N q.M * q.T) from rfl, this]
      simp only
      rw [ih, c3, ← hΦ]
      have : 1 / 2 * (q.b ⬝ᵥ ((q.Tᵀ * (projN q.N q.M * q.T) + q.Φ⁻¹)⁻¹ *ᵥ q.b) -
          Real.log (q.Tᵀ * (projN q.N q.M * q.T) + q.Φ⁻¹).det - Real.log q.Φ.det) = gpOf q := rfl
      rw [this, add_assoc]

/-- The logarithm of the signal priors. -/
noncomputable def priors (qs : List Known) : ℝ := (qs.map fun q => q.p.lnprior).sum

theorem sum_split (qs : List Known) :
    0 + -(1 / 2) * (qs.map fun q => q.r ⬝ᵥ (q.P *ᵥ q.r) + q.ld).sum + priors qs + (qs.map gpOf).sum =
      (qs.map fun q => margLog q.C q.M q.r).sum + priors qs := by
  have : (qs.map fun q => margLog q.C q.M q.r).sum =
      -(1 / 2) * (qs.map fun q => q.r ⬝ᵥ (q.P *ᵥ q.r) + q.ld).sum + (qs.map gpOf).sum := by
    induction qs with
    | nil => simp
    | cons q t ih =>
      simp only [List.map_cons, List.sum_cons]
      rw [ih, margLog_known q]
      ring
  rw [this]
  ring

/-- C84: without common signals the likelihood is the sum over the pulsars of the marginalized
density of the full covariance `N + T Φ Tᵀ`. -/
theorem C84 (svd : ∀ {n : Nat} (M : Matrix (Fin n) (Fin n) ℝ), Svd M) (method : Method)
    (hm : method ≠ .other) (qs : List Known) :
    lnlike svd method (qs.map Known.p) [] =
      .ok (some ((qs.map fun q => margLog q.C q.M q.r).sum + priors qs)) := by
  have h1 := mapM_ok Known.p PsrEval.TNr Known.oTNr qs fun q _ => q.TNr_eq
  have h2 := mapM_ok Known.p PsrEval.TNT Known.oTNT qs fun q _ => q.TNT_eq
  have h3 := mapM_ok Known.p PsrEval.rNr (fun q => q.r ⬝ᵥ (q.P *ᵥ q.r) + q.ld) qs fun q _ => q.rNr_ok
  rw [← sum_split, ← psrLoop_ok svd qs]
  unfold lnlike
  rw [h1, h2, h3]
  simp only [bind, Except.bind, List.map_map]
  cases method with
  | other => exact absurd rfl hm
  | _ => rfl

/-- C56: when no timing model is marginalized over, the likelihood without common signals is, up to
the constant, the sum of the log densities of Gaussians of covariance `N + T Φ Tᵀ`, plus the log
priors of the signals. -/
theorem C56 (svd : ∀ {n : Nat} (M : Matrix (Fin n) (Fin n) ℝ), Svd M) (method : Method)
    (hm : method ≠ .other) (qs : List Known) (h0 : ∀ q ∈ qs, q.m = 0) :
    lnlike svd method (qs.map Known.p) [] =
      .ok (some ((qs.map fun q => gaussLog q.C q.r).sum + priors qs)) := by
  rw [C84 svd method hm qs]
  congr 4
  apply List.map_congr_left
  intro q hq
  have : ∀ (m : Nat) (M : Matrix (Fin q.p.n) (Fin m) ℝ), m = 0 →
      margLog q.C M q.r = gaussLog q.C q.r := by
    rintro m M rfl; exact margLog_zero _ _ _
  exact this q.m q.M (h0 q hq)

/-! ## With common signals -/

/-- The number of Gaussian-process coefficients of all the pulsars. -/
abbrev width (qs : List Known) : Nat := (qs.map Known.k).sum

/-- The covariance of the stacked residuals of all the pulsars when the coefficients have the prior
covariance `F`. -/
noncomputable def jointCov (qs : List Known) (F : Matrix (Fin (width qs)) (Fin (width qs)) ℝ) :
    Matrix (Fin (qs.map fun q => q.p.n).sum) (Fin (qs.map fun q => q.p.n).sum) ℝ :=
  jm (fun q : Known => q.p.n) (fun q => q.p.n) (fun q => q.N) qs +
    jm (fun q : Known => q.p.n) Known.k (fun q => q.T) qs * F *
      (jm (fun q : Known => q.p.n) Known.k (fun q => q.T) qs)ᵀ

/-- All the columns marginalized over. -/
noncomputable def jointM (qs : List Known) :
    Matrix (Fin (qs.map fun q => q.p.n).sum) (Fin (qs.map Known.m).sum) ℝ :=
  jm (fun q : Known => q.p.n) Known.m (fun q => q.M) qs

/-- The stacked residuals. -/
noncomputable def jointR (qs : List Known) : Fin (qs.map fun q => q.p.n).sum → ℝ :=
  jv (fun q : Known => q.p.n) Known.r qs

theorem es_inl {α : Type} (n : α → Nat) (a : α) (t : List α) (i : Fin (n a)) :
    ((es n a t (.inl i)) : Nat) = i := by simp [es]

theorem es_inr {α : Type} (n : α → Nat) (a : α) (t : List α) (i : Fin (t.map n).sum) :
    ((es n a t (.inr i)) : Nat) = n a + i := by simp [es]

theorem blockDiagOf_jm {α : Type} (k : α → Nat) (A : ∀ a, Matrix (Fin (k a)) (Fin (k a)) ℝ) (l : List α) :
    toMatrix (l.map k).sum (blockDiagOf (l.map fun a => ⟨k a, A a⟩)) = jm k k A l := by
  induction l with
  | nil => ext i; exact i.elim0
  | cons a t ih =>
    ext i j
    obtain ⟨i, rfl⟩ := (es k a t).surjective i
    obtain ⟨j, rfl⟩ := (es k a t).surjective j
    simp only [jm, submatrix_apply, Equiv.symm_apply_apply, toMatrix, of_apply, List.map_cons, blockDiagOf]
    have ih' := fun i j => congrFun (congrFun ih i) j
    simp only [toMatrix, of_apply] at ih'
    rcases i with i | i <;> rcases j with j | j <;> simp [es_inl, es_inr, ← ih', i.2, j.2]
    
theorem concatOf_jv {α : Type} (k : α → Nat) (v : ∀ a, Fin (k a) → ℝ) (l : List α) :
    (fun i : Fin (l.map k).sum => concatOf (l.map fun a => ⟨k a, v a⟩) i) = jv k v l := by
  induction l with
  | nil => ext i; exact i.elim0
  | cons a t ih =>
    ext i
    obtain ⟨i, rfl⟩ := (es k a t).surjective i
    simp only [jv, Function.comp, Equiv.symm_apply_apply, List.map_cons, concatOf]
    have ih' := fun i => congrFun ih i
    rcases i with i | i <;> simp [es_inl, es_inr, ← ih', i.2]

theorem allSome_map {α β : Type} (f : α → β) (l : List α) : allSome (l.map fun a => some (f a)) = .ok (l.map f) := by
  induction l with
  | nil => rfl
  | cons a t ih => simp only [List.map_cons, allSome, ih]

theorem projN_jm (qs : List Known) :
    projN (jm (fun q : Known => q.p.n) (fun q => q.p.n) (fun q => q.N) qs) (jointM qs) =
      jm (fun q : Known => q.p.n) (fun q => q.p.n) Known.P qs := by
  unfold projN jointM
  rw [jm_inv _ _ fun q _ => q.hN, jm_transpose, jm_mul, jm_mul, jm_mul,
    jm_inv _ _ fun q _ => gram_posDef q.N q.M q.hN q.hM, jm_mul, jm_mul, jm_mul, jm_sub]
  rfl

theorem sum_log {α : Type} (f : α → ℝ) (l : List α) (h : ∀ a ∈ l, 0 < f a) :
    Real.log (l.map f).prod = (l.map fun a => Real.log (f a)).sum := by
  induction l with
  | nil => simp
  | cons a t ih =>
    have hp : 0 < (t.map f).prod := List.prod_pos fun x hx => by
      obtain ⟨b, hb, rfl⟩ := List.mem_map.1 hx
      exact h b (by simp [hb])
    rw [List.map_cons, List.prod_cons, Real.log_mul (h a (by simp)).ne' hp.ne',
      ih fun b hb => h b (by simp [hb])]
    simp

theorem joint_ld (qs : List Known) :
    Real.log (jm (fun q : Known => q.p.n) (fun q => q.p.n) (fun q => q.N) qs).det +
      Real.log ((jointM qs)ᵀ * (jm (fun q : Known => q.p.n) (fun q => q.p.n) (fun q => q.N) qs)⁻¹ *
        jointM qs).det + ((qs.map Known.m).sum : Nat) * Real.log (10 ^ 40) = (qs.map Known.ld).sum := by
  unfold jointM
  rw [jm_inv _ _ fun q _ => q.hN, jm_transpose, jm_mul, jm_mul, jm_det, jm_det,
    sum_log _ _ fun q _ => q.hN.det_pos, sum_log _ _ fun q _ => (gram_posDef q.N q.M q.hN q.hM).det_pos]
  induction qs with
  | nil => simp
  | cons q t ih =>
    simp only [List.map_cons, List.sum_cons, Nat.cast_add]
    rw [← ih, Known.ld]
    ring

/-- The likelihood with common signals, when `phiinv` is the inverse of `F`. -/
theorem common_ok (svd : ∀ {n : Nat} (M : Matrix (Fin n) (Fin n) ℝ), Svd M) (method : Method)
    (qs : List Known) (hb : ∀ q ∈ qs, q.p.basis ≠ none) (classes : List (Klass ℝ)) (h0 : classes ≠ [])
    (F : Nat → Nat → ℝ) (hF : (toMatrix (width qs) F).PosDef)
    (hinv : bigPhiinv svd ((qs.map Known.p).map PsrEval.phi) classes method =
      .ok ((toMatrix (PtaPhi.total ((qs.map Known.p).map PsrEval.phi)) F)⁻¹,
        Real.log (toMatrix (PtaPhi.total ((qs.map Known.p).map PsrEval.phi)) F).det)) :
    lnlike svd method (qs.map Known.p) classes =
      .ok (some (margLog (jointCov qs (toMatrix (width qs) F)) (jointM qs) (jointR qs) + priors qs)) := by
  have hbs : ∀ q ∈ qs, q.p.basis = some ⟨q.k, q.T⟩ ∧ ∃ κ, q.p.phi = some κ ∧ κ.size = q.k := by
    intro q hq
    rcases q.gp with ⟨h, -⟩ | ⟨h, κ, h1, h2, -⟩
    · exact absurd h (hb q hq)
    · exact ⟨h, κ, h1, h2⟩
  have hd : PtaPhi.total ((qs.map Known.p).map PsrEval.phi) = width qs := by
    clear hF hinv hb
    unfold width
    induction qs with
    | nil => rfl
    | cons q t ih =>
      obtain ⟨-, κ, h1, h2⟩ := hbs q (by simp)
      simp only [List.map_cons, h1, PtaPhi.total, List.sum_cons, h2]
      rw [ih fun q hq => hbs q (by simp [hq])]
  have hT : qs.map Known.oTNr = qs.map fun q => some (⟨q.k, q.b⟩ : Σ k, Fin k → ℝ) :=
    List.map_congr_left fun q hq => by rw [Known.oTNr, (hbs q hq).1]; rfl
  have hA : qs.map Known.oTNT = qs.map fun q => some (⟨q.k, q.A⟩ : Σ k, Matrix (Fin k) (Fin k) ℝ) :=
    List.map_congr_left fun q hq => by rw [Known.oTNT, (hbs q hq).1]; rfl
  have h1 := mapM_ok Known.p PsrEval.TNr Known.oTNr qs fun q _ => q.TNr_eq
  have h2 := mapM_ok Known.p PsrEval.TNT Known.oTNT qs fun q _ => q.TNT_eq
  have h3 := mapM_ok Known.p PsrEval.rNr (fun q => q.r ⬝ᵥ (q.P *ᵥ q.r) + q.ld) qs fun q _ => q.rNr_ok
  -- the joint term
  have hJN : (jm (fun q : Known => q.p.n) (fun q => q.p.n) (fun q => q.N) qs).PosDef :=
    jm_posDef _ _ fun q _ => q.hN
  have hJM : Function.Injective (jointM qs).mulVec := jm_injective _ _ fun q _ => q.hM
  have hb' : (jm (fun q : Known => q.p.n) Known.k (fun q => q.T) qs)ᵀ *ᵥ
      (projN (jm (fun q : Known => q.p.n) (fun q => q.p.n) (fun q => q.N) qs) (jointM qs) *ᵥ jointR qs) =
        jv Known.k Known.b qs := by
    rw [projN_jm, jointR, jm_transpose, jm_mulVec, jm_mulVec]; rfl
  have hA' : (jm (fun q : Known => q.p.n) Known.k (fun q => q.T) qs)ᵀ *
      (projN (jm (fun q : Known => q.p.n) (fun q => q.p.n) (fun q => q.N) qs) (jointM qs) *
        jm (fun q : Known => q.p.n) Known.k (fun q => q.T) qs) = jm Known.k Known.k Known.A qs := by
    rw [projN_jm, jm_transpose, jm_mul, jm_mul]; rfl
  have hsplit := margLog_split hJN hJM hF (jm (fun q : Known => q.p.n) Known.k (fun q => q.T) qs) (jointR qs)
  have hpos := sigma_posDef hJN hJM hF (jm (fun q : Known => q.p.n) Known.k (fun q => q.T) qs)
  rw [hA'] at hpos
  rw [hb', hA', joint_ld, projN_jm, jointR, jm_mulVec, jv_dot] at hsplit
  have hterm : ∀ d, d = width qs → commonTerm (qs.map Known.oTNr) (qs.map Known.oTNT) (toMatrix d F)⁻¹
      (Real.log (toMatrix d F).det) = .ok (some (1 / 2 * (jv Known.k Known.b qs ⬝ᵥ
        ((jm Known.k Known.k Known.A qs + (toMatrix (width qs) F)⁻¹)⁻¹ *ᵥ jv Known.k Known.b qs) -
        Real.log (jm Known.k Known.k Known.A qs + (toMatrix (width qs) F)⁻¹).det -
        Real.log (toMatrix (width qs) F).det))) := by
    rintro d rfl
    rw [hT, hA, commonTerm, allSome_map, allSome_map]
    simp only [List.map_map, Function.comp_def]
    rw [if_pos (by simp)]
    have e1 := blockDiagOf_jm Known.k Known.A qs
    have e2 := concatOf_jv Known.k Known.b qs
    rw [← gpTerm_posDef hpos]
    show Except.ok (gpTerm (toMatrix (qs.map Known.k).sum _ + _) (fun i : Fin (qs.map Known.k).sum => _) _) = _
    rw [e1, e2]
  unfold lnlike
  rw [h1, h2, h3]
  cases classes with
  | nil => exact absurd rfl h0
  | cons c t =>
    simp only [bind, Except.bind, hinv]
    rw [hterm _ hd]
    simp only [pure, Except.pure, Option.map_some]
    congr 2
    show _ = margLog (jm (fun q : Known => q.p.n) (fun q => q.p.n) (fun q => q.N) qs + _) (jointM qs)
      (jv (fun q : Known => q.p.n) Known.r qs) + priors qs
    rw [hsplit]
    have : (qs.map fun q => q.r ⬝ᵥ (q.P *ᵥ q.r) + q.ld).sum =
        (qs.map fun q => q.r ⬝ᵥ (q.P *ᵥ q.r)).sum + (qs.map Known.ld).sum := by
      rw [← List.sum_map_add]
    rw [this, priors, List.map_map]
    simp only [Function.comp_def]
    ring

end Verif.Likelihood
