import Verif.Model.Calls
import Verif.Props.Cache
import Verif.Props.LikelihoodJoint

/-!
C131: the value of the likelihood does not depend on the calls made before.
-/

namespace Verif.Calls

open Verif Verif.Likelihood Verif.Noise Matrix
open Verif.Cache (Arg memoCall keycheck keycheck_iff)
open Verif.PhiInv (toMatrix)
open Verif.PtaPhi (Klass total)
open Verif.Partition (Svd kernInv)

/-! ## The documented contract of scikit-sparse -/

/-- The nonzero entries of a matrix: the pattern of the sparse matrix with these entries. -/
def supp {d : Nat} (S : Matrix (Fin d) (Fin d) ℝ) : Set (Fin d × Fin d) := {ij | S ij.1 ij.2 ≠ 0}

/-- A factor of a matrix. -/
def Is (lib : Lib) (f : lib.F) (d : Nat) (S : Matrix (Fin d) (Fin d) ℝ) : Prop :=
  (∀ b, lib.solve f d b = S⁻¹ *ᵥ b) ∧ lib.logdet f = Real.log S.det

/-- `cholesky` factors the matrices that are positive definite; so does `cholesky_inplace`, for
matrices with the pattern of the matrix that the factor was made for.  Nothing is said about
`cholesky_inplace` with another pattern: the documentation asks for the same one. -/
structure Contract (lib : Lib) where
  Made : lib.F → (d : Nat) → Set (Fin d × Fin d) → Prop
  chol : ∀ d (S : Matrix (Fin d) (Fin d) ℝ), S.PosDef → ∃ f, lib.chol d S = some f ∧ Is lib f d S ∧ Made f d (supp S)
  chol_not : ∀ d (S : Matrix (Fin d) (Fin d) ℝ), ¬ S.PosDef → lib.chol d S = none
  inplace : ∀ f d (S : Matrix (Fin d) (Fin d) ℝ), Made f d (supp S) → S.PosDef →
    (lib.inplace f d S).2 = true ∧ Is lib (lib.inplace f d S).1 d S
  inplace_not : ∀ f d (S : Matrix (Fin d) (Fin d) ℝ), Made f d (supp S) → ¬ S.PosDef → (lib.inplace f d S).2 = false
  keeps : ∀ f d (S : Matrix (Fin d) (Fin d) ℝ), Made f d (supp S) → Made (lib.inplace f d S).1 d (supp S)

/-! ## Calls on a heap -/

/-- The arrays that the pulsars return are the ones on the heap. -/
def Linked (h : Heap) (c : Call) : Prop :=
  (∀ l, c.ps.mapM PsrEval.TNr = .ok l → l = c.tnr.map h.R) ∧ ∀ l, c.ps.mapM PsrEval.TNT = .ok l → l = c.tnt.map h.T

/-- The size and the nonzero entries of the matrix that a call with common signals factors: the blocks
of the pulsars plus the inverse prior covariance. -/
def HasPattern (svd : ∀ {n : Nat} (M : Matrix (Fin n) (Fin n) ℝ), Svd M) (P : Σ d, Set (Fin d × Fin d)) (c : Call) : Prop :=
  c.classes ≠ [] → ∀ TNTs As phiinv ld, c.ps.mapM PsrEval.TNT = .ok TNTs → allSome TNTs = .ok As →
    bigPhiinv svd (c.ps.map PsrEval.phi) c.classes c.method = .ok (phiinv, ld) →
    (⟨_, supp (toMatrix _ (blockDiagOf As) + phiinv)⟩ : Σ d, Set (Fin d × Fin d)) = P

theorem memo_step {V : Type} (method : Arg → Except PyErr V) (m : Option (Arg × V)) (a : Arg)
    (hm : ∀ k v, m = some (k, v) → method k = .ok v) :
    (memoCall method m a).2 = method a ∧ ∀ k v, (memoCall method m a).1 = some (k, v) → method k = .ok v := by
  unfold memoCall
  split
  · next k v =>
    split
    · next hk =>
      have := (keycheck_iff k a).1 hk
      subst this
      exact ⟨(hm _ _ rfl).symm, hm⟩
    · split
      · next w hw => exact ⟨hw.symm, by rintro _ _ ⟨⟩; exact hw⟩
      · next e he => exact ⟨he.symm, hm⟩
  · split
    · next w hw => exact ⟨hw.symm, by rintro _ _ ⟨⟩; exact hw⟩
    · next e he => exact ⟨he.symm, hm⟩

/-- What holds between calls. -/
structure Inv {lib : Lib} (Made : lib.F → (d : Nat) → Set (Fin d × Fin d) → Prop) (P : Σ d, Set (Fin d × Fin d)) (h : Heap) (st : State lib) : Prop where
  t : ∀ k v, st.memoT = some (k, v) → blockTNT h k = .ok v
  r : ∀ k v, st.memoR = some (k, v) → blockTNr h k = .ok v
  f : ∀ f, st.cf = some f → Made f P.1 P.2

theorem factor_ok {lib : Lib} (G : Contract lib) (cf : Option lib.F) (d : Nat) (S : Matrix (Fin d) (Fin d) ℝ)
    (hf : ∀ f, cf = some f → G.Made f d (supp S)) :
    (∀ f, (factor lib cf d S).1 = some f → G.Made f d (supp S)) ∧
    (S.PosDef → ∃ f, (factor lib cf d S).2 = some f ∧ Is lib f d S) ∧ (¬ S.PosDef → (factor lib cf d S).2 = none) := by
  cases cf with
  | none =>
    by_cases hS : S.PosDef
    · obtain ⟨f, e, h1, h2⟩ := G.chol d S hS
      simp only [factor, e]
      exact ⟨by rintro _ ⟨⟩; exact h2, fun _ => ⟨f, rfl, h1⟩, fun h => absurd hS h⟩
    · simp only [factor, G.chol_not d S hS]
      exact ⟨by rintro _ ⟨⟩, fun h => absurd h hS, by simp⟩
  | some f =>
    have hm := hf f rfl
    refine ⟨?_, fun hS => ?_, fun hS => ?_⟩
    · rintro _ ⟨⟩; exact G.keeps f d S hm
    · obtain ⟨h1, h2⟩ := G.inplace f d S hm hS
      exact ⟨_, by simp only [factor, h1, if_true], h2⟩
    · simp only [factor, G.inplace_not f d S hm hS, Bool.false_eq_true, if_false]

theorem commonCall_ok {lib : Lib} (Made : lib.F → (d : Nat) → Set (Fin d × Fin d) → Prop) (sparse : Bool) (hG : sparse = true → ∃ G : Contract lib, G.Made = Made) (h : Heap) (P : Σ d, Set (Fin d × Fin d)) (st : State lib)
    (hi : Inv Made P h st) (tnr tnt : List Nat) {d : Nat} (phiinv : Matrix (Fin d) (Fin d) ℝ) (ld : ℝ)
    (hp : sparse = true → ∀ As, allSome (tnt.map h.T) = .ok As →
      (⟨d, supp (toMatrix d (blockDiagOf As) + phiinv)⟩ : Σ d, Set (Fin d × Fin d)) = P) :
    Inv Made P h (commonCall lib sparse h st tnr tnt phiinv ld).1 ∧
      (commonCall lib sparse h st tnr tnt phiinv ld).2 = commonTerm (tnr.map h.R) (tnt.map h.T) phiinv ld := by
  obtain ⟨ht, ht'⟩ := memo_step (blockTNT h) st.memoT (.seq tnt) hi.t
  obtain ⟨hr, hr'⟩ := memo_step (blockTNr h) st.memoR (.seq tnr) hi.r
  unfold commonCall commonTerm
  simp only [ht, hr]
  simp only [blockTNT, blockTNr]
  cases hA : allSome (tnt.map h.T) with
  | error e => exact ⟨⟨ht', hi.r, hi.f⟩, rfl⟩
  | ok As =>
    cases hB : allSome (tnr.map h.R) with
    | error e => exact ⟨⟨ht', hr', hi.f⟩, rfl⟩
    | ok bs =>
      simp only
      by_cases hd : (As.map Sigma.fst).sum = d ∧ (bs.map Sigma.fst).sum = d
      · simp only [if_pos hd]
        cases sparse with
        | false => exact ⟨⟨ht', hr', hi.f⟩, rfl⟩
        | true =>
          have hP := hp rfl As hA
          subst hP
          obtain ⟨G, rfl⟩ := hG rfl
          obtain ⟨f1, f2, f3⟩ := factor_ok G st.cf d (toMatrix d (blockDiagOf As) + phiinv) hi.f
          simp only [if_true]
          refine ⟨⟨ht', hr', f1⟩, ?_⟩
          unfold gpTerm
          by_cases hS : (toMatrix d (blockDiagOf As) + phiinv).PosDef
          · obtain ⟨f, e, e1, e2⟩ := f2 hS
            rw [e, if_pos hS, Option.map_some, e1, e2]
          · rw [f3 hS, if_neg hS, Option.map_none]
      · simp only [if_neg hd]
        exact ⟨⟨ht', hr', hi.f⟩, trivial⟩

theorem call_ok {lib : Lib} (Made : lib.F → (d : Nat) → Set (Fin d × Fin d) → Prop) (svd : ∀ {n : Nat} (M : Matrix (Fin n) (Fin n) ℝ), Svd M) (sparse : Bool) (hG : sparse = true → ∃ G : Contract lib, G.Made = Made)
    (h : Heap) (P : Σ d, Set (Fin d × Fin d)) (st : State lib) (hi : Inv Made P h st) (c : Call) (hl : Linked h c)
    (hp : sparse = true → HasPattern svd P c) :
    Inv Made P h (call lib svd sparse h st c).1 ∧
      (call lib svd sparse h st c).2 = lnlike svd c.method c.ps c.classes := by
  unfold call lnlike
  cases hc : c.classes with
  | nil => exact ⟨hi, rfl⟩
  | cons k ks =>
    simp only [bind, Except.bind]
    cases h1 : c.ps.mapM PsrEval.TNr with
    | error e => exact ⟨hi, rfl⟩
    | ok TNrs =>
      cases h2 : c.ps.mapM PsrEval.TNT with
      | error e => exact ⟨hi, rfl⟩
      | ok TNTs =>
        cases h3 : bigPhiinv svd (c.ps.map PsrEval.phi) (k :: ks) c.method with
        | error e => exact ⟨hi, rfl⟩
        | ok x =>
          obtain ⟨phiinv, ld⟩ := x
          cases h4 : c.ps.mapM PsrEval.rNr with
          | error e => exact ⟨hi, rfl⟩
          | ok rs =>
            have e1 := hl.1 _ h1
            have e2 := hl.2 _ h2
            obtain ⟨g1, g2⟩ := commonCall_ok Made sparse hG h P st hi c.tnr c.tnt phiinv ld fun hs As hA =>
              hp hs (by simp [hc]) TNTs As phiinv ld h2 (by rw [e2]; exact hA) (by rw [hc]; exact h3)
            refine ⟨g1, ?_⟩
            simp only
            rw [g2, ← e1, ← e2]
            cases commonTerm TNrs TNTs phiinv ld <;> rfl

theorem history_ok {lib : Lib} (Made : lib.F → (d : Nat) → Set (Fin d × Fin d) → Prop) (svd : ∀ {n : Nat} (M : Matrix (Fin n) (Fin n) ℝ), Svd M) (sparse : Bool) (hG : sparse = true → ∃ G : Contract lib, G.Made = Made)
    (h : Heap) (P : Σ d, Set (Fin d × Fin d)) (cs : List Call) (hl : ∀ c ∈ cs, Linked h c)
    (hp : sparse = true → ∀ c ∈ cs, HasPattern svd P c) (st : Option (State lib)) (hi : ∀ s, st = some s → Inv Made P h s) :
    history lib svd sparse h cs st = cs.map fun c => lnlike svd c.method c.ps c.classes := by
  induction cs generalizing st with
  | nil => rfl
  | cons c t ih =>
    have h0 : Inv Made P h (st.getD (.init lib)) := by
      cases st with
      | some s => exact hi s rfl
      | none => exact ⟨by rintro _ _ ⟨⟩, by rintro _ _ ⟨⟩, by rintro _ ⟨⟩⟩
    obtain ⟨g1, g2⟩ := call_ok Made svd sparse hG h P _ h0 c (hl c (by simp)) fun hs => hp hs c (by simp)
    simp only [history, getLnlikelihood, List.map_cons]
    rw [ih (fun c hc => hl c (by simp [hc])) (fun hs c hc => hp hs c (by simp [hc])) _ (by rintro _ ⟨⟩; exact g1)]
    rw [g2]

/-! ## C131 -/

/-- **C131.**  As long as the matrices of all calls have the same nonzero entries, every call returns
what the likelihood is for its own parameters, whatever calls (also failed ones) came before. -/
theorem C131_history_partial {lib : Lib} (G : Contract lib) (svd : ∀ {n : Nat} (M : Matrix (Fin n) (Fin n) ℝ), Svd M)
    (h : Heap) (P : Σ d, Set (Fin d × Fin d)) (cs : List Call) (hl : ∀ c ∈ cs, Linked h c)
    (hp : ∀ c ∈ cs, HasPattern svd P c) :
    history lib svd true h cs none = cs.map fun c => lnlike svd c.method c.ps c.classes :=
  history_ok G.Made svd true (fun _ => ⟨G, rfl⟩) h P cs hl (fun _ => hp) none (by rintro _ ⟨⟩)

/-- C131: with `LogLikelihoodDenseCholesky` always. -/
theorem C131_dense (lib : Lib) (svd : ∀ {n : Nat} (M : Matrix (Fin n) (Fin n) ℝ), Svd M) (h : Heap) (cs : List Call)
    (hl : ∀ c ∈ cs, Linked h c) :
    history lib svd false h cs none = cs.map fun c => lnlike svd c.method c.ps c.classes :=
  history_ok (fun _ _ _ => True) svd false (by simp) h ⟨0, ∅⟩ cs hl (by simp) none (by rintro _ ⟨⟩)

/-- C131: without common signals always. -/
theorem C131_no_common {lib : Lib} (G : Contract lib) (svd : ∀ {n : Nat} (M : Matrix (Fin n) (Fin n) ℝ), Svd M)
    (sparse : Bool) (h : Heap) (cs : List Call) (hl : ∀ c ∈ cs, Linked h c) (h0 : ∀ c ∈ cs, c.classes = []) :
    history lib svd sparse h cs none = cs.map fun c => lnlike svd c.method c.ps [] := by
  rw [history_ok G.Made svd sparse (fun _ => ⟨G, rfl⟩) h ⟨0, ∅⟩ cs hl (fun _ c hc hn => absurd (h0 c hc) hn) none
    (by rintro _ ⟨⟩)]
  exact List.map_congr_left fun c hc => by rw [h0 c hc]

theorem HasPattern.own (svd : ∀ {n : Nat} (M : Matrix (Fin n) (Fin n) ℝ), Svd M) (c : Call) : ∃ P, HasPattern svd P c := by
  by_cases hx : ∃ TNTs As phiinv ld, c.ps.mapM PsrEval.TNT = .ok TNTs ∧ allSome TNTs = .ok As ∧
      bigPhiinv svd (c.ps.map PsrEval.phi) c.classes c.method = .ok (phiinv, ld)
  · obtain ⟨TNTs, As, phiinv, ld, h1, h2, h3⟩ := hx
    refine ⟨⟨_, supp (toMatrix _ (blockDiagOf As) + phiinv)⟩, ?_⟩
    intro _ T' A' p' l' k1 k2 k3
    rw [h1] at k1; cases k1
    rw [h2] at k2; cases k2
    rw [h3] at k3; cases k3
    rfl
  · exact ⟨⟨0, ∅⟩, fun _ T' A' p' l' k1 k2 k3 => absurd ⟨T', A', p', l', k1, k2, k3⟩ hx⟩

/-- C131: the first call always, whichever the kind of object. -/
theorem C131_first {lib : Lib} (G : Contract lib) (svd : ∀ {n : Nat} (M : Matrix (Fin n) (Fin n) ℝ), Svd M)
    (sparse : Bool) (h : Heap) (c : Call) (hl : Linked h c) :
    (getLnlikelihood lib svd sparse h none c).2 = lnlike svd c.method c.ps c.classes := by
  obtain ⟨P, hP⟩ := HasPattern.own svd c
  have := history_ok G.Made svd sparse (fun _ => ⟨G, rfl⟩) h P [c] (by simpa using hl) (fun _ => by simpa using hP) none
    (by rintro _ ⟨⟩)
  simpa [history] using this

/-- C131: calling again with the same parameters returns the same value. -/
theorem C131_again {lib : Lib} (G : Contract lib) (svd : ∀ {n : Nat} (M : Matrix (Fin n) (Fin n) ℝ), Svd M)
    (sparse : Bool) (h : Heap) (c : Call) (hl : Linked h c) (n : Nat) :
    history lib svd sparse h (List.replicate n c) none = List.replicate n (lnlike svd c.method c.ps c.classes) := by
  obtain ⟨P, hP⟩ := HasPattern.own svd c
  rw [history_ok G.Made svd sparse (fun _ => ⟨G, rfl⟩) h P _ (fun c' hc => by rw [List.eq_of_mem_replicate hc]; exact hl)
    (fun _ c' hc => by rw [List.eq_of_mem_replicate hc]; exact hP) none (by rintro _ ⟨⟩), List.map_replicate]

/-! ## A library that meets the contract -/

/-- A factor that remembers the pattern it was made for. -/
structure Fac where
  d : Nat
  pat : Set (Nat × Nat)
  S : Nat → Nat → ℝ

/-- A matrix with zeros around it. -/
def ext {d : Nat} (S : Matrix (Fin d) (Fin d) ℝ) : Nat → Nat → ℝ := fun i j =>
  if h : i < d ∧ j < d then S ⟨i, h.1⟩ ⟨j, h.2⟩ else 0

theorem toMatrix_ext {d : Nat} (S : Matrix (Fin d) (Fin d) ℝ) : toMatrix d (ext S) = S := by
  ext i j
  simp [toMatrix, ext]

open Classical in
/-- The entries of a pattern. -/
noncomputable def keep (pat : Set (Nat × Nat)) (A : Nat → Nat → ℝ) : Nat → Nat → ℝ := fun i j =>
  if (i, j) ∈ pat then A i j else 0

open Classical in
/-- What the library below does for `cholesky_inplace`. -/
noncomputable def refactor (f : Fac) (d : Nat) (S : Matrix (Fin d) (Fin d) ℝ) : Fac × Bool :=
  if (toMatrix d (keep f.pat (ext S))).PosDef then (⟨d, f.pat, keep f.pat (ext S)⟩, true) else (f, false)

open Classical in
/-- A library whose `cholesky_inplace` leaves out entries that the pattern does not have. -/
noncomputable def lossy : Lib where
  F := Fac
  chol d S := if S.PosDef then some ⟨d, {p | ext S p.1 p.2 ≠ 0}, ext S⟩ else none
  inplace f d S := refactor f d S
  solve f d b := (toMatrix d f.S)⁻¹ *ᵥ b
  logdet f := Real.log (toMatrix f.d f.S).det

theorem keep_full {d : Nat} (S : Matrix (Fin d) (Fin d) ℝ) (pat : Set (Nat × Nat)) (h : pat = {p | ext S p.1 p.2 ≠ 0}) :
    keep pat (ext S) = ext S := by
  funext i j
  subst h
  by_cases hz : ext S i j = 0
  · simp [hz, keep]
  · simp [hz, keep]

theorem supp_ext {d : Nat} (S : Matrix (Fin d) (Fin d) ℝ) :
    {p : Nat × Nat | ext S p.1 p.2 ≠ 0} = (fun ij : Fin d × Fin d => ((ij.1 : Nat), (ij.2 : Nat))) '' supp S := by
  ext ⟨i, j⟩
  simp only [Set.mem_setOf_eq, Set.mem_image, Prod.exists, Prod.mk.injEq, supp]
  constructor
  · intro h
    unfold ext at h
    split at h
    · next hd => exact ⟨⟨i, hd.1⟩, ⟨j, hd.2⟩, h, rfl, rfl⟩
    · exact absurd rfl h
  · rintro ⟨a, b, h, rfl, rfl⟩
    simpa [ext] using h

noncomputable def lossyContract : Contract lossy where
  Made f d P := f.pat = (fun ij : Fin d × Fin d => ((ij.1 : Nat), (ij.2 : Nat))) '' P
  chol d S hS := ⟨⟨d, {p | ext S p.1 p.2 ≠ 0}, ext S⟩, if_pos hS, ⟨fun b => by
    show (toMatrix d (ext S))⁻¹ *ᵥ b = _
    rw [toMatrix_ext], by
    show Real.log (toMatrix d (ext S)).det = _
    rw [toMatrix_ext]⟩, supp_ext S⟩
  chol_not d S hS := if_neg hS
  inplace f d S hm hS := by
    have e := keep_full S f.pat (hm.trans (supp_ext S).symm)
    have : lossy.inplace f d S = (⟨d, f.pat, ext S⟩, true) := by
      show refactor f d S = _
      unfold refactor
      rw [e, toMatrix_ext, if_pos hS]
      rfl
    rw [this]
    refine ⟨rfl, fun b => ?_, ?_⟩
    · show (toMatrix d (ext S))⁻¹ *ᵥ b = _
      rw [toMatrix_ext]
    · show Real.log (toMatrix d (ext S)).det = _
      rw [toMatrix_ext]
  inplace_not f d S hm hS := by
    have e := keep_full S f.pat (hm.trans (supp_ext S).symm)
    show (refactor f d S).2 = _
    unfold refactor
    rw [e, toMatrix_ext, if_neg hS]
  keeps f d S hm := by
    show (refactor f d S).1.pat = _
    unfold refactor
    split <;> exact hm

/-! ## Two calls with different patterns -/

/-- Two TOAs of variance 3, a constant process of variance 2, and nothing left of the residuals. -/
noncomputable def quietPsr : PsrEval := { samplePsr 2 with res := ![0, 1] }

noncomputable def quiet : Known where
  p := quietPsr
  m := 0
  k := 1
  N := diagonal fun _ => 3
  M := of fun _ j => j.elim0
  T := of fun _ _ => 1
  Φ := diagonal fun _ => 2
  noise := ⟨.base (.arr fun _ => 3), fun _ => True, rfl,
    whole_base (arr_exact (fun _ : Fin 2 => (3 : ℝ)) fun _ => by norm_num) _, trivial⟩
  gp := .inr ⟨rfl, _, rfl, rfl, by
    ext i j
    simp [toMatrix, PtaPhi.entries, Kernel.diagMat, Matrix.diagonal_apply, Fin.ext_iff]⟩
  pos := PosDef.diagonal fun _ => by norm_num

theorem quiet_r : quiet.r = 0 := by
  have : (![0, 1] : Fin 2 → ℝ) - ([![0, 1]] : List (Fin 2 → ℝ)).sum = 0 := by rw [List.sum_singleton, sub_self]
  exact this

theorem quiet_b : quiet.b = 0 := by
  unfold Known.b
  rw [quiet_r, mulVec_zero, mulVec_zero]

/-- The entry of the block of a pulsar. -/
noncomputable def quietA : ℝ := quiet.A (0 : Fin 1) (0 : Fin 1)

theorem quiet_A : 0 ≤ quietA := by
  have h : (quiet.A).PosSemidef := by
    have := (projN_posSemidef quiet.hN quiet.hM).conjTranspose_mul_mul_same quiet.T
    rw [conjTranspose_eq_transpose_of_trivial, Matrix.mul_assoc] at this
    exact this
  exact h.diag_nonneg

noncomputable def quietHeap : Heap := ⟨fun _ => some ⟨1, quiet.A⟩, fun _ => some ⟨1, quiet.b⟩⟩

/-- Two such pulsars with cross-correlation `x`, in arrays that do not change. -/
noncomputable def quietCall (x : ℝ) : Call := ⟨[quietPsr, quietPsr], [sampleClass x], .sparse, [0, 0], [0, 0]⟩

theorem quiet_linked (x : ℝ) : Linked quietHeap (quietCall x) := by
  have h1 := mapM_ok Known.p PsrEval.TNr Known.oTNr [quiet, quiet] fun q _ => q.TNr_eq
  have h2 := mapM_ok Known.p PsrEval.TNT Known.oTNT [quiet, quiet] fun q _ => q.TNT_eq
  refine ⟨fun l hl => ?_, fun l hl => ?_⟩
  · have := h1.symm.trans hl
    cases this; rfl
  · have := h2.symm.trans hl
    cases this; rfl

theorem quiet_phi (x : ℝ) : ∃ F, PtaPhi.getPhi [some (.one 1 fun _ => 2), some (.one 1 fun _ => 2)] [sampleClass x] =
    .ok (.big 2 F) ∧ toMatrix 2 F = !![2, x; x, 2] := by
  obtain ⟨F, e, hF⟩ := PtaPhi.C48_entries [some (.one 1 fun _ => (2 : ℝ)), some (.one 1 fun _ => 2)] [sampleClass x] (by simp)
    (by simp +contextual [sampleClass, PtaPhi.KlassOk, PtaPhi.ItemOk, PtaPhi.CrossOk, PtaPhi.pairs, PtaPhi.slices, Kernel.Kern.size])
  refine ⟨F, e, ?_⟩
  ext i j
  simp only [toMatrix, of_apply, hF]
  fin_cases i <;> fin_cases j <;>
    simp [PtaPhi.blockDiag, PtaPhi.entries, Kernel.diagMat, PtaPhi.klassTerm, PtaPhi.pairTerm, PtaPhi.spread, sampleClass,
      PtaPhi.pairs, PtaPhi.slices, Kernel.Kern.size, Combine.amat, Kernel.diagMat]

theorem two_posDef (p q : ℝ) (h : |q| < p) : (!![p, q; q, p] : Matrix (Fin 2) (Fin 2) ℝ).PosDef := by
  obtain ⟨h1, h2⟩ := abs_lt.1 h
  refine PosDef.of_dotProduct_mulVec_pos (by ext i j; fin_cases i <;> fin_cases j <;> simp) fun x hx => ?_
  simp only [star_trivial, dotProduct, mulVec, Fin.sum_univ_two]
  simp
  have : x 0 ≠ 0 ∨ x 1 ≠ 0 := by
    by_contra h
    push Not at h
    exact hx (funext fun i => by fin_cases i <;> simp [h.1, h.2])
  have e : x 0 * (p * x 0 + q * x 1) + x 1 * (q * x 0 + p * x 1) =
      (p + q) / 2 * (x 0 + x 1) ^ 2 + (p - q) / 2 * (x 0 - x 1) ^ 2 := by ring
  rw [e]
  have a1 : 0 < (p + q) / 2 := by linarith
  have a2 : 0 < (p - q) / 2 := by linarith
  by_cases hs : x 0 + x 1 = 0
  · have hd : x 0 - x 1 ≠ 0 := by
      intro hd
      rcases this with h | h
      · exact h (by linarith)
      · exact h (by linarith)
    rw [hs]
    have := mul_pos a2 (sq_pos_of_ne_zero hd)
    linarith
  · have := mul_pos a1 (sq_pos_of_ne_zero hs)
    have := mul_nonneg a2.le (sq_nonneg (x 0 - x 1))
    linarith

/-- The blocks of the two pulsars. -/
noncomputable def quietAs : List (Σ k, Matrix (Fin k) (Fin k) ℝ) := [⟨1, quiet.A⟩, ⟨1, quiet.A⟩]

noncomputable def quietBs : List (Σ k, Fin k → ℝ) := [⟨1, quiet.b⟩, ⟨1, quiet.b⟩]

/-- The matrix that is factored. -/
noncomputable def quietS (x : ℝ) : Matrix (Fin 2) (Fin 2) ℝ := toMatrix 2 (blockDiagOf quietAs) + (!![2, x; x, 2])⁻¹

theorem quietS_eq (x : ℝ) : quietS x =
    !![quietA + 2 / (4 - x ^ 2), -x / (4 - x ^ 2);
       -x / (4 - x ^ 2), quietA + 2 / (4 - x ^ 2)] := by
  unfold quietS
  rw [Matrix.inv_def, adjugate_fin_two_of, det_fin_two_of, Ring.inverse_eq_inv']
  have e : (2 * 2 - x * x)⁻¹ = (4 - x ^ 2)⁻¹ := by ring_nf
  rw [e]
  ext i j
  fin_cases i <;> fin_cases j <;> simp [toMatrix, blockDiagOf, quietAs, quietA, div_eq_inv_mul]

theorem quietB (i : Fin 2) : concatOf quietBs i = 0 := by
  fin_cases i <;> simp [concatOf, quietBs, quiet_b] <;> rfl

theorem quiet_inv (svd : ∀ {n : Nat} (M : Matrix (Fin n) (Fin n) ℝ), Svd M) (x : ℝ) (hx : |x| < 2) :
    bigPhiinv svd [some (.one 1 fun _ => (2 : ℝ)), some (.one 1 fun _ => (2 : ℝ))] [sampleClass x] .sparse =
      .ok ((!![2, x; x, 2] : Matrix (Fin 2) (Fin 2) ℝ)⁻¹, Real.log (!![2, x; x, 2] : Matrix (Fin 2) (Fin 2) ℝ).det) := by
  obtain ⟨F, e, hF⟩ := quiet_phi x
  rw [sparse_inv svd _ _ F e (by
    show (toMatrix 2 F).PosDef
    rw [hF]; exact two_posDef 2 x hx)]
  show Except.ok ((toMatrix 2 F)⁻¹, Real.log (toMatrix 2 F).det) = _
  rw [hF]
  rfl

theorem quiet_call (svd : ∀ {n : Nat} (M : Matrix (Fin n) (Fin n) ℝ), Svd M) (x : ℝ) (hx : |x| < 2) (st : State lossy) :
    ∃ rs, quietPsr.rNr = .ok rs ∧
    call lossy svd true quietHeap st (quietCall x) =
      let y := commonCall lossy true quietHeap st [0, 0] [0, 0] (!![2, x; x, 2] : Matrix (Fin 2) (Fin 2) ℝ)⁻¹
        (Real.log (!![2, x; x, 2] : Matrix (Fin 2) (Fin 2) ℝ).det)
      (y.1, match y.2 with
        | .error e => .error e
        | .ok o => .ok (o.map (0 + -(1 / 2) * [rs, rs].sum + [quietPsr.lnprior, quietPsr.lnprior].sum + ·))) := by
  have h1 := mapM_ok Known.p PsrEval.TNr Known.oTNr [quiet, quiet] fun q _ => q.TNr_eq
  have h2 := mapM_ok Known.p PsrEval.TNT Known.oTNT [quiet, quiet] fun q _ => q.TNT_eq
  have h3 := mapM_ok Known.p PsrEval.rNr (fun q => q.r ⬝ᵥ (q.P *ᵥ q.r) + q.ld) [quiet, quiet] fun q _ => q.rNr_ok
  refine ⟨_, quiet.rNr_ok, ?_⟩
  simp only [call]
  have g1 : (quietCall x).ps.mapM PsrEval.TNr = .ok ([quiet, quiet].map Known.oTNr) := h1
  have g2 : (quietCall x).ps.mapM PsrEval.TNT = .ok ([quiet, quiet].map Known.oTNT) := h2
  have g3 : (quietCall x).ps.mapM PsrEval.rNr = _ := h3
  have g4 : (quietCall x).classes = [sampleClass x] := rfl
  have g5 : bigPhiinv svd ((quietCall x).ps.map PsrEval.phi) [sampleClass x] (quietCall x).method = _ := quiet_inv svd x hx
  rw [g1, g2, g3]
  simp only [g4]
  rw [g5]
  rfl

theorem quiet_common (x ld : ℝ) (st : State lossy) (mt mr) (e1 : memoCall (blockTNT quietHeap) st.memoT (.seq [0, 0]) = (mt, .ok quietAs))
    (e2 : memoCall (blockTNr quietHeap) st.memoR (.seq [0, 0]) = (mr, .ok quietBs)) :
    commonCall lossy true quietHeap st [0, 0] [0, 0] (!![2, x; x, 2] : Matrix (Fin 2) (Fin 2) ℝ)⁻¹ ld =
      (⟨mt, mr, (factor lossy st.cf 2 (quietS x)).1⟩,
        .ok ((factor lossy st.cf 2 (quietS x)).2.map fun f => 1 / 2 * (0 - lossy.logdet f - ld))) := by
  have hb : (fun i : Fin 2 => concatOf quietBs i) = 0 := funext quietB
  have e3 : (fun f => 1 / 2 * ((fun i : Fin 2 => concatOf quietBs i) ⬝ᵥ
      lossy.solve f 2 (fun i : Fin 2 => concatOf quietBs i) - lossy.logdet f - ld)) = fun f => 1 / 2 * (0 - lossy.logdet f - ld) := by
    funext f
    rw [hb, zero_dotProduct]
  rw [← e3]
  unfold commonCall
  rw [e1, e2]
  simp only
  rw [if_pos ⟨rfl, rfl⟩]
  simp only [if_true]
  rfl

theorem quiet_pos (x : ℝ) (hx : |x| < 2) : (quietS x).PosDef := by
  have h4 : 0 < 4 - x ^ 2 := by nlinarith [abs_lt.1 hx]
  rw [quietS_eq x]
  apply two_posDef
  rw [abs_div, abs_neg, abs_of_pos h4]
  have := quiet_A
  have : |x| / (4 - x ^ 2) < 2 / (4 - x ^ 2) := by gcongr
  linarith

/-- The entries that the library keeps. -/
theorem quiet_keep : toMatrix 2 (keep {p : Nat × Nat | ext (quietS 0) p.1 p.2 ≠ 0} (ext (quietS 1))) =
    !![quietA + 2 / 3, 0; 0, quietA + 2 / 3] := by
  have h0 := quietS_eq 0
  have h1 := quietS_eq 1
  have ha := quiet_A
  have hz : quietA + 2 / 4 ≠ 0 := by linarith
  rw [h0, h1]
  ext i j
  fin_cases i <;> fin_cases j <;> simp [toMatrix, ext, hz, keep] <;> norm_num

/-- **C131 is false of the code** if nothing is known about `cholesky_inplace` with another pattern: for a
library that meets the contract, a call with uncorrelated pulsars changes the value of the next call. -/
theorem C131_history_false (svd : ∀ {n : Nat} (M : Matrix (Fin n) (Fin n) ℝ), Svd M) :
    ∃ (lib : Lib) (_ : Contract lib) (h : Heap) (c c' : Call), Linked h c ∧ Linked h c' ∧
      (∃ x, lnlike svd c'.method c'.ps c'.classes = .ok (some x)) ∧
      history lib svd true h [c, c'] none ≠ [c, c'].map fun c => lnlike svd c.method c.ps c.classes := by
  obtain ⟨rs, -, q0⟩ := quiet_call svd 0 (by norm_num) (.init lossy)
  obtain ⟨rs1, q1, q2⟩ := quiet_call svd 1 (by norm_num) (.init lossy)
  have first := C131_first lossyContract svd true quietHeap (quietCall 1) (quiet_linked 1)
  have s0 := quiet_pos 0 (by norm_num)
  have s1 := quiet_pos 1 (by norm_num)
  have f0 : factor lossy none 2 (quietS 0) = (some ⟨2, {p | ext (quietS 0) p.1 p.2 ≠ 0}, ext (quietS 0)⟩,
      some ⟨2, {p | ext (quietS 0) p.1 p.2 ≠ 0}, ext (quietS 0)⟩) := by
    simp only [factor, lossy, if_pos s0]
  have f1 : factor lossy none 2 (quietS 1) = (some ⟨2, {p | ext (quietS 1) p.1 p.2 ≠ 0}, ext (quietS 1)⟩,
      some ⟨2, {p | ext (quietS 1) p.1 p.2 ≠ 0}, ext (quietS 1)⟩) := by
    simp only [factor, lossy, if_pos s1]
  -- the value of the second call alone
  rw [quiet_common 1 _ (.init lossy) (some (.seq [0, 0], quietAs)) (some (.seq [0, 0], quietBs)) rfl rfl] at q2
  have l1 : lnlike svd (quietCall 1).method (quietCall 1).ps (quietCall 1).classes = (call lossy svd true quietHeap (.init lossy) (quietCall 1)).2 :=
    first.symm
  rw [q2] at l1
  simp only [State.init, f1] at l1
  -- the state after the first call
  rw [quiet_common 0 _ (.init lossy) (some (.seq [0, 0], quietAs)) (some (.seq [0, 0], quietBs)) rfl rfl] at q0
  simp only [State.init, f0] at q0
  refine ⟨lossy, lossyContract, quietHeap, quietCall 0, quietCall 1, quiet_linked 0, quiet_linked 1, ⟨_, l1⟩, fun hh => ?_⟩
  simp only [history, getLnlikelihood, Option.getD_none, Option.getD_some, List.map_cons, List.map_nil, List.cons.injEq, and_true,
    State.init] at hh
  obtain ⟨-, hh⟩ := hh
  rw [l1, q0] at hh
  simp only at hh
  obtain ⟨rs2, q1', q3⟩ := quiet_call svd 1 (by norm_num) ⟨some (.seq [0, 0], quietAs), some (.seq [0, 0], quietBs),
    some ⟨2, {p | ext (quietS 0) p.1 p.2 ≠ 0}, ext (quietS 0)⟩⟩
  rw [q1] at q1'
  cases q1'
  rw [quiet_common 1 _ _ (some (.seq [0, 0], quietAs)) (some (.seq [0, 0], quietBs)) rfl rfl] at q3
  rw [q3] at hh
  have ha := quiet_A
  have f2 : (factor lossy (some ⟨2, {p | ext (quietS 0) p.1 p.2 ≠ 0}, ext (quietS 0)⟩) 2 (quietS 1)).2.map lossy.logdet =
      some (Real.log ((quietA + 2 / 3) * (quietA + 2 / 3))) := by
    have hp := two_posDef (quietA + 2 / 3) 0 (by rw [abs_zero]; linarith)
    have e : lossy.inplace ⟨2, {p | ext (quietS 0) p.1 p.2 ≠ 0}, ext (quietS 0)⟩ 2 (quietS 1) =
        (⟨2, {p | ext (quietS 0) p.1 p.2 ≠ 0}, keep {p | ext (quietS 0) p.1 p.2 ≠ 0} (ext (quietS 1))⟩, true) :=
      if_pos (by rw [quiet_keep]; exact hp)
    have e' : (factor lossy (some ⟨2, {p | ext (quietS 0) p.1 p.2 ≠ 0}, ext (quietS 0)⟩) 2 (quietS 1)).2 =
        some ⟨2, {p | ext (quietS 0) p.1 p.2 ≠ 0}, keep {p | ext (quietS 0) p.1 p.2 ≠ 0} (ext (quietS 1))⟩ := by
      unfold factor
      simp only
      rw [e]
      rfl
    rw [e']
    show some (Real.log (toMatrix 2 (keep {p | ext (quietS 0) p.1 p.2 ≠ 0} (ext (quietS 1)))).det) = _
    rw [quiet_keep, det_fin_two_of, mul_zero, sub_zero]
  cases hf : (factor lossy (some ⟨2, {p | ext (quietS 0) p.1 p.2 ≠ 0}, ext (quietS 0)⟩) 2 (quietS 1)).2 with
  | none => rw [hf] at f2; cases f2
  | some f =>
    rw [hf] at f2 hh
    have f3 : lossy.logdet f = _ := Option.some.inj f2
    simp only [Option.map_some, f3] at hh
    have hh := Option.some.inj (Except.ok.inj hh)
    have f4 : lossy.logdet ⟨2, {p | ext (quietS 1) p.1 p.2 ≠ 0}, ext (quietS 1)⟩ =
        Real.log ((quietA + 2 / 3) * (quietA + 2 / 3) - 1 / 9) := by
      show Real.log (toMatrix 2 (ext (quietS 1))).det = _
      rw [toMatrix_ext, quietS_eq 1, det_fin_two_of]
      congr 1
      ring
    dsimp only at hh
    rw [f4] at hh
    have hl : Real.log ((quietA + 2 / 3) * (quietA + 2 / 3)) =
        Real.log ((quietA + 2 / 3) * (quietA + 2 / 3) - 1 / 9) := by linarith
    have := Real.log_injOn_pos (Set.mem_Ioi.2 (by nlinarith)) (Set.mem_Ioi.2 (by nlinarith)) hl
    linarith

/-- Two calls that meet the hypotheses of `C131_history_partial`: other cross-correlations, but none of them zero. -/
example (svd : ∀ {n : Nat} (M : Matrix (Fin n) (Fin n) ℝ), Svd M) :
    history lossy svd true quietHeap [quietCall 1, quietCall (1 / 2)] none =
      [quietCall 1, quietCall (1 / 2)].map fun c => lnlike svd c.method c.ps c.classes := by
  refine C131_history_partial lossyContract svd quietHeap ⟨2, Set.univ⟩ _ (by simp [quiet_linked]) ?_
  have key : ∀ x : ℝ, 0 < x → |x| < 2 → HasPattern svd ⟨2, Set.univ⟩ (quietCall x) := by
    intro x hx h2 _ TNTs As phiinv ld k1 k2 k3
    have e := (quiet_linked x).2 _ k1
    subst e
    have k2' : allSome [some ⟨1, quiet.A⟩, some ⟨1, quiet.A⟩] = .ok As := k2
    cases k2'
    have k3' := (quiet_inv svd x h2).symm.trans k3
    cases k3'
    have h4 : 0 < 4 - x ^ 2 := by nlinarith [abs_lt.1 h2]
    have ha := quiet_A
    have : supp (quietS x) = Set.univ := by
      rw [quietS_eq x]
      ext ⟨i, j⟩
      have a1 : quietA + 2 / (4 - x ^ 2) ≠ 0 := by positivity
      have a2 : -x / (4 - x ^ 2) ≠ 0 := div_ne_zero (neg_ne_zero.2 hx.ne') h4.ne'
      fin_cases i <;> fin_cases j <;> simp [supp, a1] <;> exact ⟨hx.ne', h4.ne'⟩
    show (⟨2, supp (quietS x)⟩ : Σ d, Set (Fin d × Fin d)) = _
    rw [this]
  intro c hc
  simp only [List.mem_cons, List.not_mem_nil, or_false] at hc
  rcases hc with rfl | rfl
  · exact key 1 (by norm_num) (by norm_num)
  · exact key (1 / 2) (by norm_num) (by rw [abs_lt]; norm_num)

end Verif.Calls
