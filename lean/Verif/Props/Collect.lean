import Verif.Model.Collect
import Verif.Props.Combine
import Verif.Props.Likelihood

/-!
# Property C105: the likelihood of pulsars is that of the sum of their signals
-/

namespace Verif.Collect

open Verif Verif.Likelihood Verif.Noise Verif.Combine Matrix
open Verif.Kernel (Kern)
open Verif.PhiInv (toMatrix)
open Verif.PtaPhi (entries)
open Verif.Partition (Svd)

variable {H : Type} [DecidableEq H]

/-! ## Specification -/

/-- The covariance of the residuals due to one signal: `F φ Fᵀ`. -/
noncomputable def sigMat (n : Nat) (s : BSig ℝ) : Matrix (Fin n) (Fin n) ℝ :=
  Matrix.of fun a b => sigCov s a b

/-- The prior of a signal is a positive definite matrix, as large as the basis. -/
def PriorPos (s : BSig ℝ) : Prop := s.basis ≠ none → (toMatrix s.basisAt.length (amat s.phi)).PosDef

/-- What is asked of a pulsar: noise that can be solved exactly with covariance `N` and columns `M` marginalized over, and
Gaussian processes as in C46, with positive definite priors. -/
structure Fine (hash : Col ℝ → H) (s : Psr) (m : Nat) (N : Matrix (Fin s.n) (Fin s.n) ℝ) (M : Matrix (Fin s.n) (Fin m) ℝ) : Prop where
  noise : ∃ o, getNdiag s.noise.reduceOption = .ok o ∧ Whole o N M fun _ => True
  ok : ∀ b ∈ s.sigs, SigOk b
  ordered : Ordered s.sigs
  hash : HashOk hash s.sigs
  pos : ∀ b ∈ s.sigs, PriorPos b

/-- The residuals without the delays. -/
def left (s : Psr) : Fin s.n → ℝ := s.res - s.delays.reduceOption.sum

/-! ## The combined prior is positive definite -/

/-- `xᵀ Φ x`. -/
noncomputable def form (n : Nat) (x : Nat → ℝ) (Φ : Nat → Nat → ℝ) : ℝ := bigQuad n (fun i _ => x i) Φ 0 0

theorem form_eq (n : Nat) (x : Nat → ℝ) (Φ : Nat → Nat → ℝ) :
    form n x Φ = (fun i : Fin n => x i) ⬝ᵥ (toMatrix n Φ *ᵥ fun i : Fin n => x i) := by
  simp only [form, bigQuad, dotProduct, mulVec, toMatrix, Matrix.of_apply]
  rw [Finset.sum_range]
  apply Finset.sum_congr rfl
  intro i _
  rw [Finset.sum_range, Finset.mul_sum]
  apply Finset.sum_congr rfl
  intro j _
  ring

theorem form_pos {n : Nat} {Φ : Nat → Nat → ℝ} (h : (toMatrix n Φ).PosDef) (x : Nat → ℝ) :
    0 ≤ form n x Φ ∧ (form n x Φ = 0 → ∀ i, i < n → x i = 0) := by
  rw [form_eq]
  constructor
  · have := h.posSemidef.dotProduct_mulVec_nonneg fun i : Fin n => x i
    simpa using this
  · intro h0 i hi
    by_contra hx
    have hne : (fun i : Fin n => x i) ≠ 0 := fun h => hx (congrFun h ⟨i, hi⟩)
    have := h.dotProduct_mulVec_pos hne
    simp only [star_trivial] at this
    exact absurd h0 this.ne'

theorem phiLoop_pos (n : Nat) (L : List (Col ℝ)) {sigs : List (BSig ℝ)} {ix : List (Option (List Nat))}
    (h : AllPoints L sigs ix) (hok : ∀ s ∈ sigs, SigOk s) (hpos : ∀ s ∈ sigs, PriorPos s)
    (hn : ∀ o ∈ ix, ∀ l, o = some l → ∀ i ∈ l, i < n) :
    ∀ Φ : Kern ℝ, Φ.size = n → (∀ i j, Φ.mat i j = Φ.mat j i) → (∀ x, 0 ≤ form n x Φ.mat) →
      ∃ Φ', Combine.phiLoop (sigs.zip ix) Φ = .ok Φ' ∧ (∀ i j, i < n → j < n → Φ'.mat i j = Φ'.mat j i) ∧
        ∀ x, form n x Φ.mat ≤ form n x Φ'.mat ∧
          (form n x Φ'.mat = 0 → ∀ o ∈ ix, ∀ l, o = some l → ∀ i ∈ l, x i = 0) := by
  induction h with
  | nil => intro Φ _ hs _; exact ⟨Φ, rfl, fun i j _ _ => hs i j, fun x => ⟨le_rfl, by simp⟩⟩
  | none hb ht ih =>
    intro Φ h1 h2 h3
    obtain ⟨Φ', e, a1, a2⟩ := ih (fun s hs => hok s (by simp [hs])) (fun s hs => hpos s (by simp [hs]))
      (fun o ho => hn o (by simp [ho])) Φ h1 h2 h3
    refine ⟨Φ', e, a1, fun x => ⟨(a2 x).1, fun h0 o ho l hl => ?_⟩⟩
    rcases List.mem_cons.1 ho with rfl | ho
    · cases hl
    · exact (a2 x).2 h0 o ho l hl
  | @some s t ix l F hb hp hnd ht ih =>
    intro Φ hs hsym h0
    obtain ⟨hne, hlen, -, hsz, -⟩ := hok s (by simp) F hb
    have hl0 : l ≠ [] := by
      intro e
      have := hp.1
      rw [e, hlen] at this
      exact hne (List.length_eq_zero_iff.1 this.symm)
    have hll : l.length = F.length := hp.1.trans hlen
    have hpd : (toMatrix l.length (amat s.phi)).PosDef := by
      rw [hp.1]; exact hpos s (by simp) (by simp [hb])
    have hsy : ∀ p q, p < l.length → q < l.length → amat s.phi p q = amat s.phi q p := by
      intro p q hp hq
      have := congrFun (congrFun hpd.isHermitian ⟨q, hq⟩) ⟨p, hp⟩
      simpa [toMatrix] using this
    obtain ⟨r, e1, hr, h3, h4⟩ := phi_step Φ s.phi l hnd hl0 (by rw [hs]; exact hn _ (by simp) l rfl) (hll ▸ hsz)
    have hrsym : ∀ i j, r.mat i j = r.mat j i := by
      intro i j
      by_cases hi : i ∈ l
      · by_cases hj : j ∈ l
        · obtain ⟨p, hp', ep⟩ := List.getElem_of_mem hi
          obtain ⟨q, hq', eq⟩ := List.getElem_of_mem hj
          have e1 : l[p]? = some i := by rw [List.getElem?_eq_getElem hp', ep]
          have e2 : l[q]? = some j := by rw [List.getElem?_eq_getElem hq', eq]
          rw [h3 p q i j e1 e2, h3 q p j i e2 e1, hsym i j, hsy p q hp' hq']
        · rw [h4 i j (.inr hj), h4 j i (.inl hj), hsym]
      · rw [h4 i j (.inl hi), h4 j i (.inr hi), hsym]
    have hstep : ∀ x : Nat → ℝ, form n x r.mat = form n x Φ.mat + form l.length (fun p => x (l.getD p 0)) (amat s.phi) := by
      intro x
      exact bigQuad_step n (fun i _ => x i) Φ.mat r.mat (amat s.phi) l hnd (hn _ (by simp) l rfl) h3 h4 0 0
    have hr0 : ∀ x, 0 ≤ form n x r.mat := by
      intro x
      rw [hstep]
      exact add_nonneg (h0 x) (form_pos hpd _).1
    obtain ⟨Φ', e, a1, a2⟩ := ih (fun s hs => hok s (by simp [hs])) (fun s hs => hpos s (by simp [hs]))
      (fun o ho => hn o (by simp [ho])) r (hr.trans hs) hrsym hr0
    refine ⟨Φ', ?_, a1, fun x => ⟨?_, fun hz => ?_⟩⟩
    · rw [List.zip_cons_cons, Combine.phiLoop, if_neg hl0, e1]
      exact e
    · refine le_trans ?_ (a2 x).1
      rw [hstep]
      exact le_add_of_nonneg_right (form_pos hpd _).1
    · intro o ho l' hl'
      rcases List.mem_cons.1 ho with rfl | ho
      · cases hl'
        have h5 : form l.length (fun p => x (l.getD p 0)) (amat s.phi) = 0 := by
          have g1 := (a2 x).1
          have g2 := (form_pos hpd fun p => x (l.getD p 0)).1
          have g3 := h0 x
          have g4 := hstep x
          linarith
        intro i hi
        obtain ⟨p, hp', ep⟩ := List.getElem_of_mem hi
        have := (form_pos hpd fun p => x (l.getD p 0)).2 h5 p hp'
        simpa [List.getD_eq_getElem?_getD, List.getElem?_eq_getElem hp', ep] using this
      · exact (a2 x).2 hz o ho l' hl'

/-- C105: signals with positive definite priors have a positive definite prior together, shared columns or not. -/
theorem C105_prior (hash : Col ℝ → H) (sigs : List (BSig ℝ)) (hok : ∀ s ∈ sigs, SigOk s) (ho : Ordered sigs)
    (hh : HashOk hash sigs) (hb : ∃ s ∈ sigs, s.basis ≠ none) (hpos : ∀ s ∈ sigs, PriorPos s) :
    ∃ n T Φ, getBasis hash sigs = .ok (some (n, T)) ∧ getPhi hash sigs = .ok (some Φ) ∧ Φ.size = n ∧
      (toMatrix n (entries Φ)).PosDef ∧ ∀ a b, bigQuad n T (entries Φ) a b = (sigs.map fun s => sigCov s a b).sum := by
  obtain ⟨n, T, Φ, h1, h2, h3, h4⟩ := C46_partial hash sigs hok ho hh hb
  have hent : entries Φ = Φ.mat := by cases Φ <;> rfl
  refine ⟨n, T, Φ, h1, h2, h3, ?_, by rw [hent]; exact h4⟩
  obtain ⟨L, -, hL⟩ := combine_all hash sigs [] hok ho (by
    rintro c c' (h | ⟨s, hs, F, hF, hc⟩) (h' | ⟨s', hs', F', hF', hc'⟩)
    · simp at h
    · simp at h
    · simp at h'
    · exact hh s hs s' hs' F F' hF hF' c hc c' hc')
  have hL : AllPoints L sigs (idxOf hash sigs) := hL
  have hne : ¬ ∀ o ∈ idxOf hash sigs, o = none := by
    intro h
    unfold getBasis at h1
    simp only [if_pos h] at h1
    cases h1
  have hmem : ∀ o ∈ idxOf hash sigs, ∀ l, o = some l → ∀ i ∈ l, i < ncol (idxOf hash sigs) := by
    intro o ho l hl i hi
    rw [mem_iff_lt_ncol]
    exact List.mem_flatMap.2 ⟨o, ho, by rw [hl]; exact hi⟩
  have hz : ∀ x, form (ncol (idxOf hash sigs)) x (Kern.zeros (ncol (idxOf hash sigs))).mat = 0 := by
    intro x
    unfold form bigQuad
    apply Finset.sum_eq_zero
    intro i _
    apply Finset.sum_eq_zero
    intro j _
    simp [Kern.zeros, Kern.mat, Kernel.diagMat]
  obtain ⟨Φ', e, a1, a2⟩ := phiLoop_pos (ncol (idxOf hash sigs)) L hL hok hpos hmem (Kern.zeros (ncol (idxOf hash sigs))) rfl
    (fun i j => by simp [Kern.zeros, Kern.mat, Kernel.diagMat]) (fun x => (hz x).ge)
  have hn : n = ncol (idxOf hash sigs) := by
    unfold getBasis at h1
    simp only [if_neg hne] at h1
    split at h1
    · cases h1; rfl
    · cases h1
  have hΦ : Φ = Φ' := by
    unfold Combine.getPhi at h2
    simp only [if_neg hne, e] at h2
    cases h2; rfl
  subst hΦ
  rw [hent, hn]
  refine PosDef.of_dotProduct_mulVec_pos ?_ fun x hx => ?_
  · ext i j
    simpa [toMatrix] using a1 j i j.2 i.2
  · set y : Nat → ℝ := fun i => if h : i < ncol (idxOf hash sigs) then x ⟨i, h⟩ else 0 with hy
    have hyx : (fun i : Fin (ncol (idxOf hash sigs)) => y i) = x := by
      funext i; simp [hy]
    have hf := form_eq (ncol (idxOf hash sigs)) y Φ.mat
    rw [hyx] at hf
    have h5 := (a2 y).1
    rw [hz] at h5
    rw [star_trivial, ← hf]
    refine lt_of_le_of_ne h5 fun h6 => hx ?_
    have := (a2 y).2 h6.symm
    funext i
    have hi := (mem_iff_lt_ncol hash sigs i.1).1 i.2
    obtain ⟨o, ho', hio⟩ := List.mem_flatMap.1 hi
    cases o with
    | none => simp at hio
    | some l =>
      have := this _ ho' l rfl i.1 hio
      simpa [hy] using this

/-! ## The likelihood -/

theorem collect_known (hash : Col ℝ → H) (s : Psr) (m : Nat) (N : Matrix (Fin s.n) (Fin s.n) ℝ) (M : Matrix (Fin s.n) (Fin m) ℝ)
    (h : Fine hash s m N M) : ∃ q : Known, collect hash s = .ok q.p ∧ margLog q.C q.M q.r =
      margLog (N + (s.sigs.map (sigMat s.n)).sum) M (left s) ∧ q.p.lnprior = s.logprior.sum := by
  have hsum : ∀ (l : List (BSig ℝ)) (a b : Fin s.n), (l.map (sigMat s.n)).sum a b = (l.map fun x => sigCov x a b).sum := by
    intro l a b
    induction l with
    | nil => rfl
    | cons x t ih => rw [List.map_cons, List.sum_cons, Matrix.add_apply, ih, List.map_cons, List.sum_cons]; rfl
  obtain ⟨o, ho, hw⟩ := h.noise
  by_cases hb : ∃ b ∈ s.sigs, b.basis ≠ none
  · obtain ⟨k, T, Φ, h1, h2, h3, h4, h5⟩ := C105_prior hash s.sigs h.ok h.ordered h.hash hb h.pos
    refine ⟨{ p := { n := s.n, res := s.res, delays := s.delays, noise := s.noise, basis := some ⟨k, Matrix.of fun a i => T i a⟩,
                     phi := some Φ, logprior := s.logprior }
              m := m, k := k, N := N, M := M, T := Matrix.of fun a i => T i a, Φ := toMatrix k (entries Φ)
              noise := ⟨o, _, ho, hw, trivial⟩
              gp := .inr ⟨rfl, Φ, rfl, h3, rfl⟩
              pos := h4 }, ?_, ?_, rfl⟩
    · unfold collect
      rw [h1, h2]
      rfl
    · show margLog (N + _ * _ * _) M (s.res - s.delays.reduceOption.sum) = _
      congr 2
      ext a b
      rw [hsum, ← h5]
      simp only [bigQuad, Matrix.mul_apply, toMatrix, Matrix.of_apply, Matrix.transpose_apply]
      rw [Finset.sum_comm, Finset.sum_range]
      apply Finset.sum_congr rfl
      intro i _
      rw [Finset.sum_mul, Finset.sum_range]
  · push Not at hb
    obtain ⟨h1, h2⟩ := C46_none hash s.sigs hb
    refine ⟨{ p := { n := s.n, res := s.res, delays := s.delays, noise := s.noise, basis := none, phi := none, logprior := s.logprior }
              m := m, k := 0, N := N, M := M, T := 0, Φ := 0
              noise := ⟨o, _, ho, hw, trivial⟩
              gp := .inl ⟨rfl, rfl, rfl⟩
              pos := PosDef.of_dotProduct_mulVec_pos (by ext i; exact i.elim0) fun x hx => absurd (funext fun i => i.elim0) hx }, ?_, ?_, rfl⟩
    · unfold collect
      rw [h1, h2]
      rfl
    · show margLog (N + _ * _ * _) M (s.res - s.delays.reduceOption.sum) = _
      congr 2
      ext a b
      rw [hsum]
      have : (s.sigs.map fun x => sigCov x a b) = s.sigs.map fun _ => 0 := by
        apply List.map_congr_left
        intro x hx
        simp [sigCov, hb x hx]
      rw [this]
      simp

/-- C105: the likelihood of pulsars given by their signals is the sum of the logarithms of Gaussian densities of the residuals
without the delays, with the covariance of the noise plus those of all the Gaussian processes, with the columns of the
marginalized timing model marginalized over, plus the terms of the prior. -/
theorem C105_likelihood (hash : Col ℝ → H) (svd : ∀ {n : Nat} (M : Matrix (Fin n) (Fin n) ℝ), Svd M) (method : Method)
    (hm : method ≠ .other) (ps : List Psr) (m : Psr → Nat) (N : ∀ s : Psr, Matrix (Fin s.n) (Fin s.n) ℝ)
    (M : ∀ s : Psr, Matrix (Fin s.n) (Fin (m s)) ℝ) (h : ∀ s ∈ ps, Fine hash s (m s) (N s) (M s)) :
    likelihood hash svd method ps = .ok (some ((ps.map fun s =>
      margLog (N s + (s.sigs.map (sigMat s.n)).sum) (M s) (left s)).sum + (ps.map fun s => s.logprior.sum).sum)) := by
  have key : ∀ (ps : List Psr), (∀ s ∈ ps, Fine hash s (m s) (N s) (M s)) → ∃ qs : List Known, ps.mapM (collect hash) = .ok (qs.map Known.p) ∧
      (qs.map fun q => margLog q.C q.M q.r).sum =
        (ps.map fun s => margLog (N s + (s.sigs.map (sigMat s.n)).sum) (M s) (left s)).sum ∧
      priors qs = (ps.map fun s => s.logprior.sum).sum := by
    intro ps
    induction ps with
    | nil => intro _; exact ⟨[], rfl, rfl, rfl⟩
    | cons s t ih =>
      intro h
      obtain ⟨q, a1, a2, a3⟩ := collect_known hash s (m s) (N s) (M s) (h s (by simp))
      obtain ⟨qs, b1, b2, b3⟩ := ih fun x hx => h x (by simp [hx])
      refine ⟨q :: qs, ?_, ?_, ?_⟩
      · rw [List.mapM_cons, a1, b1]; rfl
      · rw [List.map_cons, List.sum_cons, a2, b2, List.map_cons, List.sum_cons]
      · unfold priors at b3 ⊢
        rw [List.map_cons, List.sum_cons, a3, b3, List.map_cons, List.sum_cons]
  obtain ⟨qs, h1, h2, h3⟩ := key ps h
  unfold likelihood
  rw [h1]
  simp only
  rw [C84 svd method hm qs, h2, h3]

/-- C105 for one pulsar. -/
theorem C105_one (hash : Col ℝ → H) (svd : ∀ {n : Nat} (M : Matrix (Fin n) (Fin n) ℝ), Svd M) (method : Method)
    (hm : method ≠ .other) (s : Psr) (m : Nat) (N : Matrix (Fin s.n) (Fin s.n) ℝ) (M : Matrix (Fin s.n) (Fin m) ℝ)
    (h : Fine hash s m N M) : likelihood hash svd method [s] =
      .ok (some (margLog (N + (s.sigs.map (sigMat s.n)).sum) M (left s) + s.logprior.sum)) := by
  obtain ⟨q, a1, a2, a3⟩ := collect_known hash s m N M h
  have e := C84 svd method hm [q]
  unfold likelihood
  rw [List.mapM_cons, a1]
  simp only [List.mapM_nil, bind, Except.bind, pure, Except.pure]
  simp only [List.map_cons, List.map_nil, priors, List.sum_cons, List.sum_nil, add_zero] at e
  rw [e, a2, a3]

/-- The pulsar with other Gaussian processes. -/
def withSigs (s : Psr) (l : List (BSig ℝ)) : Psr := { s with sigs := l }

/-- C105: the order of the Gaussian processes of a pulsar does not matter. -/
theorem C105_order (hash : Col ℝ → H) (svd : ∀ {n : Nat} (M : Matrix (Fin n) (Fin n) ℝ), Svd M) (method : Method)
    (hm : method ≠ .other) (s : Psr) (m : Nat) (N : Matrix (Fin s.n) (Fin s.n) ℝ) (M : Matrix (Fin s.n) (Fin m) ℝ)
    (h : Fine hash s m N M) (l : List (BSig ℝ)) (hp : s.sigs.Perm l) (ho : Ordered l) :
    likelihood hash svd method [withSigs s l] = likelihood hash svd method [s] := by
  have h' : Fine hash (withSigs s l) m N M := ⟨h.noise, fun b hb => h.ok b (hp.mem_iff.2 hb), ho,
    fun a ha b hb => h.hash a (hp.mem_iff.2 ha) b (hp.mem_iff.2 hb), fun b hb => h.pos b (hp.mem_iff.2 hb)⟩
  rw [C105_one hash svd method hm s m N M h, C105_one hash svd method hm (withSigs s l) m N M h']
  have : (l.map (sigMat s.n)).sum = (s.sigs.map (sigMat s.n)).sum := (hp.symm.map _).sum_eq
  show Except.ok (some (margLog (N + (l.map (sigMat s.n)).sum) M (left s) + s.logprior.sum)) = _
  rw [this]

/-- Two signals that differ at most in whether they share columns. -/
def apart (s : BSig ℝ) : BSig ℝ := { s with combine := false }

/-- C105: sharing columns between the Gaussian processes does not change the likelihood. -/
theorem C105_combine (hash : Col ℝ → H) (svd : ∀ {n : Nat} (M : Matrix (Fin n) (Fin n) ℝ), Svd M) (method : Method)
    (hm : method ≠ .other) (s : Psr) (m : Nat) (N : Matrix (Fin s.n) (Fin s.n) ℝ) (M : Matrix (Fin s.n) (Fin m) ℝ)
    (h : Fine hash s m N M) :
    likelihood hash svd method [withSigs s (s.sigs.map apart)] = likelihood hash svd method [s] := by
  have hord : ∀ l : List (BSig ℝ), Ordered (l.map apart) := by
    intro l
    induction l with
    | nil => trivial
    | cons x t ih =>
      refine ⟨fun _ _ y hy _ _ => ?_, ih⟩
      obtain ⟨z, -, rfl⟩ := List.mem_map.1 hy
      rfl
  have h' : Fine hash (withSigs s (s.sigs.map apart)) m N M := by
    refine ⟨h.noise, ?_, hord _, ?_, ?_⟩
    · intro b hb F hF
      obtain ⟨z, hz, rfl⟩ := List.mem_map.1 hb
      obtain ⟨g1, g2, g3, g4, -⟩ := h.ok z hz F hF
      exact ⟨g1, g2, g3, g4, fun _ hc => absurd hc (by simp [apart])⟩
    · intro a ha b hb
      obtain ⟨y, hy, rfl⟩ := List.mem_map.1 ha
      obtain ⟨z, hz, rfl⟩ := List.mem_map.1 hb
      exact h.hash y hy z hz
    · intro b hb
      obtain ⟨z, hz, rfl⟩ := List.mem_map.1 hb
      exact h.pos z hz
  rw [C105_one hash svd method hm s m N M h, C105_one hash svd method hm (withSigs s (s.sigs.map apart)) m N M h']
  have : ((s.sigs.map apart).map (sigMat s.n)).sum = (s.sigs.map (sigMat s.n)).sum := by
    rw [List.map_map]; rfl
  show Except.ok (some (margLog (N + ((s.sigs.map apart).map (sigMat s.n)).sum) M (left s) + s.logprior.sum)) = _
  rw [this]

/-! ## A case -/

/-- Two TOAs with noise variances 1 and 2, and two processes that share a column. -/
noncomputable def demo : Psr where
  n := 2
  res := ![1, 2]
  delays := [none, some ![0, 1]]
  noise := [some (.base (.arr ![1, 2])), none]
  sigs := [⟨true, false, some [fun i => i + 1], [fun i => i + 1], .one 1 fun _ => 3⟩,
    ⟨true, false, some [fun i => i + 1, fun _ => 1], [fun i => i + 1, fun _ => 1], .one 2 fun i => i + 1⟩]
  logprior := [0, 0]

example : Fine (fun c : Col ℝ => (c 0, c 1)) demo 0 (diagonal ![1, 2]) 0 := by
  have hv : ∀ i, 0 < (![1, 2] : Fin 2 → ℝ) i := by intro i; fin_cases i <;> simp
  have hne : (fun i : Nat => (i : ℝ) + 1) ≠ fun _ => 1 := by
    intro h
    have := congrFun h 1
    norm_num at this
  refine ⟨⟨.base (.arr ![1, 2]), ?_, whole_base (arr_exact _ hv) 0⟩, ?_, ?_, ?_, ?_⟩
  · simp [demo, getNdiag, List.reduceOption, Nmat.add, Base.add, pure, Except.pure, bind, Except.bind]
    rfl
  · intro b hb F hF
    simp only [demo, List.mem_cons, List.not_mem_nil, or_false] at hb
    rcases hb with rfl | rfl
    · cases hF
      simp [SizeOk]
    · cases hF
      simp [SizeOk, hne]
  · simp [demo, Ordered]
  · intro a ha b hb F F' hF hF' c hc c' hc' he
    have hcol : ∀ a ∈ demo.sigs, ∀ F, a.basis = some F → ∀ c ∈ F, c = (fun i : Nat => (i : ℝ) + 1) ∨ c = fun _ => 1 := by
      intro a ha F hF c hc
      simp only [demo, List.mem_cons, List.not_mem_nil, or_false] at ha
      rcases ha with rfl | rfl <;> cases hF <;> simp at hc
      · exact .inl hc
      · exact hc
    rcases hcol a ha F hF c hc with rfl | rfl <;> rcases hcol b hb F' hF' c' hc' with rfl | rfl <;> first | rfl | (norm_num at he)
  · have hd : ∀ (k : Nat) (v : Nat → ℝ), (∀ i, 0 < v i) → (toMatrix k (amat (.one k v))).PosDef := by
      intro k v hv
      have : toMatrix k (amat (.one k v)) = diagonal fun i : Fin k => v i := by
        ext i j
        simp only [toMatrix, amat, Matrix.of_apply, Matrix.diagonal_apply, Fin.ext_iff]
      rw [this]
      exact PosDef.diagonal fun i => hv i
    intro b hb _
    simp only [demo, List.mem_cons, List.not_mem_nil, or_false] at hb
    rcases hb with rfl | rfl
    · exact hd 1 _ fun _ => by norm_num
    · exact hd 2 _ fun i => by positivity

end Verif.Collect
