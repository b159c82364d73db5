import Verif.Model.Standard
import Verif.Props.EcorrGP
import Verif.Props.Fourier
import Verif.Props.TmBasis

/-!
# A pulsar with the usual signals

The likelihood of measurement noise, ECORR, a timing model and Fourier processes with power laws, written out.
-/

namespace Verif.Standard

open Verif Verif.Noise Verif.Combine Verif.Likelihood Finset

/-! ## Specification -/

/-- The variance of a TOA with uncertainty `σ` and the parameters of key `k`. -/
noncomputable def White.var : White → String → ℝ → ℝ
  | .t2 efac q, k, σ => efac k ^ 2 * (σ ^ 2 + ((10 : ℝ) ^ q k) ^ 2)
  | .tn efac q, k, σ => (efac k * σ) ^ 2 + ((10 : ℝ) ^ q k) ^ 2

/-- No error scale is zero where that would leave no noise. -/
def White.Pos : White → Prop
  | .t2 efac _ => ∀ k, efac k ≠ 0
  | .tn _ _ => True

/-- What epochs are: TOAs of one epoch belong to one mask and are less than `dt` apart, simultaneous TOAs of one mask are in one
epoch, and no TOA is in two epochs.  The epochs of a mask are those of at least two TOAs that start with the first TOA that is not in
an earlier one. -/
structure Epoch (toas : List ℝ) (dt : ℝ) (masks : Dict String Mask) (same : Nat → Nat → Bool) : Prop where
  symm : ∀ i j, same i j = true → same j i = true
  trans : ∀ i j k, same i j = true → same j k = true → same i k = true
  near : ∀ i j, same i j = true → ∃ km ∈ masks, InMask km.2 i ∧ InMask km.2 j ∧ |toas.getD i 0 - toas.getD j 0| < dt
  together : ∀ km ∈ masks, ∀ i j, InMask km.2 i → InMask km.2 j → i ≠ j → toas.getD i 0 = toas.getD j 0 → same i j = true
  exact : ∀ i j, same i j = true ↔ ∃ km ∈ masks, Quantize.Together toas dt km.2 i j

/-- The covariance of a process with a power law. -/
noncomputable def PowerGP.cov (g : PowerGP) (toas nu : List ℝ) (T : String → ℝ) (i j : Nat) : ℝ :=
  (g.masks.map fun km => if InMask km.2 i ∧ InMask km.2 j then
    g.chrom.factor (nu.getD i 0) * g.chrom.factor (nu.getD j 0) * ∑ k ∈ range g.args.nmodes, Fourier.plaw (g.now km.1).1 (g.now km.1).2 (T km.1) k *
      Real.cos (2 * Real.pi * (((k : ℝ) + 1) / T km.1) * (toas.getD i 0 - toas.getD j 0)) else 0).sum

/-- The usual arguments: harmonics of a positive time span `T`, which may be the span of the TOAs of the mask; phases may be
shifted at random. -/
structure PowerGP.Usual (g : PowerGP) (toas : List ℝ) (T : String → ℝ) : Prop where
  plain : Bases.Plain g.args
  seed : g.args.pseed = none
  modes : g.args.nmodes ≠ 0
  some : g.masks ≠ []
  keys : (g.masks.map Prod.fst).Nodup
  len : ∀ km ∈ g.masks, km.2.length = toas.length
  span : ∀ km ∈ g.masks, 0 < T km.1 ∧ Bases.tspan (maskSelect toas km.2) g.args = .ok (T km.1)

/-- The columns of a process that may share them are distinct. -/
def PowerGP.Distinct (g : PowerGP) (seeded : Int → Bases.Rng) (toas nu : List ℝ) : Prop :=
  g.combine = true → ∀ rng items rng' s, Fourier.bases g.chrom seeded g.args toas nu (WhiteNoise.sortedItems g.masks) rng = .ok (items, rng') →
    BasisGP.construct items = .ok s → (s.basis.map fun c (a : Nat) => c.getD a 0).Nodup

/-! ## The parts -/

theorem run_ok (seeded : Int → Bases.Rng) (toas nu : List ℝ) (hnu : nu.length = toas.length) (g : PowerGP) (T : String → ℝ)
    (hu : g.Usual toas T) (hd : g.Distinct seeded toas nu) (rng : Bases.Rng) :
    ∃ b rng', g.run seeded toas nu rng = .ok (b, rng') ∧ b.varying = false ∧ SigOk b ∧ Collect.PriorPos b ∧
      ∀ i j, sigCov b i j = g.cov toas nu T i j := by
  obtain ⟨items, rng', h1, h2⟩ := Fourier.C108_powerlaw g.chrom seeded g.args hu.plain hu.seed hu.modes toas nu hnu g.masks hu.some hu.keys
    hu.len T hu.span rng
  obtain ⟨s, h3, h4⟩ := h2 g.combine fun hc s hs => hd hc rng items rng' s h1 hs
  obtain ⟨s', h5, h6, h7, h8⟩ := h4 g.hist (fun k => (g.now k).1) fun k => (g.now k).2
  refine ⟨BasisGP.signal g.combine s', rng', ?_, rfl, h6, h7, h8⟩
  unfold PowerGP.run
  rw [h1]
  simp only [h3]
  rw [List.map_append, List.map_cons, List.map_nil, h5]

theorem runs_ok (seeded : Int → Bases.Rng) (toas nu : List ℝ) (hnu : nu.length = toas.length) (gs : List (PowerGP × (String → ℝ)))
    (hu : ∀ g ∈ gs, g.1.Usual toas g.2) (hd : ∀ g ∈ gs, g.1.Distinct seeded toas nu) : ∀ rng : Bases.Rng,
    ∃ bs, runs seeded toas nu (gs.map Prod.fst) rng = .ok bs ∧ (∀ b ∈ bs, b.varying = false ∧ SigOk b ∧ Collect.PriorPos b) ∧
      ∀ i j, (bs.map fun b => sigCov b i j).sum = (gs.map fun g => g.1.cov toas nu g.2 i j).sum := by
  induction gs with
  | nil => intro rng; exact ⟨[], rfl, by simp, fun _ _ => rfl⟩
  | cons g t ih =>
    intro rng
    obtain ⟨b, rng', h1, h2, h3, h4, h5⟩ := run_ok seeded toas nu hnu g.1 g.2 (hu g (by simp)) (hd g (by simp)) rng
    obtain ⟨bs, g1, g2, g3⟩ := ih (fun x hx => hu x (by simp [hx])) (fun x hx => hd x (by simp [hx])) rng'
    refine ⟨b :: bs, ?_, ?_, fun i j => ?_⟩
    · rw [List.map_cons, runs, h1]
      simp only [g1]
    · intro x hx
      rcases List.mem_cons.1 hx with rfl | hx
      · exact ⟨h2, h3, h4⟩
      · exact g2 x hx
    · rw [List.map_cons, List.sum_cons, h5, g3, List.map_cons, List.sum_cons]

theorem ordered_of (l : List (BSig ℝ)) (h : ∀ b ∈ l, b.varying = false) : Ordered l := by
  induction l with
  | nil => trivial
  | cons x t ih =>
    refine ⟨fun _ hv => ?_, ih fun b hb => h b (by simp [hb])⟩
    rw [h x (by simp)] at hv
    cases hv

/-- The timing model as a Gaussian process. -/
theorem timing_ok {n : Nat} (B : Σ k : Nat, Matrix (Fin n) (Fin k) ℝ) (h0 : B.1 ≠ 0) (hd : ∀ j j', (∀ i, B.2 i j = B.2 i j') → j = j') :
    SigOk (timingModel B) ∧ Collect.PriorPos (timingModel B) ∧
      ∀ i j : Fin n, sigCov (timingModel B) i j = 1e40 * ∑ c, B.2 i c * B.2 j c := by
  refine ⟨?_, ?_, fun i j => ?_⟩
  · intro F hF
    have hF : (List.finRange B.1).map (fun (j : Fin B.1) (a : Nat) => if h : a < n then B.2 ⟨a, h⟩ j else 0) = F := by
      simpa [timingModel] using hF
    subst hF
    refine ⟨?_, rfl, fun _ => rfl, by simp [SizeOk, timingModel], fun _ _ => ?_⟩
    · intro h
      have := congrArg List.length h
      simp at this
      exact h0 this
    · refine List.Nodup.map (fun j j' h => hd j j' fun i => ?_) (List.nodup_finRange _)
      have := congrFun h i.1
      simpa using this
  · intro _
    have : PhiInv.toMatrix (timingModel B).basisAt.length (amat (timingModel B).phi) = Matrix.diagonal fun _ => (1e40 : ℝ) := by
      ext a b
      rw [Matrix.diagonal_apply]
      show (if a.1 = b.1 then (1e40 : ℝ) else 0) = _
      simp only [Fin.ext_iff]
    rw [this]
    exact Matrix.PosDef.diagonal fun _ => by norm_num
  · show quad _ _ _ _ = _
    have hcol : ∀ (p : Fin B.1) (i : Fin n), ((timingModel B).basisAt.getD p fun _ => 0) i = B.2 i p := by
      intro p i
      simp [timingModel, List.getD_eq_getElem?_getD]
    have hlen : (timingModel B).basisAt.length = B.1 := by simp [timingModel]
    unfold quad
    rw [hlen, Finset.sum_range, Finset.mul_sum]
    apply Finset.sum_congr rfl
    intro p _
    rw [Finset.sum_range, Finset.sum_eq_single p]
    · rw [hcol, hcol]
      simp only [timingModel, amat, if_true]
      ring
    · intro q _ hq
      have : p.1 ≠ q.1 := fun h => hq (Fin.ext h.symm)
      simp only [timingModel, amat, if_neg this]
      ring
    · simp

/-- The epochs of `EcorrKernelNoise`. -/
theorem epochs_ok (argsort : List ℝ → List Nat) (hsort : ∀ l, Quantize.IsArgsort l (argsort l)) (toas : List ℝ) (dt : ℝ) (hdt : 0 < dt)
    (masks : Dict String Mask) (hn : (masks.map Prod.fst).Nodup) (hlen : ∀ km ∈ masks, km.2.length = toas.length)
    (hdisj : MasksDisjoint masks) (hne : ∀ km ∈ masks, ∃ i, InMask km.2 i) :
    ∃ idxs same, Quantize.ecorrIdxs argsort toas dt masks = .ok idxs ∧ Epoch toas dt masks same ∧
      ∀ (amp : String → ℝ) (key : Nat → String), (∀ km ∈ masks, ∀ i, InMask km.2 i → key i = km.1) → ∀ i j : Nat,
        BasisGP.epochCov ((Quantize.getJvecs idxs amp).1.zip (Quantize.getJvecs idxs amp).2) i j = if same i j = true then amp (key i) else 0 := by
  obtain ⟨idxs, h1, b1, b2, b3, b4, b5⟩ := Quantize.C12_ecorr_epochs argsort hsort toas dt hdt masks (fun _ => (0 : ℝ)) hn hlen hdisj hne
  -- the indices do not depend on the amplitudes
  generalize hE : (Quantize.getJvecs idxs fun _ => (0 : ℝ)).1 = E at *
  have hE' : ∀ amp : String → ℝ, (Quantize.getJvecs idxs amp).1 = E := fun amp => by rw [← hE]; rfl
  have mem : ∀ e ∈ E, 2 ≤ e.length ∧ ∃ km ∈ masks, (∀ i ∈ e, InMask km.2 i) ∧
      ∀ i ∈ e, ∀ i' ∈ e, ∀ x x', toas[i]? = some x → toas[i']? = some x' → |x - x'| < dt := by
    intro e he
    obtain ⟨k, hk, rfl⟩ := List.getElem_of_mem he
    obtain ⟨c1, -, km, c2, -, c3, c4⟩ := b3 k _ _ (List.getElem?_eq_getElem hk) (List.getElem?_eq_getElem (by omega))
    exact ⟨c1, km, c2, c3, c4⟩
  have uniq : ∀ e ∈ E, ∀ e' ∈ E, ∀ i, i ∈ e → i ∈ e' → e = e' := by
    intro e he e' he' i hi hi'
    obtain ⟨k, hk, rfl⟩ := List.getElem_of_mem he
    obtain ⟨k', hk', rfl⟩ := List.getElem_of_mem he'
    rw [List.pairwise_iff_getElem] at b2
    rcases lt_trichotomy k k' with h | h | h
    · exact absurd hi' (b2 k k' hk hk' h hi)
    · subst h; rfl
    · exact absurd hi (b2 k' k hk' hk h hi')
  refine ⟨idxs, fun i j => decide (∃ e ∈ E, i ∈ e ∧ j ∈ e), h1, ⟨?_, ?_, ?_, ?_, fun i j => decide_eq_true_iff.trans (b5 i j)⟩, ?_⟩
  · intro i j h
    obtain ⟨e, he, hi, hj⟩ := of_decide_eq_true h
    exact decide_eq_true ⟨e, he, hj, hi⟩
  · intro i j k h h'
    obtain ⟨e, he, hi, hj⟩ := of_decide_eq_true h
    obtain ⟨e', he', hj', hk⟩ := of_decide_eq_true h'
    rw [← uniq e he e' he' j hj hj'] at hk
    exact decide_eq_true ⟨e, he, hi, hk⟩
  · intro i j h
    obtain ⟨e, he, hi, hj⟩ := of_decide_eq_true h
    obtain ⟨-, km, hkm, c1, c2⟩ := mem e he
    refine ⟨km, hkm, c1 i hi, c1 j hj, ?_⟩
    have hl : ∀ i ∈ e, i < toas.length := fun i hi => by
      rw [← hlen km hkm]
      exact (List.getElem?_eq_some_iff.1 (c1 i hi)).1
    rw [List.getD_eq_getElem?_getD, List.getD_eq_getElem?_getD, List.getElem?_eq_getElem (hl i hi), List.getElem?_eq_getElem (hl j hj)]
    exact c2 i hi j hj _ _ (List.getElem?_eq_getElem (hl i hi)) (List.getElem?_eq_getElem (hl j hj))
  · intro km hkm i j hi hj hij ht
    have hl : ∀ i, InMask km.2 i → i < toas.length := fun i hi => by
      rw [← hlen km hkm]
      exact (List.getElem?_eq_some_iff.1 hi).1
    rw [List.getD_eq_getElem?_getD, List.getD_eq_getElem?_getD, List.getElem?_eq_getElem (hl i hi), List.getElem?_eq_getElem (hl j hj)] at ht
    obtain ⟨k, e, c1, -, c2, c3⟩ := b4 km hkm i j (toas[i]'(hl i hi)) hi hj hij (List.getElem?_eq_getElem (hl i hi)) (by
      rw [List.getElem?_eq_getElem (hl j hj)]
      exact congrArg some ht.symm)
    exact decide_eq_true ⟨e, List.mem_of_getElem? c1, c2, c3⟩
  · intro amp key hkey i j
    obtain ⟨idxs', h2, d1, -, d3, -⟩ := Quantize.C12_ecorr_epochs argsort hsort toas dt hdt masks amp hn hlen hdisj hne
    rw [h1] at h2
    cases h2
    rw [hE' amp] at d1 d3 ⊢
    generalize (Quantize.getJvecs idxs amp).2 = J at d1 d3 ⊢
    -- at most one epoch counts
    have hval : ∀ ej ∈ E.zip J, i ∈ ej.1 → ej.2 = amp (key i) := by
      intro ej hej hi
      obtain ⟨k, hk, rfl⟩ := List.getElem_of_mem hej
      rw [List.length_zip] at hk
      obtain ⟨-, -, km, c2, c3, c4, -⟩ := d3 k _ _ (List.getElem?_eq_getElem (by omega)) (List.getElem?_eq_getElem (by omega))
      rw [List.getElem_zip] at hi ⊢
      rw [c3, hkey km c2 i (c4 i hi)]
    clear d3 b3 b4 b5 mem h1 hE hE' b1
    unfold BasisGP.epochCov
    induction E generalizing J with
    | nil => simp
    | cons e E ih =>
      cases J with
      | nil => simp at d1
      | cons x J =>
        have b2' := List.pairwise_cons.1 b2
        rw [List.zip_cons_cons, List.map_cons, List.sum_cons, ih b2'.2 (fun e he e' he' => uniq e (by simp [he]) e' (by simp [he'])) J
          (by simpa using d1) fun ej hej => hval ej (by simp [hej])]
        by_cases h : i ∈ e ∧ j ∈ e
        · have hno : ¬ ∃ e ∈ E, i ∈ e ∧ j ∈ e := by
            rintro ⟨e', he', hi', -⟩
            exact b2'.1 e' he' h.1 hi'
          have hyes : ∃ e' ∈ e :: E, i ∈ e' ∧ j ∈ e' := ⟨e, by simp, h⟩
          rw [if_pos h, if_neg (by simpa using hno), if_pos (decide_eq_true hyes), add_zero, hval (e, x) (by simp) h.1]
        · have : (∃ e' ∈ e :: E, i ∈ e' ∧ j ∈ e') ↔ ∃ e' ∈ E, i ∈ e' ∧ j ∈ e' := by
            constructor
            · rintro ⟨e', he', h'⟩
              rcases List.mem_cons.1 he' with rfl | he'
              · exact absurd h' h
              · exact ⟨e', he', h'⟩
            · rintro ⟨e', he', h'⟩
              exact ⟨e', by simp [he'], h'⟩
          rw [if_neg h, zero_add]
          simp only [this]

/-- The variances of the TOAs. -/
theorem white_ok (w : White) (hw : w.Pos) (errs toas : List ℝ) (hel : errs.length = toas.length) (h0 : toas ≠ []) (masks : Dict String Mask)
    (hp : IsPartition toas.length masks) (key : Nat → String) (hkey : ∀ km ∈ masks, ∀ i, InMask km.2 i → key i = km.1) :
    ∃ v : Fin toas.length → ℝ, (∀ i, v i = w.var (key i) (errs.getD i 0)) ∧ (∀ i, 0 < v i) ∧
      ∀ ep, getNdiag (w.noise errs toas masks toas.length ++ [.base (ecorrSM ep)]) = .ok (.base (.sm ep (.arr v))) ∧
        ∀ (m : Nat) (M : Matrix (Fin toas.length) (Fin m) ℝ),
          getNdiag (.marg m M .zero :: (w.noise errs toas masks toas.length ++ [.base (ecorrSM ep)])) = .ok (.marg m M (.sm ep (.arr v))) := by
  have hmask : ∀ i : Fin toas.length, ∃ m, (key i, m) ∈ masks ∧ InMask m i := by
    intro i
    obtain ⟨km, ⟨h1, h2⟩, -⟩ := hp.exists_unique i i.2
    exact ⟨km.2, by rw [hkey km h1 i h2]; exact h1, h2⟩
  have herr : ∀ i : Fin toas.length, errs[i.1]? = some (errs.getD i 0) := by
    intro i
    rw [List.getD_eq_getElem?_getD, List.getElem?_eq_getElem (by rw [hel]; exact i.2), Option.getD_some]
  have hlt : 0 < toas.length := List.length_pos_iff.2 h0
  have pw : ∀ x : ℝ, (10 : ℝ) ^ (2 * x) = ((10 : ℝ) ^ x) ^ 2 := fun x => by
    rw [two_mul, Real.rpow_add (by norm_num), sq]
  have pos : ∀ x : ℝ, 0 < (10 : ℝ) ^ x := fun x => Real.rpow_pos_of_pos (by norm_num) x
  cases w with
  | t2 efac q =>
    have hv : ∀ i : Fin toas.length, (WhiteNoise.getNdiag errs.length masks fun k => WhiteNoise.combinedNdiag errs (efac k) (q k)).getD i 0 =
        (White.t2 efac q).var (key i) (errs.getD i 0) := by
      intro i
      obtain ⟨m, g1, g2⟩ := hmask i
      rw [List.getD_eq_getElem?_getD, WhiteNoise.C07_measurement_noise masks errs efac q (by rw [hel]; exact hp) i _ (herr i) (key i) m g1 g2, pw]
      rfl
    have hpos : ∀ i : Fin toas.length, 0 < (White.t2 efac q).var (key i) (errs.getD i 0) := by
      intro i
      have h1 : 0 < efac (key i) ^ 2 := lt_of_le_of_ne (sq_nonneg _) (pow_ne_zero 2 (hw (key i))).symm
      have h2 : 0 < ((10 : ℝ) ^ q (key i)) ^ 2 := pow_pos (pos _) 2
      exact mul_pos h1 (by positivity)
    refine ⟨_, hv, fun i => by rw [hv]; exact hpos i, fun ep => ?_⟩
    have hn0 : ¬ ∀ i : Fin toas.length, (WhiteNoise.getNdiag errs.length masks fun k => WhiteNoise.combinedNdiag errs (efac k) (q k)).getD i 0 = 0 :=
      fun h => (hpos ⟨0, hlt⟩).ne' (by rw [← hv]; exact h _)
    constructor
    · simp only [White.noise, measurement, List.cons_append, List.nil_append, getNdiag, List.foldlM_cons, List.foldlM_nil, Nmat.add, Base.add,
        ecorrSM, if_neg hn0, Except.map, bind, Except.bind, pure, Except.pure, NV.add]
    · intro m M
      simp only [White.noise, measurement, List.cons_append, List.nil_append, getNdiag, List.foldlM_cons, List.foldlM_nil, Nmat.add, Base.add,
        ecorrSM, if_neg hn0, Except.map, bind, Except.bind, pure, Except.pure, NV.add]
  | tn efac q =>
    have hv : ∀ i : Fin toas.length, (WhiteNoise.getNdiag errs.length masks fun k => WhiteNoise.efacNdiag errs (efac k)).getD i 0 +
        (WhiteNoise.getNdiag toas.length masks fun k => WhiteNoise.tnequadNdiag toas (q k)).getD i 0 =
        (White.tn efac q).var (key i) (errs.getD i 0) := by
      intro i
      obtain ⟨m, g1, g2⟩ := hmask i
      rw [List.getD_eq_getElem?_getD, List.getD_eq_getElem?_getD, WhiteNoise.C07_efac masks errs efac (by rw [hel]; exact hp) i _ (herr i) (key i) m g1 g2,
        WhiteNoise.C07_tnequad masks toas q hp i i.2 (key i) m g1 g2]
      rfl
    have hpos : ∀ i : Fin toas.length, 0 < (White.tn efac q).var (key i) (errs.getD i 0) := by
      intro i
      have h2 : 0 < ((10 : ℝ) ^ q (key i)) ^ 2 := pow_pos (pos _) 2
      unfold White.var
      positivity
    refine ⟨_, hv, fun i => by rw [hv]; exact hpos i, fun ep => ?_⟩
    have hn0 : ¬ ∀ i : Fin toas.length, (WhiteNoise.getNdiag errs.length masks fun k => WhiteNoise.efacNdiag errs (efac k)).getD i 0 +
        (WhiteNoise.getNdiag toas.length masks fun k => WhiteNoise.tnequadNdiag toas (q k)).getD i 0 = 0 :=
      fun h => (hpos ⟨0, hlt⟩).ne' (by rw [← hv]; exact h _)
    constructor
    · simp only [White.noise, efacNoise, tnequad, List.cons_append, List.nil_append, getNdiag, List.foldlM_cons, List.foldlM_nil, Nmat.add, Base.add,
        ecorrSM, if_neg hn0, Except.map, bind, Except.bind, pure, Except.pure, NV.add]
    · intro m M
      simp only [White.noise, efacNoise, tnequad, List.cons_append, List.nil_append, getNdiag, List.foldlM_cons, List.foldlM_nil, Nmat.add, Base.add,
        ecorrSM, if_neg hn0, Except.map, bind, Except.bind, pure, Except.pure, NV.add]

/-! ## The likelihood -/

/-- The covariance of the noise: variances on the diagonal, the square of ECORR within an epoch, and the processes. -/
noncomputable def total {n : Nat} (w : White) (errs toas nu : List ℝ) (key ekey : Nat → String) (same : Nat → Nat → Bool) (log10Ecorr : String → ℝ)
    (gs : List (PowerGP × (String → ℝ))) : Matrix (Fin n) (Fin n) ℝ :=
  Matrix.of fun i j => (if i = j then w.var (key i) (errs.getD i 0) else 0) +
    (if same i j = true then ((10 : ℝ) ^ log10Ecorr (ekey i)) ^ 2 else 0) + (gs.map fun g => g.1.cov toas nu g.2 i j).sum

theorem likelihood_of {H : Type} [DecidableEq H] (hash : Col ℝ → H) (hh : Function.Injective hash)
    (svd : ∀ {n : Nat} (M : Matrix (Fin n) (Fin n) ℝ), Partition.Svd M) (method : Likelihood.Method) (hm : method ≠ .other)
    {n : Nat} (res : Fin n → ℝ) (delays : List (Option (Fin n → ℝ))) (noise : List (Nmat n ℝ)) (sigs : List (BSig ℝ))
    (hs : ∀ b ∈ sigs, b.varying = false ∧ SigOk b ∧ Collect.PriorPos b) (o : Nmat n ℝ) (ho : getNdiag noise = .ok o) (m : Nat)
    (N : Matrix (Fin n) (Fin n) ℝ) (M : Matrix (Fin n) (Fin m) ℝ) (hw : Whole o N M fun _ => True) :
    Collect.likelihood hash svd method [pulsar res delays noise sigs] =
      .ok (some (margLog (N + (sigs.map (Collect.sigMat n)).sum) M (res - delays.reduceOption.sum))) := by
  have hmap : (noise.map some).reduceOption = noise := by simp [List.reduceOption]
  have fine : Collect.Fine hash (pulsar res delays noise sigs) m N M := by
    refine ⟨⟨o, ?_, hw⟩, fun b hb => (hs b hb).2.1, ordered_of _ fun b hb => (hs b hb).1, fun _ _ _ _ _ _ _ _ c _ c' _ h => hh h,
      fun b hb => (hs b hb).2.2⟩
    have : getNdiag (noise.map some).reduceOption = .ok o := by rw [hmap]; exact ho
    exact this
  have h := Collect.C105_one hash svd method hm _ _ _ _ fine
  have h : Collect.likelihood hash svd method [pulsar res delays noise sigs] =
      .ok (some (margLog (N + (sigs.map (Collect.sigMat n)).sum) M (res - delays.reduceOption.sum) + 0)) := h
  rw [h, add_zero]

/-- C109: the likelihood of a pulsar with measurement noise and a white component by backend, ECORR by backend, a timing model
and any number of Fourier processes with power laws is the density of a Gaussian whose covariance is written out: error bars,
epochs, processes and `1e40 M Mᵀ` for the timing model; or, with the marginalizing timing model, that of `total` marginalized over
the columns. -/
theorem C109_pulsar {H : Type} [DecidableEq H] (hash : Col ℝ → H) (hh : Function.Injective hash)
    (svd : ∀ {n : Nat} (M : Matrix (Fin n) (Fin n) ℝ), Partition.Svd M) (method : Likelihood.Method) (hm : method ≠ .other)
    (argsort : List ℝ → List Nat) (hsort : ∀ l, Quantize.IsArgsort l (argsort l)) (seeded : Int → Bases.Rng) (rng : Bases.Rng)
    (toas nu errs : List ℝ) (h0 : toas ≠ []) (hnu : nu.length = toas.length) (hel : errs.length = toas.length)
    -- white noise
    (w : White) (hw : w.Pos) (masks : Dict String Mask) (hp : IsPartition toas.length masks) (key : Nat → String)
    (hkey : ∀ km ∈ masks, ∀ i, InMask km.2 i → key i = km.1)
    -- ECORR
    (dt : ℝ) (hdt : 0 < dt) (emasks : Dict String Mask) (hn : (emasks.map Prod.fst).Nodup) (hlen : ∀ km ∈ emasks, km.2.length = toas.length)
    (hdisj : MasksDisjoint emasks) (hne : ∀ km ∈ emasks, ∃ i, InMask km.2 i) (ekey : Nat → String)
    (hekey : ∀ km ∈ emasks, ∀ i, InMask km.2 i → ekey i = km.1)
    -- processes
    (gs : List (PowerGP × (String → ℝ))) (hu : ∀ g ∈ gs, g.1.Usual toas g.2) (hd : ∀ g ∈ gs, g.1.Distinct seeded toas nu) :
    ∃ bs idxs same, runs seeded toas nu (gs.map Prod.fst) rng = .ok bs ∧ Quantize.ecorrIdxs argsort toas dt emasks = .ok idxs ∧
      Epoch toas dt emasks same ∧
      ∀ (log10Ecorr : String → ℝ) (res : Fin toas.length → ℝ) (delays : List (Option (Fin toas.length → ℝ)))
        (B : Σ k : Nat, Matrix (Fin toas.length) (Fin k) ℝ), B.1 ≠ 0 →
        ((∀ j j', (∀ i, B.2 i j = B.2 i j') → j = j') →
          Collect.likelihood hash svd method [pulsar res delays (w.noise errs toas masks toas.length ++ [ecorr idxs log10Ecorr toas.length])
            (timingModel B :: bs)] =
          .ok (some (gaussLog (total w errs toas nu key ekey same log10Ecorr gs + (1e40 : ℝ) • (B.2 * B.2.transpose)) (res - delays.reduceOption.sum)))) ∧
        (Function.Injective B.2.mulVec →
          Collect.likelihood hash svd method [pulsar res delays (marginalizing B :: (w.noise errs toas masks toas.length ++
            [ecorr idxs log10Ecorr toas.length])) bs] =
          .ok (some (margLog (total w errs toas nu key ekey same log10Ecorr gs) B.2 (res - delays.reduceOption.sum)))) := by
  obtain ⟨bs, h1, h2, h3⟩ := runs_ok seeded toas nu hnu gs hu hd rng
  obtain ⟨idxs, same, g1, g2, g3⟩ := epochs_ok argsort hsort toas dt hdt emasks hn hlen hdisj hne
  refine ⟨bs, idxs, same, h1, g1, g2, fun log10Ecorr res delays B hB => ?_⟩
  obtain ⟨v, k1, k2, k3⟩ := white_ok w hw errs toas hel h0 masks hp key hkey
  obtain ⟨idxs', g4, hex⟩ := C51_ecorr argsort hsort toas dt hdt emasks (fun k => (10 : ℝ) ^ (2 * log10Ecorr k))
    (fun k => Real.rpow_pos_of_pos (by norm_num) _) hn hlen hdisj hne v k2
  rw [g1] at g4
  cases g4
  obtain ⟨k4, k5⟩ := k3 (epochsOf toas.length (Quantize.getJvecs idxs fun k => (10 : ℝ) ^ (2 * log10Ecorr k)))
  have hN : ecorrN (epochsOf toas.length (Quantize.getJvecs idxs fun k => (10 : ℝ) ^ (2 * log10Ecorr k))) v + (bs.map (Collect.sigMat toas.length)).sum =
      total w errs toas nu key ekey same log10Ecorr gs := by
    have hs : ∀ (l : List (BSig ℝ)) (i j : Fin toas.length), (l.map (Collect.sigMat toas.length)).sum i j = (l.map fun b => sigCov b i j).sum := by
      intro l i j
      induction l with
      | nil => rfl
      | cons x t ih => rw [List.map_cons, List.sum_cons, Matrix.add_apply, ih, List.map_cons, List.sum_cons]; rfl
    ext i j
    rw [Matrix.add_apply, hs, h3, ecorrN, Matrix.add_apply, BasisGP.epochs_sum, g3 _ ekey hekey, Matrix.diagonal_apply]
    simp only [total, Matrix.of_apply, k1]
    rw [two_mul, Real.rpow_add (by norm_num), ← sq]
  constructor
  · intro hdB
    obtain ⟨t1, t2, t3⟩ := timing_ok B hB hdB
    rw [likelihood_of hash hh svd method hm res delays (w.noise errs toas masks toas.length ++ [ecorr idxs log10Ecorr toas.length]) (timingModel B :: bs)
      (by
        intro b hb
        rcases List.mem_cons.1 hb with rfl | hb
        · exact ⟨rfl, t1, t2⟩
        · exact h2 b hb) _ k4 0 _ 0 (whole_base hex 0), margLog_zero]
    have : ecorrN (epochsOf toas.length (Quantize.getJvecs idxs fun k => (10 : ℝ) ^ (2 * log10Ecorr k))) v +
        ((timingModel B :: bs).map (Collect.sigMat toas.length)).sum =
        total w errs toas nu key ekey same log10Ecorr gs + (1e40 : ℝ) • (B.2 * B.2.transpose) := by
      rw [List.map_cons, List.sum_cons, add_comm (Collect.sigMat _ _), ← add_assoc, hN]
      congr 1
      ext i j
      rw [Matrix.smul_apply, Matrix.mul_apply]
      exact t3 i j
    rw [this]
  · intro hi
    rw [likelihood_of hash hh svd method hm res delays (marginalizing B :: (w.noise errs toas masks toas.length ++ [ecorr idxs log10Ecorr toas.length])) bs
      h2 _ (k5 B.1 B.2) _ _ B.2 (whole_marg hex trivial hi), hN]

/-- C109: the two conventions for a white component are the same model in other parameters: with `tnequad = efac * t2equad` the
noise objects of the pulsar are the same. -/
theorem C109_conventions (errs toas : List ℝ) (hel : errs.length = toas.length) (h0 : toas ≠ []) (masks : Dict String Mask)
    (hp : IsPartition toas.length masks) (efac q q' : String → ℝ) (he : ∀ k, efac k ≠ 0)
    (h : ∀ k, (10 : ℝ) ^ q' k = efac k * (10 : ℝ) ^ q k) (ep : List (List (Fin toas.length) × ℝ)) :
    getNdiag ((White.tn efac q').noise errs toas masks toas.length ++ [.base (ecorrSM ep)]) =
      getNdiag ((White.t2 efac q).noise errs toas masks toas.length ++ [.base (ecorrSM ep)]) := by
  have hd : ∀ km ∈ masks, ∀ km' ∈ masks, ∀ i, InMask km.2 i → InMask km'.2 i → km = km' := by
    intro km hkm km' hkm' i hi hi'
    have hlt : i < toas.length := by rw [← hp.length_eq km hkm]; exact (List.getElem?_eq_some_iff.1 hi).1
    obtain ⟨z, -, hz⟩ := hp.exists_unique i hlt
    rw [hz km ⟨hkm, hi⟩, hz km' ⟨hkm', hi'⟩]
  obtain ⟨key, hkey⟩ : ∃ key : Nat → String, ∀ km ∈ masks, ∀ i, InMask km.2 i → key i = km.1 := by
    have : ∀ i, ∃ k : String, ∀ km ∈ masks, InMask km.2 i → k = km.1 := by
      intro i
      by_cases hx : ∃ km ∈ masks, InMask km.2 i
      · obtain ⟨km, hkm, hi⟩ := hx
        exact ⟨km.1, fun km' hkm' hi' => by rw [hd km hkm km' hkm' i hi hi']⟩
      · exact ⟨"", fun km hkm hi => absurd ⟨km, hkm, hi⟩ hx⟩
    choose key hkey using this
    exact ⟨key, fun km hkm i hi => hkey i km hkm hi⟩
  obtain ⟨v, a1, -, a3⟩ := white_ok (.tn efac q') trivial errs toas hel h0 masks hp key hkey
  obtain ⟨v', b1, -, b3⟩ := white_ok (.t2 efac q) he errs toas hel h0 masks hp key hkey
  have : v = v' := by
    funext i
    rw [a1, b1]
    simp only [White.var, h]
    ring
  rw [(a3 ep).1, (b3 ep).1, this]

/-- Otherwise they differ: with the same number for both, an error scale other than 1 gives other variances. -/
theorem C109_conventions_differ (efac q : String → ℝ) (k : String) (h : efac k ^ 2 ≠ 1) (σ : ℝ) :
    (White.tn efac q).var k σ ≠ (White.t2 efac q).var k σ := by
  intro he
  simp only [White.var] at he
  have h1 : 0 < ((10 : ℝ) ^ q k) ^ 2 := pow_pos (Real.rpow_pos_of_pos (by norm_num) _) 2
  have h2 : (efac k ^ 2 - 1) * ((10 : ℝ) ^ q k) ^ 2 = 0 := by linear_combination -he
  rcases mul_eq_zero.1 h2 with h3 | h3
  · exact h (by linarith)
  · exact h1.ne' h3

/-- C109: and only then: a backend has the same variance in both conventions, whatever the error bar, exactly when
`tnequad = efac * t2equad` for a positive error scale. -/
theorem C109_conventions_only (efac q q' : String → ℝ) (k : String) (he : 0 < efac k) (σ : ℝ) :
    (White.tn efac q').var k σ = (White.t2 efac q).var k σ ↔ (10 : ℝ) ^ q' k = efac k * (10 : ℝ) ^ q k := by
  have h1 : 0 < (10 : ℝ) ^ q' k := Real.rpow_pos_of_pos (by norm_num) _
  have h2 : 0 < efac k * (10 : ℝ) ^ q k := mul_pos he (Real.rpow_pos_of_pos (by norm_num) _)
  rw [← pow_left_inj₀ h1.le h2.le two_ne_zero]
  simp only [White.var]
  constructor <;> intro h <;> linear_combination h

/-- For example with an error scale of two and a white component of one. -/
example : (White.tn (fun _ => 2) fun _ => Real.logb 10 2).var "" 3 = (White.t2 (fun _ => 2) fun _ => 0).var "" 3 :=
  (C109_conventions_only _ _ _ "" (by norm_num) 3).2 (by rw [Real.rpow_logb (by norm_num) (by norm_num) (by norm_num)]; norm_num)

/-- A power law with one mode for three TOAs, two of them simultaneous, with columns that are distinct although it may share
them. -/
example (seeded : Int → Bases.Rng) (nu : List ℝ) :
    (⟨.red, { nmodes := 1 }, [("", [true, true, true])], true, [], fun _ => (-14, 13 / 3)⟩ : PowerGP).Usual [0, 0, 4] (fun _ => 4) ∧
    (⟨.red, { nmodes := 1 }, [("", [true, true, true])], true, [], fun _ => (-14, 13 / 3)⟩ : PowerGP).Distinct seeded [0, 0, 4] nu ∧
    IsPartition 3 [("", [true, true, true])] := by
  refine ⟨⟨⟨rfl, rfl, rfl, rfl⟩, rfl, by simp, by simp, by simp, by simp, ?_⟩, ?_, ⟨by simp, by simp, ?_⟩⟩
  · intro km hkm
    obtain rfl : km = ("", [true, true, true]) := by simpa using hkm
    refine ⟨by norm_num, ?_⟩
    simp [Bases.tspan, maskSelect, Bases.span]
  · intro _ rng items rng' s h1 h2
    have hs : WhiteNoise.sortedItems [("", [true, true, true])] = [("", [true, true, true])] := by
      simp [WhiteNoise.sortedItems, Dict.keys, Dict.get?]
    simp only [hs, Fourier.bases, Fourier.Chrom.design, Bases.red, Bases.freqs, Bases.tspan, maskSelect, Bases.span, Bases.phases,
      bind, Except.bind] at h1
    simp [Bases.harmonics, Fourier.columns, Bases.row, Bases.rep, List.range_succ] at h1
    obtain ⟨rfl, -⟩ := h1
    simp [BasisGP.construct, BasisGP.blocks, WhiteNoise.maskCount, BasisGP.assignBlock, maskScatter] at h2
    subst h2
    simp only [List.map_cons, List.map_nil, List.nodup_cons, List.mem_singleton, List.not_mem_nil, not_false_eq_true, List.nodup_nil, and_true]
    intro h
    have := congrFun h 0
    simp at this
  · intro i hi
    refine ⟨("", [true, true, true]), ⟨by simp, ?_⟩, fun y hy => by simpa using hy.1⟩
    unfold InMask
    interval_cases i <;> rfl

end Verif.Standard
