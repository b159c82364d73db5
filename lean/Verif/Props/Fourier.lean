import Verif.Model.Fourier
import Verif.Props.Bases
import Verif.Props.Spectra
import Verif.Props.EcorrGP
import Verif.Props.WhiteNoise
import Verif.Lemmas.WhiteNoise
import Mathlib.Analysis.SpecialFunctions.Integrals.Basic

/-!
# Property C108: Fourier processes have the stationary covariance of their spectrum
-/

namespace Verif.Fourier

open Verif Verif.Bases Verif.BasisGP Verif.Combine Finset
open Verif.Kernel (Arr)

/-! ## Specification -/

/-- The covariance of a stationary process with the variances `w` at the frequencies `f`, between times `t` and `t'`. -/
noncomputable def wave (w f : List ℝ) (t t' : ℝ) : ℝ :=
  ∑ j ∈ range f.length, w.getD j 0 * Real.cos (2 * Real.pi * f.getD j 0 * (t - t'))

/-- The same with different phases of the waves at the two places. -/
noncomputable def shifted (w f φ φ' : List ℝ) (t t' : ℝ) : ℝ :=
  ∑ j ∈ range f.length, w.getD j 0 * Real.cos (2 * Real.pi * f.getD j 0 * (t - t') + (φ.getD j 0 - φ'.getD j 0))

/-- How the process depends on the radio frequency. -/
noncomputable def Chrom.factor : Chrom → ℝ → ℝ
  | .red, _ => 1
  | .dm fref, ν => (fref / ν) ^ 2
  | .chromatic idx, ν => (1400 / ν) ^ idx

/-! ## Sines and cosines -/

theorem rep_getD (w : List ℝ) (j s : Nat) (hs : s < 2) : (rep 2 w).getD (2 * j + s) 0 = w.getD j 0 := by
  rw [List.getD_eq_getElem?_getD, rep_get 2 w j s hs, List.getD_eq_getElem?_getD]

theorem sum_two (n : Nat) (g : Nat → ℝ) : ∑ p ∈ range (2 * n), g p = ∑ j ∈ range n, (g (2 * j) + g (2 * j + 1)) := by
  induction n with
  | zero => simp
  | succ n ih =>
    rw [show 2 * (n + 1) = 2 * n + 1 + 1 by ring, sum_range_succ, sum_range_succ, ih, sum_range_succ]
    ring

theorem rows_sum (t t' : ℝ) (f φ φ' w : List ℝ) (h : φ.length = f.length) (h' : φ'.length = f.length) :
    ∑ p ∈ range (2 * f.length), (row t f φ).getD p 0 * (rep 2 w).getD p 0 * (row t' f φ').getD p 0 = shifted w f φ φ' t t' := by
  rw [sum_two]
  apply sum_congr rfl
  intro j hj
  rw [mem_range] at hj
  obtain ⟨a1, a2⟩ := row_get t f φ j f[j] (φ[j]'(by omega)) (by simp [hj]) (by simp [h, hj])
  obtain ⟨b1, b2⟩ := row_get t' f φ' j f[j] (φ'[j]'(by omega)) (by simp [hj]) (by simp [h', hj])
  have c0 := rep_getD w j 0 (by norm_num)
  have c1 := rep_getD w j 1 (by norm_num)
  rw [add_zero] at c0
  rw [c0, c1]
  have e1 : f.getD j 0 = f[j] := by simp [List.getD_eq_getElem?_getD, hj]
  have e2 : φ.getD j 0 = φ[j]'(by omega) := by simp [List.getD_eq_getElem?_getD, h, hj]
  have e3 : φ'.getD j 0 = φ'[j]'(by omega) := by simp [List.getD_eq_getElem?_getD, h', hj]
  simp only [List.getD_eq_getElem?_getD, a1, a2, b1, b2, Option.getD_some] at e1 e2 e3 ⊢
  rw [e1, e2, e3]
  have : 2 * Real.pi * f[j] * (t - t') + (φ[j]'(by omega) - φ'[j]'(by omega)) =
      (2 * Real.pi * t * f[j] + φ[j]'(by omega)) - (2 * Real.pi * t' * f[j] + φ'[j]'(by omega)) := by ring
  rw [this, Real.cos_sub]
  ring

theorem shifted_same (w f φ : List ℝ) (t t' : ℝ) : shifted w f φ φ t t' = wave w f t t' := by
  unfold shifted wave
  apply sum_congr rfl
  intro j _
  rw [sub_self, add_zero]

/-! ## The basis of a key -/

/-- A basis whose rows are the waves at the times `ts` times the factors `xs`. -/
structure Waves (F : List (List ℝ)) (ts xs f φ : List ℝ) : Prop where
  len : xs.length = ts.length
  phase : φ.length = f.length
  rows : F = List.zipWith (fun x r => r.map fun y => y * x) xs (ts.map fun t => row t f φ)

theorem Waves.get {F : List (List ℝ)} {ts xs f φ : List ℝ} (h : Waves F ts xs f φ) (i p : Nat) (hi : i < ts.length) :
    (F.getD i []).getD p 0 = (row (ts.getD i 0) f φ).getD p 0 * xs.getD i 0 := by
  rw [h.rows]
  have hx : i < xs.length := by rw [h.len]; exact hi
  simp only [List.getD_eq_getElem?_getD, List.getElem?_zipWith, List.getElem?_map, List.getElem?_eq_getElem hi,
    List.getElem?_eq_getElem hx, Option.map_some, Option.getD_some]
  cases (row ts[i] f φ)[p]? <;> simp

theorem columns_get (k : Nat) (F : List (List ℝ)) (p i : Nat) (hp : p < k) :
    ((columns k F).getD p []).getD i 0 = (F.getD i []).getD p 0 := by
  simp only [columns, List.getD_eq_getElem?_getD, List.getElem?_map, List.getElem?_range hp, Option.map_some, Option.getD_some]
  cases F[i]? <;> simp

theorem columns_length (k : Nat) (F : List (List ℝ)) : (columns k F).length = k := by simp [columns]

/-- A design matrix has the waves of its frequencies, times the factors of the radio frequencies. -/
theorem design_waves (c : Chrom) (seeded : Int → Rng) (a : Args) (ts nu : List ℝ) (hn : nu.length = ts.length) (rng rng' : Rng)
    (F : List (List ℝ)) (fr : List ℝ) (h : c.design seeded a ts nu rng = .ok ((F, fr), rng')) :
    ∃ f φ, freqs ts a = .ok (f, false) ∧ fr = rep 2 f ∧ Waves F ts (nu.map c.factor) f φ := by
  cases c with
  | red =>
    obtain ⟨f, φ, h1, -, h3, h4, h5⟩ := red_ok (show red seeded rng ts a = _ from h)
    refine ⟨f, φ, h1, h5, by simp [hn], h3, ?_⟩
    rw [h4]
    apply List.ext_getElem?
    intro i
    rw [List.getElem?_zipWith, List.getElem?_map, List.getElem?_map]
    by_cases hi : i < ts.length
    · rw [List.getElem?_eq_getElem hi, List.getElem?_eq_getElem (by omega : i < nu.length)]
      simp [Chrom.factor]
    · rw [List.getElem?_eq_none (by omega), List.getElem?_eq_none (by omega)]
      rfl
  | dm fref =>
    change dm seeded rng ts nu a fref = _ at h
    unfold dm at h
    cases hr : red seeded rng ts { a with pseed := none } with
    | error e => rw [hr] at h; exact absurd h (by simp [bind, Except.bind])
    | ok r =>
      obtain ⟨⟨F0, f0⟩, r0⟩ := r
      rw [hr] at h
      obtain ⟨f, φ, h1, -, h3, h4, h5⟩ := red_ok hr
      simp only [bind, Except.bind] at h
      rw [scaleRows_eq (by simp [hn, h4])] at h
      simp only [Except.ok.injEq, Prod.mk.injEq] at h
      exact ⟨f, φ, h1, by rw [← h.1.2, h5], by simp [hn], h3, by rw [← h.1.1, h4]; rfl⟩
  | chromatic idx =>
    change chromatic seeded rng ts nu a idx = _ at h
    unfold chromatic at h
    cases hr : red seeded rng ts { a with pseed := none, pshift := false } with
    | error e => rw [hr] at h; exact absurd h (by simp [bind, Except.bind])
    | ok r =>
      obtain ⟨⟨F0, f0⟩, r0⟩ := r
      rw [hr] at h
      obtain ⟨f, φ, h1, -, h3, h4, h5⟩ := red_ok hr
      simp only [bind, Except.bind] at h
      rw [scaleRows_eq (by simp [hn, h4])] at h
      simp only [Except.ok.injEq, Prod.mk.injEq] at h
      exact ⟨f, φ, h1, by rw [← h.1.2, h5], by simp [hn], h3, by rw [← h.1.1, h4]; rfl⟩

theorem rank_lt {m : Mask} {k : Nat} (h : InMask m k) : rank m k < WhiteNoise.maskCount m := by
  induction m generalizing k with
  | nil => simp [InMask] at h
  | cons b t ih =>
    cases k with
    | zero =>
      have : b = true := by simpa [InMask] using h
      simp [rank, WhiteNoise.maskCount, this]
    | succ k =>
      have := ih (k := k) (by simpa [InMask] using h)
      simp only [rank, WhiteNoise.maskCount, List.take_succ_cons, List.count_cons] at this ⊢
      omega

theorem amat_one (n : Nat) (v : Nat → ℝ) (p q : Nat) : amat (.one n v : Arr ℝ) p q = if p = q then v p else 0 := rfl

/-- C108 for one key: whatever the phases, the covariance between two TOAs of the mask is that of a stationary process of the
given variances, times the factors of the two radio frequencies. -/
theorem C108_key (c : Chrom) (seeded : Int → Rng) (a : Args) (toas nu : List ℝ) (hn : nu.length = toas.length) (m : Mask)
    (hm : m.length = toas.length) (rng rng' : Rng) (F : List (List ℝ)) (fr : List ℝ)
    (h : c.design seeded a (maskSelect toas m) (maskSelect nu m) rng = .ok ((F, fr), rng')) :
    ∃ f, freqs (maskSelect toas m) a = .ok (f, false) ∧ fr = rep 2 f ∧ ∀ (w : List ℝ) (i j : Nat), InMask m i → InMask m j →
      keyCov m (columns fr.length F) (.one (rep 2 w).length fun p => (rep 2 w).getD p 0) i j =
        c.factor (nu.getD i 0) * c.factor (nu.getD j 0) * wave w f (toas.getD i 0) (toas.getD j 0) := by
  have hl : (maskSelect nu m).length = (maskSelect toas m).length := by
    rw [WhiteNoise.length_maskSelect _ _ (by rw [hm, hn]), WhiteNoise.length_maskSelect _ _ hm]
  obtain ⟨f, φ, h1, h2, hw⟩ := design_waves c seeded a _ _ hl rng rng' F fr h
  refine ⟨f, h1, h2, fun w i j hi hj => ?_⟩
  have hr : ∀ k, InMask m k → rank m k < (maskSelect toas m).length := by
    intro k hk
    rw [WhiteNoise.length_maskSelect _ _ hm]
    exact rank_lt hk
  have hg : ∀ k p, InMask m k → p < fr.length → ((columns fr.length F).getD p []).getD (rank m k) 0 =
      (row (toas.getD k 0) f φ).getD p 0 * c.factor (nu.getD k 0) := by
    intro k p hk hp
    rw [columns_get _ _ _ _ hp, hw.get _ _ (hr k hk), getD_maskSelect toas m hm k hk]
    congr 1
    rw [List.getD_eq_getElem?_getD, List.getElem?_map]
    have := getD_maskSelect nu m (by rw [hm, hn]) k hk 0
    rw [← this]
    have hlt := hr k hk
    rw [← hl] at hlt
    simp [List.getD_eq_getElem?_getD, List.getElem?_eq_getElem hlt]
  have hfr : fr.length = 2 * f.length := by rw [h2, rep_length]
  rw [keyCov, if_pos ⟨hi, hj⟩, columns_length, ← shifted_same w f φ, ← rows_sum _ _ f φ φ w hw.phase hw.phase, mul_sum, ← hfr]
  apply sum_congr rfl
  intro p hp
  have hp' := mem_range.1 hp
  rw [sum_eq_single p]
  · rw [hg i p hi hp', hg j p hj hp', amat_one, if_pos rfl]
    ring
  · intro q hq hqp
    rw [amat_one, if_neg (fun e => hqp e.symm)]
    ring
  · intro hp2
    exact absurd hp hp2

/-! ## The process -/

/-- The basis of a key is that of its mask. -/
def Made (c : Chrom) (seeded : Int → Rng) (a : Args) (toas nu : List ℝ) (kb : KeyBasis ℝ (List ℝ)) (km : String × Mask) : Prop :=
  kb.key = km.1 ∧ kb.mask = km.2 ∧ ∃ F rng rng', c.design seeded a (maskSelect toas km.2) (maskSelect nu km.2) rng = .ok ((F, kb.labels), rng') ∧
    kb.cols = columns kb.labels.length F

theorem bases_made (c : Chrom) (seeded : Int → Rng) (a : Args) (toas nu : List ℝ) (kms : List (String × Mask)) : ∀ (rng rng' : Rng)
    (items : List (KeyBasis ℝ (List ℝ))), bases c seeded a toas nu kms rng = .ok (items, rng') →
    List.Forall₂ (Made c seeded a toas nu) items kms := by
  induction kms with
  | nil => intro rng rng' items h; cases h; exact .nil
  | cons km t ih =>
    intro rng rng' items h
    rw [bases] at h
    split at h
    · cases h
    · rename_i F f rng1 h1
      split at h
      · cases h
      · rename_i l rng2 h2
        cases h
        exact .cons ⟨rfl, rfl, F, rng, rng1, h1, rfl⟩ (ih _ _ _ h2)

/-- The spectrum gives both columns of a frequency of each key the same positive variance, `w key`. -/
def Paired (S : String → List ℝ → Except PyErr (List ℝ)) (a : Args) (toas : List ℝ) (masks : Dict String Mask)
    (w : String → List ℝ) : Prop :=
  ∀ km ∈ masks, ∀ f, freqs (maskSelect toas km.2) a = .ok (f, false) → S km.1 (rep 2 f) = .ok (rep 2 (w km.1)) ∧
    (w km.1).length = f.length ∧ ∀ x ∈ w km.1, 0 < x

theorem diag_pos (v : List ℝ) (h : ∀ x ∈ v, 0 < x) :
    (PhiInv.toMatrix v.length (amat (.one v.length fun p => v.getD p 0 : Arr ℝ))).PosDef := by
  have : PhiInv.toMatrix v.length (amat (.one v.length fun p => v.getD p 0 : Arr ℝ)) = Matrix.diagonal fun i : Fin v.length => v[i] := by
    ext i j
    simp only [PhiInv.toMatrix, Matrix.of_apply, amat_one, Matrix.diagonal_apply, Fin.ext_iff]
    split
    · rw [List.getD_eq_getElem?_getD, List.getElem?_eq_getElem i.2]; rfl
    · rfl
  rw [this]
  exact Matrix.PosDef.diagonal fun i => h _ (List.getElem_mem _)

theorem mem_rep {v : List ℝ} {x : ℝ} (h : x ∈ rep 2 v) : x ∈ v := by
  simp only [rep, List.mem_flatMap, List.mem_replicate] at h
  obtain ⟨y, hy, -, rfl⟩ := h
  exact hy

theorem forall₂_left {α β : Type} {R : α → β → Prop} {l : List α} {m : List β} (h : List.Forall₂ R l m) : ∀ x ∈ l, ∃ y ∈ m, R x y := by
  induction h with
  | nil => simp
  | cons hr _ ih =>
    intro x hx
    rcases List.mem_cons.1 hx with rfl | hx
    · exact ⟨_, by simp, hr⟩
    · obtain ⟨y, h1, h2⟩ := ih x hx
      exact ⟨y, by simp [h1], h2⟩

theorem forall₂_right {α β : Type} {R : α → β → Prop} {l : List α} {m : List β} (h : List.Forall₂ R l m) : ∀ y ∈ m, ∃ x ∈ l, R x y := by
  obtain h' := forall₂_left h.flip
  exact h'

/-- The covariance of the process with variances `w` on the TOAs of each mask, at frequencies `f`. -/
noncomputable def procCov (c : Chrom) (toas nu : List ℝ) (masks : Dict String Mask) (w f : String → List ℝ) (i j : Nat) : ℝ :=
  (masks.map fun km => if InMask km.2 i ∧ InMask km.2 j then
    c.factor (nu.getD i 0) * c.factor (nu.getD j 0) * wave (w km.1) (f km.1) (toas.getD i 0) (toas.getD j 0) else 0).sum

/-- C108: a Fourier process with a selection has between TOAs of one mask the covariance of a stationary process whose
frequencies are those of the TOAs of that mask, with the variances of the spectrum, times the factors of the radio frequencies;
between other TOAs none.  Phase shifts, from whatever random numbers, do not matter, nor do the parameters of earlier calls. -/
theorem C108_process (c : Chrom) (seeded : Int → Rng) (a : Args) (toas nu : List ℝ) (hnu : nu.length = toas.length)
    (masks : Dict String Mask) (h0 : masks ≠ []) (hn : (masks.map Prod.fst).Nodup) (hlen : ∀ km ∈ masks, km.2.length = toas.length)
    (rng rng' : Rng) (items : List (KeyBasis ℝ (List ℝ))) (hb : bases c seeded a toas nu (WhiteNoise.sortedItems masks) rng = .ok (items, rng'))
    (combine : Bool) (hc : ∃ kb ∈ items, kb.cols ≠ [])
    (hnd : combine = true → ∀ s, construct items = .ok s → (s.basis.map fun c (a : Nat) => c.getD a 0).Nodup) :
    ∃ s f, construct items = .ok s ∧ (∀ km ∈ masks, freqs (maskSelect toas km.2) a = .ok (f km.1, false)) ∧
      ∀ (hist : List (String → List ℝ → Except PyErr (List ℝ))) (S : String → List ℝ → Except PyErr (List ℝ)) (w : String → List ℝ),
        (∀ S' ∈ hist, ∃ w', Paired S' a toas masks w') → Paired S a toas masks w →
        ∃ s', getPhis s ((hist ++ [S]).map prior) = .ok s' ∧ SigOk (signal combine s') ∧ Collect.PriorPos (signal combine s') ∧
          ∀ i j, sigCov (signal combine s') i j = procCov c toas nu masks w f i j := by
  have hperm := WhiteNoise.sortedItems_perm hn
  have hmade := bases_made c seeded a toas nu _ _ _ _ hb
  have hkm : ∀ {kb : KeyBasis ℝ (List ℝ)} {km : String × Mask}, Made c seeded a toas nu kb km → km ∈ masks →
      ∃ f, freqs (maskSelect toas km.2) a = .ok (f, false) ∧ kb.labels = rep 2 f ∧ ∀ (w : List ℝ) (i j : Nat),
        keyCov kb.mask kb.cols (.one (rep 2 w).length fun p => (rep 2 w).getD p 0) i j =
          if InMask km.2 i ∧ InMask km.2 j then c.factor (nu.getD i 0) * c.factor (nu.getD j 0) *
            wave w f (toas.getD i 0) (toas.getD j 0) else 0 := by
    rintro kb km ⟨h1, h2, F, r, r', h3, h4⟩ hkm
    obtain ⟨f, g1, g2, g3⟩ := C108_key c seeded a toas nu hnu km.2 (hlen km hkm) r r' F kb.labels h3
    refine ⟨f, g1, g2, fun w i j => ?_⟩
    rw [h2, h4]
    split
    · rename_i h
      exact g3 w i j h.1 h.2
    · rename_i h
      rw [keyCov, if_neg h]
  have hget : ∀ kb ∈ items, ∃ km ∈ masks, Made c seeded a toas nu kb km := by
    intro kb hkb
    obtain ⟨km, h1, h2⟩ := forall₂_left hmade kb hkb
    exact ⟨km, hperm.mem_iff.1 h1, h2⟩
  have hkeys : items.map KeyBasis.key = (WhiteNoise.sortedItems masks).map Prod.fst := by
    clear hget hc hnd hb
    generalize WhiteNoise.sortedItems masks = kms at hmade
    induction hmade with
    | nil => rfl
    | cons h _ ih => rw [List.map_cons, List.map_cons, ih, h.1]
  have hsound : Sound toas.length items := by
    refine ⟨?_, ?_, ?_⟩
    · rw [hkeys]
      exact (hperm.map Prod.fst).nodup_iff.2 hn
    · intro kb hkb
      obtain ⟨km, h1, h2⟩ := hget kb hkb
      rw [h2.2.1]
      exact hlen km h1
    · intro kb hkb col hcol
      obtain ⟨km, h1, g1, g2, F, r, r', g3, g4⟩ := hget kb hkb
      rw [g4] at hcol
      simp only [columns, List.mem_map] at hcol
      obtain ⟨j, -, rfl⟩ := hcol
      have hl : (maskSelect nu km.2).length = (maskSelect toas km.2).length := by
        rw [WhiteNoise.length_maskSelect _ _ (by rw [hlen km h1, hnu]), WhiteNoise.length_maskSelect _ _ (hlen km h1)]
      obtain ⟨f, φ, -, -, hw⟩ := design_waves c seeded a _ _ hl r r' F _ g3
      rw [List.length_map, hw.rows, List.length_zipWith, List.length_map, List.length_map, hl, Nat.min_self,
        WhiteNoise.length_maskSelect _ _ (hlen km h1), g2]
  have hne : items ≠ [] := by
    obtain ⟨kb, h, -⟩ := hc
    exact List.ne_nil_of_mem h
  have hcol : ∀ kb ∈ items, kb.cols.length = kb.labels.length := by
    intro kb hkb
    obtain ⟨km, -, -, -, F, -, -, -, g⟩ := hget kb hkb
    rw [g, columns_length]
  obtain ⟨s, h1, h2⟩ := C104_signal combine toas.length items hsound hne hc hnd
  have hfreq : ∀ km ∈ masks, ∃ f, freqs (maskSelect toas km.2) a = .ok (f, false) := by
    intro km hm
    obtain ⟨kb, hkb, h3⟩ := forall₂_right hmade km (hperm.mem_iff.2 hm)
    obtain ⟨f, h4, -⟩ := hkm h3 hm
    exact ⟨f, h4⟩
  obtain ⟨f, hf⟩ : ∃ f : String → List ℝ, ∀ km ∈ masks, freqs (maskSelect toas km.2) a = .ok (f km.1, false) := by
    choose! g hg using hfreq
    refine ⟨fun k => ((Dict.get? masks k).elim [] fun m => g (k, m)), fun km hm => ?_⟩
    have : Dict.get? masks km.1 = some km.2 := Dict.get?_of_mem hn hm
    simp only [this, Option.elim_some]
    exact hg km hm
  refine ⟨s, f, h1, hf, fun hist S w hhist hS => ?_⟩
  have hprior : ∀ (S : String → List ℝ → Except PyErr (List ℝ)) (w : String → List ℝ), Paired S a toas masks w → ∀ kb ∈ items, ∀ km ∈ masks,
      Made c seeded a toas nu kb km → prior S kb.key kb.labels = .one (rep 2 (w km.1)).length (fun p => (rep 2 (w km.1)).getD p 0) ∧
        (rep 2 (w km.1)).length = kb.cols.length ∧ ∀ x ∈ w km.1, 0 < x := by
    intro S w hS kb hkb km hm hmk
    obtain ⟨f', g1, g2, -⟩ := hkm hmk hm
    obtain ⟨e1, e2, e3⟩ := hS km hm f' g1
    refine ⟨?_, ?_, e3⟩
    · unfold prior
      rw [hmk.1, g2, e1]
    · rw [hcol kb hkb, g2, rep_length, rep_length, e2]
  have hvec : ∀ (S : String → List ℝ → Except PyErr (List ℝ)) (w : String → List ℝ), Paired S a toas masks w → Vectors items (prior S) := by
    intro S w hS kb hkb
    obtain ⟨km, hm, hmk⟩ := hget kb hkb
    obtain ⟨e1, e2, -⟩ := hprior S w hS kb hkb km hm hmk
    exact ⟨_, by rw [e1, e2]⟩
  obtain ⟨s', a1, -, a3, a4, a5⟩ := h2 (hist.map prior) (prior S) ⟨(hist ++ [S]).map prior, [], by simp, by
      intro p hp
      obtain ⟨S', hS', rfl⟩ := List.mem_map.1 hp
      rcases List.mem_append.1 hS' with h | h
      · obtain ⟨w', hw'⟩ := hhist S' h
        exact hvec S' w' hw'
      · rw [List.mem_singleton.1 h]
        exact hvec S w hS, by simp⟩ (by
      intro kb hkb
      obtain ⟨km, hm, hmk⟩ := hget kb hkb
      obtain ⟨e1, e2, e3⟩ := hprior S w hS kb hkb km hm hmk
      rw [e1, ← e2]
      exact diag_pos _ fun x hx => e3 x (mem_rep hx))
  refine ⟨s', by rw [List.map_append]; exact a1, a3, a4, fun i j => ?_⟩
  rw [a5]
  unfold procCov
  rw [← (hperm.map _).sum_eq]
  have hsub : ∀ km ∈ WhiteNoise.sortedItems masks, km ∈ masks := fun km h => hperm.mem_iff.1 h
  have hsub' : ∀ kb ∈ items, kb ∈ items := fun _ h => h
  revert hsub hsub'
  generalize WhiteNoise.sortedItems masks = kms at hmade
  generalize hI : items = its at hmade
  intro hsub hsub'
  clear hb
  have : ∀ kb ∈ its, kb ∈ items := by rw [hI]; exact fun _ h => h
  clear hI hsub'
  induction hmade with
  | nil => rfl
  | @cons kb km l l' hmk _ ih =>
    rw [List.map_cons, List.sum_cons, List.map_cons, List.sum_cons, ih (fun x hx => hsub x (by simp [hx])) (fun x hx => this x (by simp [hx]))]
    congr 1
    have hm := hsub km (by simp)
    have hkb := this kb (by simp)
    obtain ⟨f', g1, g2, g3⟩ := hkm hmk hm
    obtain ⟨e1, e2, e3⟩ := hprior S w hS kb hkb km hm hmk
    have : f' = f km.1 := by
      have := hf km hm
      rw [g1] at this
      simpa using this
    rw [e1, g3, this]

/-! ## The power law -/

/-- The variance of mode `j + 1` of a power law on a span `T`. -/
noncomputable def plaw (A γ T : ℝ) (j : Nat) : ℝ :=
  ((10 : ℝ) ^ A) ^ 2 / (12 * Real.pi ^ 2) * Spectra.yearly ^ (γ - 3) * (((j : ℝ) + 1) / T) ^ (-γ) * (1 / T)

theorem harmonics_ascending (n : Nat) (T : ℝ) (hT : 0 < T) : Spectra.Ascending (harmonics n T) := by
  rw [Spectra.Ascending, List.pairwise_cons]
  refine ⟨?_, ?_⟩
  · intro x hx
    simp only [harmonics, List.mem_map] at hx
    obtain ⟨k, _, rfl⟩ := hx
    positivity
  · rw [harmonics, List.pairwise_map]
    refine List.pairwise_lt_range.imp ?_
    intro a b hab
    apply div_lt_div_of_pos_right _ hT
    have : (a : ℝ) < b := by exact_mod_cast hab
    linarith

theorem bin_harmonics (n : Nat) (T : ℝ) (j : Nat) (hj : j < n) : Spectra.bin (harmonics n T) j = 1 / T := by
  have hj' : (harmonics n T)[j]? = some (((j : ℝ) + 1) / T) := by simp [harmonics, hj]
  unfold Spectra.bin
  rw [List.getD, hj']
  cases j with
  | zero => simp
  | succ j =>
    have hj'' : (harmonics n T)[j]? = some (((j : ℝ) + 1) / T) := by simp [harmonics, show j < n by omega]
    simp only [Option.getD_some, Nat.add_sub_cancel, Nat.succ_ne_zero, if_false]
    rw [List.getD, hj'']
    simp only [Option.getD_some]
    push_cast
    ring

theorem plaw_pos (A γ T : ℝ) (hT : 0 < T) (j : Nat) : 0 < plaw A γ T j := by
  unfold plaw
  have := Spectra.ten_pos A
  have := Real.rpow_pos_of_pos Spectra.fyr_pos (γ - 3)
  have := Real.rpow_pos_of_pos (show 0 < ((j : ℝ) + 1) / T by positivity) (-γ)
  have := Real.pi_pos
  positivity

theorem powerlaw_harmonics (A γ : ℝ) (n : Nat) (T : ℝ) (hT : 0 < T) :
    Spectra.powerlaw (rep 2 (harmonics n T)) A γ 2 = .ok (rep 2 ((List.range n).map (plaw A γ T))) := by
  obtain ⟨w, h1, h2, -, h4⟩ := Spectra.C66_powerlaw A γ 2 (by norm_num) _ (harmonics_ascending n T hT)
  have h1 : Spectra.powerlaw (rep 2 (harmonics n T)) A γ 2 = .ok (rep 2 w) := h1
  rw [h1]
  congr 2
  have hl : w.length = n := by rw [h2]; simp [harmonics]
  apply List.ext_getElem?
  intro j
  by_cases hj : j < n
  · have e := h4 j (((j : ℝ) + 1) / T) (by simp [harmonics, hj])
    rw [e, bin_harmonics n T j hj]
    simp [hj, plaw]
  · rw [List.getElem?_eq_none (by omega), List.getElem?_eq_none (by simp; omega)]

theorem design_ok (c : Chrom) (seeded : Int → Rng) (a : Args) (ha : Plain a) (hs : a.pseed = none) (ts nu : List ℝ) (hn : nu.length = ts.length)
    (rng : Rng) (T : ℝ) (hT : tspan ts a = .ok T) :
    ∃ F rng', c.design seeded a ts nu rng = .ok ((F, rep 2 (harmonics a.nmodes T)), rng') := by
  have hph : ∀ b : Args, b.pseed = none → ∀ n, ∃ φ r, phases seeded rng ts b n = .ok (φ, r) := by
    intro b hb n
    unfold phases
    rw [hb]
    simp only
    split
    · exact ⟨_, _, rfl⟩
    · exact ⟨_, _, rfl⟩
  have hf : ∀ b : Args, b.modes = none → b.fmin = none → b.fmax = none → b.logf = false → tspan ts b = .ok T →
      freqs ts b = .ok (harmonics b.nmodes T, false) := by
    intro b h1 h2 h3 h4 h5
    unfold freqs
    rw [h5]
    simp only [bind, Except.bind, h1, h2, h3, h4, and_self, if_true]
  obtain ⟨h1, h2, h3, h4⟩ := ha
  cases c with
  | red =>
    obtain ⟨φ, r, hp⟩ := hph a hs (harmonics a.nmodes T).length
    exact ⟨_, r, red_of (hf a h1 h2 h3 h4 hT) hp⟩
  | dm fref =>
    obtain ⟨φ, r, hp⟩ := hph { a with pseed := none } rfl (harmonics a.nmodes T).length
    have hr := red_of (a := { a with pseed := none }) (hf { a with pseed := none } h1 h2 h3 h4 hT) hp
    obtain ⟨F', h, -⟩ := C88_dm seeded rng r ts nu a _ _ fref hn hr
    exact ⟨F', r, h⟩
  | chromatic idx =>
    obtain ⟨φ, r, hp⟩ := hph { a with pseed := none, pshift := false } rfl (harmonics a.nmodes T).length
    have hr := red_of (a := { a with pseed := none, pshift := false }) (hf { a with pseed := none, pshift := false } h1 h2 h3 h4 hT) hp
    obtain ⟨F', h, -⟩ := C88_chromatic seeded rng r ts nu a _ _ idx hn hr
    exact ⟨F', r, h⟩

theorem bases_ok (c : Chrom) (seeded : Int → Rng) (a : Args) (toas nu : List ℝ) (kms : List (String × Mask))
    (h : ∀ km ∈ kms, ∀ rng, ∃ F fr rng', c.design seeded a (maskSelect toas km.2) (maskSelect nu km.2) rng = .ok ((F, fr), rng')) :
    ∀ rng, ∃ items rng', bases c seeded a toas nu kms rng = .ok (items, rng') := by
  induction kms with
  | nil => intro rng; exact ⟨[], rng, rfl⟩
  | cons km t ih =>
    intro rng
    obtain ⟨F, fr, rng1, h1⟩ := h km (by simp) rng
    obtain ⟨l, rng2, h2⟩ := ih (fun x hx => h x (by simp [hx])) rng1
    exact ⟨_, rng2, by rw [bases, h1]; simp only [h2]; rfl⟩

/-- C108 for power laws: with amplitudes `A`, slopes `γ` and spans `T` of the keys, the covariance between TOAs of one mask is
`Σ P(k/T)/T cos(2π k (t - t')/T)` with `P(f) = A²/(12π²) fyr^(γ-3) f^-γ`, times the factors of the radio frequencies. -/
theorem C108_powerlaw (c : Chrom) (seeded : Int → Rng) (a : Args) (ha : Plain a) (hs : a.pseed = none) (hmodes : a.nmodes ≠ 0)
    (toas nu : List ℝ) (hnu : nu.length = toas.length)
    (masks : Dict String Mask) (h0 : masks ≠ []) (hn : (masks.map Prod.fst).Nodup) (hlen : ∀ km ∈ masks, km.2.length = toas.length)
    (T : String → ℝ) (hT : ∀ km ∈ masks, 0 < T km.1 ∧ tspan (maskSelect toas km.2) a = .ok (T km.1)) (rng : Rng) :
    ∃ items rng', bases c seeded a toas nu (WhiteNoise.sortedItems masks) rng = .ok (items, rng') ∧ ∀ combine : Bool,
      (combine = true → ∀ s, construct items = .ok s → (s.basis.map fun c (a : Nat) => c.getD a 0).Nodup) →
      ∃ s, construct items = .ok s ∧ ∀ (hist : List (String → ℝ × ℝ)) (A γ : String → ℝ),
        ∃ s', getPhis s ((hist.map fun h k f => Spectra.powerlaw f (h k).1 (h k).2 2) ++ [fun k f => Spectra.powerlaw f (A k) (γ k) 2] |>.map prior)
            = .ok s' ∧
          SigOk (signal combine s') ∧ Collect.PriorPos (signal combine s') ∧
          ∀ i j, sigCov (signal combine s') i j = (masks.map fun km => if InMask km.2 i ∧ InMask km.2 j then
            c.factor (nu.getD i 0) * c.factor (nu.getD j 0) * ∑ k ∈ range a.nmodes, plaw (A km.1) (γ km.1) (T km.1) k *
              Real.cos (2 * Real.pi * (((k : ℝ) + 1) / T km.1) * (toas.getD i 0 - toas.getD j 0)) else 0).sum := by
  have hperm := WhiteNoise.sortedItems_perm hn
  have hl : ∀ km ∈ masks, (maskSelect nu km.2).length = (maskSelect toas km.2).length := by
    intro km hm
    rw [WhiteNoise.length_maskSelect _ _ (by rw [hlen km hm, hnu]), WhiteNoise.length_maskSelect _ _ (hlen km hm)]
  obtain ⟨items, rng', hb⟩ := bases_ok c seeded a toas nu (WhiteNoise.sortedItems masks) (fun km hkm rng => by
    have hm := hperm.mem_iff.1 hkm
    obtain ⟨F, r, h⟩ := design_ok c seeded a ha hs _ _ (hl km hm) rng _ (hT km hm).2
    exact ⟨F, _, r, h⟩) rng
  refine ⟨items, rng', hb, fun combine hnd => ?_⟩
  have hfr : ∀ km ∈ masks, freqs (maskSelect toas km.2) a = .ok (harmonics a.nmodes (T km.1), false) := by
    intro km hm
    obtain ⟨h1, h2, h3, h4⟩ := ha
    unfold freqs
    rw [(hT km hm).2]
    simp only [bind, Except.bind, h1, h2, h3, h4, and_self, if_true]
  have hc : ∃ kb ∈ items, kb.cols ≠ [] := by
    obtain ⟨km, hkm⟩ := List.exists_mem_of_ne_nil _ h0
    obtain ⟨kb, hkb, -, -, F, r, r', h1, h2⟩ := forall₂_right (bases_made c seeded a toas nu _ _ _ _ hb) km (hperm.mem_iff.2 hkm)
    refine ⟨kb, hkb, fun h => hmodes ?_⟩
    obtain ⟨f, φ, g1, g2, -⟩ := design_waves c seeded a _ _ (hl km hkm) r r' F _ h1
    rw [hfr km hkm] at g1
    simp only [Except.ok.injEq, Prod.mk.injEq, and_true] at g1
    have : (columns kb.labels.length F).length = 0 := by rw [← h2, h]; rfl
    rw [columns_length, g2, rep_length, ← g1] at this
    simpa [harmonics] using this
  obtain ⟨s, f, h1, h2, h3⟩ := C108_process c seeded a toas nu hnu masks h0 hn hlen rng rng' items hb combine hc hnd
  refine ⟨s, h1, fun hist A γ => ?_⟩
  have hpair : ∀ (A γ : String → ℝ), Paired (fun k f => Spectra.powerlaw f (A k) (γ k) 2) a toas masks
      (fun k => (List.range a.nmodes).map (plaw (A k) (γ k) (T k))) := by
    intro A γ km hm f hf
    rw [hfr km hm] at hf
    simp only [Except.ok.injEq, Prod.mk.injEq, and_true] at hf
    subst hf
    refine ⟨powerlaw_harmonics _ _ _ _ (hT km hm).1, by simp [harmonics], fun x hx => ?_⟩
    obtain ⟨j, -, rfl⟩ := List.mem_map.1 hx
    exact plaw_pos _ _ _ (hT km hm).1 j
  obtain ⟨s', a1, a2, a3, a4⟩ := h3 (hist.map fun h k f => Spectra.powerlaw f (h k).1 (h k).2 2) _ _ (by
    intro S' hS'
    obtain ⟨h, -, rfl⟩ := List.mem_map.1 hS'
    exact ⟨_, hpair (fun k => (h k).1) fun k => (h k).2⟩) (hpair A γ)
  refine ⟨s', a1, a2, a3, fun i j => ?_⟩
  rw [a4]
  unfold procCov
  congr 1
  apply List.map_congr_left
  intro km hm
  have hfe : f km.1 = harmonics a.nmodes (T km.1) := by
    have := h2 km hm
    rw [hfr km hm] at this
    simp only [Except.ok.injEq, Prod.mk.injEq, and_true] at this
    exact this.symm
  split
  · congr 1
    unfold wave
    rw [hfe]
    have : (harmonics a.nmodes (T km.1)).length = a.nmodes := by simp [harmonics]
    rw [this]
    apply sum_congr rfl
    intro k hk
    rw [mem_range] at hk
    have e1 : ((List.range a.nmodes).map (plaw (A km.1) (γ km.1) (T km.1))).getD k 0 = plaw (A km.1) (γ km.1) (T km.1) k := by
      simp [List.getD_eq_getElem?_getD, hk]
    have e2 : (harmonics a.nmodes (T km.1)).getD k 0 = ((k : ℝ) + 1) / T km.1 := by
      simp [List.getD_eq_getElem?_getD, harmonics, hk]
    rw [e1, e2]
  · rfl

/-- Two TOAs with random phases and the frequencies `1/4` and `1/2`: the covariance of the power law. -/
example (seeded : Int → Rng) (rng : Rng) (A γ : ℝ) : ∃ items rng', bases .red seeded { nmodes := 2, Tspan := some 4, pshift := true } [0, 1] [1400, 700]
      (WhiteNoise.sortedItems [("", [true, true])]) rng = .ok (items, rng') ∧ ∃ s s', construct items = .ok s ∧
      getPhis s [prior fun _ f => Spectra.powerlaw f A γ 2] = .ok s' ∧
      sigCov (signal false s') 0 1 = plaw A γ 4 0 * Real.cos (2 * Real.pi * (1 / 4) * (0 - 1)) + plaw A γ 4 1 * Real.cos (2 * Real.pi * (2 / 4) * (0 - 1)) := by
  obtain ⟨items, rng', h1, h2⟩ := C108_powerlaw .red seeded { nmodes := 2, Tspan := some 4, pshift := true } ⟨rfl, rfl, rfl, rfl⟩ rfl
    (by norm_num) [0, 1] [1400, 700] rfl [("", [true, true])] (by simp) (by simp) (by simp) (fun _ => 4)
    (by simp [tspan]) rng
  obtain ⟨s, h3, h4⟩ := h2 false (by simp)
  obtain ⟨s', h5, -, -, h6⟩ := h4 [] (fun _ => A) fun _ => γ
  refine ⟨items, rng', h1, s, s', h3, h5, ?_⟩
  rw [h6]
  simp only [List.map_cons, List.map_nil, List.sum_cons, List.sum_nil, add_zero, InMask, List.getElem?_cons_zero, List.getElem?_cons_succ,
    and_self, if_true, Chrom.factor, one_mul, sum_range_succ, range_zero, sum_empty, zero_add, List.getD_cons_zero, List.getD_cons_succ,
    Nat.cast_zero, Nat.cast_one]
  norm_num

/-- With two pulsars whose phases are shifted independently nothing is left of their covariance on average over the phases: each
mode has the average zero. -/
theorem C108_shift (f t t' φ' : ℝ) :
    ∫ p in (0 : ℝ)..(2 * Real.pi), Real.cos (2 * Real.pi * f * (t - t') + (p - φ')) = 0 := by
  have h : ∀ p : ℝ, Real.cos (2 * Real.pi * f * (t - t') + (p - φ')) = Real.cos (p + (2 * Real.pi * f * (t - t') - φ')) := by
    intro p
    congr 1
    ring
  simp only [h]
  rw [intervalIntegral.integral_comp_add_right (fun x => Real.cos x), integral_cos]
  rw [show 2 * Real.pi + (2 * Real.pi * f * (t - t') - φ') = (2 * Real.pi * f * (t - t') - φ') + 2 * Real.pi by ring, Real.sin_add_two_pi, zero_add,
    sub_self]

end Verif.Fourier
