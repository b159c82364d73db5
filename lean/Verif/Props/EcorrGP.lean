import Verif.Props.BasisGP
import Verif.Props.Collect
import Verif.Props.Noise

/-!
# Property C106: ECORR as a Gaussian process and as a noise matrix are the same model
-/

namespace Verif.BasisGP

open Verif Verif.Kernel Verif.Combine Finset

/-! ## A Gaussian process with a selection as a signal of a collection -/

section Signal

variable {L : Type}

theorem amat_arrOf (κ : Kern ℝ) : amat (arrOf κ) = κ.mat := by cases κ <;> rfl

theorem sizeOk_arrOf (κ : Kern ℝ) : SizeOk κ.size (arrOf κ) := by cases κ <;> simp [SizeOk, arrOf, Kern.size]

theorem sigCov_signal (combine : Bool) (s : Built ℝ L) (a b : Nat) : sigCov (signal combine s) a b = cov s.basis s.phi.mat a b := by
  have hcol : ∀ p (a : Nat), ((s.basis.map fun c (a : Nat) => c.getD a (0 : ℝ)).getD p fun _ => 0) a = (s.basis.getD p []).getD a 0 := by
    intro p a
    rw [List.getD_eq_getElem?_getD, List.getElem?_map, List.getD_eq_getElem?_getD (l := s.basis)]
    cases s.basis[p]? <;> simp
  simp only [sigCov, signal, quad, cov, amat_arrOf, List.length_map, hcol]

theorem stacked_form (p : String → L → Arr ℝ) (items : List (KeyBasis ℝ L))
    (h : ∀ kb ∈ items, (PhiInv.toMatrix kb.cols.length (amat (p kb.key kb.labels))).PosDef) (x : Nat → ℝ) :
    0 ≤ Collect.form (width items) x (stacked p items) ∧
      (Collect.form (width items) x (stacked p items) = 0 → ∀ i, i < width items → x i = 0) := by
  induction items generalizing x with
  | nil => simp [width, Collect.form, bigQuad]
  | cons kb t ih =>
    have hw : width (kb :: t) = kb.cols.length + width t := by simp [width]
    have e : Collect.form (width (kb :: t)) x (stacked p (kb :: t)) =
        Collect.form kb.cols.length x (amat (p kb.key kb.labels)) +
          Collect.form (width t) (fun i => x (kb.cols.length + i)) (stacked p t) := by
      rw [hw]
      simp only [Collect.form, bigQuad]
      rw [sum_range_add]
      congr 1
      · apply sum_congr rfl
        intro i hi
        rw [mem_range] at hi
        rw [sum_range_add]
        have z : ∑ j ∈ range (width t), x i * stacked p (kb :: t) i (kb.cols.length + j) * x (kb.cols.length + j) = 0 := by
          apply sum_eq_zero
          intro j _
          rw [stacked, if_neg (by omega), if_neg (by omega)]
          ring
        rw [z, add_zero]
        apply sum_congr rfl
        intro j hj
        rw [mem_range] at hj
        rw [stacked, if_pos ⟨hi, hj⟩]
      · apply sum_congr rfl
        intro i _
        rw [sum_range_add]
        have z : ∑ j ∈ range kb.cols.length, x (kb.cols.length + i) * stacked p (kb :: t) (kb.cols.length + i) j * x j = 0 := by
          apply sum_eq_zero
          intro j hj
          rw [mem_range] at hj
          rw [stacked, if_neg (by omega), if_neg (by omega)]
          ring
        rw [z, zero_add]
        apply sum_congr rfl
        intro j _
        rw [stacked, if_neg (by omega), if_pos (by omega), Nat.add_sub_cancel_left, Nat.add_sub_cancel_left]
    obtain ⟨h1, h2⟩ := Collect.form_pos (h kb (by simp)) x
    obtain ⟨h3, h4⟩ := ih (fun y hy => h y (by simp [hy])) fun i => x (kb.cols.length + i)
    rw [e]
    refine ⟨add_nonneg h1 h3, fun h0 i hi => ?_⟩
    by_cases hlt : i < kb.cols.length
    · exact h2 (by linarith) i hlt
    · have := h4 (by linarith) (i - kb.cols.length) (by omega)
      rwa [show kb.cols.length + (i - kb.cols.length) = i by omega] at this

theorem stacked_symm (p : String → L → Arr ℝ) (items : List (KeyBasis ℝ L))
    (h : ∀ kb ∈ items, (PhiInv.toMatrix kb.cols.length (amat (p kb.key kb.labels))).PosDef) (i j : Nat) :
    stacked p items i j = stacked p items j i := by
  induction items generalizing i j with
  | nil => rfl
  | cons kb t ih =>
    rw [stacked, stacked]
    by_cases h1 : i < kb.cols.length ∧ j < kb.cols.length
    · rw [if_pos h1, if_pos h1.symm]
      have := congrFun (congrFun (h kb (by simp)).isHermitian ⟨j, h1.2⟩) ⟨i, h1.1⟩
      simpa [PhiInv.toMatrix] using this
    · have h1' : ¬ (j < kb.cols.length ∧ i < kb.cols.length) := fun h => h1 h.symm
      rw [if_neg h1, if_neg h1']
      by_cases h2 : kb.cols.length ≤ i ∧ kb.cols.length ≤ j
      · rw [if_pos h2, if_pos h2.symm]
        exact ih (fun y hy => h y (by simp [hy])) _ _
      · have h2' : ¬ (kb.cols.length ≤ j ∧ kb.cols.length ≤ i) := fun h => h2 h.symm
        rw [if_neg h2, if_neg h2']

/-- C104: as a signal of a collection a Gaussian process with a selection has the covariance of one independent process per
key, and a positive definite prior if those of the keys are. -/
theorem C104_signal (combine : Bool) (n : Nat) (items : List (KeyBasis ℝ L)) (hs : Sound n items) (hne : items ≠ []) (hc : ∃ kb ∈ items, kb.cols ≠ [])
    (hnd : combine = true → ∀ s, construct items = .ok s → (s.basis.map fun c (a : Nat) => c.getD a 0).Nodup) :
    ∃ s, construct items = .ok s ∧ ∀ (ps : List (String → L → Arr ℝ)) (p : String → L → Arr ℝ), Steady items (ps ++ [p]) →
      (∀ kb ∈ items, (PhiInv.toMatrix kb.cols.length (amat (p kb.key kb.labels))).PosDef) →
      ∃ s', getPhis s (ps ++ [p]) = .ok s' ∧ s'.basis = s.basis ∧ SigOk (signal combine s') ∧ Collect.PriorPos (signal combine s') ∧
        ∀ a b, sigCov (signal combine s') a b = (items.map fun kb => keyCov kb.mask kb.cols (p kb.key kb.labels) a b).sum := by
  obtain ⟨s, h1, h2, h3, h4, h5⟩ := construct_eq n items hs hne
  have hk : Kept n items s := ⟨h2, h3, h4, by rw [h5]; rfl, by
    intro i j _
    rw [h5]
    simp [Kern.zeros, Kern.mat, diagMat]⟩
  refine ⟨s, h1, fun ps p hps hpd => ?_⟩
  obtain ⟨s', a1, a2, -, a4⟩ := getPhis_kept n items (ps ++ [p]) s hk (.inr ⟨⟨_, _, h5⟩, hps⟩)
  have hbl : s'.basis.length = width items := by rw [a2.basis, length_flatMap_spread]
  refine ⟨s', a1, a2.basis.trans h2.symm, ?_, ?_, fun a b => ?_⟩
  · intro F hF
    cases hF
    refine ⟨?_, rfl, fun _ => rfl, ?_, fun _ hcomb => ?_⟩
    · intro h
      have h0 : width items = 0 := by rw [← hbl]; simpa using h
      obtain ⟨kb, hkb, hne'⟩ := hc
      have : kb.cols.length ≤ width items := List.single_le_sum (by simp) _ (List.mem_map.2 ⟨kb, hkb, rfl⟩)
      exact hne' (List.length_eq_zero_iff.1 (by omega))
    · rw [List.length_map, hbl, ← a2.size]
      exact sizeOk_arrOf _
    · have := hnd hcomb s h1
      rw [h2] at this
      rw [a2.basis]
      exact this
  · intro _
    have hlast := a4 p (by simp)
    show (PhiInv.toMatrix (s'.basis.map _).length (amat (arrOf s'.phi))).PosDef
    rw [List.length_map, hbl, amat_arrOf]
    have hm : PhiInv.toMatrix (width items) s'.phi.mat = PhiInv.toMatrix (width items) (stacked p items) := by
      ext i j
      exact hlast i j i.2 j.2
    rw [hm]
    refine Matrix.PosDef.of_dotProduct_mulVec_pos ?_ fun x hx => ?_
    · ext i j
      simpa [PhiInv.toMatrix] using stacked_symm p items hpd j i
    · set y : Nat → ℝ := fun i => if h : i < width items then x ⟨i, h⟩ else 0 with hy
      have hyx : (fun i : Fin (width items) => y i) = x := by funext i; simp [hy]
      have hf := Collect.form_eq (width items) y (stacked p items)
      rw [hyx] at hf
      obtain ⟨g1, g2⟩ := stacked_form p items hpd y
      rw [star_trivial, ← hf]
      refine lt_of_le_of_ne g1 fun h0 => hx ?_
      funext i
      have := g2 h0.symm i i.2
      simpa [hy] using this
  · rw [sigCov_signal, ← cov_items n items hs p, a2.basis]
    apply cov_congr
    rw [length_flatMap_spread]
    exact a4 p (by simp)

end Signal

/-! ## Epochs -/

section Epochs

variable {K : Type} [Field K] [LinearOrder K] [IsStrictOrderedRing K]

/-- The column of an epoch. -/
def ind (idx : List Nat) (a : Nat) : K := if a ∈ idx then 1 else 0

theorem getD_maskSelect {α : Type} (l : List α) (m : Mask) (hl : m.length = l.length) (a : Nat) (h : m[a]? = some true) (d : α) :
    (maskSelect l m).getD (rank m a) d = l.getD a d := by
  induction m generalizing l a with
  | nil => simp at h
  | cons b t ih =>
    cases l with
    | nil => simp at hl
    | cons x l =>
      have hl' : t.length = l.length := by simpa using hl
      cases a with
      | zero =>
        have : b = true := by simpa using h
        subst this
        simp [maskSelect, rank]
      | succ a =>
        have h' : t[a]? = some true := by simpa using h
        have := ih l hl' a h'
        cases b with
        | true => simpa [maskSelect, rank] using this
        | false => simpa [maskSelect, rank] using this

/-- The columns of a key are the epochs of `EcorrKernelNoise`. -/
structure Matches (n : Nat) (kb : KeyBasis K (List K)) (ki : String × List (List Nat)) : Prop where
  key : kb.key = ki.1
  labels : kb.labels = List.replicate kb.cols.length 1
  mask : kb.mask.length = n
  rows : ∀ c ∈ kb.cols, c.length = WhiteNoise.maskCount kb.mask
  cols : ((spread n kb).map fun c (a : Nat) => c.getD a (0 : K)) = ki.2.map ind

theorem key_matches (argsort : List K → List Nat) (toas : List K) (dt : K) (key : String) (mask : Mask)
    (hsort : Quantize.IsArgsort (maskSelect toas mask) (argsort (maskSelect toas mask)))
    (hdt : 0 < dt) (hlen : mask.length = toas.length) (hne : ∃ i : Nat, mask[i]? = some true) :
    ∃ cols idx, Quantize.quantCols (maskSelect toas mask) (argsort (maskSelect toas mask)) dt 2 = .ok cols ∧
      Quantize.ecorrIdxs1 argsort toas dt mask = .ok idx ∧
      Matches toas.length { key := key, mask := mask, cols := cols, labels := List.replicate cols.length 1 } (key, idx) := by
  obtain ⟨refs, h1, h2, -⟩ := Quantize.ecorrIdxs1_cols argsort toas dt mask hsort hdt hlen hne
  refine ⟨_, _, h1, h2, rfl, rfl, hlen, ?_, ?_⟩
  · intro c hc
    obtain ⟨r, -, rfl⟩ := List.mem_map.1 hc
    rw [List.length_map, WhiteNoise.length_maskSelect _ _ hlen]
  · simp only [spread, List.map_map]
    apply List.map_congr_left
    intro r _
    funext a
    simp only [Function.comp]
    rw [getD_scatter toas.length mask _ hlen (by rw [List.length_map, WhiteNoise.length_maskSelect _ _ hlen])]
    unfold ind
    by_cases hm : mask[a]? = some true
    · have ha : a < toas.length := by
        rw [← hlen]
        exact (List.getElem?_eq_some_iff.1 hm).1
      rw [if_pos hm]
      have e : ((maskSelect toas mask).map (Quantize.windowFn dt r)).getD (rank mask a) 0 =
          Quantize.windowFn dt r (toas.getD a 0) := by
        have hlt : rank mask a < (maskSelect toas mask).length := by
          by_contra hc
          have e1 := getD_maskSelect (toas.map some) mask (by simpa using hlen) a hm none
          rw [Quantize.maskSelect_map] at e1
          simp only [List.getD_eq_getElem?_getD, List.getElem?_map, List.getElem?_eq_none (not_lt.1 hc), Option.map_none, Option.getD_none,
            List.getElem?_eq_getElem ha, Option.map_some, Option.getD_some] at e1
          cases e1
        rw [← getD_maskSelect toas mask hlen a hm 0]
        simp [List.getD_eq_getElem?_getD, List.getElem?_eq_getElem hlt]
      rw [e]
      simp only [Quantize.windowFn, List.mem_filter, List.mem_range, hm, decide_true, Bool.true_and, Bool.and_eq_true, decide_eq_true_eq, ha, true_and]
    · rw [if_neg hm, if_neg]
      simp [hm]

theorem all_match (argsort : List K → List Nat) (hsort : ∀ l, Quantize.IsArgsort l (argsort l)) (toas : List K) (dt : K) (hdt : 0 < dt)
    (l : List (String × Mask)) (hlen : ∀ km ∈ l, km.2.length = toas.length) (hne : ∀ km ∈ l, ∃ i : Nat, km.2[i]? = some true) :
    ∃ items idxs, (l.mapM fun km =>
        match Quantize.quantCols (maskSelect toas km.2) (argsort (maskSelect toas km.2)) dt 2 with
        | .error e => .error e
        | .ok cols => .ok ({ key := km.1, mask := km.2, cols := cols, labels := List.replicate cols.length 1 } : KeyBasis K (List K))) =
          (.ok items : Except PyErr _) ∧
      (l.mapM fun km => do
        let idx ← Quantize.ecorrIdxs1 argsort toas dt km.2
        return (km.1, idx)) = .ok idxs ∧
      List.Forall₂ (Matches toas.length) items idxs ∧ items.map KeyBasis.key = l.map Prod.fst ∧ idxs.map Prod.fst = l.map Prod.fst := by
  induction l with
  | nil => exact ⟨[], [], rfl, rfl, .nil, rfl, rfl⟩
  | cons km t ih =>
    obtain ⟨cols, idx, a1, a2, a3⟩ := key_matches argsort toas dt km.1 km.2 (hsort _) hdt (hlen km (by simp)) (hne km (by simp))
    obtain ⟨items, idxs, b1, b2, b3, b4, b5⟩ := ih (fun x hx => hlen x (by simp [hx])) fun x hx => hne x (by simp [hx])
    refine ⟨_ :: items, (km.1, idx) :: idxs, ?_, ?_, .cons a3 b3, ?_, ?_⟩
    · rw [List.mapM_cons, a1, b1]; rfl
    · rw [List.mapM_cons, a2, b2]; rfl
    · rw [List.map_cons, b4]; rfl
    · rw [List.map_cons, b5]; rfl

/-- The bases of `EcorrBasisModel` and the epochs of `EcorrKernelNoise`. -/
theorem bases_match (argsort : List K → List Nat) (hsort : ∀ l, Quantize.IsArgsort l (argsort l)) (toas : List K) (dt : K) (hdt : 0 < dt)
    (masks : Dict String Mask) (hn : (masks.map Prod.fst).Nodup) (hlen : ∀ km ∈ masks, km.2.length = toas.length)
    (hne : ∀ km ∈ masks, ∃ i, InMask km.2 i) :
    ∃ items idxs, ecorrBases argsort toas dt masks = .ok items ∧ Quantize.ecorrIdxs argsort toas dt masks = .ok idxs ∧
      List.Forall₂ (Matches toas.length) items idxs ∧ (items.map KeyBasis.key).Nodup ∧ (idxs.map Prod.fst).Pairwise (· < ·) ∧
      items.length = masks.length := by
  obtain ⟨items, idxs, h1, h2, h3, h4, h5⟩ := all_match argsort hsort toas dt hdt (WhiteNoise.sortedItems masks)
    (fun km h => hlen km ((WhiteNoise.mem_sortedItems hn km).1 h)) (fun km h => hne km ((WhiteNoise.mem_sortedItems hn km).1 h))
  have hp := WhiteNoise.sortedItems_pairwise hn
  refine ⟨items, idxs, h1, h2, h3, by rw [h4]; exact hp.imp fun h => ne_of_lt h, by rw [h5]; exact hp, ?_⟩
  have := congrArg List.length h4
  rw [List.length_map, List.length_map] at this
  rw [this, (WhiteNoise.sortedItems_perm hn).length_eq]

omit [Field K] [LinearOrder K] [IsStrictOrderedRing K] in
/-- The epochs with their variances, in the order of the keys. -/
theorem jvecs_zip (idxs : List (String × List (List Nat))) (amp : String → K) (h : (idxs.map Prod.fst).Pairwise (· < ·)) :
    (Quantize.getJvecs idxs amp).1 = idxs.flatMap Prod.snd ∧
    (Quantize.getJvecs idxs amp).1.zip (Quantize.getJvecs idxs amp).2 = idxs.flatMap fun ki => ki.2.map fun idx => (idx, amp ki.1) := by
  have hs : (idxs.map Prod.fst).insertionSort (· ≤ ·) = idxs.map Prod.fst :=
    List.Pairwise.insertionSort_eq (h.imp fun h => le_of_lt h)
  have hn : (idxs.map Prod.fst).Nodup := h.imp fun h => ne_of_lt h
  unfold Quantize.getJvecs
  simp only [hs, List.map_map]
  have e1 : idxs.map ((fun k => (Dict.get? idxs k).getD []) ∘ Prod.fst) = idxs.map Prod.snd := by
    apply List.map_congr_left
    intro ki hki
    simp only [Function.comp]
    rw [Dict.get?_of_mem hn hki, Option.getD_some]
  have e2 : idxs.map ((fun k => List.replicate ((Dict.get? idxs k).getD []).length (amp k)) ∘ Prod.fst) =
      idxs.map fun ki => List.replicate ki.2.length (amp ki.1) := by
    apply List.map_congr_left
    intro ki hki
    simp only [Function.comp]
    rw [Dict.get?_of_mem hn hki, Option.getD_some]
  rw [e1, e2]
  refine ⟨by rw [List.flatMap_def], ?_⟩
  clear e1 e2 hs hn h
  induction idxs with
  | nil => rfl
  | cons ki t ih =>
    rw [List.map_cons, List.flatten_cons, List.map_cons, List.flatten_cons, List.zip_append (by simp), ih, List.flatMap_cons]
    congr 1
    generalize ki.2 = l
    induction l with
    | nil => rfl
    | cons a s ih' => simp [List.replicate_succ, ih']

/-- The covariance due to the epochs. -/
def epochCov (ep : List (List Nat × K)) (a b : Nat) : K := (ep.map fun e => if a ∈ e.1 ∧ b ∈ e.1 then e.2 else 0).sum

theorem key_cov (n : Nat) (kb : KeyBasis K (List K)) (ki : String × List (List Nat)) (h : Matches n kb ki) (amp : K) (a b : Nat) :
    keyCov kb.mask kb.cols (ecorrPrior kb.labels amp) a b = epochCov (ki.2.map fun idx => (idx, amp)) a b := by
  rw [← cov_spread n kb h.mask h.rows]
  have hl : (spread n kb).length = kb.cols.length := by simp [spread]
  have hlen : (spread n kb).length = ki.2.length := by simpa using congrArg List.length h.cols
  have hcol : ∀ p a, p < ki.2.length → ((spread n kb).getD p []).getD a 0 = ind (ki.2.getD p []) a := by
    intro p a hp
    have := congrArg (fun l : List (Nat → K) => l[p]?) h.cols
    simp only [List.getElem?_map, List.getElem?_eq_getElem hp, List.getElem?_eq_getElem (by rw [hlen]; exact hp : p < (spread n kb).length),
      Option.map_some, Option.some.injEq] at this
    have := congrFun this a
    rw [List.getD_eq_getElem?_getD (l := spread n kb), List.getElem?_eq_getElem (by rw [hlen]; exact hp), Option.getD_some, this]
    simp [List.getD_eq_getElem?_getD, List.getElem?_eq_getElem hp]
  unfold cov epochCov
  rw [hlen, List.map_map]
  have key : ∀ i ∈ range ki.2.length, ∑ j ∈ range ki.2.length, ((spread n kb).getD i []).getD a 0 *
      amat (ecorrPrior kb.labels amp) i j * ((spread n kb).getD j []).getD b 0 =
      if a ∈ ki.2.getD i [] ∧ b ∈ ki.2.getD i [] then amp else 0 := by
    intro i hi
    have hi' := mem_range.1 hi
    rw [Finset.sum_eq_single_of_mem i hi]
    · rw [hcol i a hi', hcol i b hi']
      have hone : (List.replicate kb.cols.length (1 : K)).getD i 0 = 1 := by
        rw [List.getD_eq_getElem?_getD, List.getElem?_replicate, if_pos (by omega)]; rfl
      simp only [ecorrPrior, amat, if_true, h.labels, hone, one_mul, ind]
      have hall : ∀ l : List Nat, (if a ∈ l then (1 : K) else 0) * amp * (if b ∈ l then 1 else 0) = if a ∈ l ∧ b ∈ l then amp else 0 := by
        intro l
        by_cases h1 : a ∈ l <;> by_cases h2 : b ∈ l <;> simp [h1, h2]
      exact hall _
    · intro j _ hji
      simp only [ecorrPrior, amat]
      rw [if_neg (Ne.symm hji)]
      ring
  rw [sum_congr rfl key, Finset.sum_range, ← List.sum_ofFn]
  congr 1
  apply List.ext_getElem
  · simp
  · intro p h1 h2
    simp only [List.length_ofFn] at h1
    simp [List.getD_eq_getElem?_getD]

/-- C106: the prior and the basis of `EcorrBasisModel` make the covariance of the epochs of `EcorrKernelNoise`, whatever the
parameters of earlier calls were. -/
theorem C106_covariance (argsort : List K → List Nat) (hsort : ∀ l, Quantize.IsArgsort l (argsort l)) (toas : List K) (dt : K) (hdt : 0 < dt)
    (masks : Dict String Mask) (h0 : masks ≠ []) (hn : (masks.map Prod.fst).Nodup) (hlen : ∀ km ∈ masks, km.2.length = toas.length)
    (hne : ∀ km ∈ masks, ∃ i, InMask km.2 i) :
    ∃ items s idxs, ecorrBases argsort toas dt masks = .ok items ∧ construct items = .ok s ∧
      Quantize.ecorrIdxs argsort toas dt masks = .ok idxs ∧
      ∀ (hist : List (String → K)) (amp : String → K), ∃ s',
        getPhis s (hist.map (fun am k w => ecorrPrior w (am k)) ++ [fun k w => ecorrPrior w (amp k)]) = .ok s' ∧
        ∀ a b, cov s'.basis s'.phi.mat a b =
          epochCov ((Quantize.getJvecs idxs amp).1.zip (Quantize.getJvecs idxs amp).2) a b := by
  obtain ⟨items, idxs, h1, h2, h3, h4, h5, h6⟩ := bases_match argsort hsort toas dt hdt masks hn hlen hne
  have hs : Sound toas.length items := by
    refine ⟨h4, ?_, ?_⟩
    · clear h1 h2 h4 h5 h6
      induction h3 with
      | nil => simp
      | cons hm _ ih =>
        intro kb hkb
        rcases List.mem_cons.1 hkb with rfl | hkb
        · exact hm.mask
        · exact ih kb hkb
    · clear h1 h2 h4 h5 h6
      induction h3 with
      | nil => simp
      | cons hm _ ih =>
        intro kb hkb
        rcases List.mem_cons.1 hkb with rfl | hkb
        · exact hm.rows
        · exact ih kb hkb
  have hlab : ∀ kb ∈ items, kb.labels = List.replicate kb.cols.length 1 := by
    clear h1 h2 h4 h5 h6 hs
    induction h3 with
    | nil => simp
    | cons hm _ ih =>
      intro kb hkb
      rcases List.mem_cons.1 hkb with rfl | hkb
      · exact hm.labels
      · exact ih kb hkb
  have hi : items ≠ [] := by
    intro h
    rw [h] at h6
    exact h0 (List.length_eq_zero_iff.1 h6.symm)
  obtain ⟨s, g1, -, -, g2⟩ := C104_partial toas.length items hs hi
  refine ⟨items, s, idxs, h1, g1, h2, fun hist amp => ?_⟩
  have hvec : ∀ am : String → K, Vectors items fun k w => ecorrPrior w (am k) := by
    intro am kb hkb
    refine ⟨fun i => kb.labels.getD i 0 * am kb.key, ?_⟩
    have : kb.labels.length = kb.cols.length := by rw [hlab kb hkb, List.length_replicate]
    simp only [ecorrPrior, this]
  obtain ⟨s', a1, -, -, a4⟩ := g2 (hist.map fun am k w => ecorrPrior w (am k)) (fun k w => ecorrPrior w (amp k))
    ⟨hist.map (fun am k w => ecorrPrior w (am k)) ++ [fun k w => ecorrPrior w (amp k)], [], by simp, by
      intro p hp
      rcases List.mem_append.1 hp with hp | hp
      · obtain ⟨am, -, rfl⟩ := List.mem_map.1 hp
        exact hvec am
      · rw [List.mem_singleton.1 hp]
        exact hvec amp, by simp⟩
  refine ⟨s', a1, fun a b => ?_⟩
  rw [a4, (jvecs_zip idxs amp h5).2]
  clear a1 a4 g1 g2 h1 h2 h4 h5 h6 hs hlab hi hvec
  induction h3 with
  | nil => rfl
  | @cons kb ki items idxs hm _ ih =>
    rw [List.map_cons, List.sum_cons, ih, key_cov toas.length kb ki hm, hm.key]
    simp only [epochCov, List.flatMap_cons, List.map_append, List.sum_append]

end Epochs

/-! ## The likelihood -/

open Verif.Noise Verif.Likelihood in
/-- The pulsar with measurement noise of variances `v`, other Gaussian processes `l`, and ECORR as a noise matrix. -/
noncomputable def kernelPsr (n : Nat) (res : Fin n → ℝ) (delays : List (Option (Fin n → ℝ))) (v : Fin n → ℝ) (l : List (BSig ℝ))
    (lp : List ℝ) (ij : List (List Nat) × List ℝ) : Collect.Psr :=
  { n := n, res := res, delays := delays, noise := [some (.base (.arr v)), some (.base (ecorrSM (epochsOf n ij)))], sigs := l, logprior := lp }

/-- The pulsar with measurement noise of variances `v`, other Gaussian processes `l`, and one more Gaussian process. -/
noncomputable def processPsr (n : Nat) (res : Fin n → ℝ) (delays : List (Option (Fin n → ℝ))) (v : Fin n → ℝ) (l : List (BSig ℝ))
    (lp : List ℝ) (g : BSig ℝ) : Collect.Psr :=
  { n := n, res := res, delays := delays, noise := [some (.base (.arr v))], sigs := g :: l, logprior := lp }

theorem epochs_sum (n : Nat) (ij : List (List Nat) × List ℝ) (a b : Fin n) :
    ((Noise.epochsOf n ij).map Noise.epochMat).sum a b = epochCov (ij.1.zip ij.2) a b := by
  obtain ⟨A, J⟩ := ij
  unfold Noise.epochsOf
  simp only
  induction A generalizing J with
  | nil => simp [epochCov]
  | cons x A ih =>
    cases J with
    | nil => simp [epochCov]
    | cons j J =>
      rw [List.map_cons, List.zip_cons_cons, List.map_cons, List.sum_cons, Matrix.add_apply, ih J, List.zip_cons_cons]
      unfold epochCov
      rw [List.map_cons, List.sum_cons]
      congr 1
      have hm : ∀ a : Fin n, (a ∈ x.filterMap fun i => if h : i < n then some (⟨i, h⟩ : Fin n) else none) ↔ a.1 ∈ x := by
        intro a
        rw [List.mem_filterMap]
        constructor
        · rintro ⟨i, hi, h⟩
          split at h
          · cases h; exact hi
          · cases h
        · intro h
          exact ⟨a.1, h, by simp⟩
      simp only [Noise.epochMat, Matrix.of_apply, hm]

/-- C106: a pulsar with measurement noise has the same likelihood with `EcorrKernelNoise` and with `EcorrBasisModel`, whatever
other Gaussian processes it has and whatever the parameters of earlier calls were, if there is an epoch: the Gaussian density
with the covariance of the epochs added to the measurement noise.  Missing: no epochs (`C106_none_false`). -/
theorem C106_likelihood_partial {H : Type} [DecidableEq H] (hash : Col ℝ → H) (hh : Function.Injective hash)
    (svd : ∀ {n : Nat} (M : Matrix (Fin n) (Fin n) ℝ), Partition.Svd M) (method : Likelihood.Method) (hm : method ≠ .other)
    (argsort : List ℝ → List Nat) (hsort : ∀ l, Quantize.IsArgsort l (argsort l)) (toas : List ℝ) (dt : ℝ) (hdt : 0 < dt)
    (masks : Dict String Mask) (h0 : masks ≠ []) (hn : (masks.map Prod.fst).Nodup) (hlen : ∀ km ∈ masks, km.2.length = toas.length)
    (hdisj : MasksDisjoint masks) (hne : ∀ km ∈ masks, ∃ i, InMask km.2 i)
    (res : Fin toas.length → ℝ) (delays : List (Option (Fin toas.length → ℝ))) (v : Fin toas.length → ℝ) (hv : ∀ i, 0 < v i)
    (l : List (BSig ℝ)) (hok : ∀ b ∈ l, SigOk b) (ho : Ordered l) (hpos : ∀ b ∈ l, Collect.PriorPos b) (lp : List ℝ) :
    ∃ items s idxs, ecorrBases argsort toas dt masks = .ok items ∧ construct items = .ok s ∧
      Quantize.ecorrIdxs argsort toas dt masks = .ok idxs ∧
      ∀ (hist : List (String → ℝ)) (amp : String → ℝ), (∀ k, 0 < amp k) → (Quantize.getJvecs idxs amp).1 ≠ [] → ∃ s',
        getPhis s (hist.map (fun am k w => ecorrPrior w (am k)) ++ [fun k w => ecorrPrior w (amp k)]) = .ok s' ∧
        Collect.likelihood hash svd method [kernelPsr toas.length res delays v l lp (Quantize.getJvecs idxs amp)] =
          .ok (some (Likelihood.gaussLog (Noise.ecorrN (Noise.epochsOf toas.length (Quantize.getJvecs idxs amp)) v +
            (l.map (Collect.sigMat toas.length)).sum) (res - delays.reduceOption.sum) + lp.sum)) ∧
        Collect.likelihood hash svd method [processPsr toas.length res delays v l lp (signal true s')] =
          Collect.likelihood hash svd method [kernelPsr toas.length res delays v l lp (Quantize.getJvecs idxs amp)] := by
  obtain ⟨items, s, idxs, h1, h2, h3, h4⟩ := C106_covariance argsort hsort toas dt hdt masks h0 hn hlen hne
  refine ⟨items, s, idxs, h1, h2, h3, fun hist amp hamp hep => ?_⟩
  obtain ⟨items', idxs', e1, e2, hmat, hkeys, hsorted, hilen⟩ := bases_match argsort hsort toas dt hdt masks hn hlen hne
  rw [h1] at e1
  rw [h3] at e2
  cases e1
  cases e2
  obtain ⟨idxs', e3, hex⟩ := Noise.C51_ecorr argsort hsort toas dt hdt masks amp hamp hn hlen hdisj hne v hv
  rw [h3] at e3
  cases e3
  obtain ⟨idxs', e4, hll, hpd, heach, -⟩ := Quantize.C12_ecorr_epochs argsort hsort toas dt hdt masks amp hn hlen hdisj hne
  rw [h3] at e4
  cases e4
  -- the signal
  have hget : ∀ kb ∈ items, ∃ ki ∈ idxs, Matches toas.length kb ki := by
    intro kb hkb
    clear h1 h2 h3 h4 hkeys hsorted hilen hex hll hpd heach hep
    induction hmat with
    | nil => simp at hkb
    | cons hm' _ ih =>
      rcases List.mem_cons.1 hkb with rfl | hkb
      · exact ⟨_, by simp, hm'⟩
      · obtain ⟨ki, g1, g2⟩ := ih hkb
        exact ⟨ki, by simp [g1], g2⟩
  have hsound : Sound toas.length items := ⟨hkeys, fun kb hkb => by
    obtain ⟨ki, -, g⟩ := hget kb hkb
    exact g.mask, fun kb hkb => by
    obtain ⟨ki, -, g⟩ := hget kb hkb
    exact g.rows⟩
  have hbasis : (items.flatMap (spread toas.length)).map (fun c (a : Nat) => c.getD a (0 : ℝ)) = (idxs.flatMap Prod.snd).map ind := by
    clear h1 h2 h3 h4 hkeys hsorted hilen hex hll hpd heach hep hget hsound
    induction hmat with
    | nil => rfl
    | cons hm' _ ih => rw [List.flatMap_cons, List.map_append, ih, hm'.cols, List.flatMap_cons, List.map_append]
  have hj1 := (jvecs_zip idxs amp hsorted).1
  have hnonempty : items ≠ [] := by
    intro h
    rw [h] at hilen
    exact h0 (List.length_eq_zero_iff.1 hilen.symm)
  have hcols : ∃ kb ∈ items, kb.cols ≠ [] := by
    by_contra hc
    push Not at hc
    apply hep
    rw [hj1]
    have : items.flatMap (spread toas.length) = [] := by
      rw [List.flatMap_eq_nil_iff]
      intro kb hkb
      simp [spread, hc kb hkb]
    rw [this] at hbasis
    exact (List.map_eq_nil_iff.1 hbasis.symm)
  have hnodup : ((idxs.flatMap Prod.snd).map (ind (K := ℝ))).Nodup := by
    rw [← hj1]
    have hne2 : ∀ idx ∈ (Quantize.getJvecs idxs amp).1, idx ≠ [] := by
      intro idx hidx
      obtain ⟨e, he, hee⟩ := List.getElem_of_mem hidx
      have hj : (Quantize.getJvecs idxs amp).2[e]? = some ((Quantize.getJvecs idxs amp).2[e]'(by omega)) := List.getElem?_eq_getElem _
      have := (heach e idx _ (by rw [List.getElem?_eq_getElem he, hee]) hj).1
      intro h
      rw [h] at this
      simp at this
    unfold List.Nodup
    rw [List.pairwise_map]
    refine hpd.imp_of_mem fun {x y} hx _ hxy h => ?_
    obtain ⟨i, hi⟩ := List.exists_mem_of_ne_nil _ (hne2 x hx)
    have := congrFun h i
    unfold ind at this
    rw [if_pos hi, if_neg (hxy hi)] at this
    exact one_ne_zero this
  have hlab : ∀ kb ∈ items, kb.labels = List.replicate kb.cols.length 1 := by
    intro kb hkb
    obtain ⟨ki, -, g⟩ := hget kb hkb
    exact g.labels
  have hvec : ∀ am : String → ℝ, Vectors items fun k w => ecorrPrior w (am k) := by
    intro am kb hkb
    refine ⟨fun i => kb.labels.getD i 0 * am kb.key, ?_⟩
    have : kb.labels.length = kb.cols.length := by rw [hlab kb hkb, List.length_replicate]
    simp only [ecorrPrior, this]
  obtain ⟨t, ht, hsig⟩ := C104_signal true toas.length items hsound hnonempty hcols (by
    intro _ u hu
    obtain ⟨u', g1, g2, -⟩ := construct_eq toas.length items hsound hnonempty
    rw [hu] at g1
    cases g1
    rw [g2, hbasis]
    exact hnodup)
  rw [h2] at ht
  cases ht
  obtain ⟨s', a1, a2, a3, a4, -⟩ := hsig (hist.map fun am k w => ecorrPrior w (am k)) (fun k w => ecorrPrior w (amp k))
    ⟨hist.map (fun am k w => ecorrPrior w (am k)) ++ [fun k w => ecorrPrior w (amp k)], [], by simp, by
      intro p hp
      rcases List.mem_append.1 hp with hp | hp
      · obtain ⟨am, -, rfl⟩ := List.mem_map.1 hp
        exact hvec am
      · rw [List.mem_singleton.1 hp]
        exact hvec amp, by simp⟩ (by
      intro kb hkb
      have hd : PhiInv.toMatrix kb.cols.length (amat (ecorrPrior kb.labels (amp kb.key))) = Matrix.diagonal fun _ => amp kb.key := by
        ext i j
        simp only [PhiInv.toMatrix, Matrix.of_apply, ecorrPrior, amat, Matrix.diagonal_apply, Fin.ext_iff]
        split
        · rw [hlab kb hkb, List.getD_eq_getElem?_getD, List.getElem?_replicate, if_pos i.2, Option.getD_some, one_mul]
        · rfl
      rw [hd]
      exact Matrix.PosDef.diagonal fun _ => hamp _)
  obtain ⟨s'', b1, b2⟩ := h4 hist amp
  rw [a1] at b1
  cases b1
  refine ⟨s', a1, ?_⟩
  -- the two pulsars
  have hn0 : ¬ ∀ i, v i = 0 := by
    obtain ⟨km, hkm⟩ := List.exists_mem_of_ne_nil _ h0
    obtain ⟨i, hi⟩ := hne km hkm
    have hlt : i < toas.length := by rw [← hlen km hkm]; exact (List.getElem?_eq_some_iff.1 hi).1
    exact fun h => (hv ⟨i, hlt⟩).ne' (h _)
  have f1 : Collect.Fine hash (kernelPsr toas.length res delays v l lp (Quantize.getJvecs idxs amp)) 0
      (Noise.ecorrN (Noise.epochsOf toas.length (Quantize.getJvecs idxs amp)) v) 0 := by
    refine ⟨⟨.base (.sm (Noise.epochsOf toas.length (Quantize.getJvecs idxs amp)) (.arr v)), ?_, Likelihood.whole_base hex 0⟩, hok, ho,
      fun _ _ _ _ _ _ _ _ c _ c' _ h => hh h, hpos⟩
    simp only [kernelPsr, List.reduceOption, List.filterMap_cons, id, List.filterMap_nil, Noise.getNdiag, List.foldlM_cons, List.foldlM_nil,
      Noise.Nmat.add, Noise.Base.add, Noise.ecorrSM, if_neg hn0, Except.map, bind, Except.bind, pure, Except.pure, Noise.NV.add]
  have f2 : Collect.Fine hash (processPsr toas.length res delays v l lp (signal true s')) 0 (Matrix.diagonal v) 0 := by
    refine ⟨⟨.base (.arr v), ?_, Likelihood.whole_base (Noise.arr_exact v hv) 0⟩, ?_, ⟨fun _ h => absurd h (by simp [signal]), ho⟩,
      fun _ _ _ _ _ _ _ _ c _ c' _ h => hh h, ?_⟩
    · simp only [processPsr, List.reduceOption, List.filterMap_cons, id, List.filterMap_nil, Noise.getNdiag, List.foldlM_cons, List.foldlM_nil,
        Noise.Nmat.add, Noise.Base.add, Except.map, bind, Except.bind, pure, Except.pure]
    · intro b hb
      rcases List.mem_cons.1 hb with rfl | hb
      · exact a3
      · exact hok b hb
    · intro b hb
      rcases List.mem_cons.1 hb with rfl | hb
      · exact a4
      · exact hpos b hb
  have g1 := Collect.C105_one hash svd method hm _ 0 _ _ f1
  have g2 := Collect.C105_one hash svd method hm _ 0 _ _ f2
  rw [Likelihood.margLog_zero] at g1 g2
  refine ⟨g1, ?_⟩
  rw [g1, g2]
  have hcov : Matrix.diagonal v + ((signal true s' :: l).map (Collect.sigMat toas.length)).sum =
      Noise.ecorrN (Noise.epochsOf toas.length (Quantize.getJvecs idxs amp)) v + (l.map (Collect.sigMat toas.length)).sum := by
    rw [List.map_cons, List.sum_cons, ← add_assoc]
    congr 1
    unfold Noise.ecorrN
    congr 1
    ext a b
    rw [epochs_sum, ← b2]
    exact sigCov_signal true s' a b
  show Except.ok (some (Likelihood.gaussLog (Matrix.diagonal v + ((signal true s' :: l).map (Collect.sigMat toas.length)).sum) _ + _)) = _
  rw [hcov]
  rfl

/-- C106 is false for a pulsar without epochs: `EcorrKernelNoise` adds nothing to the noise, `EcorrBasisModel` raises an
`IndexError` (the positions of its columns, none, are an empty array of floats). -/
theorem C106_none_false {H : Type} [DecidableEq H] (hash : Col ℝ → H) (hh : Function.Injective hash)
    (svd : ∀ {n : Nat} (M : Matrix (Fin n) (Fin n) ℝ), Partition.Svd M) (method : Likelihood.Method) (hm : method ≠ .other)
    (argsort : List ℝ → List Nat) (hsort : ∀ l, Quantize.IsArgsort l (argsort l)) (toas : List ℝ) (dt : ℝ) (hdt : 0 < dt)
    (masks : Dict String Mask) (h0 : masks ≠ []) (hn : (masks.map Prod.fst).Nodup) (hlen : ∀ km ∈ masks, km.2.length = toas.length)
    (hdisj : MasksDisjoint masks) (hne : ∀ km ∈ masks, ∃ i, InMask km.2 i)
    (res : Fin toas.length → ℝ) (delays : List (Option (Fin toas.length → ℝ))) (v : Fin toas.length → ℝ) (hv : ∀ i, 0 < v i)
    (l : List (BSig ℝ)) (hok : ∀ b ∈ l, SigOk b) (ho : Ordered l) (hpos : ∀ b ∈ l, Collect.PriorPos b) (lp : List ℝ) :
    ∃ items s idxs, ecorrBases argsort toas dt masks = .ok items ∧ construct items = .ok s ∧
      Quantize.ecorrIdxs argsort toas dt masks = .ok idxs ∧
      ∀ (hist : List (String → ℝ)) (amp : String → ℝ), (∀ k, 0 < amp k) → (Quantize.getJvecs idxs amp).1 = [] → ∃ s',
        getPhis s (hist.map (fun am k w => ecorrPrior w (am k)) ++ [fun k w => ecorrPrior w (amp k)]) = .ok s' ∧
        Collect.likelihood hash svd method [kernelPsr toas.length res delays v l lp (Quantize.getJvecs idxs amp)] =
          .ok (some (Likelihood.gaussLog (Matrix.diagonal v + (l.map (Collect.sigMat toas.length)).sum)
            (res - delays.reduceOption.sum) + lp.sum)) ∧
        Collect.likelihood hash svd method [processPsr toas.length res delays v l lp (signal true s')] = .error .indexError := by
  obtain ⟨items, s, idxs, h1, h2, h3, h4⟩ := C106_covariance argsort hsort toas dt hdt masks h0 hn hlen hne
  refine ⟨items, s, idxs, h1, h2, h3, fun hist amp hamp hep => ?_⟩
  obtain ⟨items', idxs', e1, e2, hmat, hkeys, hsorted, hilen⟩ := bases_match argsort hsort toas dt hdt masks hn hlen hne
  rw [h1] at e1
  rw [h3] at e2
  cases e1
  cases e2
  obtain ⟨idxs', e3, hex⟩ := Noise.C51_ecorr argsort hsort toas dt hdt masks amp hamp hn hlen hdisj hne v hv
  rw [h3] at e3
  cases e3
  have hj1 := (jvecs_zip idxs amp hsorted).1
  rw [hep] at hj1
  obtain ⟨s', b1, -⟩ := h4 hist amp
  have hbasis : (items.flatMap (spread toas.length)).map (fun c (a : Nat) => c.getD a (0 : ℝ)) = (idxs.flatMap Prod.snd).map ind := by
    clear h1 h2 h3 h4 hkeys hsorted hilen hex hep hj1 b1
    induction hmat with
    | nil => rfl
    | cons hm' _ ih => rw [List.flatMap_cons, List.map_append, ih, hm'.cols, List.flatMap_cons, List.map_append]
  rw [← hj1, List.map_nil, List.map_eq_nil_iff] at hbasis
  have hget : ∀ kb ∈ items, ∃ ki ∈ idxs, Matches toas.length kb ki := by
    intro kb hkb
    clear h1 h2 h3 h4 hkeys hsorted hilen hex hep hj1 hbasis b1
    induction hmat with
    | nil => simp at hkb
    | cons hm' _ ih =>
      rcases List.mem_cons.1 hkb with rfl | hkb
      · exact ⟨_, by simp, hm'⟩
      · obtain ⟨ki, g1, g2⟩ := ih hkb
        exact ⟨ki, by simp [g1], g2⟩
  have hsound : Sound toas.length items := ⟨hkeys, fun kb hkb => by
    obtain ⟨ki, -, g⟩ := hget kb hkb
    exact g.mask, fun kb hkb => by
    obtain ⟨ki, -, g⟩ := hget kb hkb
    exact g.rows⟩
  have hnonempty : items ≠ [] := by
    intro h
    rw [h] at hilen
    exact h0 (List.length_eq_zero_iff.1 hilen.symm)
  have hs'b : s'.basis = [] := by
    obtain ⟨u, g1, g2, g3⟩ := construct_eq toas.length items hsound hnonempty
    rw [h2] at g1
    cases g1
    have keep : ∀ (ps : List (String → List ℝ → Arr ℝ)) (s s' : Built ℝ (List ℝ)), getPhis s ps = .ok s' → s'.basis = s.basis := by
      intro ps
      induction ps with
      | nil => intro s s' h; cases h; rfl
      | cons p t ih =>
        intro s s' h
        rw [getPhis] at h
        unfold getPhi at h
        split at h
        · cases h
        · rename_i x hx
          split at hx
          · cases hx
          · cases hx
            have := ih _ _ h
            exact this
    rw [keep _ _ _ b1, g2, hbasis]
  refine ⟨s', b1, ?_, ?_⟩
  · have hn0 : ¬ ∀ i, v i = 0 := by
      obtain ⟨km, hkm⟩ := List.exists_mem_of_ne_nil _ h0
      obtain ⟨i, hi⟩ := hne km hkm
      have hlt : i < toas.length := by rw [← hlen km hkm]; exact (List.getElem?_eq_some_iff.1 hi).1
      exact fun h => (hv ⟨i, hlt⟩).ne' (h _)
    have f1 : Collect.Fine hash (kernelPsr toas.length res delays v l lp (Quantize.getJvecs idxs amp)) 0
        (Noise.ecorrN (Noise.epochsOf toas.length (Quantize.getJvecs idxs amp)) v) 0 := by
      refine ⟨⟨.base (.sm (Noise.epochsOf toas.length (Quantize.getJvecs idxs amp)) (.arr v)), ?_, Likelihood.whole_base hex 0⟩, hok, ho,
        fun _ _ _ _ _ _ _ _ c _ c' _ h => hh h, hpos⟩
      simp only [kernelPsr, List.reduceOption, List.filterMap_cons, id, List.filterMap_nil, Noise.getNdiag, List.foldlM_cons, List.foldlM_nil,
        Noise.Nmat.add, Noise.Base.add, Noise.ecorrSM, if_neg hn0, Except.map, bind, Except.bind, pure, Except.pure, Noise.NV.add]
    have g1 := Collect.C105_one hash svd method hm _ 0 _ _ f1
    rw [Likelihood.margLog_zero] at g1
    rw [g1]
    have he : Noise.epochsOf toas.length (Quantize.getJvecs idxs amp) = [] := by
      unfold Noise.epochsOf
      rw [hep]
      rfl
    have hN : Noise.ecorrN (Noise.epochsOf toas.length (Quantize.getJvecs idxs amp)) v = Matrix.diagonal v := by
      rw [he]
      unfold Noise.ecorrN
      rw [List.map_nil, List.sum_nil, add_zero]
    show Except.ok (some (Likelihood.gaussLog (Noise.ecorrN (Noise.epochsOf toas.length (Quantize.getJvecs idxs amp)) v +
      (l.map (Collect.sigMat toas.length)).sum) _ + _)) = _
    rw [hN]
    rfl
  · have hb : Combine.getBasis hash (signal true s' :: l) = .error .indexError := by
      have hix : idxOf hash (signal true s' :: l) = some [] :: combineIdx hash l [] 0 := by
        unfold idxOf
        rw [combineIdx]
        simp only [signal, hs'b, List.map_nil, if_true, columns]
      unfold getBasis
      simp only [hix]
      rw [if_neg (by simp), List.zip_cons_cons, basisLoop, if_pos (.inl rfl)]
    unfold Collect.likelihood
    rw [List.mapM_cons]
    have : Collect.collect hash (processPsr toas.length res delays v l lp (signal true s')) = .error .indexError := by
      unfold Collect.collect
      simp only [processPsr, hb]
    rw [this]
    rfl

/-- Simultaneous TOAs make an epoch, and TOAs far apart make none. -/
example (argsort : List ℝ → List Nat) (hsort : ∀ l, Quantize.IsArgsort l (argsort l)) (amp : String → ℝ) :
    (∃ idxs, Quantize.ecorrIdxs argsort [5, 5, 9] 1 [("a", [true, true, true])] = .ok idxs ∧ (Quantize.getJvecs idxs amp).1 ≠ []) ∧
    ∃ idxs, Quantize.ecorrIdxs argsort [5, 9] 1 [("a", [true, true])] = .ok idxs ∧ (Quantize.getJvecs idxs amp).1 = [] := by
  constructor
  · obtain ⟨idxs, h1, -, -, -, h5, -⟩ := Quantize.C12_ecorr_epochs argsort hsort [5, 5, 9] 1 one_pos [("a", [true, true, true])] amp
      (by simp) (by simp) (by simp [MasksDisjoint]) (by simp [InMask]; exact ⟨0, rfl⟩)
    refine ⟨idxs, h1, fun h => ?_⟩
    obtain ⟨e, idx, h6, -⟩ := h5 ("a", [true, true, true]) (by simp) 0 1 5 rfl rfl (by simp) rfl rfl
    rw [h] at h6
    simp at h6
  · obtain ⟨idxs, h1, h2, -, h4, -⟩ := Quantize.C12_ecorr_epochs argsort hsort [5, 9] 1 one_pos [("a", [true, true])] amp
      (by simp) (by simp) (by simp [MasksDisjoint]) (by simp [InMask]; exact ⟨0, rfl⟩)
    refine ⟨idxs, h1, ?_⟩
    by_contra hne
    have hpos := List.length_pos_iff.2 hne
    obtain ⟨a1, a2, km, hkm, -, a4, a5⟩ := h4 0 _ _ (List.getElem?_eq_getElem hpos) (List.getElem?_eq_getElem (by omega))
    have hkm : km = ("a", [true, true]) := by simpa using hkm
    subst hkm
    have hlt : ∀ i ∈ (Quantize.getJvecs idxs amp).1[0], i < 2 := by
      intro i hi
      have := a4 i hi
      exact (List.getElem?_eq_some_iff.1 this).1
    obtain ⟨i, j, t, e⟩ : ∃ i j t, (Quantize.getJvecs idxs amp).1[0] = i :: j :: t := by
      match h : (Quantize.getJvecs idxs amp).1[0], a1 with
      | i :: j :: t, _ => exact ⟨i, j, t, rfl⟩
    rw [e] at a2 hlt a5
    have hij : i < j := (List.pairwise_cons.1 a2).1 j (by simp)
    have hj := hlt j (by simp)
    obtain rfl : i = 0 := by omega
    obtain rfl : j = 1 := by omega
    have := a5 0 (by simp) 1 (by simp) 5 9 rfl rfl
    norm_num at this

open Verif.PhiInv in
/-- The hypotheses of `C106_likelihood_partial`: three TOAs, of which two in one epoch, and a process of one column. -/
example (argsort : List ℝ → List Nat) (hsort : ∀ l, Quantize.IsArgsort l (argsort l)) (svd : ∀ {n : Nat} (M : Matrix (Fin n) (Fin n) ℝ), Partition.Svd M) :=
  let := Classical.decEq (Combine.Col ℝ)
  C106_likelihood_partial (fun c : Combine.Col ℝ => c) Function.injective_id svd .sparse (by simp) argsort hsort [5, 5, 9] 1 one_pos [("a", [true, true, true])] (by simp) (by simp)
    (by simp) (by simp [MasksDisjoint]) (by simp [InMask]; exact ⟨0, rfl⟩) (fun _ => 1) [none] (fun _ => 2) (fun _ => by norm_num)
    [⟨true, false, some [fun i => i + 1], [fun i => i + 1], .one 1 fun _ => 3⟩] (by
      intro b hb F hF
      rw [List.mem_singleton] at hb
      subst hb
      cases hF
      simp [Combine.SizeOk]) (by simp [Combine.Ordered]) (by
      intro b hb _
      rw [List.mem_singleton] at hb
      subst hb
      show (toMatrix 1 (amat (.one 1 fun _ => 3))).PosDef
      have : toMatrix 1 (amat (.one 1 fun _ => (3 : ℝ))) = Matrix.diagonal fun _ => 3 := by
        ext i j
        simp only [toMatrix, amat, Matrix.of_apply, Matrix.diagonal_apply, Fin.ext_iff]
      rw [this]
      exact Matrix.PosDef.diagonal fun _ => by norm_num) [0]

end Verif.BasisGP
