import Verif.Model.BasisGP
import Verif.Props.Combine
import Verif.Props.Quantize

/-!
# Property C104: a Gaussian process with a selection is one independent process per selection
-/

set_option linter.unusedSectionVars false

namespace Verif.BasisGP

open Verif Verif.Kernel Verif.Combine Finset

variable {K : Type} [Field K] {L : Type}

/-! ## Specification -/

/-- The number of TOAs of the mask before the TOA `i`: the row of `i` in arrays for the TOAs of the mask. -/
def rank (m : Mask) (i : Nat) : Nat := (m.take i).count true

instance (m : Mask) (i : Nat) : Decidable (InMask m i) := inferInstanceAs (Decidable (m[i]? = some true))

/-- The covariance between the TOAs `a` and `b` of a process that exists on the TOAs of a mask only, with basis `F` (for these
TOAs) and prior `φ`. -/
def keyCov (m : Mask) (F : List (List K)) (φ : Arr K) (a b : Nat) : K :=
  if InMask m a ∧ InMask m b then
    ∑ p ∈ range F.length, ∑ q ∈ range F.length, (F.getD p []).getD (rank m a) 0 * amat φ p q * (F.getD q []).getD (rank m b) 0
  else 0

/-- `B Φ Bᵀ` at two TOAs, for a list of columns. -/
def cov (B : List (List K)) (Φ : Nat → Nat → K) (a b : Nat) : K :=
  ∑ i ∈ range B.length, ∑ j ∈ range B.length, (B.getD i []).getD a 0 * Φ i j * (B.getD j []).getD b 0

/-- The bases are for the TOAs they are said to be for. -/
structure Sound (n : Nat) (items : List (KeyBasis K L)) : Prop where
  keys : (items.map KeyBasis.key).Nodup
  masks : ∀ kb ∈ items, kb.mask.length = n
  rows : ∀ kb ∈ items, ∀ c ∈ kb.cols, c.length = WhiteNoise.maskCount kb.mask

/-- The prior gives a vector for each key. -/
def Vectors (items : List (KeyBasis K L)) (p : String → L → Arr K) : Prop :=
  ∀ kb ∈ items, ∃ v, p kb.key kb.labels = .one kb.cols.length v

/-- The prior gives a matrix for each key. -/
def Matrices (items : List (KeyBasis K L)) (p : String → L → Arr K) : Prop :=
  ∀ kb ∈ items, kb.cols ≠ [] ∧ ∃ M, p kb.key kb.labels = .two kb.cols.length kb.cols.length M

/-- No call with vectors after one with matrices. -/
def Steady (items : List (KeyBasis K L)) (ps : List (String → L → Arr K)) : Prop :=
  ∃ vs ms, ps = vs ++ ms ∧ (∀ p ∈ vs, Vectors items p) ∧ ∀ p ∈ ms, Matrices items p

/-! ## Columns -/

theorem getD_scatter (n : Nat) (m : Mask) (v : List K) (hm : m.length = n) (hv : v.length = WhiteNoise.maskCount m) (i : Nat) :
    (maskScatter (List.replicate n (0 : K)) m v).getD i 0 = if m[i]? = some true then v.getD (rank m i) 0 else 0 := by
  induction m generalizing n v i with
  | nil => subst hm; simp [maskScatter]
  | cons b t ih =>
    obtain ⟨n, rfl⟩ : ∃ k, n = k + 1 := ⟨t.length, by simpa using hm.symm⟩
    have hm' : t.length = n := by simpa using hm
    rw [List.replicate_succ]
    cases b with
    | false =>
      have hv' : v.length = WhiteNoise.maskCount t := by simpa [WhiteNoise.maskCount] using hv
      cases i with
      | zero => simp [maskScatter]
      | succ i =>
        have := ih n v hm' hv' i
        simp only [maskScatter, List.getD_cons_succ, List.getElem?_cons_succ]
        rw [this]
        simp [rank]
    | true =>
      cases v with
      | nil => simp [WhiteNoise.maskCount] at hv
      | cons x v =>
        have hv' : v.length = WhiteNoise.maskCount t := by simpa [WhiteNoise.maskCount] using hv
        cases i with
        | zero => simp [maskScatter, rank]
        | succ i =>
          have := ih n v hm' hv' i
          simp only [maskScatter, List.getD_cons_succ, List.getElem?_cons_succ]
          rw [this]
          simp [rank]

theorem modify_at {α : Type} (P : List α) (x : α) (Q : List α) (f : α → α) :
    (P ++ x :: Q).modify P.length f = P ++ f x :: Q := by
  induction P with
  | nil => simp
  | cons a P ih => simp [ih]

theorem assign_go (mask : Mask) (F : List (List K)) (off k : Nat) (P R Q : List (List K)) (hP : P.length = off + k)
    (hR : R.length = F.length) :
    (F.zipIdx k).foldl (fun A cj => A.modify (off + cj.2) fun old => maskScatter old mask cj.1) (P ++ R ++ Q) =
      P ++ List.zipWith (fun old c => maskScatter old mask c) R F ++ Q := by
  induction F generalizing k P R with
  | nil =>
    have : R = [] := List.length_eq_zero_iff.1 (by simpa using hR)
    subst this; simp
  | cons c F ih =>
    cases R with
    | nil => simp at hR
    | cons r R =>
      rw [List.zipIdx_cons, List.foldl_cons]
      have e : (P ++ r :: R ++ Q).modify (off + k) (fun old => maskScatter old mask c) =
          (P ++ [maskScatter r mask c]) ++ R ++ Q := by
        rw [← hP, List.append_assoc, List.cons_append, modify_at]
        simp
      rw [e, ih (k + 1) (P ++ [maskScatter r mask c]) R (by simp [hP]; omega) (by simpa using hR)]
      simp

/-- The columns of a key for all TOAs. -/
def spread (n : Nat) (kb : KeyBasis K L) : List (List K) := kb.cols.map fun c => maskScatter (List.replicate n 0) kb.mask c

theorem assignBlock_eq (n : Nat) (kb : KeyBasis K L) (P Q : List (List K)) :
    assignBlock (P ++ List.replicate kb.cols.length (List.replicate n 0) ++ Q) P.length kb.mask kb.cols = P ++ spread n kb ++ Q := by
  unfold assignBlock
  rw [assign_go kb.mask kb.cols P.length 0 P _ Q rfl (by simp)]
  congr 2
  unfold spread
  generalize kb.cols = F
  induction F with
  | nil => rfl
  | cons c F ih => rw [List.length_cons, List.replicate_succ, List.zipWith_cons_cons, ih, List.map_cons]

/-- The slices of the keys. -/
def offsets : List (KeyBasis K L) → Nat → List (String × Nat × Nat)
  | [], _ => []
  | kb :: t, o => (kb.key, o, kb.cols.length + o) :: offsets t (o + kb.cols.length)

theorem offsets_keys (items : List (KeyBasis K L)) (o : Nat) : (offsets items o).map Prod.fst = items.map KeyBasis.key := by
  induction items generalizing o with
  | nil => rfl
  | cons kb t ih => simp [offsets, ih]

/-- The number of columns. -/
def width (items : List (KeyBasis K L)) : Nat := (items.map fun x => x.cols.length).sum

theorem blocks_eq (n : Nat) (items : List (KeyBasis K L)) (hs : Sound n items) (P : List (List K)) (sl : Dict String (Nat × Nat))
    (hf : ∀ kb ∈ items, kb.key ∉ sl.map Prod.fst) :
    blocks n items P.length (P ++ List.replicate (width items) (List.replicate n 0)) sl =
      .ok (P ++ items.flatMap (spread n), sl ++ offsets items P.length) := by
  induction items generalizing P sl with
  | nil => simp [blocks, width, offsets]
  | cons kb t ih =>
    have h1 : ¬ kb.mask.length ≠ n := by simpa using hs.masks kb (by simp)
    have h2 : ¬ ∃ c ∈ kb.cols, c.length ≠ WhiteNoise.maskCount kb.mask := by
      rintro ⟨c, hc, h⟩
      exact h (hs.rows kb (by simp) c hc)
    have hs' : Sound n t := ⟨(List.nodup_cons.1 hs.keys).2, fun x hx => hs.masks x (by simp [hx]), fun x hx => hs.rows x (by simp [hx])⟩
    have hw : width (kb :: t) = kb.cols.length + width t := by simp [width]
    have e : P ++ List.replicate (width (kb :: t)) (List.replicate n (0 : K)) =
        P ++ List.replicate kb.cols.length (List.replicate n 0) ++ List.replicate (width t) (List.replicate n 0) := by
      rw [hw, ← List.replicate_append_replicate, List.append_assoc]
    rw [blocks, if_neg h1, if_neg h2]
    simp only
    rw [e, assignBlock_eq, Dict.set_of_not_mem _ (hf kb (by simp))]
    have hl : P.length + kb.cols.length = (P ++ spread n kb).length := by simp [spread]
    rw [hl, ih hs' (P ++ spread n kb) (sl ++ [(kb.key, P.length, kb.cols.length + P.length)]) (by
      intro x hx
      have := hf x (by simp [hx])
      have hne : kb.key ≠ x.key := by
        intro h
        exact (List.nodup_cons.1 hs.keys).1 (by rw [List.mem_map]; exact ⟨x, hx, h.symm⟩)
      simp only [List.map_append, List.map_cons, List.map_nil, List.mem_append, List.mem_singleton, not_or]
      exact ⟨this, hne.symm⟩)]
    simp [offsets, spread, List.append_assoc]

theorem length_flatMap_spread (n : Nat) (items : List (KeyBasis K L)) : (items.flatMap (spread n)).length = width items := by
  simp [List.length_flatMap, spread, width]

theorem labels_get (items : List (KeyBasis K L)) (hk : (items.map KeyBasis.key).Nodup) (kb : KeyBasis K L) (h : kb ∈ items) :
    Dict.get? (items.foldl (fun d x => Dict.set d x.key x.labels) ([] : Dict String L)) kb.key = some kb.labels := by
  have e : ∀ (l : List (KeyBasis K L)) (d : Dict String L), l.foldl (fun d x => Dict.set d x.key x.labels) d =
      Dict.update d (l.map fun x => (x.key, x.labels)) := by
    intro l
    induction l with
    | nil => intro d; rfl
    | cons x l ih => intro d; rw [List.foldl_cons, ih]; rfl
  rw [e]
  have hn : ((items.map fun x => (x.key, x.labels)).map Prod.fst).Nodup := by
    rw [List.map_map]; exact hk
  have := Dict.ofList_of_nodup hn
  rw [Dict.ofList] at this
  rw [this]
  exact Dict.get?_of_mem hn (List.mem_map.2 ⟨kb, h, rfl⟩)

/-- What `_construct_basis` leaves behind. -/
theorem construct_eq (n : Nat) (items : List (KeyBasis K L)) (hs : Sound n items) (hne : items ≠ []) :
    ∃ s, construct items = .ok s ∧ s.basis = items.flatMap (spread n) ∧ s.slices = offsets items 0 ∧
      (∀ kb ∈ items, s.labels.get? kb.key = some kb.labels) ∧ s.phi = Kern.zeros (width items) := by
  cases items with
  | nil => exact absurd rfl hne
  | cons kb t =>
    have hn := hs.masks kb (by simp)
    have := blocks_eq n (kb :: t) hs [] [] (by simp)
    simp only [List.nil_append, List.length_nil] at this
    refine ⟨{ basis := (kb :: t).flatMap (spread n), labels := _, slices := offsets (kb :: t) 0, phi := _ }, ?_, rfl, rfl,
      labels_get (kb :: t) hs.keys, rfl⟩
    unfold construct
    simp only [hn]
    rw [show ((kb :: t).map fun x => x.cols.length).sum = width (kb :: t) from rfl, this]
    rfl

/-! ## Priors -/

/-- The prior covariance of the stacked coefficients. -/
def stacked (p : String → L → Arr K) : List (KeyBasis K L) → Nat → Nat → K
  | [], _, _ => 0
  | kb :: t, i, j =>
    if i < kb.cols.length ∧ j < kb.cols.length then amat (p kb.key kb.labels) i j
    else if kb.cols.length ≤ i ∧ kb.cols.length ≤ j then stacked p t (i - kb.cols.length) (j - kb.cols.length)
    else 0

/-- The coefficients belong to the same key. -/
def Same : List (KeyBasis K L) → Nat → Nat → Prop
  | [], _, _ => False
  | kb :: t, i, j => (i < kb.cols.length ∧ j < kb.cols.length) ∨
      (kb.cols.length ≤ i ∧ kb.cols.length ≤ j ∧ Same t (i - kb.cols.length) (j - kb.cols.length))

theorem stacked_off (p : String → L → Arr K) (items : List (KeyBasis K L)) (i j : Nat) (h : ¬ Same items i j) : stacked p items i j = 0 := by
  induction items generalizing i j with
  | nil => rfl
  | cons kb t ih =>
    simp only [Same, not_or] at h
    rw [stacked, if_neg h.1]
    split_ifs with h2
    · exact ih _ _ fun h3 => h.2 ⟨h2.1, h2.2, h3⟩
    · rfl

theorem set_block (Φ : Kern K) (off k : Nat) (hsz : off + k ≤ Φ.size) (φ : Arr K)
    (hφ : (∃ v, φ = .one k v ∧ ∃ n w, Φ = .one n w) ∨ (k ≠ 0 ∧ ∃ M, φ = .two k k M)) :
    ∃ r, Φ.set φ (.slice off (k + off)) = .ok r ∧ r.size = Φ.size ∧ ((∃ v, φ = .one k v) → ∃ n w, r = .one n w) ∧
      (∀ p q, p < k → q < k → r.mat (off + p) (off + q) = amat φ p q) ∧
      ∀ i j, ¬ ((off ≤ i ∧ i < off + k) ∧ (off ≤ j ∧ j < off + k)) → r.mat i j = Φ.mat i j := by
  have hpos : (Idx.slice off (k + off)).positions Φ.size = List.range' off k := by
    simp only [Idx.positions]
    congr 1
    omega
  have hget : ∀ p, p < k → (List.range' off k)[p]? = some (off + p) := by
    intro p hp
    rw [List.getElem?_range' hp]; simp
  have hmem : ∀ i, i ∈ List.range' off k ↔ off ≤ i ∧ i < off + k := by
    intro i; rw [List.mem_range'_1]
  have hc : (Idx.slice off (k + off)).check Φ.size = true := rfl
  have hnd := slice_nodup off (k + off) Φ.size
  rcases hφ with ⟨v, rfl, n, w, rfl⟩ | ⟨hk, M, rfl⟩
  · have := C47_set_vector_partial (.one n w) (.slice off (k + off)) v hc hnd ⟨n, w, rfl⟩
    rw [hpos, List.length_range'] at this
    obtain ⟨r, h1, h2, h3, h4⟩ := this
    have hform : ∃ n w, r = .one n w := by
      unfold Kern.set Kern.write at h1
      simp only at h1
      split_ifs at h1
      exact ⟨_, _, (Except.ok.inj h1).symm⟩
    refine ⟨r, h1, h2, fun _ => hform, fun p q hp hq => ?_, fun i j hij => ?_⟩
    · simp only [amat]
      by_cases hpq : p = q
      · subst hpq
        rw [if_pos rfl]
        exact h3 p _ (hget p hp)
      · rw [if_neg hpq, h4 _ _ (.inr (by omega))]
        simp only [Kern.mat, diagMat]
        rw [if_neg (by omega)]
    · by_cases h : i = j
      · subst h
        apply h4
        left
        rw [hmem]
        exact fun h => hij ⟨h, h⟩
      · exact h4 _ _ (.inr h)
  · have := C47_set_matrix Φ (.slice off (k + off)) M hc hnd (by
      rw [hpos]
      intro h
      exact hk (by simpa using h))
    rw [hpos, List.length_range'] at this
    obtain ⟨r, h1, h2, h3, h4⟩ := this
    refine ⟨r, h1, h2, (by rintro ⟨v, hv⟩; cases hv), fun p q hp hq => h3 p q _ _ (hget p hp) (hget q hq), fun i j hij => ?_⟩
    apply h4
    rw [hmem, hmem]
    by_contra hcon
    push Not at hcon
    exact hij hcon

theorem phiLoop_eq (p : String → L → Arr K) (labels : Dict String L) (items : List (KeyBasis K L)) (off : Nat) (Φ : Kern K)
    (hl : ∀ kb ∈ items, labels.get? kb.key = some kb.labels) (hsz : off + width items ≤ Φ.size)
    (hp : (Vectors items p ∧ ∃ n w, Φ = .one n w) ∨ Matrices items p)
    (h0 : ∀ i j, ¬ Same items i j → Φ.mat (off + i) (off + j) = 0) :
    ∃ r, phiLoop p labels (offsets items off) Φ = .ok r ∧ r.size = Φ.size ∧ (Vectors items p → (∃ n w, Φ = .one n w) → ∃ n w, r = .one n w) ∧
      (∀ i j, i < width items → j < width items → r.mat (off + i) (off + j) = stacked p items i j) ∧
      ∀ i j, i < off ∨ j < off ∨ off + width items ≤ i ∨ off + width items ≤ j → r.mat i j = Φ.mat i j := by
  induction items generalizing off Φ with
  | nil => exact ⟨Φ, rfl, rfl, fun _ h => h, by simp [width], fun _ _ _ => rfl⟩
  | cons kb t ih =>
    have hw : width (kb :: t) = kb.cols.length + width t := by simp [width]
    rw [hw] at hsz
    obtain ⟨r1, a1, a2, a3, a4, a5⟩ := set_block Φ off kb.cols.length (by omega) (p kb.key kb.labels) (by
      rcases hp with ⟨h, h'⟩ | h
      · obtain ⟨v, hv⟩ := h kb (by simp)
        exact .inl ⟨v, hv, h'⟩
      · obtain ⟨h1, M, hM⟩ := h kb (by simp)
        exact .inr ⟨by simpa using h1, M, hM⟩)
    have hp' : (Vectors t p ∧ ∃ n w, r1 = .one n w) ∨ Matrices t p := by
      rcases hp with ⟨h, h'⟩ | h
      · left
        obtain ⟨v, hv⟩ := h kb (by simp)
        exact ⟨fun x hx => h x (by simp [hx]), a3 ⟨v, hv⟩⟩
      · exact .inr fun x hx => h x (by simp [hx])
    obtain ⟨r, b1, b2, b3, b4, b5⟩ := ih (off + kb.cols.length) r1 (fun x hx => hl x (by simp [hx])) (by rw [a2]; omega) hp' (by
      intro i j hij
      rw [a5 _ _ (by omega)]
      have := h0 (kb.cols.length + i) (kb.cols.length + j) (by
        simp only [Same, not_or, not_and]
        refine ⟨by omega, fun _ _ => ?_⟩
        rw [Nat.add_sub_cancel_left, Nat.add_sub_cancel_left]
        exact hij)
      rw [add_assoc, add_assoc]
      exact this)
    refine ⟨r, ?_, b2.trans a2, ?_, ?_, ?_⟩
    · rw [offsets, phiLoop, hl kb (by simp)]
      simp only
      rw [a1]
      exact b1
    · intro hv hone
      obtain ⟨v, hv'⟩ := hv kb (by simp)
      exact b3 (fun x hx => hv x (by simp [hx])) (a3 ⟨v, hv'⟩)
    · intro i j hi hj
      rw [hw] at hi hj
      rw [stacked]
      split_ifs with h1 h2
      · rw [b5 _ _ (by omega)]
        exact a4 i j h1.1 h1.2
      · rw [show off + i = off + kb.cols.length + (i - kb.cols.length) by omega,
          show off + j = off + kb.cols.length + (j - kb.cols.length) by omega]
        exact b4 _ _ (by omega) (by omega)
      · rw [b5 _ _ (by omega), a5 _ _ (by omega)]
        apply h0
        simp only [Same, not_or, not_and]
        exact ⟨by omega, by omega⟩
    · intro i j hij
      rw [hw] at hij
      rw [b5 _ _ (by omega), a5 _ _ (by omega)]

/-! ## The covariance -/

theorem cov_append (B B' : List (List K)) (Φ : Nat → Nat → K) (h : ∀ i j, i < B.length → B.length ≤ j → Φ i j = 0)
    (h' : ∀ i j, B.length ≤ i → j < B.length → Φ i j = 0) (a b : Nat) :
    cov (B ++ B') Φ a b = cov B Φ a b + cov B' (fun i j => Φ (B.length + i) (B.length + j)) a b := by
  have g1 : ∀ i, i < B.length → (B ++ B').getD i [] = B.getD i [] := by
    intro i hi; simp [List.getD_eq_getElem?_getD, List.getElem?_append_left hi]
  have g2 : ∀ i, (B ++ B').getD (B.length + i) [] = B'.getD i [] := by
    intro i; simp [List.getD_eq_getElem?_getD, List.getElem?_append_right]
  unfold cov
  rw [List.length_append, sum_range_add]
  congr 1
  · apply sum_congr rfl
    intro i hi
    rw [mem_range] at hi
    rw [sum_range_add]
    have z : ∑ j ∈ range B'.length, ((B ++ B').getD i []).getD a 0 * Φ i (B.length + j) * ((B ++ B').getD (B.length + j) []).getD b 0 = 0 := by
      apply sum_eq_zero
      intro j _
      rw [h i _ hi (by omega)]
      simp
    rw [z, add_zero]
    apply sum_congr rfl
    intro j hj
    rw [mem_range] at hj
    rw [g1 i hi, g1 j hj]
  · apply sum_congr rfl
    intro i _
    rw [sum_range_add]
    have z : ∑ j ∈ range B.length, ((B ++ B').getD (B.length + i) []).getD a 0 * Φ (B.length + i) j * ((B ++ B').getD j []).getD b 0 = 0 := by
      apply sum_eq_zero
      intro j hj
      rw [mem_range] at hj
      rw [h' _ j (by omega) hj]
      simp
    rw [z, zero_add]
    apply sum_congr rfl
    intro j _
    rw [g2, g2]

theorem cov_congr (B : List (List K)) (Φ Φ' : Nat → Nat → K) (h : ∀ i j, i < B.length → j < B.length → Φ i j = Φ' i j) (a b : Nat) :
    cov B Φ a b = cov B Φ' a b := by
  unfold cov
  apply sum_congr rfl
  intro i hi
  apply sum_congr rfl
  intro j hj
  rw [mem_range] at hi hj
  rw [h i j hi hj]

theorem cov_spread (n : Nat) (kb : KeyBasis K L) (hm : kb.mask.length = n) (hr : ∀ c ∈ kb.cols, c.length = WhiteNoise.maskCount kb.mask)
    (φ : Arr K) (a b : Nat) : cov (spread n kb) (amat φ) a b = keyCov kb.mask kb.cols φ a b := by
  have e : ∀ i a, i < kb.cols.length → ((spread n kb).getD i []).getD a 0 =
      if kb.mask[a]? = some true then (kb.cols.getD i []).getD (rank kb.mask a) 0 else 0 := by
    intro i a hi
    have h1 : (spread n kb).getD i [] = maskScatter (List.replicate n 0) kb.mask (kb.cols.getD i []) := by
      simp [spread, List.getD_eq_getElem?_getD, List.getElem?_eq_getElem hi]
    rw [h1, getD_scatter n kb.mask _ hm]
    apply hr
    rw [List.getD_eq_getElem?_getD, List.getElem?_eq_getElem hi]
    exact List.getElem_mem hi
  unfold cov keyCov
  have hl : (spread n kb).length = kb.cols.length := by simp [spread]
  rw [hl]
  by_cases h : InMask kb.mask a ∧ InMask kb.mask b
  · rw [if_pos h]
    apply sum_congr rfl
    intro i hi
    apply sum_congr rfl
    intro j hj
    rw [mem_range] at hi hj
    rw [e i a hi, e j b hj, if_pos (show kb.mask[a]? = some true from h.1), if_pos (show kb.mask[b]? = some true from h.2)]
  · rw [if_neg h]
    apply sum_eq_zero
    intro i hi
    apply sum_eq_zero
    intro j hj
    rw [mem_range] at hi hj
    rw [e i a hi, e j b hj]
    by_cases ha : kb.mask[a]? = some true
    · rw [if_neg (fun hb : kb.mask[b]? = some true => h ⟨ha, hb⟩), mul_zero]
    · rw [if_neg ha, zero_mul, zero_mul]

theorem cov_items (n : Nat) (items : List (KeyBasis K L)) (hs : Sound n items) (p : String → L → Arr K) (a b : Nat) :
    cov (items.flatMap (spread n)) (stacked p items) a b =
      (items.map fun kb => keyCov kb.mask kb.cols (p kb.key kb.labels) a b).sum := by
  induction items with
  | nil => simp [cov]
  | cons kb t ih =>
    have hs' : Sound n t := ⟨(List.nodup_cons.1 hs.keys).2, fun x hx => hs.masks x (by simp [hx]), fun x hx => hs.rows x (by simp [hx])⟩
    have hl : (spread n kb).length = kb.cols.length := by simp [spread]
    rw [List.flatMap_cons, cov_append, List.map_cons, List.sum_cons, ← ih hs', ← cov_spread n kb (hs.masks kb (by simp)) (hs.rows kb (by simp))]
    · congr 1
      · apply cov_congr
        intro i j hi hj
        rw [hl] at hi hj
        rw [stacked, if_pos ⟨hi, hj⟩]
      · apply cov_congr
        intro i j _ _
        rw [hl, stacked, if_neg (by omega), if_pos (by omega), Nat.add_sub_cancel_left, Nat.add_sub_cancel_left]
    · intro i j hi hj
      rw [hl] at hi hj
      rw [stacked, if_neg (by omega), if_neg (by omega)]
    · intro i j hi hj
      rw [hl] at hi hj
      rw [stacked, if_neg (by omega), if_neg (by omega)]

/-! ## Histories -/

/-- What stays true between the calls. -/
structure Kept (n : Nat) (items : List (KeyBasis K L)) (s : Built K L) : Prop where
  basis : s.basis = items.flatMap (spread n)
  slices : s.slices = offsets items 0
  labels : ∀ kb ∈ items, s.labels.get? kb.key = some kb.labels
  size : s.phi.size = width items
  off : ∀ i j, ¬ Same items i j → s.phi.mat i j = 0

theorem same_lt {items : List (KeyBasis K L)} {i j : Nat} (h : Same items i j) : i < width items ∧ j < width items := by
  induction items generalizing i j with
  | nil => exact absurd h id
  | cons kb t ih =>
    have hw : width (kb :: t) = kb.cols.length + width t := by simp [width]
    rcases h with ⟨h1, h2⟩ | ⟨h1, h2, h3⟩
    · omega
    · have := ih h3
      omega

theorem getPhi_kept (n : Nat) (items : List (KeyBasis K L)) (s : Built K L) (h : Kept n items s) (p : String → L → Arr K)
    (hp : (Vectors items p ∧ ∃ n w, s.phi = .one n w) ∨ Matrices items p) :
    ∃ s', getPhi s p = .ok s' ∧ Kept n items s' ∧ (Vectors items p → (∃ n w, s.phi = .one n w) → ∃ n w, s'.phi = .one n w) ∧
      ∀ i j, i < width items → j < width items → s'.phi.mat i j = stacked p items i j := by
  obtain ⟨r, h1, h2, h3, h4, h5⟩ := phiLoop_eq p s.labels items 0 s.phi h.labels (by rw [h.size]; omega) hp (by
    intro i j hij; rw [Nat.zero_add, Nat.zero_add]; exact h.off i j hij)
  simp only [Nat.zero_add] at h4 h5
  refine ⟨{ s with phi := r }, ?_, ⟨h.basis, h.slices, h.labels, h2.trans h.size, ?_⟩, h3, h4⟩
  · unfold getPhi
    rw [h.slices, h1]
  · intro i j hij
    by_cases hlt : i < width items ∧ j < width items
    · rw [show ({ s with phi := r } : Built K L).phi = r from rfl, h4 i j hlt.1 hlt.2]
      exact stacked_off p items i j hij
    · rw [show ({ s with phi := r } : Built K L).phi = r from rfl, h5 i j (by omega)]
      exact h.off i j hij

theorem getPhis_kept (n : Nat) (items : List (KeyBasis K L)) (ps : List (String → L → Arr K)) : ∀ (s : Built K L), Kept n items s →
    ((∀ p ∈ ps, Matrices items p) ∨ ((∃ n w, s.phi = .one n w) ∧ Steady items ps)) →
    ∃ s', getPhis s ps = .ok s' ∧ Kept n items s' ∧ ((∃ n w, s.phi = .one n w) → (∀ p ∈ ps, Vectors items p) → ∃ n w, s'.phi = .one n w) ∧
      ∀ p, ps.getLast? = some p → ∀ i j, i < width items → j < width items → s'.phi.mat i j = stacked p items i j := by
  induction ps with
  | nil => exact fun s h _ => ⟨s, rfl, h, fun h _ => h, by simp⟩
  | cons p t ih =>
    intro s h hs
    have hp : (Vectors items p ∧ ∃ n w, s.phi = .one n w) ∨ Matrices items p := by
      rcases hs with hs | ⟨hone, vs, ms, e, hv, hm⟩
      · exact .inr (hs p (by simp))
      · cases vs with
        | nil => exact .inr (hm p (by rw [← List.nil_append ms, ← e]; simp))
        | cons v vs =>
          rw [List.cons_append, List.cons.injEq] at e
          exact .inl ⟨by rw [e.1]; exact hv v (by simp), hone⟩
    obtain ⟨s1, a1, a2, a3, a4⟩ := getPhi_kept n items s h p hp
    have hs1 : (∀ p ∈ t, Matrices items p) ∨ ((∃ n w, s1.phi = .one n w) ∧ Steady items t) := by
      rcases hs with hs | ⟨hone, vs, ms, e, hv, hm⟩
      · exact .inl fun q hq => hs q (by simp [hq])
      · cases vs with
        | nil =>
          left
          intro q hq
          exact hm q (by rw [← List.nil_append ms, ← e]; simp [hq])
        | cons v vs =>
          rw [List.cons_append, List.cons.injEq] at e
          right
          refine ⟨a3 (by rw [e.1]; exact hv v (by simp)) hone, vs, ms, e.2, fun q hq => hv q (by simp [hq]), hm⟩
    obtain ⟨s2, b1, b2, b3, b4⟩ := ih s1 a2 hs1
    refine ⟨s2, ?_, b2, ?_, ?_⟩
    · rw [getPhis, a1]; exact b1
    · intro hone hv
      exact b3 (a3 (hv p (by simp)) hone) fun q hq => hv q (by simp [hq])
    · intro q hq
      cases t with
      | nil =>
        have e1 : s2 = s1 := by
          have := b1
          rw [getPhis] at this
          exact (Except.ok.inj this).symm
        have e2 : p = q := by simpa using hq
        subst e2
        rw [e1]
        exact a4
      | cons x t =>
        apply b4 q
        simpa using hq

/-- C104: after any calls of `get_phi` the basis and the last prior make the sum of independent processes, one for each key, on
the TOAs of the key only.  Missing: a call whose priors are vectors after one whose priors are matrices (`C104_mixed_false`). -/
theorem C104_partial (n : Nat) (items : List (KeyBasis K L)) (hs : Sound n items) (hne : items ≠ []) :
    ∃ s, construct items = .ok s ∧ s.basis.length = width items ∧ (∀ c ∈ s.basis, c.length = n) ∧
      ∀ (ps : List (String → L → Arr K)) (p : String → L → Arr K), Steady items (ps ++ [p]) →
        ∃ s', getPhis s (ps ++ [p]) = .ok s' ∧ s'.basis = s.basis ∧ s'.phi.size = width items ∧
          ∀ a b, cov s'.basis s'.phi.mat a b = (items.map fun kb => keyCov kb.mask kb.cols (p kb.key kb.labels) a b).sum := by
  obtain ⟨s, h1, h2, h3, h4, h5⟩ := construct_eq n items hs hne
  have hk : Kept n items s := ⟨h2, h3, h4, by rw [h5]; rfl, by
    intro i j _
    rw [h5]
    simp [Kern.zeros, Kern.mat, diagMat]⟩
  refine ⟨s, h1, by rw [h2, length_flatMap_spread], ?_, fun ps p hps => ?_⟩
  · intro c hc
    rw [h2] at hc
    obtain ⟨kb, hkb, hc⟩ := List.mem_flatMap.1 hc
    obtain ⟨d, -, rfl⟩ := List.mem_map.1 hc
    rw [WhiteNoise.length_maskScatter, List.length_replicate]
  · obtain ⟨s', a1, a2, -, a4⟩ := getPhis_kept n items (ps ++ [p]) s hk (.inr ⟨⟨_, _, h5⟩, hps⟩)
    refine ⟨s', a1, a2.basis.trans h2.symm, a2.size, fun a b => ?_⟩
    rw [← cov_items n items hs p, a2.basis]
    apply cov_congr
    rw [length_flatMap_spread]
    exact a4 p (by simp)

/-- C104: the slices of the keys are consecutive ranges of the columns, in the order of the keys. -/
theorem C104_slices (n : Nat) (items : List (KeyBasis K L)) (hs : Sound n items) (hne : items ≠ []) :
    ∃ s, construct items = .ok s ∧ ∀ (pre : List (KeyBasis K L)) (kb : KeyBasis K L) (post : List (KeyBasis K L)),
      items = pre ++ kb :: post → s.slices.get? kb.key = some (width pre, width pre + kb.cols.length) ∧
        ∀ p, p < kb.cols.length → ∀ a, (s.basis.getD (width pre + p) []).getD a 0 =
          if InMask kb.mask a then (kb.cols.getD p []).getD (rank kb.mask a) 0 else 0 := by
  obtain ⟨s, h1, h2, h3, -, -⟩ := construct_eq n items hs hne
  refine ⟨s, h1, ?_⟩
  rintro pre kb post rfl
  constructor
  · rw [h3]
    have hn : ((offsets (pre ++ kb :: post) 0).map Prod.fst).Nodup := by rw [offsets_keys]; exact hs.keys
    refine Dict.get?_of_mem hn ?_
    have gen : ∀ (pre : List (KeyBasis K L)) (o : Nat), (kb.key, o + width pre, o + width pre + kb.cols.length) ∈ offsets (pre ++ kb :: post) o := by
      intro pre
      induction pre with
      | nil => intro o; simp [offsets, width, Nat.add_comm]
      | cons x t ih =>
        intro o
        have := ih (o + x.cols.length)
        rw [List.cons_append, offsets]
        apply List.mem_cons_of_mem
        rw [show width (x :: t) = x.cols.length + width t by simp [width], ← Nat.add_assoc]
        exact this
    simpa using gen pre 0
  · intro p hp a
    have e : s.basis.getD (width pre + p) [] = maskScatter (List.replicate n 0) kb.mask (kb.cols.getD p []) := by
      rw [h2, List.flatMap_append, List.getD_eq_getElem?_getD, List.getElem?_append_right (by rw [length_flatMap_spread]; omega),
        length_flatMap_spread, Nat.add_sub_cancel_left, List.flatMap_cons, List.getElem?_append_left (by simp [spread, hp])]
      simp [spread, hp]
    rw [e, getD_scatter n kb.mask _ (hs.masks kb (by simp))]
    · rfl
    · apply hs.rows kb (by simp)
      rw [List.getD_eq_getElem?_getD, List.getElem?_eq_getElem hp]
      exact List.getElem_mem hp

/-- C104: without keys, with a mask of another length than the first, or with rows that are not those of the mask, the basis
cannot be made. -/
theorem C104_errors (n : Nat) (items : List (KeyBasis K L)) :
    (items = [] → construct items = .error .indexError) ∧
    (∀ pre kb post, items = pre ++ kb :: post → Sound n pre → pre ≠ [] → kb.mask.length ≠ n → construct items = .error .indexError) ∧
    (∀ pre kb post, items = pre ++ kb :: post → Sound n pre → kb.mask.length = n → (∃ c ∈ kb.cols, c.length ≠ WhiteNoise.maskCount kb.mask) →
      construct items = .error .valueError) := by
  have run : ∀ (kb : KeyBasis K L) (post : List (KeyBasis K L)) (e : PyErr),
      (∀ o A sl, blocks n (kb :: post) o A sl = .error e) → ∀ (pre : List (KeyBasis K L)), Sound n pre →
      ∀ o A sl, blocks n (pre ++ kb :: post) o A sl = .error e := by
    intro kb post e he pre
    induction pre with
    | nil => intro _; exact he
    | cons x t ih =>
      intro hs o A sl
      have h1 : ¬ x.mask.length ≠ n := by simpa using hs.masks x (by simp)
      have h2 : ¬ ∃ c ∈ x.cols, c.length ≠ WhiteNoise.maskCount x.mask := by
        rintro ⟨c, hc, h⟩
        exact h (hs.rows x (by simp) c hc)
      rw [List.cons_append, blocks, if_neg h1, if_neg h2]
      exact ih ⟨(List.nodup_cons.1 hs.keys).2, fun x hx => hs.masks x (by simp [hx]), fun x hx => hs.rows x (by simp [hx])⟩ _ _ _
  refine ⟨fun h => by rw [h]; rfl, ?_, ?_⟩
  · rintro pre kb post rfl hs hne hm
    have := run kb post .indexError (fun o A sl => by rw [blocks, if_pos hm]) pre hs
    cases pre with
    | nil => exact absurd rfl hne
    | cons x t =>
      unfold construct
      simp only [List.cons_append]
      rw [hs.masks x (by simp)]
      rw [List.cons_append] at this
      rw [this]
  · rintro pre kb post rfl hs hm hc
    have := run kb post .valueError (fun o A sl => by rw [blocks, if_neg (by simpa using hm), if_pos hc]) pre hs
    cases pre with
    | nil =>
      unfold construct
      simp only [List.nil_append]
      rw [hm]
      rw [List.nil_append] at this
      rw [this]
    | cons x t =>
      unfold construct
      simp only [List.cons_append]
      rw [hs.masks x (by simp)]
      rw [List.cons_append] at this
      rw [this]

/-! ## A case, and one in which it fails -/

/-- Two keys on two TOAs each of four, the first with two columns, the second with one. -/
def demo : List (KeyBasis ℚ Unit) :=
  [⟨"a", [true, false, true, false], [[1, 2], [3, 4]], ()⟩, ⟨"b", [false, true, false, true], [[5, 6]], ()⟩]

theorem demo_sound : Sound 4 demo := by
  refine ⟨by decide, ?_, ?_⟩
  · intro kb h
    simp only [demo, List.mem_cons, List.not_mem_nil, or_false] at h
    rcases h with rfl | rfl <;> rfl
  · intro kb h c hc
    simp only [demo, List.mem_cons, List.not_mem_nil, or_false] at h
    rcases h with rfl | rfl <;> simp at hc
    · rcases hc with rfl | rfl <;> rfl
    · subst hc; rfl

/-- A diagonal prior, and one with a full matrix. -/
def demoVec : String → Unit → Kernel.Arr ℚ := fun k _ => .one (if k = "a" then 2 else 1) fun i => i + 1
def demoMat : String → Unit → Kernel.Arr ℚ := fun k _ => if k = "a" then .two 2 2 fun i j => i + j + 1 else .two 1 1 fun _ _ => 1

example : demo ≠ [] ∧ Steady demo ([demoVec, demoVec] ++ [demoMat]) := by
  refine ⟨by simp [demo], [demoVec, demoVec], [demoMat], rfl, ?_, ?_⟩
  · intro p hp kb h
    simp only [demo, List.mem_cons, List.not_mem_nil, or_false] at h
    have hp : p = demoVec := by simpa using hp
    subst hp
    rcases h with rfl | rfl
    · exact ⟨_, rfl⟩
    · exact ⟨_, rfl⟩
  · intro p hp kb h
    simp only [demo, List.mem_cons, List.not_mem_nil, or_false] at h
    have hp : p = demoMat := by simpa using hp
    subst hp
    rcases h with rfl | rfl
    · exact ⟨by simp, _, rfl⟩
    · exact ⟨by simp, _, rfl⟩

/-- C104 is false when a prior is a vector after it was a matrix: the vector is written over the rows of the block.  The
variance of the first TOA is then 28 instead of 19. -/
theorem C104_mixed_false : ∃ s s', construct demo = .ok s ∧ getPhis s [demoMat, demoVec] = .ok s' ∧
    cov s'.basis s'.phi.mat 0 0 = 28 ∧ (demo.map fun kb => keyCov kb.mask kb.cols (demoVec kb.key kb.labels) 0 0).sum = 19 := by
  refine ⟨_, _, rfl, rfl, ?_, ?_⟩ <;> decide +kernel

end Verif.BasisGP
