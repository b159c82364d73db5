import Verif.Lemmas.Quantize
import Mathlib.Algebra.Order.Ring.Rat
import Mathlib.Algebra.Order.Group.Unbundled.Abs
import Mathlib.Algebra.Order.AbsoluteValue.Basic
import Mathlib.Tactic.NormNum

/-!
# Properties C09–C12: observing epochs and ECORR index sets
-/

set_option linter.unusedSectionVars false

namespace Verif.Quantize

open Verif

variable {K : Type} [Field K] [LinearOrder K] [IsStrictOrderedRing K]

/-- TOA `i` belongs to the epoch given by a column of the quantization matrix. -/
def InEpoch (col : List K) (i : Nat) : Prop := col[i]? = some 1

/-! ## C09 -/

/-- Epochs are short, disjoint, large enough, time ordered and (for `nmin ≤ 1`) cover all TOAs.
Moreover each epoch is exactly the set of TOAs in a half-open window of width `dt` starting
at one of its TOAs. -/
theorem C09_epochs (toas : List K) (isort : List Nat) (dt : K) (nmin : Nat)
    (hdt : 0 < dt) (hs : IsArgsort toas isort) (hne : toas ≠ []) :
    ∃ cols, quantCols toas isort dt nmin = .ok cols ∧
      -- shape and entries
      (∀ c ∈ cols, c.length = toas.length ∧ ∀ x ∈ c, x = 0 ∨ x = 1) ∧
      -- two TOAs in one epoch are less than `dt` apart
      (∀ c ∈ cols, ∀ i j x y, InEpoch c i → InEpoch c j → toas[i]? = some x → toas[j]? = some y →
        |x - y| < dt) ∧
      -- at least `nmin` TOAs per epoch
      (∀ c ∈ cols, nmin ≤ c.count 1) ∧
      -- no TOA in two epochs; later columns hold later TOAs; starts are `dt` apart
      (∀ (a b : Nat) (ca cb : List K), a < b → cols[a]? = some ca → cols[b]? = some cb →
        (∀ i j x y, InEpoch ca i → InEpoch cb j → toas[i]? = some x → toas[j]? = some y → x < y) ∧
        ∃ i x, InEpoch ca i ∧ toas[i]? = some x ∧
          ∀ j y, InEpoch cb j → toas[j]? = some y → x + dt ≤ y) ∧
      -- full cover for `nmin ≤ 1`
      (nmin ≤ 1 → ∀ i, i < toas.length → ∃ c ∈ cols, InEpoch c i) ∧
      -- windows
      (∀ c ∈ cols, ∃ i0 x0, InEpoch c i0 ∧ toas[i0]? = some x0 ∧
        ∀ j y, toas[j]? = some y → (InEpoch c j ↔ x0 ≤ y ∧ y < x0 + dt)) := by
  obtain ⟨refs, hq, hp, hr, hcov⟩ := quantCols_canon toas isort dt nmin hdt hs hne
  have hin : ∀ r i x, toas[i]? = some x →
      (InEpoch (toas.map (windowFn dt r)) i ↔ r ≤ x ∧ x < r + dt) := by
    intro r i x hx
    simp only [InEpoch, List.getElem?_map, hx, Option.map_some, Option.some.injEq, windowFn]
    split
    · next h => simp [h]
    · next h => simp [h]
  have hwin : ∀ r i, InEpoch (toas.map (windowFn dt r)) i → ∃ x, toas[i]? = some x := by
    intro r i h
    cases hx : toas[i]? with
    | none => simp [InEpoch, hx] at h
    | some x => exact ⟨x, rfl⟩
  have hstart : ∀ r ∈ refs, ∃ i, InEpoch (toas.map (windowFn dt r)) i ∧ toas[i]? = some r := by
    intro r hr'
    obtain ⟨⟨i, hi, e⟩, -⟩ := hr r hr'
    have hx : toas[i]? = some r := by
      rw [List.getElem?_eq_getElem hi]; simp [List.getD, hi] at e; rw [e]
    exact ⟨i, (hin r i r hx).2 ⟨le_refl _, by linarith⟩, hx⟩
  refine ⟨_, hq, ?_, ?_, ?_, ?_, ?_, ?_⟩
  · intro c hc
    obtain ⟨r, -, rfl⟩ := List.mem_map.1 hc
    refine ⟨by simp, fun x hx => ?_⟩
    obtain ⟨y, -, rfl⟩ := List.mem_map.1 hx
    unfold windowFn; split <;> simp
  · intro c hc i j x y hi hj hx hy
    obtain ⟨r, -, rfl⟩ := List.mem_map.1 hc
    have h1 := (hin r i x hx).1 hi
    have h2 := (hin r j y hy).1 hj
    rw [abs_sub_lt_iff]
    constructor <;> linarith [h1.1, h1.2, h2.1, h2.2]
  · intro c hc
    obtain ⟨r, hr', rfl⟩ := List.mem_map.1 hc
    refine le_trans (hr r hr').2 (le_of_eq ?_)
    rw [← indicatorCol_windowIdx]
    have : ∀ (n : Nat) (l : List Nat) , (indicatorCol (K := K) n l).count 1 =
        ((List.range n).filter fun i => decide (i ∈ l)).length := by
      intro n l
      rw [indicatorCol, List.count, List.countP_map, List.countP_eq_length_filter]
      congr 1
      apply List.filter_congr
      intro i _
      by_cases h : i ∈ l <;> simp [h]
    rw [this]
    congr 1
    conv_lhs => rw [windowIdx]
    apply List.filter_congr
    intro i hi
    rw [List.mem_range] at hi
    rw [Bool.eq_iff_iff, decide_eq_true_iff, mem_windowIdx]
    simp [hi]
  · intro a b ca cb hab ha hb
    rw [List.getElem?_map, Option.map_eq_some_iff] at ha hb
    obtain ⟨ra, hra, rfl⟩ := ha
    obtain ⟨rb, hrb, rfl⟩ := hb
    have hle : ra + dt ≤ rb := by
      have h := List.pairwise_iff_getElem.1 hp a b
      obtain ⟨h1, e1⟩ := List.getElem?_eq_some_iff.1 hra
      obtain ⟨h2, e2⟩ := List.getElem?_eq_some_iff.1 hrb
      have := h h1 h2 hab
      rw [e1, e2] at this; exact this
    constructor
    · intro i j x y hi hj hx hy
      have h1 := (hin ra i x hx).1 hi
      have h2 := (hin rb j y hy).1 hj
      linarith [h1.2, h2.1]
    · obtain ⟨i, hi, hx⟩ := hstart ra (List.mem_of_getElem? hra)
      refine ⟨i, ra, hi, hx, fun j y hj hy => ?_⟩
      have h2 := (hin rb j y hy).1 hj
      linarith [h2.1]
  · intro hn i hi
    obtain ⟨r, h1, h2, h3⟩ := hcov i hi
    have hmem : i ∈ windowIdx toas dt r := (mem_windowIdx _ _ _ _).2 ⟨hi, h1, h2⟩
    have hlen : 1 ≤ (windowIdx toas dt r).length := List.length_pos_of_mem hmem
    refine ⟨_, List.mem_map.2 ⟨r, h3 (le_trans hn hlen), rfl⟩, ?_⟩
    have hx : toas[i]? = some (toas.getD i 0) := by simp [List.getD, hi]
    exact (hin r i _ hx).2 ⟨h1, h2⟩
  · intro c hc
    obtain ⟨r, hr', rfl⟩ := List.mem_map.1 hc
    obtain ⟨i, hi, hx⟩ := hstart r hr'
    exact ⟨i, r, hi, hx, fun j y hy => hin r j y hy⟩

/-- No TOA is in two epochs. -/
theorem C09_disjoint (toas : List K) (isort : List Nat) (dt : K) (nmin : Nat)
    (hdt : 0 < dt) (hs : IsArgsort toas isort) (hne : toas ≠ []) (cols : List (List K))
    (hq : quantCols toas isort dt nmin = .ok cols) (a b : Nat) (ca cb : List K) (i : Nat)
    (ha : cols[a]? = some ca) (hb : cols[b]? = some cb)
    (hia : InEpoch ca i) (hib : InEpoch cb i) : a = b := by
  obtain ⟨cols', hq', hshape, -, -, hord, -, -⟩ := C09_epochs toas isort dt nmin hdt hs hne
  rw [hq] at hq'; cases hq'
  have hlen := (hshape ca (List.mem_of_getElem? ha)).1
  have hi : i < toas.length := by
    rw [← hlen]; by_contra hc
    rw [InEpoch, List.getElem?_eq_none (by omega)] at hia; cases hia
  have hx := List.getElem?_eq_getElem hi
  rcases Nat.lt_trichotomy a b with h | h | h
  · exact absurd ((hord a b ca cb h ha hb).1 i i _ _ hia hib hx hx) (lt_irrefl _)
  · exact h
  · exact absurd ((hord b a cb ca h hb ha).1 i i _ _ hib hia hx hx) (lt_irrefl _)

/-- With no TOAs the function raises. -/
theorem C09_empty_raises (isort : List Nat) (dt : K) (nmin : Nat)
    (hs : IsArgsort ([] : List K) isort) :
    quantCols ([] : List K) isort dt nmin = .error .indexError := by
  have : isort = [] := by
    have := hs.perm.length_eq
    simpa using this
  subst this; rfl

-- Concrete case: five TOAs, two epochs of at least two TOAs.
example : IsArgsort ([30, 10, 11, 50, 31] : List ℚ) [1, 2, 0, 4, 3] :=
  ⟨by decide, by decide +kernel⟩
example : quantCols ([30, 10, 11, 50, 31] : List ℚ) [1, 2, 0, 4, 3] 2 2 =
    .ok [[0, 1, 1, 0, 0], [1, 0, 0, 0, 1]] := by decide +kernel

/-! ## C10 -/

/-- The result does not depend on how the sort breaks ties. -/
theorem C10_tie_independent (toas : List K) (isort isort' : List Nat) (dt : K) (nmin : Nat)
    (hdt : 0 < dt) (hs : IsArgsort toas isort) (hs' : IsArgsort toas isort') :
    quantCols toas isort dt nmin = quantCols toas isort' dt nmin := by
  by_cases hne : toas = []
  · subst hne
    rw [C09_empty_raises isort dt nmin hs, C09_empty_raises isort' dt nmin hs']
  · obtain ⟨i0, rest, rfl⟩ := isArgsort_ne_nil hs hne
    obtain ⟨j0, rest', rfl⟩ := isArgsort_ne_nil hs' hne
    rw [quantCols_eq toas i0 rest dt nmin hdt hs, quantCols_eq toas j0 rest' dt nmin hdt hs']
    have hv : (i0 :: rest).map (fun i => toas.getD i 0) = (j0 :: rest').map (fun i => toas.getD i 0) := by
      apply List.Perm.eq_of_pairwise' hs.sorted hs'.sorted
      exact (hs.perm.trans hs'.perm.symm).map _
    simp only [List.map_cons, List.cons.injEq] at hv
    rw [hv.1, hv.2]

/-- Reordering the TOAs reorders the rows and nothing else. -/
theorem C10_permutation (toas : List K) (perm isort isort' : List Nat) (dt : K) (nmin : Nat)
    (hdt : 0 < dt) (hne : toas ≠ [])
    (hperm : perm.Perm (List.range toas.length))
    (hs : IsArgsort toas isort) (hs' : IsArgsort (perm.map fun i => toas.getD i 0) isort') :
    ∃ cols, quantCols toas isort dt nmin = .ok cols ∧
      quantCols (perm.map fun i => toas.getD i 0) isort' dt nmin =
        .ok (cols.map fun c => perm.map fun i => c.getD i 0) := by
  have hne' : (perm.map fun i => toas.getD i 0) ≠ [] := by
    intro h
    have h1 : perm = [] := by simpa using h
    rw [h1] at hperm
    have := hperm.length_eq
    simp at this
    exact hne (List.length_eq_zero_iff.1 this.symm)
  obtain ⟨i0, rest, rfl⟩ := isArgsort_ne_nil hs hne
  obtain ⟨j0, rest', rfl⟩ := isArgsort_ne_nil hs' hne'
  rw [quantCols_eq toas i0 rest dt nmin hdt hs, quantCols_eq _ j0 rest' dt nmin hdt hs']
  refine ⟨_, rfl, ?_⟩
  -- the two value lists agree
  have hvals : (perm.map fun i => toas.getD i 0).Perm toas := by
    have h1 := hperm.map (fun i => toas.getD i 0)
    have h2 : (List.range toas.length).map (fun i => toas.getD i 0) = toas := by
      apply List.ext_getElem?
      intro i
      by_cases h : i < toas.length
      · simp [h]
      · simp [h]
    rw [h2] at h1; exact h1
  have hval : ∀ (l : List K) (is : List Nat), IsArgsort l is →
      (is.map fun i => l.getD i 0).Perm l := by
    intro l is h
    have h1 := h.perm.map (fun i => l.getD i 0)
    have h2 : (List.range l.length).map (fun i => l.getD i 0) = l := by
      apply List.ext_getElem?
      intro i
      by_cases h : i < l.length
      · simp [h]
      · simp [h]
    rw [h2] at h1; exact h1
  have hv : (j0 :: rest').map (fun i => (perm.map fun i => toas.getD i 0).getD i 0)
      = (i0 :: rest).map (fun i => toas.getD i 0) := by
    apply List.Perm.eq_of_pairwise' hs'.sorted hs.sorted
    exact ((hval _ _ hs').trans hvals).trans (hval _ _ hs).symm
  rw [List.map_cons, List.map_cons, List.cons.injEq] at hv
  rw [hv.1, hv.2]
  -- window sizes agree
  have hcount : ∀ (l : List K) (r : K), (windowIdx l dt r).length =
      (l.filter fun x => decide (r ≤ x) && decide (x < r + dt)).length := by
    intro l r
    have := length_windowIdx_maskSelect l (List.replicate l.length true) dt r
    have e : ∀ l : List K, maskSelect l (List.replicate l.length true) = l := by
      intro l; induction l with
      | nil => rfl
      | cons a t ih => simp [maskSelect, List.replicate_succ, ih]
    rw [e] at this
    exact this
  have hfil : ∀ r, (windowIdx (perm.map fun i => toas.getD i 0) dt r).length
      = (windowIdx toas dt r).length := by
    intro r
    rw [hcount, hcount]
    exact (hvals.filter _).length_eq
  congr 1
  rw [List.map_map]
  have hfilt : (greedyRefs dt (toas.getD i0 0) (rest.map fun i => toas.getD i 0)).filter
      (fun r => decide (nmin ≤ (windowIdx (perm.map fun i => toas.getD i 0) dt r).length)) =
      (greedyRefs dt (toas.getD i0 0) (rest.map fun i => toas.getD i 0)).filter
      (fun r => decide (nmin ≤ (windowIdx toas dt r).length)) := by
    apply List.filter_congr
    intro r _
    rw [hfil]
  rw [hfilt]
  apply List.map_congr_left
  intro r _
  simp only [Function.comp]
  rw [indicatorCol_windowIdx, indicatorCol_windowIdx, List.map_map]
  apply List.map_congr_left
  intro i hi
  have hlt : i < toas.length := by
    have := hperm.mem_iff.1 hi; simpa using this
  simp [List.getD, hlt]

-- two different argsorts of an array with ties
example : IsArgsort ([5, 3, 5] : List ℚ) [1, 0, 2] ∧ IsArgsort ([5, 3, 5] : List ℚ) [1, 2, 0] :=
  ⟨⟨by decide, by decide +kernel⟩, ⟨by decide, by decide +kernel⟩⟩

/-- Without `dt > 0` the claim fails: ties then form separate epochs in sort order. -/
theorem C10_needs_positive_dt :
    ¬ ∀ (toas : List ℚ) (isort isort' : List Nat) (dt : ℚ) (nmin : Nat),
      IsArgsort toas isort → IsArgsort toas isort' →
      quantCols toas isort dt nmin = quantCols toas isort' dt nmin := by
  intro h
  have := h [5, 5] [0, 1] [1, 0] 0 1 ⟨by decide, by decide +kernel⟩ ⟨by decide, by decide +kernel⟩
  revert this
  decide +kernel

/-! ## C11 -/

/-- `quant2ind` returns, per column, a representation of the increasing list of non-zero rows;
whether slices are allowed makes no difference to the indices. -/
theorem C11_round_trip (cols : List (List K)) (asSlice : Bool)
    (h : ∀ c ∈ cols, ∃ x ∈ c, x ≠ 0) :
    ∃ inds, quant2ind cols asSlice = .ok inds ∧ inds.length = cols.length ∧
      ∀ (k : Nat) (c : List K) (r : IdxOrSlice), cols[k]? = some c → inds[k]? = some r →
        (indicesFromSlice r).Pairwise (· < ·) ∧
        ∀ i, i ∈ indicesFromSlice r ↔ ∃ x, c[i]? = some x ∧ x ≠ 0 := by
  induction cols with
  | nil => exact ⟨[], rfl, rfl, by simp⟩
  | cons c cs ih =>
    obtain ⟨inds, hi, hl, hk⟩ := ih fun c hc => h c (by simp [hc])
    obtain ⟨r0, h0, h0', -⟩ := (quant2indCol_spec asSlice c).1 (h c (by simp))
    refine ⟨r0 :: inds, ?_, by simp [hl], ?_⟩
    · simp only [quant2ind, List.mapM_cons] at hi ⊢
      rw [h0, hi]; rfl
    · intro k c' r hc hr
      cases k with
      | zero =>
        simp at hc hr
        subst hc; subst hr
        rw [h0']
        exact ⟨pairwise_flatnonzero c, fun i => mem_flatnonzero c i⟩
      | succ k =>
        simp at hc hr
        exact hk k c' r hc hr

/-- A column without non-zero entries raises. -/
theorem C11_zero_column_raises (cols : List (List K)) (asSlice : Bool)
    (h : ∃ c ∈ cols, ∀ x ∈ c, x = 0) : quant2ind cols asSlice = .error .indexError := by
  induction cols with
  | nil => simp at h
  | cons c cs ih =>
    by_cases hc : ∀ x ∈ c, x = 0
    · simp only [quant2ind, List.mapM_cons, (quant2indCol_spec asSlice c).2 hc]; rfl
    · have hc' : ∃ x ∈ c, x ≠ 0 := by
        by_contra hcon
        apply hc
        intro x hx
        by_contra hx'
        exact hcon ⟨x, hx, hx'⟩
      obtain ⟨r0, h0, -, -⟩ := (quant2indCol_spec asSlice c).1 hc'
      have : ∃ c ∈ cs, ∀ x ∈ c, x = 0 := by
        obtain ⟨c', hm, hz⟩ := h
        rcases List.mem_cons.1 hm with rfl | hm
        · exact absurd hz hc
        · exact ⟨c', hm, hz⟩
      have e := ih this
      simp only [quant2ind, List.mapM_cons] at e ⊢
      rw [h0, e]; rfl

/-- The indices of the epochs of `create_quantization_matrix` are well defined: for
`nmin ≥ 1` the conversion never raises. -/
theorem C11_of_quantization (toas : List K) (isort : List Nat) (dt : K) (nmin : Nat)
    (asSlice : Bool) (hdt : 0 < dt) (hs : IsArgsort toas isort) (hne : toas ≠ []) (hn : 1 ≤ nmin) :
    ∃ cols inds, quantCols toas isort dt nmin = .ok cols ∧ quant2ind cols asSlice = .ok inds ∧
      inds.length = cols.length ∧
      ∀ (k : Nat) (c : List K) (r : IdxOrSlice), cols[k]? = some c → inds[k]? = some r →
        ∀ i, i ∈ indicesFromSlice r ↔ InEpoch c i := by
  obtain ⟨cols, hq, hshape, -, hcnt, -, -, -⟩ := C09_epochs toas isort dt nmin hdt hs hne
  obtain ⟨inds, hi, hl, hk⟩ := C11_round_trip cols asSlice (by
    intro c hc
    have : 0 < c.count 1 := lt_of_lt_of_le hn (hcnt c hc)
    exact ⟨1, List.count_pos_iff.1 this, one_ne_zero⟩)
  refine ⟨cols, inds, hq, hi, hl, fun k c r hc hr i => ?_⟩
  rw [(hk k c r hc hr).2 i]
  constructor
  · rintro ⟨x, hx, hx'⟩
    rcases (hshape c (List.mem_of_getElem? hc)).2 x (List.mem_of_getElem? hx) with e | e
    · exact absurd e hx'
    · rw [e] at hx; exact hx
  · intro h; exact ⟨1, h, one_ne_zero⟩

example : quant2ind ([[0, 1, 1, 0, 0], [1, 0, 0, 0, 1]] : List (List ℚ)) true =
    .ok [.slc 1 3, .arr [0, 4]] := by decide +kernel

/-! ## C12 -/

theorem mapM_ok_of_forall {α β : Type} (f : α → Except PyErr β) (l : List α)
    (h : ∀ a ∈ l, ∃ b, f a = .ok b) :
    ∃ r, l.mapM f = .ok r ∧ List.Forall₂ (fun a b => f a = .ok b) l r := by
  induction l with
  | nil => exact ⟨[], rfl, List.Forall₂.nil⟩
  | cons a t ih =>
    obtain ⟨b, hb⟩ := h a (by simp)
    obtain ⟨r, hr, hf⟩ := ih fun a ha => h a (by simp [ha])
    refine ⟨b :: r, ?_, List.Forall₂.cons hb hf⟩
    rw [List.mapM_cons, hb, hr]; rfl

/-- The amplitudes stay in step with the index sets: entry `e` of the amplitude vector is the
amplitude of the selection the epoch `e` belongs to. -/
theorem C12_jvec_pairing (idxs : List (String × List (List Nat))) (amp : String → K)
    (hn : (idxs.map Prod.fst).Nodup) :
    (getJvecs idxs amp).1.length = (getJvecs idxs amp).2.length ∧
    (∀ (e : Nat) (idx : List Nat) (j : K), (getJvecs idxs amp).1[e]? = some idx →
      (getJvecs idxs amp).2[e]? = some j →
      ∃ k l, (k, l) ∈ idxs ∧ idx ∈ l ∧ j = amp k) ∧
    (∀ k l, (k, l) ∈ idxs → ∀ idx ∈ l, ∃ e : Nat, (getJvecs idxs amp).1[e]? = some idx ∧
      (getJvecs idxs amp).2[e]? = some (amp k)) := by
  have hzip : ∀ keys : List String,
      (keys.map fun k => (Dict.get? idxs k).getD []).flatten.zip
        (keys.map fun k => List.replicate ((Dict.get? idxs k).getD []).length (amp k)).flatten
      = keys.flatMap fun k => ((Dict.get? idxs k).getD []).map fun idx => (idx, amp k) := by
    intro keys
    induction keys with
    | nil => rfl
    | cons k t ih =>
      simp only [List.map_cons, List.flatten_cons, List.flatMap_cons]
      rw [List.zip_append (by simp), ih]
      congr 1
      generalize (Dict.get? idxs k).getD [] = l
      induction l with
      | nil => rfl
      | cons a s ih' => simp [List.replicate_succ, ih']
  have hlen : ∀ keys : List String,
      (keys.map fun k => (Dict.get? idxs k).getD []).flatten.length =
        (keys.map fun k => List.replicate ((Dict.get? idxs k).getD []).length (amp k)).flatten.length := by
    intro keys
    induction keys with
    | nil => rfl
    | cons k t ih => simp only [List.map_cons, List.flatten_cons, List.length_append, ih, List.length_replicate]
  refine ⟨hlen _, ?_, ?_⟩
  · intro e idx j h1 h2
    have hz : (List.zip (getJvecs idxs amp).1 (getJvecs idxs amp).2)[e]? = some (idx, j) := by
      rw [List.getElem?_zip_eq_some]; exact ⟨h1, h2⟩
    have hm := List.mem_of_getElem? hz
    unfold getJvecs at hm
    simp only at hm
    rw [hzip] at hm
    obtain ⟨k, hk, hk'⟩ := List.mem_flatMap.1 hm
    obtain ⟨idx', hidx, e'⟩ := List.mem_map.1 hk'
    cases e'
    cases hg : Dict.get? idxs k with
    | none => rw [hg] at hidx; simp at hidx
    | some l =>
      rw [hg] at hidx
      exact ⟨k, l, Dict.mem_of_get?_eq_some hg, by simpa using hidx, rfl⟩
  · intro k l hkl idx hidx
    have hg := Dict.get?_of_mem hn hkl
    have hm : (idx, amp k) ∈ List.zip (getJvecs idxs amp).1 (getJvecs idxs amp).2 := by
      unfold getJvecs
      simp only
      rw [hzip, List.mem_flatMap]
      refine ⟨k, ?_, ?_⟩
      · rw [List.mem_insertionSort]; exact List.mem_map.2 ⟨_, hkl, rfl⟩
      · rw [hg]; exact List.mem_map.2 ⟨idx, by simpa using hidx, rfl⟩
    obtain ⟨e, he⟩ := List.getElem?_of_mem hm
    rw [List.getElem?_zip_eq_some] at he
    exact ⟨e, he⟩

/-- For disjoint non-empty masks the ECORR epochs of all selections are pairwise disjoint, lie in
their own mask, have at least two TOAs less than `dt` apart, carry their own selection's
amplitude, and simultaneous TOAs of one selection always share an epoch. -/
theorem C12_ecorr_epochs (argsort : List K → List Nat) (hsort : ∀ l, IsArgsort l (argsort l))
    (toas : List K) (dt : K) (hdt : 0 < dt) (masks : Dict String Mask) (amp : String → K)
    (hn : (masks.map Prod.fst).Nodup) (hlen : ∀ km ∈ masks, km.2.length = toas.length)
    (hdisj : MasksDisjoint masks) (hne : ∀ km ∈ masks, ∃ i, InMask km.2 i) :
    ∃ idxs, ecorrIdxs argsort toas dt masks = .ok idxs ∧
      (getJvecs idxs amp).1.length = (getJvecs idxs amp).2.length ∧
      -- pairwise disjoint
      (getJvecs idxs amp).1.Pairwise List.Disjoint ∧
      -- each epoch
      (∀ (e : Nat) (idx : List Nat) (j : K), (getJvecs idxs amp).1[e]? = some idx →
        (getJvecs idxs amp).2[e]? = some j →
        2 ≤ idx.length ∧ idx.Pairwise (· < ·) ∧
        ∃ km ∈ masks, j = amp km.1 ∧ (∀ i ∈ idx, InMask km.2 i) ∧
          ∀ i ∈ idx, ∀ i' ∈ idx, ∀ x x', toas[i]? = some x → toas[i']? = some x' → |x - x'| < dt) ∧
      -- simultaneous TOAs share an epoch
      (∀ km ∈ masks, ∀ (i i' : Nat) (x : K), InMask km.2 i → InMask km.2 i' → i ≠ i' →
        toas[i]? = some x → toas[i']? = some x →
        ∃ (e : Nat) (idx : List Nat), (getJvecs idxs amp).1[e]? = some idx ∧
          (getJvecs idxs amp).2[e]? = some (amp km.1) ∧ i ∈ idx ∧ i' ∈ idx) ∧
      -- which TOAs share an epoch
      (∀ i j, (∃ idx ∈ (getJvecs idxs amp).1, i ∈ idx ∧ j ∈ idx) ↔ ∃ km ∈ masks, Together toas dt km.2 i j) := by
  have hmem := fun km => WhiteNoise.mem_sortedItems hn km
  have hspec : ∀ km ∈ WhiteNoise.sortedItems masks, _ := fun km hkm =>
    ecorrIdxs1_spec argsort toas dt km.2 (hsort _) hdt (hlen km ((hmem km).1 hkm))
      (hne km ((hmem km).1 hkm))
  obtain ⟨idxs, hi, hf⟩ := mapM_ok_of_forall
    (fun km : String × Mask => (do
      let idx ← ecorrIdxs1 argsort toas dt km.2
      return (km.1, idx) : Except PyErr (String × List (List Nat))))
    (WhiteNoise.sortedItems masks) (by
      intro km hkm
      obtain ⟨refs, h1, -⟩ := hspec km hkm
      exact ⟨(km.1, _), by rw [h1]; rfl⟩)
  -- keys of idxs
  have hkeys : idxs.map Prod.fst = (WhiteNoise.sortedItems masks).map Prod.fst := by
    clear hi
    generalize WhiteNoise.sortedItems masks = its at hf hspec
    induction hf with
    | nil => rfl
    | @cons km b its' idxs' hb _ ih =>
      obtain ⟨refs, h1, -⟩ := hspec km (by simp)
      rw [h1] at hb
      simp only [bind, Except.bind, pure, Except.pure, Except.ok.injEq] at hb
      subst hb
      simp only [List.map_cons, List.cons.injEq, true_and]
      exact ih fun k hk => hspec k (by simp [hk])
  have hidx : ∀ k l, (k, l) ∈ idxs → ∃ m, (k, m) ∈ masks ∧ ecorrIdxs1 argsort toas dt m = .ok l := by
    intro k l hkl
    have : ∀ (its : List (String × Mask)) (ix : List (String × List (List Nat))),
        List.Forall₂ (fun (km : String × Mask) b => (do
          let idx ← ecorrIdxs1 argsort toas dt km.2
          return (km.1, idx) : Except PyErr (String × List (List Nat))) = .ok b) its ix →
        (k, l) ∈ ix → ∃ m, (k, m) ∈ its ∧ ecorrIdxs1 argsort toas dt m = .ok l := by
      intro its ix h
      induction h with
      | nil => simp
      | @cons km b its' ix' hb _ ih =>
        intro hm
        rcases List.mem_cons.1 hm with e | hm
        · subst e
          cases hc : ecorrIdxs1 argsort toas dt km.2 with
          | error e => rw [hc] at hb; simp [bind, Except.bind] at hb
          | ok v =>
            rw [hc] at hb
            simp only [bind, Except.bind, pure, Except.pure, Except.ok.injEq, Prod.mk.injEq] at hb
            obtain ⟨h1, h2⟩ := hb
            subst h2
            exact ⟨km.2, by rw [← h1]; simp, hc⟩
        · obtain ⟨m, h1, h2⟩ := ih hm
          exact ⟨m, by simp [h1], h2⟩
    obtain ⟨m, h1, h2⟩ := this _ _ hf hkl
    exact ⟨m, (hmem _).1 h1, h2⟩
  have hidx' : ∀ km ∈ masks, ∃ l, (km.1, l) ∈ idxs ∧ ecorrIdxs1 argsort toas dt km.2 = .ok l := by
    intro km hkm
    have hk : km.1 ∈ idxs.map Prod.fst := by
      rw [hkeys]; exact List.mem_map.2 ⟨km, (hmem km).2 hkm, rfl⟩
    obtain ⟨⟨k, l⟩, hkl, e⟩ := List.mem_map.1 hk
    simp only at e
    subst e
    obtain ⟨m, hm, h2⟩ := hidx _ _ hkl
    have : m = km.2 := by
      have h1 := Dict.get?_of_mem hn hm
      have h2 := Dict.get?_of_mem (k := km.1) (v := km.2) hn hkm
      rw [h1] at h2; cases h2; rfl
    subst this
    exact ⟨l, hkl, h2⟩
  have hnk : (idxs.map Prod.fst).Nodup := by
    rw [hkeys]
    exact (WhiteNoise.sortedItems_pairwise hn).imp fun h => ne_of_lt h
  obtain ⟨hl, hpair, hback⟩ := C12_jvec_pairing idxs amp hnk
  -- description of one index set
  have hdesc : ∀ (k : String) (l : List (List Nat)), (k, l) ∈ idxs → ∀ idx ∈ l,
      ∃ m r, (k, m) ∈ masks ∧ idx = (List.range toas.length).filter (fun i =>
          decide (m[i]? = some true) &&
            (decide (r ≤ toas.getD i 0) && decide (toas.getD i 0 < r + dt))) ∧
        2 ≤ idx.length := by
    intro k l hkl idx hidxl
    obtain ⟨m, hm, hok⟩ := hidx k l hkl
    obtain ⟨refs, h1, h2, h3, -⟩ := hspec (k, m) ((hmem _).2 hm)
    rw [h1] at hok
    cases hok
    obtain ⟨r, hr, rfl⟩ := List.mem_map.1 hidxl
    exact ⟨m, r, hm, rfl, h3 r hr⟩
  have hmemd : ∀ (m : Mask) (r : K) (i : Nat), i ∈ ((List.range toas.length).filter fun i =>
          decide (m[i]? = some true) &&
            (decide (r ≤ toas.getD i 0) && decide (toas.getD i 0 < r + dt))) ↔
      i < toas.length ∧ InMask m i ∧ r ≤ toas.getD i 0 ∧ toas.getD i 0 < r + dt := by
    intro m r i
    rw [List.mem_filter, List.mem_range, Bool.and_eq_true, Bool.and_eq_true, decide_eq_true_iff,
      decide_eq_true_iff, decide_eq_true_iff]
    rfl
  refine ⟨idxs, hi, hl, ?_, ?_, ?_, ?_⟩
  · unfold getJvecs
    simp only
    rw [List.pairwise_flatten]
    have hget : ∀ k, ∀ idx ∈ (Dict.get? idxs k).getD [], ∃ l, (k, l) ∈ idxs ∧ idx ∈ l := by
      intro k idx h
      cases hg : Dict.get? idxs k with
      | none => rw [hg] at h; simp at h
      | some l => rw [hg] at h; exact ⟨l, Dict.mem_of_get?_eq_some hg, by simpa using h⟩
    constructor
    · intro l hl'
      obtain ⟨k, hk, rfl⟩ := List.mem_map.1 hl'
      cases hg : Dict.get? idxs k with
      | none => simp
      | some l =>
        rw [Option.getD_some]
        have hkl := Dict.mem_of_get?_eq_some hg
        obtain ⟨m, hm, hok⟩ := hidx k l hkl
        obtain ⟨refs, h1, h2, -, -, -⟩ := hspec (k, m) ((hmem _).2 hm)
        rw [h1] at hok
        cases hok
        rw [List.pairwise_map]
        refine h2.imp ?_
        intro ra rb hab i hia hib
        have g1 := (hmemd _ _ _).1 hia
        have g2 := (hmemd _ _ _).1 hib
        linarith [g1.2.2.2, g2.2.2.1]
    · rw [List.pairwise_map]
      have hnd : ((idxs.map Prod.fst).insertionSort (· ≤ ·)).Nodup :=
        (List.perm_insertionSort _ _).nodup_iff.2 hnk
      refine hnd.imp ?_
      intro ka kb hkab ia hia ib hib i h1 h2
      obtain ⟨la, hka, hial⟩ := hget ka ia hia
      obtain ⟨lb, hkb, hibl⟩ := hget kb ib hib
      obtain ⟨ma, ra, hma, ea, -⟩ := hdesc ka la hka ia hial
      obtain ⟨mb, rb, hmb, eb, -⟩ := hdesc kb lb hkb ib hibl
      rw [ea] at h1; rw [eb] at h2
      have := hdisj _ hma _ hmb i ((hmemd _ _ _).1 h1).2.1 ((hmemd _ _ _).1 h2).2.1
      exact hkab (congrArg Prod.fst this)
  · intro e idx j he hj
    obtain ⟨k, l, hkl, hidxl, rfl⟩ := hpair e idx j he hj
    obtain ⟨m, r, hm, ei, h2⟩ := hdesc k l hkl idx hidxl
    refine ⟨h2, ?_, (k, m), hm, rfl, ?_, ?_⟩
    · rw [ei]; exact List.pairwise_lt_range.filter _
    · intro i hi'
      rw [ei] at hi'
      exact ((hmemd _ _ _).1 hi').2.1
    · intro i hi1 i' hi2 x x' hx hx'
      rw [ei] at hi1 hi2
      have g1 := ((hmemd _ _ _).1 hi1).2.2
      have g2 := ((hmemd _ _ _).1 hi2).2.2
      rw [List.getD_eq_getElem?_getD, hx, Option.getD_some] at g1
      rw [List.getD_eq_getElem?_getD, hx', Option.getD_some] at g2
      rw [abs_sub_lt_iff]
      constructor <;> linarith [g1.1, g1.2, g2.1, g2.2]
  · intro km hkm i i' x him him' hne' hx hx'
    obtain ⟨l, hkl, hok⟩ := hidx' km hkm
    obtain ⟨refs, h1, -, -, h4, -⟩ := hspec km ((hmem km).2 hkm)
    rw [h1] at hok
    cases hok
    have hi1 : i < toas.length := (List.getElem?_eq_some_iff.1 hx).1
    have hi2 : i' < toas.length := (List.getElem?_eq_some_iff.1 hx').1
    obtain ⟨r, g1, g2, g3⟩ := h4 i hi1 him
    have e1 : toas.getD i 0 = x := by rw [List.getD_eq_getElem?_getD, hx, Option.getD_some]
    have e2 : toas.getD i' 0 = x := by rw [List.getD_eq_getElem?_getD, hx', Option.getD_some]
    have m1 := (hmemd km.2 r i).2 ⟨hi1, him, g1, g2⟩
    have m2 := (hmemd km.2 r i').2 ⟨hi2, him', by rw [e2, ← e1]; exact g1, by rw [e2, ← e1]; exact g2⟩
    have hlen2 : 2 ≤ ((List.range toas.length).filter fun i =>
          decide (km.2[i]? = some true) &&
            (decide (r ≤ toas.getD i 0) && decide (toas.getD i 0 < r + dt))).length := by
      generalize ((List.range toas.length).filter fun i =>
          decide (km.2[i]? = some true) &&
            (decide (r ≤ toas.getD i 0) && decide (toas.getD i 0 < r + dt))) = l at m1 m2
      match l, m1, m2 with
      | [], h, _ => simp at h
      | [a], h, h' =>
        simp at h h'
        exact absurd (h.trans h'.symm) hne'
      | _ :: _ :: _, _, _ => simp
    obtain ⟨e, he1, he2⟩ := hback km.1 _ hkl _ (List.mem_map.2 ⟨r, g3 hlen2, rfl⟩)
    exact ⟨e, _, he1, he2, m1, m2⟩
  · have hwin : ∀ km ∈ masks, ∀ (r : K) (i : Nat), i ∈ ((List.range toas.length).filter fun i =>
          decide (km.2[i]? = some true) &&
            (decide (r ≤ toas.getD i 0) && decide (toas.getD i 0 < r + dt))) ↔ Within toas dt km.2 r i := by
      intro km hkm r i
      rw [hmemd]
      refine ⟨fun h => h.2, fun h => ⟨?_, h⟩⟩
      rw [← hlen km hkm]
      exact (List.getElem?_eq_some_iff.1 h.1).1
    intro i j
    constructor
    · rintro ⟨idx, hidxm, h1, h2⟩
      obtain ⟨e, he, rfl⟩ := List.getElem_of_mem hidxm
      obtain ⟨k, l, hkl, hidxl, -⟩ := hpair e _ _ (List.getElem?_eq_getElem he) (List.getElem?_eq_getElem (by omega))
      obtain ⟨m, hm, hok⟩ := hidx k l hkl
      obtain ⟨refs, g1, -, -, -, R, g2, g3⟩ := hspec (k, m) ((hmem _).2 hm)
      rw [g1] at hok
      cases hok
      obtain ⟨r, hr, er⟩ := List.mem_map.1 hidxl
      rw [← er] at h1 h2
      obtain ⟨hrR, hlen2⟩ := (g3 r).1 hr
      refine ⟨(k, m), hm, R, g2, r, hrR, (hwin _ hm r i).1 h1, (hwin _ hm r j).1 h2, ?_⟩
      have hnd : ((List.range toas.length).filter fun i =>
          decide (m[i]? = some true) &&
            (decide (r ≤ toas.getD i 0) && decide (toas.getD i 0 < r + dt))).Nodup := List.nodup_range.filter _
      obtain ⟨x, y, t, ex⟩ : ∃ x y t, ((List.range toas.length).filter fun i =>
          decide (m[i]? = some true) &&
            (decide (r ≤ toas.getD i 0) && decide (toas.getD i 0 < r + dt))) = x :: y :: t := by
        match h : ((List.range toas.length).filter fun i =>
          decide (m[i]? = some true) &&
            (decide (r ≤ toas.getD i 0) && decide (toas.getD i 0 < r + dt))) with
        | [] => rw [h] at hlen2; simp at hlen2
        | [_] => rw [h] at hlen2; simp at hlen2
        | x :: y :: t => exact ⟨x, y, t, rfl⟩
      refine ⟨x, y, ?_, (hwin _ hm r x).1 (by rw [ex]; simp), (hwin _ hm r y).1 (by rw [ex]; simp)⟩
      rw [ex, List.nodup_cons] at hnd
      rintro rfl
      exact hnd.1 (by simp)
    · rintro ⟨km, hkm, R, hR, r, hr, w1, w2, x, y, hxy, w3, w4⟩
      obtain ⟨l, hkl, hok⟩ := hidx' km hkm
      obtain ⟨refs, g1, -, -, -, R', g2, g3⟩ := hspec km ((hmem km).2 hkm)
      rw [g1] at hok
      cases hok
      have hfin : (maskTimes toas km.2).Finite := by
        refine Set.Finite.subset ((Set.finite_lt_nat toas.length).image fun x => toas.getD x 0) ?_
        rintro t ⟨x, hx, rfl⟩
        refine ⟨x, ?_, rfl⟩
        show x < toas.length
        rw [← hlen km hkm]
        exact (List.getElem?_eq_some_iff.1 hx).1
      rw [starts_unique hfin hR g2] at hr
      have m3 := (hwin km hkm r x).2 w3
      have m4 := (hwin km hkm r y).2 w4
      have hlen2 : 2 ≤ ((List.range toas.length).filter fun i =>
          decide (km.2[i]? = some true) &&
            (decide (r ≤ toas.getD i 0) && decide (toas.getD i 0 < r + dt))).length := by
        generalize ((List.range toas.length).filter fun i =>
          decide (km.2[i]? = some true) &&
            (decide (r ≤ toas.getD i 0) && decide (toas.getD i 0 < r + dt))) = l at m3 m4
        match l, m3, m4 with
        | [], h, _ => simp at h
        | [a], h, h' =>
          simp at h h'
          exact absurd (h.trans h'.symm) hxy
        | _ :: _ :: _, _, _ => simp
      obtain ⟨e, he1, -⟩ := hback km.1 _ hkl _ (List.mem_map.2 ⟨r, (g3 r).2 ⟨hr, hlen2⟩, rfl⟩)
      exact ⟨_, List.mem_of_getElem? he1, (hwin km hkm r i).2 w1, (hwin km hkm r j).2 w2⟩

-- the hypotheses are met, e.g., by the masks of `by_backend` (C01)
example : MasksDisjoint [("a", [true, true, false]), ("b", [false, false, true])] := by
  intro km h km' h' i hi hi'
  simp at h h'
  rcases h with rfl | rfl <;> rcases h' with rfl | rfl <;> first | rfl | skip
  all_goals
    simp only [InMask] at hi hi'
    match i with
    | 0 => simp at hi hi'
    | 1 => simp at hi hi'
    | 2 => simp at hi hi'
    | (n + 3) => simp at hi hi'

end Verif.Quantize
