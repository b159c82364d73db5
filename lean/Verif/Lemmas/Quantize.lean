import Verif.Model.Quantize
import Verif.Spec.Epoch
import Verif.Lemmas.WhiteNoise
import Mathlib.Tactic.Linarith
import Mathlib.Data.List.Perm.Basic
import Mathlib.Data.List.GetD

/-! Helper lemmas for the epoch bucketing. -/

set_option linter.unusedSectionVars false

namespace Verif.Quantize

open Verif

variable {K : Type} [Field K] [LinearOrder K] [IsStrictOrderedRing K]

theorem flatten_bucketLoop (t : Nat → K) (dt ref : K) (cur rest : List Nat) :
    ((bucketLoop t dt ref cur rest).map Prod.snd).flatten = cur ++ rest := by
  induction rest generalizing ref cur with
  | nil => simp [bucketLoop]
  | cons i r ih =>
    rw [bucketLoop]
    split
    · rw [ih]; simp
    · simp [ih]

/-- Epoch starts depend on the sorted values only. -/
def greedyRefs (dt : K) : K → List K → List K
  | ref, [] => [ref]
  | ref, v :: vs => if v - ref < dt then greedyRefs dt ref vs else ref :: greedyRefs dt v vs

theorem refs_bucketLoop (t : Nat → K) (dt ref : K) (cur rest : List Nat) :
    (bucketLoop t dt ref cur rest).map Prod.fst = greedyRefs dt ref (rest.map t) := by
  induction rest generalizing ref cur with
  | nil => simp [bucketLoop, greedyRefs]
  | cons i r ih =>
    rw [bucketLoop, List.map_cons, greedyRefs]
    split <;> simp [ih]

/-- Every bucket holds TOAs between its start and its start plus `dt`, and contains a TOA at
its start. -/
theorem bounds_bucketLoop (t : Nat → K) (dt ref : K) (hdt : 0 < dt) (cur rest : List Nat)
    (hsorted : (rest.map t).Pairwise (· ≤ ·)) (hge : ∀ i ∈ rest, ref ≤ t i)
    (hcur : ∀ i ∈ cur, ref ≤ t i ∧ t i - ref < dt) (href : ∃ i ∈ cur, t i = ref) :
    ∀ b ∈ bucketLoop t dt ref cur rest,
      (∀ i ∈ b.2, b.1 ≤ t i ∧ t i - b.1 < dt) ∧ ∃ i ∈ b.2, t i = b.1 := by
  induction rest generalizing ref cur with
  | nil =>
    intro b hb
    simp only [bucketLoop, List.mem_cons, List.not_mem_nil, or_false] at hb
    subst hb; exact ⟨hcur, href⟩
  | cons i r ih =>
    rw [List.map_cons, List.pairwise_cons] at hsorted
    rw [bucketLoop]
    split
    · next hlt =>
      apply ih _ _ hsorted.2 (fun j hj => hge j (by simp [hj]))
      · intro j hj
        rcases List.mem_append.1 hj with h | h
        · exact hcur j h
        · simp at h; subst h; exact ⟨hge j (by simp), hlt⟩
      · obtain ⟨j, hj, e⟩ := href
        exact ⟨j, by simp [hj], e⟩
    · intro b hb
      rcases List.mem_cons.1 hb with rfl | hb
      · exact ⟨hcur, href⟩
      · refine ih (t i) [i] hsorted.2 ?_ ?_ ⟨i, by simp, rfl⟩ b hb
        · intro j hj
          exact hsorted.1 (t j) (List.mem_map.2 ⟨j, hj, rfl⟩)
        · intro j hj
          simp at hj; subst hj
          exact ⟨le_refl _, by simpa using hdt⟩

theorem le_refs_bucketLoop (t : Nat → K) (dt ref : K) (cur rest : List Nat)
    (hge : ∀ i ∈ rest, ref ≤ t i) (hsorted : (rest.map t).Pairwise (· ≤ ·)) :
    ∀ b ∈ bucketLoop t dt ref cur rest, ref ≤ b.1 := by
  induction rest generalizing ref cur with
  | nil => simp [bucketLoop]
  | cons i r ih =>
    rw [List.map_cons, List.pairwise_cons] at hsorted
    rw [bucketLoop]
    split
    · exact ih _ _ (fun j hj => hge j (by simp [hj])) hsorted.2
    · intro b hb
      rcases List.mem_cons.1 hb with rfl | hb
      · exact le_refl _
      · refine le_trans (hge i (by simp)) (ih _ _ ?_ hsorted.2 b hb)
        intro j hj
        exact hsorted.1 (t j) (List.mem_map.2 ⟨j, hj, rfl⟩)

/-- Starts of different buckets are at least `dt` apart, in increasing order. -/
theorem pairwise_bucketLoop (t : Nat → K) (dt ref : K) (cur rest : List Nat)
    (hsorted : (rest.map t).Pairwise (· ≤ ·)) :
    (bucketLoop t dt ref cur rest).Pairwise (fun a b => a.1 + dt ≤ b.1) := by
  induction rest generalizing ref cur with
  | nil => simp [bucketLoop]
  | cons i r ih =>
    rw [List.map_cons, List.pairwise_cons] at hsorted
    rw [bucketLoop]
    split
    · exact ih _ _ hsorted.2
    · next hlt =>
      rw [List.pairwise_cons]
      refine ⟨fun b hb => ?_, ih _ _ hsorted.2⟩
      have h := le_refs_bucketLoop t dt (t i) [i] r
        (fun j hj => hsorted.1 (t j) (List.mem_map.2 ⟨j, hj, rfl⟩)) hsorted.2 b hb
      have : ref + dt ≤ t i := by linarith [not_lt.1 hlt]
      simp only
      linarith

/-- The indices in `[0,n)` whose TOA lies in the half-open window `[r, r+dt)`. -/
def windowIdx (toas : List K) (dt r : K) : List Nat :=
  (List.range toas.length).filter fun i =>
    decide (r ≤ toas.getD i 0) && decide (toas.getD i 0 < r + dt)

theorem mem_windowIdx (toas : List K) (dt r : K) (i : Nat) :
    i ∈ windowIdx toas dt r ↔ i < toas.length ∧ r ≤ toas.getD i 0 ∧ toas.getD i 0 < r + dt := by
  simp [windowIdx]

theorem pairwise_tri {α : Type*} {R : α → α → Prop} {l : List α} (h : l.Pairwise R) :
    ∀ a ∈ l, ∀ c ∈ l, a = c ∨ R a c ∨ R c a := by
  induction l with
  | nil => simp
  | cons x t ih =>
    rw [List.pairwise_cons] at h
    intro a ha c hc
    rcases List.mem_cons.1 ha with rfl | ha' <;> rcases List.mem_cons.1 hc with rfl | hc'
    · exact Or.inl rfl
    · exact Or.inr (Or.inl (h.1 c hc'))
    · exact Or.inr (Or.inr (h.1 a ha'))
    · exact ih h.2 a ha' c hc'

/-- All facts about the buckets of an argsorted array. -/
theorem buckets_spec (toas : List K) (i0 : Nat) (rest : List Nat) (dt : K) (hdt : 0 < dt)
    (h : IsArgsort toas (i0 :: rest)) :
    let t := fun i => toas.getD i 0
    let bs := bucketLoop t dt (t i0) [i0] rest
    (∀ b ∈ bs, ∀ i, i ∈ b.2 ↔ i ∈ windowIdx toas dt b.1) ∧
    (∀ b ∈ bs, b.2.Nodup) ∧
    (∀ b ∈ bs, ∃ i ∈ b.2, t i = b.1) ∧
    bs.Pairwise (fun a b => a.1 + dt ≤ b.1) ∧
    (∀ i, i < toas.length → ∃ b ∈ bs, i ∈ b.2) ∧
    bs.map Prod.fst = greedyRefs dt (t i0) (rest.map t) := by
  intro t bs
  have hs := h.sorted
  rw [List.map_cons, List.pairwise_cons] at hs
  have hge : ∀ i ∈ rest, t i0 ≤ t i := fun i hi => hs.1 _ (List.mem_map.2 ⟨i, hi, rfl⟩)
  have hb := bounds_bucketLoop t dt (t i0) hdt [i0] rest hs.2 hge
    (by intro i hi; simp at hi; subst hi; exact ⟨le_refl _, by simpa using hdt⟩)
    ⟨i0, by simp, rfl⟩
  have hp := pairwise_bucketLoop t dt (t i0) [i0] rest hs.2
  have hf := flatten_bucketLoop t dt (t i0) [i0] rest
  have hnd : (i0 :: rest).Nodup := h.perm.nodup_iff.2 List.nodup_range
  have hmem : ∀ i, i ∈ i0 :: rest ↔ i < toas.length := fun i => by
    rw [h.perm.mem_iff, List.mem_range]
  have hcov : ∀ i, i < toas.length → ∃ b ∈ bs, i ∈ b.2 := by
    intro i hi
    have : i ∈ (bs.map Prod.snd).flatten := by rw [hf]; exact (hmem i).2 hi
    obtain ⟨l, hl, hil⟩ := List.mem_flatten.1 this
    obtain ⟨b, hb', rfl⟩ := List.mem_map.1 hl
    exact ⟨b, hb', hil⟩
  have hin : ∀ b ∈ bs, ∀ i ∈ b.2, i < toas.length := by
    intro b hb' i hi
    rw [← hmem]
    have : i ∈ (bs.map Prod.snd).flatten :=
      List.mem_flatten.2 ⟨b.2, List.mem_map.2 ⟨b, hb', rfl⟩, hi⟩
    rw [hf] at this; exact this
  refine ⟨?_, ?_, fun b hb' => (hb b hb').2, hp, hcov, refs_bucketLoop t dt _ _ _⟩
  · intro b hb' i
    rw [mem_windowIdx]
    constructor
    · intro hi
      have := (hb b hb').1 i hi
      exact ⟨hin b hb' i hi, this.1, by linarith [this.2]⟩
    · rintro ⟨hi, h1, h2⟩
      obtain ⟨b', hb'', hi'⟩ := hcov i hi
      have h3 := (hb b' hb'').1 i hi'
      have : b = b' := by
        have htri := pairwise_tri hp b hb' b' hb''
        rcases htri with e | e | e
        · exact e
        · exfalso; have := h3.1; simp only [t] at this; linarith
        · exfalso; have := h3.2; simp only [t] at this; linarith
      rw [this]; exact hi'
  · intro b hb'
    have : (bs.map Prod.snd).flatten.Nodup := by rw [hf]; exact hnd
    exact (List.nodup_flatten.1 this).1 b.2 (List.mem_map.2 ⟨b, hb', rfl⟩)

theorem indicatorCol_congr (n : Nat) {l l' : List Nat} (h : ∀ i, i ∈ l ↔ i ∈ l') :
    indicatorCol (K := K) n l = indicatorCol n l' := by
  unfold indicatorCol
  apply List.map_congr_left
  intro r _
  simp only [h r]

theorem getElem?_indicatorCol (n : Nat) (l : List Nat) (i : Nat) :
    (indicatorCol (K := K) n l)[i]? = if i < n then some (if i ∈ l then 1 else 0) else none := by
  unfold indicatorCol
  by_cases h : i < n
  · simp [h]
  · simp [h]

/-- Canonical form of the quantization matrix: it depends on the argsort only through the
sorted values. -/
theorem quantCols_eq (toas : List K) (i0 : Nat) (rest : List Nat) (dt : K) (nmin : Nat)
    (hdt : 0 < dt) (h : IsArgsort toas (i0 :: rest)) :
    quantCols toas (i0 :: rest) dt nmin = .ok
      (((greedyRefs dt (toas.getD i0 0) (rest.map fun i => toas.getD i 0)).filter
        fun r => decide (nmin ≤ (windowIdx toas dt r).length)).map
          fun r => indicatorCol toas.length (windowIdx toas dt r)) := by
  obtain ⟨h1, h2, -, -, -, h6⟩ := buckets_spec toas i0 rest dt hdt h
  simp only [quantCols]
  rw [← h6]
  congr 1
  rw [List.filter_map, List.map_map, List.filter_map, List.map_map]
  have hlen : ∀ b ∈ bucketLoop (fun i => toas.getD i 0) dt (toas.getD i0 0) [i0] rest,
      b.2.length = (windowIdx toas dt b.1).length := by
    intro b hb
    apply List.Perm.length_eq
    exact (List.perm_ext_iff_of_nodup (h2 b hb) (List.nodup_range.filter _)).2 (h1 b hb)
  have hf : (bucketLoop (fun i => toas.getD i 0) dt (toas.getD i0 0) [i0] rest).filter
      ((fun ind => decide (nmin ≤ ind.length)) ∘ Prod.snd) =
      (bucketLoop (fun i => toas.getD i 0) dt (toas.getD i0 0) [i0] rest).filter
      ((fun r => decide (nmin ≤ (windowIdx toas dt r).length)) ∘ Prod.fst) := by
    apply List.filter_congr
    intro b hb
    simp only [Function.comp, hlen b hb]
  rw [hf]
  apply List.map_congr_left
  intro b hb
  exact indicatorCol_congr _ (h1 b (List.mem_filter.1 hb).1)

end Verif.Quantize

namespace Verif.Quantize

open Verif

variable {K : Type} [Field K] [LinearOrder K] [IsStrictOrderedRing K]

/-- 1 inside the window `[r, r+dt)`, 0 outside. -/
def windowFn (dt r : K) (x : K) : K := if r ≤ x ∧ x < r + dt then 1 else 0

theorem indicatorCol_windowIdx (toas : List K) (dt r : K) :
    indicatorCol toas.length (windowIdx toas dt r) = toas.map (windowFn dt r) := by
  apply List.ext_getElem?
  intro i
  rw [getElem?_indicatorCol, List.getElem?_map]
  by_cases h : i < toas.length
  · simp [h, mem_windowIdx, windowFn]
  · simp [h]

theorem isArgsort_ne_nil {toas : List K} {isort : List Nat} (h : IsArgsort toas isort)
    (hne : toas ≠ []) : ∃ i0 rest, isort = i0 :: rest := by
  cases isort with
  | nil =>
    have := h.perm.length_eq
    simp at this
    exact absurd (List.length_eq_zero_iff.1 this.symm) hne
  | cons a t => exact ⟨a, t, rfl⟩

/-- Canonical description of the quantization matrix. -/
theorem quantCols_starts (toas : List K) (isort : List Nat) (dt : K) (nmin : Nat)
    (hdt : 0 < dt) (h : IsArgsort toas isort) (hne : toas ≠ []) :
    ∃ refs : List K, quantCols toas isort dt nmin = .ok (refs.map fun r => toas.map (windowFn dt r)) ∧
      refs.Pairwise (fun a b => a + dt ≤ b) ∧
      (∀ r ∈ refs, (∃ i, i < toas.length ∧ toas.getD i 0 = r) ∧
        nmin ≤ (windowIdx toas dt r).length) ∧
      (∀ i, i < toas.length → ∃ r, r ≤ toas.getD i 0 ∧ toas.getD i 0 < r + dt ∧
        (nmin ≤ (windowIdx toas dt r).length → r ∈ refs)) ∧
      ∃ R : Set K, Starts {t | t ∈ toas} R dt ∧ ∀ r, r ∈ refs ↔ r ∈ R ∧ nmin ≤ (windowIdx toas dt r).length := by
  obtain ⟨i0, rest, rfl⟩ := isArgsort_ne_nil h hne
  obtain ⟨h1, -, h3, h4, h5, h6⟩ := buckets_spec toas i0 rest dt hdt h
  rw [quantCols_eq toas i0 rest dt nmin hdt h]
  simp only at h1 h3 h4 h5 h6
  have hp : (greedyRefs dt (toas.getD i0 0) (rest.map fun i => toas.getD i 0)).Pairwise
      (fun a b => a + dt ≤ b) := by
    rw [← h6]
    exact List.pairwise_map.2 h4
  refine ⟨(greedyRefs dt (toas.getD i0 0) (rest.map fun i => toas.getD i 0)).filter
        (fun r => decide (nmin ≤ (windowIdx toas dt r).length)), ?_, hp.filter _, ?_, ?_,
      {r | r ∈ greedyRefs dt (toas.getD i0 0) (rest.map fun i => toas.getD i 0)}, ⟨?_, ?_, ?_⟩, ?_⟩
  · simp only [indicatorCol_windowIdx]
  · intro r hr
    rw [List.mem_filter, decide_eq_true_iff] at hr
    refine ⟨?_, hr.2⟩
    have := hr.1
    rw [← h6] at this
    obtain ⟨b, hb, rfl⟩ := List.mem_map.1 this
    obtain ⟨i, hi, e⟩ := h3 b hb
    exact ⟨i, ((mem_windowIdx _ _ _ _).1 ((h1 b hb i).1 hi)).1, e⟩
  · intro i hi
    obtain ⟨b, hb, hib⟩ := h5 i hi
    have := (mem_windowIdx _ _ _ _).1 ((h1 b hb i).1 hib)
    refine ⟨b.1, this.2.1, this.2.2, fun hlen => ?_⟩
    rw [List.mem_filter, decide_eq_true_iff]
    refine ⟨?_, hlen⟩
    rw [← h6]
    exact List.mem_map.2 ⟨b, hb, rfl⟩
  · intro r hr
    have hr : r ∈ greedyRefs dt (toas.getD i0 0) (rest.map fun i => toas.getD i 0) := hr
    rw [← h6] at hr
    obtain ⟨b, hb, rfl⟩ := List.mem_map.1 hr
    obtain ⟨i, hi, e⟩ := h3 b hb
    have hlt := ((mem_windowIdx _ _ _ _).1 ((h1 b hb i).1 hi)).1
    show b.1 ∈ toas
    rw [← e, List.getD_eq_getElem _ _ hlt]
    exact List.getElem_mem hlt
  · intro r hr r' hr' hlt
    obtain ⟨a, ha, rfl⟩ := List.getElem_of_mem (show r ∈ greedyRefs dt (toas.getD i0 0) (rest.map fun i => toas.getD i 0) from hr)
    obtain ⟨b, hb, rfl⟩ := List.getElem_of_mem (show r' ∈ greedyRefs dt (toas.getD i0 0) (rest.map fun i => toas.getD i 0) from hr')
    rw [List.pairwise_iff_getElem] at hp
    rcases lt_trichotomy a b with h | h | h
    · exact hp a b ha hb h
    · subst h
      exact absurd hlt (lt_irrefl _)
    · have := hp b a hb ha h
      linarith
  · intro t ht
    obtain ⟨i, hi, rfl⟩ := List.getElem_of_mem (show t ∈ toas from ht)
    obtain ⟨b, hb, hib⟩ := h5 i hi
    have := (mem_windowIdx _ _ _ _).1 ((h1 b hb i).1 hib)
    rw [List.getD_eq_getElem _ _ hi] at this
    refine ⟨b.1, ?_, this.2⟩
    show b.1 ∈ greedyRefs dt (toas.getD i0 0) (rest.map fun i => toas.getD i 0)
    rw [← h6]
    exact List.mem_map.2 ⟨b, hb, rfl⟩
  · intro r
    rw [List.mem_filter, decide_eq_true_iff]
    rfl

/-- Canonical description of the quantization matrix. -/
theorem quantCols_canon (toas : List K) (isort : List Nat) (dt : K) (nmin : Nat)
    (hdt : 0 < dt) (h : IsArgsort toas isort) (hne : toas ≠ []) :
    ∃ refs : List K, quantCols toas isort dt nmin = .ok (refs.map fun r => toas.map (windowFn dt r)) ∧
      refs.Pairwise (fun a b => a + dt ≤ b) ∧
      (∀ r ∈ refs, (∃ i, i < toas.length ∧ toas.getD i 0 = r) ∧
        nmin ≤ (windowIdx toas dt r).length) ∧
      (∀ i, i < toas.length → ∃ r, r ≤ toas.getD i 0 ∧ toas.getD i 0 < r + dt ∧
        (nmin ≤ (windowIdx toas dt r).length → r ∈ refs)) := by
  obtain ⟨refs, h1, h2, h3, h4, -⟩ := quantCols_starts toas isort dt nmin hdt h hne
  exact ⟨refs, h1, h2, h3, h4⟩

theorem mem_flatnonzero (col : List K) (i : Nat) :
    i ∈ flatnonzero col ↔ ∃ x, col[i]? = some x ∧ x ≠ 0 := by
  rw [flatnonzero, List.mem_filter, List.mem_range, decide_eq_true_iff,
    List.getD_eq_getElem?_getD]
  constructor
  · rintro ⟨h, h'⟩
    exact ⟨col[i], List.getElem?_eq_getElem h, by simpa [h] using h'⟩
  · rintro ⟨x, hx, hne⟩
    have hi : i < col.length := by
      by_contra hc
      rw [List.getElem?_eq_none (by omega)] at hx
      cases hx
    exact ⟨hi, by rw [hx]; exact hne⟩

theorem pairwise_flatnonzero (col : List K) : (flatnonzero col).Pairwise (· < ·) :=
  List.pairwise_lt_range.filter _

theorem last_ge_of_pairwise (a b : Nat) (t : List Nat) (h : (a :: t).Pairwise (· < ·))
    (hl : (a :: t).getLast? = some b) : a + t.length ≤ b := by
  induction t generalizing a with
  | nil => simp at hl; simp [hl]
  | cons c s ih =>
    rw [List.pairwise_cons] at h
    have h1 := h.1 c (by simp)
    have h2 := ih c h.2 (by simpa using hl)
    simp only [List.length_cons]
    omega

/-- A strictly increasing list of naturals without gaps is a range. -/
theorem eq_range_of_pairwise (a b : Nat) (t : List Nat) (h : (a :: t).Pairwise (· < ·))
    (hl : (a :: t).getLast? = some b) (hc : b - a + 1 = (a :: t).length) :
    a :: t = List.range' a (b + 1 - a) := by
  induction t generalizing a with
  | nil =>
    simp at hl
    subst hl
    simp
  | cons c s ih =>
    have h0 := last_ge_of_pairwise a b (c :: s) h hl
    rw [List.pairwise_cons] at h
    have h1 := h.1 c (by simp)
    have hl' : (c :: s).getLast? = some b := by simpa using hl
    have h2 := last_ge_of_pairwise c b s h.2 hl'
    simp only [List.length_cons] at hc h0
    have hca : c = a + 1 := by omega
    have := ih c h.2 hl' (by simp only [List.length_cons]; omega)
    rw [this, hca]
    have e : b + 1 - a = (b + 1 - (a + 1)) + 1 := by omega
    rw [e, List.range'_succ]

theorem quant2indCol_spec (asSlice : Bool) (col : List K) :
    ((∃ x ∈ col, x ≠ 0) → ∃ r, quant2indCol asSlice col = .ok r ∧
      indicesFromSlice r = flatnonzero col ∧
      (asSlice = false → r = .arr (flatnonzero col))) ∧
    ((∀ x ∈ col, x = 0) → quant2indCol asSlice col = .error .indexError) := by
  constructor
  · rintro ⟨x, hx, hne⟩
    obtain ⟨i, hi, e⟩ := List.getElem_of_mem hx
    have hmem : i ∈ flatnonzero col :=
      (mem_flatnonzero col i).2 ⟨x, by rw [List.getElem?_eq_getElem hi, e], hne⟩
    have hp := pairwise_flatnonzero col
    unfold quant2indCol
    cases hf : flatnonzero col with
    | nil => rw [hf] at hmem; simp at hmem
    | cons a t =>
      have hla : (a :: t).getLast? = some ((a :: t).getLast (by simp)) :=
        List.getLast?_eq_getLast_of_ne_nil (by simp)
      simp only [List.head?_cons, hla]
      rw [hf] at hp
      split
      · exact ⟨_, rfl, rfl, fun _ => rfl⟩
      · next hc =>
        rw [not_or, not_not] at hc
        refine ⟨_, rfl, ?_, fun h => absurd h hc.2⟩
        rw [indicesFromSlice]
        exact (eq_range_of_pairwise a _ t hp hla hc.1).symm
  · intro h
    have : flatnonzero col = [] := by
      rw [List.eq_nil_iff_forall_not_mem]
      intro i hi
      obtain ⟨x, hx, hne⟩ := (mem_flatnonzero col i).1 hi
      exact hne (h x (List.mem_of_getElem? hx))
    simp [quant2indCol, this]

theorem quant2ind_false_ok (cols : List (List K)) (h : ∀ c ∈ cols, ∃ x ∈ c, x ≠ 0) :
    ∃ r, quant2ind cols false = .ok r ∧ r.map indicesFromSlice = cols.map flatnonzero := by
  induction cols with
  | nil => exact ⟨[], rfl, rfl⟩
  | cons c cs ih =>
    obtain ⟨r, hr, hr'⟩ := ih fun c hc => h c (by simp [hc])
    obtain ⟨r0, h0, h0', -⟩ := (quant2indCol_spec false c).1 (h c (by simp))
    refine ⟨r0 :: r, ?_, by simp [h0', hr']⟩
    simp only [quant2ind, List.mapM_cons] at hr ⊢
    rw [h0, hr]; rfl

theorem maskSelect_map {α β : Type*} (f : α → β) (l : List α) (m : Mask) :
    maskSelect (l.map f) m = (maskSelect l m).map f := by
  induction l generalizing m with
  | nil => cases m <;> simp [maskSelect]
  | cons a t ih =>
    cases m with
    | nil => simp [maskSelect]
    | cons b ms => cases b <;> simp [maskSelect, ih]

theorem mem_maskSelect {α : Type*} (l : List α) (m : Mask) (a : α) :
    a ∈ maskSelect l m ↔ ∃ i : Nat, l[i]? = some a ∧ m[i]? = some true := by
  induction l generalizing m with
  | nil => cases m <;> simp [maskSelect]
  | cons x t ih =>
    cases m with
    | nil => simp [maskSelect]
    | cons b ms =>
      cases b
      · simp only [maskSelect, ih]
        constructor
        · rintro ⟨i, h1, h2⟩; exact ⟨i + 1, by simpa using h1, by simpa using h2⟩
        · rintro ⟨i, h1, h2⟩
          cases i with
          | zero => simp at h2
          | succ i => exact ⟨i, by simpa using h1, by simpa using h2⟩
      · simp only [maskSelect, List.mem_cons, ih]
        constructor
        · rintro (rfl | ⟨i, h1, h2⟩)
          · exact ⟨0, rfl, rfl⟩
          · exact ⟨i + 1, by simpa using h1, by simpa using h2⟩
        · rintro ⟨i, h1, h2⟩
          cases i with
          | zero => simp at h1; exact Or.inl h1.symm
          | succ i => exact Or.inr ⟨i, by simpa using h1, by simpa using h2⟩

/-- The number of selected TOAs inside a window is the number of rows of the full array in the
mask and the window. -/
theorem length_windowIdx_maskSelect (toas : List K) (m : Mask) (dt r : K) :
    (windowIdx (maskSelect toas m) dt r).length =
      ((maskSelect toas m).filter fun x => decide (r ≤ x) && decide (x < r + dt)).length := by
  have : ∀ (l : List K) (p : K → Bool),
      ((List.range l.length).filter fun i => p (l.getD i 0)).length = (l.filter p).length := by
    intro l p
    induction l with
    | nil => rfl
    | cons a t ih =>
      rw [List.length_cons, List.range_succ_eq_map, List.filter_cons, List.filter_map,
        List.filter_cons]
      have e : (List.filter ((fun i => p ((a :: t).getD i 0)) ∘ Nat.succ) (List.range t.length))
          = (List.range t.length).filter fun i => p (t.getD i 0) := by
        apply List.filter_congr; intro i _; simp [Function.comp]
      rw [e]
      simp only [List.getD_eq_getElem?_getD] at ih
      cases h : p a <;> simp [h, ih]
  exact this (maskSelect toas m) fun x => decide (r ≤ x) && decide (x < r + dt)

theorem length_filter_range_mask (toas : List K) (m : Mask) (hm : m.length = toas.length)
    (p : K → Bool) :
    ((List.range toas.length).filter fun i => decide (m[i]? = some true) && p (toas.getD i 0)).length
      = ((maskSelect toas m).filter p).length := by
  induction toas generalizing m with
  | nil => cases m <;> simp [maskSelect]
  | cons a t ih =>
    cases m with
    | nil => simp at hm
    | cons b ms =>
      have hm' : ms.length = t.length := by simpa using hm
      rw [List.length_cons, List.range_succ_eq_map, List.filter_cons, List.filter_map]
      have e : (List.filter ((fun i => decide ((b :: ms)[i]? = some true) && p ((a :: t).getD i 0)) ∘ Nat.succ)
          (List.range t.length))
          = (List.range t.length).filter fun i => decide (ms[i]? = some true) && p (t.getD i 0) := by
        apply List.filter_congr; intro i _; simp [Function.comp]
      rw [e]
      have ih' := ih ms hm'
      simp only [List.getD_eq_getElem?_getD] at ih'
      cases b
      · simp [maskSelect, ih']
      · cases h : p a <;> simp [maskSelect, h, ih']

/-- The columns and the epochs of one selection. -/
theorem ecorrIdxs1_cols (argsort : List K → List Nat) (toas : List K) (dt : K) (mask : Mask)
    (hsort : IsArgsort (maskSelect toas mask) (argsort (maskSelect toas mask)))
    (hdt : 0 < dt) (hlen : mask.length = toas.length) (hne : ∃ i : Nat, mask[i]? = some true) :
    ∃ refs : List K, quantCols (maskSelect toas mask) (argsort (maskSelect toas mask)) dt 2 =
        .ok (refs.map fun r => (maskSelect toas mask).map (windowFn dt r)) ∧ ecorrIdxs1 argsort toas dt mask =
        .ok (refs.map fun r => (List.range toas.length).filter fun i =>
          decide (mask[i]? = some true) &&
            (decide (r ≤ toas.getD i 0) && decide (toas.getD i 0 < r + dt))) ∧
      refs.Pairwise (fun a b => a + dt ≤ b) ∧
      (∀ r ∈ refs, 2 ≤ ((List.range toas.length).filter fun i =>
          decide (mask[i]? = some true) &&
            (decide (r ≤ toas.getD i 0) && decide (toas.getD i 0 < r + dt))).length) ∧
      (∀ i, i < toas.length → mask[i]? = some true → ∃ r, r ≤ toas.getD i 0 ∧
        toas.getD i 0 < r + dt ∧
        (2 ≤ ((List.range toas.length).filter fun i =>
          decide (mask[i]? = some true) &&
            (decide (r ≤ toas.getD i 0) && decide (toas.getD i 0 < r + dt))).length → r ∈ refs)) ∧
      ∃ R : Set K, Starts (maskTimes toas mask) R dt ∧ ∀ r, r ∈ refs ↔ r ∈ R ∧ 2 ≤ ((List.range toas.length).filter fun i =>
          decide (mask[i]? = some true) &&
            (decide (r ≤ toas.getD i 0) && decide (toas.getD i 0 < r + dt))).length := by
  have hsub : maskSelect toas mask ≠ [] := by
    obtain ⟨i, hi⟩ := hne
    have hlt : i < toas.length := by
      rw [← hlen]; by_contra hc
      rw [List.getElem?_eq_none (by omega)] at hi; cases hi
    have : toas[i] ∈ maskSelect toas mask :=
      (mem_maskSelect _ _ _).2 ⟨i, List.getElem?_eq_getElem hlt, hi⟩
    intro h; rw [h] at this; simp at this
  obtain ⟨refs, hq, hp, hr, hcov, R, hR1, hR2⟩ := quantCols_starts (maskSelect toas mask)
    (argsort (maskSelect toas mask)) dt 2 hdt hsort hsub
  have hlenw : ∀ r, ((List.range toas.length).filter fun i =>
          decide (mask[i]? = some true) &&
            (decide (r ≤ toas.getD i 0) && decide (toas.getD i 0 < r + dt))).length =
      (windowIdx (maskSelect toas mask) dt r).length := by
    intro r
    rw [length_windowIdx_maskSelect]
    exact length_filter_range_mask toas mask hlen fun x => decide (r ≤ x) && decide (x < r + dt)
  -- the scattered columns
  have hfull : ∀ r, ∀ i : Nat, (maskScatter (List.replicate toas.length (0 : K)) mask
      ((maskSelect toas mask).map (windowFn dt r)))[i]? =
      if mask[i]? = some true then (toas[i]?).map (windowFn dt r) else
        (List.replicate toas.length (0 : K))[i]? := by
    intro r i
    rw [← maskSelect_map, WhiteNoise.getElem?_maskScatter_select]
    · simp
    · simp [hlen]
    · simp
  have hflat : ∀ r, flatnonzero (maskScatter (List.replicate toas.length (0 : K)) mask
      ((maskSelect toas mask).map (windowFn dt r))) =
      (List.range toas.length).filter fun i =>
          decide (mask[i]? = some true) &&
            (decide (r ≤ toas.getD i 0) && decide (toas.getD i 0 < r + dt)) := by
    intro r
    unfold flatnonzero
    rw [WhiteNoise.length_maskScatter, List.length_replicate]
    apply List.filter_congr
    intro i hi
    rw [List.mem_range] at hi
    rw [List.getD, hfull r i]
    by_cases hm : mask[i]? = some true
    · simp only [hm, if_true, List.getElem?_eq_getElem hi, Option.map_some, Option.getD_some,
        windowFn, decide_true, Bool.true_and, List.getD]
      by_cases hw : r ≤ toas[i] ∧ toas[i] < r + dt
      · simp [hw]
      · rw [if_neg hw]
        simp only [ne_eq, not_true, decide_false]
        rw [eq_comm, Bool.and_eq_false_iff]
        rw [not_and_or] at hw
        rcases hw with h | h
        · left; simpa using h
        · right; simpa using h
    · simp [hm, hi]
  refine ⟨refs, hq, ?_, hp, fun r hr' => by rw [hlenw]; exact (hr r hr').2, ?_, R, ?_, fun r => by rw [hlenw]; exact hR2 r⟩
  · unfold ecorrIdxs1
    simp only [hq, bind, Except.bind]
    have hnz : ∀ c ∈ (refs.map fun r => (maskSelect toas mask).map (windowFn dt r)).map
        (fun c => maskScatter (List.replicate toas.length (0 : K)) mask c), ∃ x ∈ c, x ≠ 0 := by
      intro c hc
      rw [List.map_map] at hc
      obtain ⟨r, hr', rfl⟩ := List.mem_map.1 hc
      have h2 := (hr r hr').2
      rw [← hlenw, ← hflat] at h2
      have : flatnonzero (maskScatter (List.replicate toas.length (0 : K)) mask
        ((maskSelect toas mask).map (windowFn dt r))) ≠ [] := by
        intro h; rw [h] at h2; simp at h2
      obtain ⟨i, hi⟩ := List.exists_mem_of_ne_nil _ this
      obtain ⟨x, hx, hx'⟩ := (mem_flatnonzero _ _).1 hi
      exact ⟨x, List.mem_of_getElem? hx, hx'⟩
    obtain ⟨q, hq1, hq2⟩ := quant2ind_false_ok _ hnz
    rw [hq1]
    simp only [pure, Except.pure, hq2, List.map_map]
    congr 1
    apply List.map_congr_left
    intro r _
    exact hflat r
  · intro i hi hm
    have hmem : toas[i] ∈ maskSelect toas mask :=
      (mem_maskSelect _ _ _).2 ⟨i, List.getElem?_eq_getElem hi, hm⟩
    obtain ⟨j, hj, e⟩ := List.getElem_of_mem hmem
    obtain ⟨r, h1, h2, h3⟩ := hcov j hj
    have ej : (maskSelect toas mask).getD j 0 = toas.getD i 0 := by
      simp [List.getD, hj, hi, e]
    rw [ej] at h1 h2
    exact ⟨r, h1, h2, fun h => h3 (by rw [← hlenw]; exact h)⟩
  · have e : maskTimes toas mask = {t | t ∈ maskSelect toas mask} := by
      ext t
      constructor
      · rintro ⟨x, hx, rfl⟩
        have hlt : x < toas.length := by
          rw [← hlen]
          exact (List.getElem?_eq_some_iff.1 hx).1
        exact (mem_maskSelect _ _ _).2 ⟨x, by rw [List.getD_eq_getElem _ _ hlt, List.getElem?_eq_getElem hlt], hx⟩
      · intro ht
        obtain ⟨x, h1, h2⟩ := (mem_maskSelect _ _ _).1 ht
        exact ⟨x, h2, by rw [List.getD_eq_getElem?_getD, h1, Option.getD_some]⟩
    rw [e]
    exact hR1

/-- The epochs of one selection. -/
theorem ecorrIdxs1_spec (argsort : List K → List Nat) (toas : List K) (dt : K) (mask : Mask)
    (hsort : IsArgsort (maskSelect toas mask) (argsort (maskSelect toas mask)))
    (hdt : 0 < dt) (hlen : mask.length = toas.length) (hne : ∃ i : Nat, mask[i]? = some true) :
    ∃ refs : List K, ecorrIdxs1 argsort toas dt mask =
        .ok (refs.map fun r => (List.range toas.length).filter fun i =>
          decide (mask[i]? = some true) &&
            (decide (r ≤ toas.getD i 0) && decide (toas.getD i 0 < r + dt))) ∧
      refs.Pairwise (fun a b => a + dt ≤ b) ∧
      (∀ r ∈ refs, 2 ≤ ((List.range toas.length).filter fun i =>
          decide (mask[i]? = some true) &&
            (decide (r ≤ toas.getD i 0) && decide (toas.getD i 0 < r + dt))).length) ∧
      (∀ i, i < toas.length → mask[i]? = some true → ∃ r, r ≤ toas.getD i 0 ∧
        toas.getD i 0 < r + dt ∧
        (2 ≤ ((List.range toas.length).filter fun i =>
          decide (mask[i]? = some true) &&
            (decide (r ≤ toas.getD i 0) && decide (toas.getD i 0 < r + dt))).length → r ∈ refs)) ∧
      ∃ R : Set K, Starts (maskTimes toas mask) R dt ∧ ∀ r, r ∈ refs ↔ r ∈ R ∧ 2 ≤ ((List.range toas.length).filter fun i =>
          decide (mask[i]? = some true) &&
            (decide (r ≤ toas.getD i 0) && decide (toas.getD i 0 < r + dt))).length := by
  obtain ⟨refs, -, h⟩ := ecorrIdxs1_cols argsort toas dt mask hsort hdt hlen hne
  exact ⟨refs, h⟩

end Verif.Quantize
