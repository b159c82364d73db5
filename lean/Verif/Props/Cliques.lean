import Verif.Props.PhiInv
import Mathlib.LinearAlgebra.Matrix.Notation
import Mathlib.Tactic.FinCases
import Mathlib.Tactic.IntervalCases
import Mathlib.Tactic.NormNum

/-!
# Property C49, continued: when the labels separate the covariance
-/

set_option linter.unusedSectionVars false

namespace Verif.PhiInv

open Verif Verif.Kernel Verif.PtaPhi
open Matrix hiding blockDiag row
open Verif.Combine (amat)

variable {K : Type} [Field K]

/-! ## Labels -/

/-- Labels between -1 and the count. -/
def LabelsOk (c : Cliques) : Prop := ∀ i, c.label i = -1 ∨ ∃ k : Nat, k < c.count ∧ c.label i = (k : Int)

/-- The group meets at most one existing clique. -/
def Touch (c : Cliques) (r : List Nat) : Prop :=
  ∀ i ∈ r, ∀ j ∈ r, c.label i ≠ -1 → c.label j ≠ -1 → c.label i = c.label j

/-- All members of the group have the same label, other than -1. -/
def OneLabel (c : Cliques) (r : List Nat) : Prop := ∀ i ∈ r, ∀ j ∈ r, c.label i = c.label j ∧ c.label i ≠ -1

theorem maxOf_ge (l : List Int) : ∀ a, a ≤ maxOf a l ∧ ∀ b ∈ l, b ≤ maxOf a l := by
  induction l with
  | nil => intro a; exact ⟨le_refl _, by simp⟩
  | cons c t ih =>
    intro a
    have h := ih (max a c)
    simp only [maxOf, List.foldl_cons] at h ⊢
    refine ⟨le_trans (le_max_left _ _) h.1, ?_⟩
    intro b hb
    rcases List.mem_cons.1 hb with rfl | hb
    · exact le_trans (le_max_right _ _) h.1
    · exact h.2 b hb

theorem maxOf_mem (l : List Int) : ∀ a, maxOf a l ∈ a :: l := by
  induction l with
  | nil => intro a; simp [maxOf]
  | cons c t ih =>
    intro a
    have h := ih (max a c)
    simp only [maxOf, List.foldl_cons] at h ⊢
    rcases List.mem_cons.1 h with h | h
    · rw [h]
      rcases max_choice a c with e | e <;> rw [e] <;> simp
    · simp [h]

theorem set_spec (c : Cliques) (r : List Nat) (hc : LabelsOk c) (h0 : r ≠ []) (ht : Touch c r) :
    ∃ c', c.set r = .ok c' ∧ LabelsOk c' ∧ OneLabel c' r ∧ (∀ i, c.label i ≠ -1 → c'.label i = c.label i) ∧
      (∀ i, i ∉ r → c'.label i = c.label i) := by
  unfold Cliques.set
  cases hr : r.map c.label with
  | nil => exact absurd (List.map_eq_nil_iff.1 hr) h0
  | cons a t =>
    simp only
    have hge := maxOf_ge t a
    have hall : ∀ i ∈ r, c.label i ≤ maxOf a t := by
      intro i hi
      have : c.label i ∈ a :: t := hr ▸ List.mem_map_of_mem hi
      rcases List.mem_cons.1 this with e | e
      · rw [e]; exact hge.1
      · exact hge.2 _ e
    split
    · rename_i hm
      have hneg : ∀ i ∈ r, c.label i = -1 := by
        intro i hi
        have h1 := hall i hi
        rcases hc i with e | ⟨k, -, e⟩
        · exact e
        · omega
      refine ⟨_, rfl, ?_, ?_, ?_, ?_⟩
      · intro i
        simp only
        split
        · exact Or.inr ⟨c.count, by omega, rfl⟩
        · rcases hc i with e | ⟨k, hk, e⟩
          · exact Or.inl e
          · exact Or.inr ⟨k, by omega, e⟩
      · intro i hi j hj
        simp only [hi, hj, if_true]
        exact ⟨trivial, by omega⟩
      · intro i hi
        simp only
        rw [if_neg fun h => hi (hneg i h)]
      · intro i hi
        simp only
        rw [if_neg hi]
    · rename_i hm
      have hmem : maxOf a t ∈ r.map c.label := hr ▸ maxOf_mem t a
      obtain ⟨i0, hi0, e0⟩ := List.mem_map.1 hmem
      have hsame : ∀ i ∈ r, c.label i ≠ -1 → c.label i = maxOf a t := by
        intro i hi hne
        rw [← e0]
        exact ht i hi i0 hi0 hne (by rw [e0]; exact hm)
      have hlab : ∀ i, (if in1dSet (if i ∈ r then maxOf a t else c.label i) (a :: t) then maxOf a t
          else if i ∈ r then maxOf a t else c.label i) = if i ∈ r then maxOf a t else c.label i := by
        intro i
        simp [in1dSet]
      refine ⟨_, rfl, ?_, ?_, ?_, ?_⟩
      · intro i
        show _ = _ ∨ _
        simp only [hlab]
        split
        · rw [← e0]; exact hc i0
        · exact hc i
      · intro i hi j hj
        simp only [hi, hj, if_true]
        exact ⟨trivial, hm⟩
      · intro i hi
        simp only [hlab]
        split
        · rename_i hir; exact (hsame i hir hi).symm
        · rfl
      · intro i hi
        simp only [hlab]
        rw [if_neg hi]

theorem OneLabel.keep {c c' : Cliques} {r : List Nat} (h : OneLabel c r) (hk : ∀ i, c.label i ≠ -1 → c'.label i = c.label i) :
    OneLabel c' r := by
  intro i hi j hj
  obtain ⟨e, hne⟩ := h i hi j hj
  rw [hk i hne, hk j (e ▸ hne)]
  exact ⟨e, hne⟩

/-- Every group in turn is not empty and meets at most one clique. -/
def TouchRows : Cliques → List (List Nat) → Prop
  | _, [] => True
  | c, r :: t => r ≠ [] ∧ Touch c r ∧ ∀ c', c.set r = .ok c' → TouchRows c' t

theorem setRows_spec (rs : List (List Nat)) : ∀ c, LabelsOk c → TouchRows c rs →
    ∃ c', setRows rs c = .ok c' ∧ LabelsOk c' ∧ (∀ r ∈ rs, OneLabel c' r) ∧ (∀ i, c.label i ≠ -1 → c'.label i = c.label i) := by
  induction rs with
  | nil => intro c h _; exact ⟨c, rfl, h, by simp, fun _ _ => rfl⟩
  | cons r t ih =>
    intro c hc ht
    obtain ⟨c1, e1, h1, h2, h3, -⟩ := set_spec c r hc ht.1 ht.2.1
    obtain ⟨c2, e2, g1, g2, g3⟩ := ih c1 h1 (ht.2.2 c1 e1)
    refine ⟨c2, by rw [setRows, e1]; exact e2, g1, ?_, ?_⟩
    · intro s hs
      rcases List.mem_cons.1 hs with rfl | hs
      · exact h2.keep g3
      · exact g2 s hs
    · intro i hi
      rw [g3 i (by rw [h3 i hi]; exact hi), h3 i hi]

/-- Every group of every class in turn meets at most one clique. -/
def TouchClasses (sl : List (Nat × Nat)) : Cliques → List (Klass K) → Prop
  | _, [] => True
  | c, k :: t => ∃ rs, rows sl k.items = .ok rs ∧ TouchRows c rs ∧ ∀ c', setRows rs c = .ok c' → TouchClasses sl c' t

theorem setClassCliques_spec (sl : List (Nat × Nat)) (ks : List (Klass K)) : ∀ c, LabelsOk c → TouchClasses sl c ks →
    ∃ c', setClassCliques sl ks c = .ok c' ∧ LabelsOk c' ∧
      (∀ k ∈ ks, ∃ rs, rows sl k.items = .ok rs ∧ ∀ r ∈ rs, OneLabel c' r) ∧ (∀ i, c.label i ≠ -1 → c'.label i = c.label i) := by
  induction ks with
  | nil => intro c h _; exact ⟨c, rfl, h, by simp, fun _ _ => rfl⟩
  | cons k t ih =>
    intro c hc ht
    obtain ⟨rs, er, htr, hnext⟩ := ht
    obtain ⟨c1, e1, h1, h2, h3⟩ := setRows_spec rs c hc htr
    obtain ⟨c2, e2, g1, g2, g3⟩ := ih c1 h1 (hnext c1 e1)
    refine ⟨c2, ?_, g1, ?_, ?_⟩
    · rw [setClassCliques, er]
      simp only
      rw [e1]
      exact e2
    · intro s hs
      rcases List.mem_cons.1 hs with rfl | hs
      · exact ⟨rs, er, fun r hr => (h2 r hr).keep g3⟩
      · exact g2 s hs
    · intro i hi
      rw [g3 i (by rw [h3 i hi]; exact hi), h3 i hi]

/-! ## Labels of the pulsars' own priors -/

/-- The labels of a dense kernel separate it. -/
def KernSep : Kern K → Prop
  | .one _ _ => True
  | .two n M cl => ∀ i j, i < n → j < n → i ≠ j → M i j ≠ 0 →
      cl.label i = cl.label j ∧ ∃ k : Nat, k < cl.count ∧ cl.label i = (k : Int)

theorem pulsarLabels_spec (o n : Nat) (own : Nat → Int) (ks : List Nat) : ∀ c : Cliques, ks.Nodup → LabelsOk c →
    LabelsOk (pulsarLabels o n own ks c) ∧
    (∀ i, ¬ (o ≤ i ∧ i < o + n) → (pulsarLabels o n own ks c).label i = c.label i) ∧
    (∀ i, o ≤ i → i < o + n → (∀ k ∈ ks, own (i - o) ≠ (k : Int)) → (pulsarLabels o n own ks c).label i = c.label i) ∧
    (∀ k ∈ ks, ∀ i j, i < n → j < n → own i = (k : Int) → own j = (k : Int) →
      (pulsarLabels o n own ks c).label (o + i) = (pulsarLabels o n own ks c).label (o + j) ∧
      (pulsarLabels o n own ks c).label (o + i) ≠ -1) := by
  induction ks with
  | nil => intro c _ h; exact ⟨h, fun _ _ => rfl, fun _ _ _ _ => rfl, by simp⟩
  | cons k t ih =>
    intro c hn hc
    rw [List.nodup_cons] at hn
    rw [pulsarLabels]
    split
    · have hc' : LabelsOk ⟨fun i => if o ≤ i ∧ i < o + n ∧ own (i - o) = (k : Int) then (c.count : Int) else c.label i, c.count + 1⟩ := by
        intro i
        simp only
        split
        · exact Or.inr ⟨c.count, by omega, rfl⟩
        · rcases hc i with e | ⟨m, hm, e⟩
          · exact Or.inl e
          · exact Or.inr ⟨m, by omega, e⟩
      obtain ⟨h1, h2, h3, h4⟩ := ih _ hn.2 hc'
      refine ⟨h1, ?_, ?_, ?_⟩
      · intro i hi
        rw [h2 i hi]
        simp only
        rw [if_neg fun h => hi ⟨h.1, h.2.1⟩]
      · intro i hi1 hi2 hi
        rw [h3 i hi1 hi2 fun k' hk' => hi k' (by simp [hk'])]
        simp only
        rw [if_neg fun h => hi k (by simp) h.2.2]
      · intro k' hk' i j hi hj ei ej
        rcases List.mem_cons.1 hk' with rfl | hk'
        · have hnt : ∀ k'' ∈ t, (k' : Int) ≠ (k'' : Int) := by
            intro k'' h'' e
            have : k' = k'' := by exact_mod_cast e
            exact hn.1 (this ▸ h'')
          have q : ∀ l, l < n → own l = (k' : Int) → (pulsarLabels o n own t
              ⟨fun i => if o ≤ i ∧ i < o + n ∧ own (i - o) = (k' : Int) then (c.count : Int) else c.label i, c.count + 1⟩).label (o + l) =
              (c.count : Int) := by
            intro l hl el
            rw [h3 (o + l) (by omega) (by omega) (by rw [Nat.add_sub_cancel_left, el]; exact hnt)]
            simp only
            rw [if_pos ⟨by omega, by omega, by rw [Nat.add_sub_cancel_left]; exact el⟩]
          rw [q i hi ei, q j hj ej]
          exact ⟨rfl, by omega⟩
        · exact h4 k' hk' i j hi hj ei ej
    · rename_i hex
      obtain ⟨h1, h2, h3, h4⟩ := ih c hn.2 hc
      refine ⟨h1, h2, ?_, ?_⟩
      · intro i hi1 hi2 hi
        exact h3 i hi1 hi2 fun k' hk' => hi k' (by simp [hk'])
      · intro k' hk' i j hi hj ei ej
        rcases List.mem_cons.1 hk' with rfl | hk'
        · exact absurd ⟨i, List.mem_range.2 hi, ei⟩ hex
        · exact h4 k' hk' i j hi hj ei ej

theorem setPulsarCliques_spec (phis : List (Option (Kern K))) : ∀ (o : Nat) (c : Cliques), (∀ k, some k ∈ phis → KernSep k) →
    LabelsOk c → LabelsOk (setPulsarCliques phis o c) ∧ (∀ i, i < o → (setPulsarCliques phis o c).label i = c.label i) ∧
    ∀ i j, i ≠ j → blockDiag phis i j ≠ 0 →
      (setPulsarCliques phis o c).label (o + i) = (setPulsarCliques phis o c).label (o + j) ∧
      (setPulsarCliques phis o c).label (o + i) ≠ -1 := by
  induction phis with
  | nil => intro o c _ h; exact ⟨h, fun _ _ => rfl, fun i j _ h => absurd rfl h⟩
  | cons x t ih =>
    intro o c hk hc
    have hk' : ∀ k, some k ∈ t → KernSep k := fun k h => hk k (by simp [h])
    cases x with
    | none => exact ih o c hk' hc
    | some k =>
      have hksep := hk k (by simp)
      cases k with
      | one n v =>
        obtain ⟨h1, h2, h3⟩ := ih (o + n) c hk' hc
        refine ⟨h1, fun i hi => h2 i (by omega), ?_⟩
        intro i j hij hne
        have hne : (if i < n ∧ j < n then (if i = j then v i else 0) else if n ≤ i ∧ n ≤ j then blockDiag t (i - n) (j - n)
            else 0) ≠ 0 := hne
        simp only [setPulsarCliques]
        split at hne
        · exact absurd rfl hne
        · split at hne
          · rename_i h
            have := h3 (i - n) (j - n) (by omega) hne
            rw [show o + n + (i - n) = o + i by omega, show o + n + (j - n) = o + j by omega] at this
            exact this
          · exact absurd rfl hne
      | two n M own =>
        obtain ⟨p1, p2, p3, p4⟩ := pulsarLabels_spec o n own.label (List.range own.count) c List.nodup_range hc
        obtain ⟨h1, h2, h3⟩ := ih (o + n) (pulsarLabels o n own.label (List.range own.count) c) hk' p1
        refine ⟨h1, ?_, ?_⟩
        · intro i hi
          simp only [setPulsarCliques]
          rw [h2 i (by omega), p2 i (by omega)]
        · intro i j hij hne
          have hne : (if i < n ∧ j < n then M i j else if n ≤ i ∧ n ≤ j then blockDiag t (i - n) (j - n)
              else 0) ≠ 0 := hne
          simp only [setPulsarCliques]
          split at hne
          · rename_i h
            obtain ⟨e, k, hkc, ek⟩ := hksep i j h.1 h.2 hij hne
            rw [h2 (o + i) (by omega), h2 (o + j) (by omega)]
            exact p4 k (List.mem_range.2 hkc) i j h.1 h.2 ek (e ▸ ek)
          · split at hne
            · rename_i h
              have := h3 (i - n) (j - n) (by omega) hne
              rw [show o + n + (i - n) = o + i by omega, show o + n + (j - n) = o + j by omega] at this
              exact this
            · exact absurd rfl hne

/-! ## Cross terms stay inside rows -/

/-- The cross terms are vectors. -/
def VecKlass (k : Klass K) : Prop := ∀ xy ∈ pairs k.items.zipIdx, ∃ m w, k.cross xy.1.2 xy.2.2 = .one m w

theorem spread_vec (s1 : Nat) (l1 : List Nat) (s2 : Nat) (l2 : List Nat) (m : Nat) (w : Nat → K) (i j : Nat)
    (h : spread s1 l1 s2 l2 (amat (.one m w)) i j ≠ 0) :
    ∃ p, p < l1.length ∧ p < l2.length ∧ s1 + l1.getD p 0 = i ∧ s2 + l2.getD p 0 = j := by
  by_contra hc
  apply h
  apply Finset.sum_eq_zero
  intro p hp
  apply Finset.sum_eq_zero
  intro q hq
  rw [Finset.mem_range] at hp hq
  split
  · rename_i hpq
    simp only [amat]
    rw [if_neg]
    rintro rfl
    exact hc ⟨p, hp, hq, hpq⟩
  · rfl

theorem klassTerm_rows (sl : List (Nat × Nat)) (k : Klass K) (hv : VecKlass k) (rs : List (List Nat))
    (hr : rows sl k.items = .ok rs) (i j : Nat) (h : klassTerm sl i j k ≠ 0) : ∃ r ∈ rs, i ∈ r ∧ j ∈ r := by
  obtain ⟨xy, hxy, hne⟩ : ∃ xy ∈ pairs k.items.zipIdx, pairTerm sl k.cross i j xy ≠ 0 := by
    by_contra hc
    apply h
    apply List.sum_eq_zero
    intro z hz
    obtain ⟨xy, hxy, rfl⟩ := List.mem_map.1 hz
    by_contra hne
    exact hc ⟨xy, hxy, hne⟩
  obtain ⟨m, w, ec⟩ := hv xy hxy
  obtain ⟨⟨x, u⟩, ⟨y, v⟩⟩ := xy
  obtain ⟨hx, hy⟩ := mem_of_mem_pairs hxy
  have hx := List.mem_of_getElem? (List.mem_zipIdx_iff_getElem?.1 hx)
  have hy := List.mem_of_getElem? (List.mem_zipIdx_iff_getElem?.1 hy)
  simp only at hx hy ec
  have hlen : ∀ p, p < x.idx.length → row sl k.items p ∈ rs := by
    intro p hp
    cases hi : k.items with
    | nil => rw [hi] at hx; simp at hx
    | cons it t =>
      rw [hi, rows] at hr
      split at hr
      · cases hr
      · rename_i hne
        cases hr
        apply List.mem_map.2
        refine ⟨p, List.mem_range.2 ?_, rfl⟩
        rw [hi] at hx
        rcases List.mem_cons.1 hx with rfl | hx
        · exact hp
        · have : x.idx.length = it.idx.length := by
            by_contra hne'
            exact hne ⟨x, hx, hne'⟩
          omega
  have hlen' : ∀ p, p < y.idx.length → row sl k.items p ∈ rs := by
    intro p hp
    cases hi : k.items with
    | nil => rw [hi] at hy; simp at hy
    | cons it t =>
      rw [hi, rows] at hr
      split at hr
      · cases hr
      · rename_i hne
        cases hr
        apply List.mem_map.2
        refine ⟨p, List.mem_range.2 ?_, rfl⟩
        rw [hi] at hy
        rcases List.mem_cons.1 hy with rfl | hy
        · exact hp
        · have : y.idx.length = it.idx.length := by
            by_contra hne'
            exact hne ⟨y, hy, hne'⟩
          omega
  have inrow : ∀ p (z : Item), z ∈ k.items → (sl.getD z.psr (0, 0)).1 + z.idx.getD p 0 ∈ row sl k.items p := by
    intro p z hz
    exact List.mem_map.2 ⟨z, hz, rfl⟩
  unfold pairTerm at hne
  simp only [ec] at hne
  by_cases h1 : spread (sl.getD x.psr (0, 0)).1 x.idx (sl.getD y.psr (0, 0)).1 y.idx (amat (.one m w)) i j = 0
  · rw [h1, zero_add] at hne
    obtain ⟨p, hp1, hp2, rfl, rfl⟩ := spread_vec _ _ _ _ _ _ _ _ hne
    exact ⟨_, hlen p hp2, inrow p y hy, inrow p x hx⟩
  · obtain ⟨p, hp1, hp2, rfl, rfl⟩ := spread_vec _ _ _ _ _ _ _ _ h1
    exact ⟨_, hlen p hp1, inrow p x hx, inrow p y hy⟩

/-! ## C49 -/

/-- C49 (partial): with vector cross terms, if every group of correlated columns in turn meets at most one
existing clique and the labels of the pulsars' own dense priors separate them, `get_phiinv` returns the
inverse of `get_phi` and the logarithm of its determinant.  Missing: groups that join two cliques, for which it
fails (`C49_merge_false`). -/
theorem C49_partial (phis : List (Option (Kern ℝ))) (ks : List (Klass ℝ)) (h0 : ks ≠ [])
    (hk : ∀ k ∈ ks, KlassOk (slices phis 0) k) (hv : ∀ k ∈ ks, VecKlass k) (hs : ∀ k, some k ∈ phis → KernSep k)
    (ht : TouchClasses (slices phis 0) (setPulsarCliques phis 0 Cliques.none) ks) :
    ∃ M, getPhi phis ks = .ok (.big (total phis) M) ∧
      ((toMatrix (total phis) M).det ≠ 0 →
        getPhiinv phis ks = .ok ((toMatrix (total phis) M)⁻¹, Real.log |(toMatrix (total phis) M).det|)) := by
  obtain ⟨M, e, hM⟩ := C48_entries phis ks h0 hk
  obtain ⟨p1, -, p3⟩ := setPulsarCliques_spec phis 0 Cliques.none hs fun i => Or.inl rfl
  obtain ⟨c, ec, h1, h2, h3⟩ := setClassCliques_spec (slices phis 0) ks _ p1 ht
  refine ⟨M, e, ?_⟩
  intro hd
  unfold getPhiinv
  rw [e, show ptaCliques phis ks = .ok c from ec]
  simp only
  apply C49_separated _ _ _ ⟨fun i => h1 i, ?_⟩ hd
  intro i j hij hne
  have hij' : i.1 ≠ j.1 := fun e => hij (Fin.ext e)
  have hne' : M i.1 j.1 ≠ 0 := hne
  rw [hM] at hne'
  by_cases hb : blockDiag phis i.1 j.1 = 0
  · rw [hb, zero_add] at hne'
    obtain ⟨k, hkk, hkt⟩ : ∃ k ∈ ks, klassTerm (slices phis 0) i.1 j.1 k ≠ 0 := by
      by_contra hc
      apply hne'
      apply List.sum_eq_zero
      intro z hz
      obtain ⟨k, hk, rfl⟩ := List.mem_map.1 hz
      by_contra hne
      exact hc ⟨k, hk, hne⟩
    obtain ⟨rs, er, hone⟩ := h2 k hkk
    obtain ⟨r, hr, hi, hj⟩ := klassTerm_rows _ k (hv k hkk) rs er i.1 j.1 hkt
    exact hone r hr i.1 hi j.1 hj
  · have := p3 i.1 j.1 hij' hb
    simp only [Nat.zero_add] at this
    obtain ⟨e1, e2⟩ := this
    rw [h3 i.1 e2, h3 j.1 (e1 ▸ e2)]
    exact ⟨e1, e2⟩

/-! ### The usual case: one class, diagonal priors -/

theorem touchRows_disjoint (rs : List (List Nat)) : ∀ c : Cliques, LabelsOk c → (∀ r ∈ rs, r ≠ []) →
    (∀ r ∈ rs, ∀ i ∈ r, c.label i = -1) → rs.Pairwise (fun r s => ∀ i ∈ r, i ∉ s) → TouchRows c rs := by
  induction rs with
  | nil => intro c _ _ _ _; trivial
  | cons r t ih =>
    intro c hc h0 hl hp
    rw [List.pairwise_cons] at hp
    have htouch : Touch c r := fun i hi j _ hne _ => absurd (hl r (by simp) i hi) hne
    refine ⟨h0 r (by simp), htouch, ?_⟩
    intro c' ec
    obtain ⟨c1, e1, g1, -, -, g4⟩ := set_spec c r hc (h0 r (by simp)) htouch
    rw [e1] at ec
    cases ec
    refine ih _ g1 (fun s hs => h0 s (by simp [hs])) ?_ hp.2
    intro s hs i hi
    rw [g4 i fun h => hp.1 s hs i h hi]
    exact hl s (by simp [hs]) i hi

theorem setPulsarCliques_diag (phis : List (Option (Kern K))) : ∀ (o : Nat) (c : Cliques),
    (∀ k, some k ∈ phis → ∃ n v, k = .one n v) → setPulsarCliques phis o c = c := by
  induction phis with
  | nil => intro o c _; rfl
  | cons x t ih =>
    intro o c h
    have h' : ∀ k, some k ∈ t → ∃ n v, k = .one n v := fun k hk => h k (by simp [hk])
    cases x with
    | none => exact ih o c h'
    | some k =>
      obtain ⟨n, v, rfl⟩ := h k (by simp)
      exact ih (o + n) c h'

/-- C49: with diagonal priors and one class of common signals in different pulsars, `get_phiinv` returns the
inverse of `get_phi` and the logarithm of its determinant. -/
theorem C49_one_class (phis : List (Option (Kern ℝ))) (k : Klass ℝ) (h2 : 2 ≤ k.items.length)
    (hd : ∀ x, some x ∈ phis → ∃ n v, x = .one n v) (hk : KlassOk (slices phis 0) k) (hv : VecKlass k)
    (hp : ∀ it ∈ k.items, it.psr < phis.length) (hdist : k.items.Pairwise fun x y => x.psr ≠ y.psr) :
    ∃ M, getPhi phis [k] = .ok (.big (total phis) M) ∧
      ((toMatrix (total phis) M).det ≠ 0 →
        getPhiinv phis [k] = .ok ((toMatrix (total phis) M)⁻¹, Real.log |(toMatrix (total phis) M).det|)) := by
  apply C49_partial phis [k] (by simp) (by simpa using hk) (by simpa using hv)
  · intro x hx
    obtain ⟨n, v, rfl⟩ := hd x hx
    trivial
  · rw [setPulsarCliques_diag phis 0 _ hd]
    -- all items have as many positions as the first
    obtain ⟨it, t, hit⟩ : ∃ it t, k.items = it :: t := by
      cases h : k.items with
      | nil => rw [h] at h2; simp at h2
      | cons a t => exact ⟨a, t, rfl⟩
    have hlen : ∀ x ∈ k.items, x.idx.length = it.idx.length := by
      intro x hx
      rw [hit] at hx
      rcases List.mem_cons.1 hx with rfl | hx
      · rfl
      · obtain ⟨q, hq⟩ := List.mem_iff_getElem?.1 hx
        have hpair : ((it, 0), (x, q + 1)) ∈ pairs k.items.zipIdx := by
          rw [mem_pairs]
          refine ⟨0, q + 1, by omega, ?_, ?_⟩
          · rw [hit]; simp
          · rw [hit]; simp [List.getElem?_zipIdx, hq, Nat.add_comm]
        have := hk.2 _ hpair
        obtain ⟨m, w, ec⟩ := hv _ hpair
        rw [ec] at this
        exact this.2.symm
    have hrows : rows (slices phis 0) k.items = .ok ((List.range it.idx.length).map (row (slices phis 0) k.items)) := by
      rw [hit, rows, if_neg]
      rintro ⟨x, hx, hne⟩
      exact hne (hlen x (by rw [hit]; simp [hx]))
    refine ⟨_, hrows, ?_, fun c' _ => trivial⟩
    apply touchRows_disjoint
    · intro i; exact Or.inl rfl
    · intro r hr
      obtain ⟨p, -, rfl⟩ := List.mem_map.1 hr
      simp [row, hit]
    · intro r _ i _; rfl
    · rw [List.pairwise_map]
      have := (List.nodup_range (n := it.idx.length))
      rw [List.nodup_iff_pairwise_ne] at this
      refine List.Pairwise.imp_of_mem ?_ this
      intro p q hp' hq' hpq i hi hi'
      rw [List.mem_range] at hp' hq'
      obtain ⟨x, hx, ex⟩ := List.mem_map.1 hi
      obtain ⟨y, hy, ey⟩ := List.mem_map.1 hi'
      have hxl : p < x.idx.length := by rw [hlen x hx]; exact hp'
      have hyl : q < y.idx.length := by rw [hlen y hy]; exact hq'
      have hxg : x.idx.getD p 0 ∈ x.idx := by rw [List.getD_eq_getElem _ _ hxl]; exact List.getElem_mem hxl
      have hyg : y.idx.getD q 0 ∈ y.idx := by rw [List.getD_eq_getElem _ _ hyl]; exact List.getElem_mem hyl
      have hpsr : x.psr = y.psr := slices_disjoint phis x.psr y.psr _ _ (hp x hx) (hp y hy) ((hk.1 x hx).2 _ hxg)
        ((hk.1 y hy).2 _ hyg) (ex.trans ey.symm)
      have hxy : x = y := by
        obtain ⟨u, hu, rfl⟩ := List.getElem_of_mem hx
        obtain ⟨v, hv', rfl⟩ := List.getElem_of_mem hy
        rw [List.pairwise_iff_getElem] at hdist
        rcases Nat.lt_trichotomy u v with h | h | h
        · exact absurd hpsr (hdist u v hu hv' h)
        · subst h; rfl
        · exact absurd hpsr.symm (hdist v u hv' hu h)
      subst hxy
      exact hpq (getD_inj (hk.1 x hx).1 hxl hyl (by omega))

/-- Two pulsars with two columns each and a common signal on all of them. -/
def twoPhis : List (Option (Kern ℝ)) := [some (.one 2 fun _ => 2), some (.one 2 fun _ => 3)]

def twoClass : Klass ℝ := ⟨[⟨0, [0, 1]⟩, ⟨1, [1, 0]⟩], fun _ _ => .one 2 fun p => (p : ℝ) + 1⟩

example : 2 ≤ twoClass.items.length ∧ (∀ x, some x ∈ twoPhis → ∃ n v, x = .one n v) ∧ KlassOk (slices twoPhis 0) twoClass ∧
    VecKlass twoClass ∧ (∀ it ∈ twoClass.items, it.psr < twoPhis.length) ∧ twoClass.items.Pairwise fun x y => x.psr ≠ y.psr := by
  refine ⟨by simp [twoClass], ?_, ?_, ?_, by simp [twoClass, twoPhis], by simp [twoClass]⟩
  · intro x hx
    simp only [twoPhis, List.mem_cons, Option.some.injEq, List.not_mem_nil, or_false] at hx
    rcases hx with rfl | rfl <;> exact ⟨_, _, rfl⟩
  · simp [twoClass, KlassOk, ItemOk, CrossOk, pairs, slices, twoPhis, Kern.size]
  · intro xy _
    exact ⟨_, _, rfl⟩

/-- The hypotheses of `C49_partial` for a dense prior of the first pulsar, whose two columns form a clique, and a
common signal on its second column. -/
example : ∃ (phis : List (Option (Kern ℝ))) (k : Klass ℝ), KlassOk (slices phis 0) k ∧ VecKlass k ∧
    (∀ x, some x ∈ phis → KernSep x) ∧ TouchClasses (slices phis 0) (setPulsarCliques phis 0 Cliques.none) [k] := by
  refine ⟨[some (.two 2 (fun i j => if i = j then 2 else 1) ⟨fun _ => 0, 1⟩), some (.one 1 fun _ => 2)],
    ⟨[⟨0, [1]⟩, ⟨1, [0]⟩], fun _ _ => .one 1 fun _ => 1⟩, ?_, fun _ _ => ⟨_, _, rfl⟩, ?_, ?_⟩
  · simp [KlassOk, ItemOk, CrossOk, pairs, slices, Kern.size]
  · intro x hx
    simp only [List.mem_cons, Option.some.injEq, List.not_mem_nil, or_false] at hx
    rcases hx with rfl | rfl
    · intro i j _ _ _ _
      exact ⟨rfl, 0, by simp, rfl⟩
    · trivial
  · refine ⟨[[1, 2]], rfl, ⟨by simp, ?_, fun _ _ => trivial⟩, fun _ _ => trivial⟩
    intro i hi j hj h1 h2
    have lab : (setPulsarCliques [some (.two 2 (fun i j => if i = j then (2 : ℝ) else 1) ⟨fun _ => 0, 1⟩), some (.one 1 fun _ => 2)] 0
      Cliques.none).label 2 = -1 := by decide +kernel
    simp only [List.mem_cons, List.not_mem_nil, or_false] at hi hj
    rcases hi with rfl | rfl <;> rcases hj with rfl | rfl
    · rfl
    · exact absurd lab h2
    · exact absurd lab h1
    · rfl

/-! ### Own priors -/

/-- C49 (partial): adding a vector to a kernel whose labels separate it keeps them separating; adding a matrix
does so if the positions meet at most one clique. -/
theorem C49_kernel_partial (s : Kern K) (hs : KernSep s) (l : List Nat) (hn : l.Nodup) (h0 : l ≠ [])
    (hr : ∀ i ∈ l, i < s.size) :
    (∀ w, ∃ r, s.add (.one l.length w) (.ints l) = .ok r ∧ KernSep r) ∧
    (∀ n M c, s = .two n M c → LabelsOk c → Touch c l → ∀ W, ∃ r, s.add (.two l.length l.length W) (.ints l) = .ok r ∧ KernSep r) := by
  have hc : (Idx.ints l).check s.size = true := by
    simp only [Idx.check, List.all_eq_true]
    intro i hi
    simpa using hr i hi
  constructor
  · intro w
    obtain ⟨r, e, hsz, -, h2⟩ := C47_add_vector_partial s (.ints l) w hc hn trivial
    refine ⟨r, e, ?_⟩
    cases s with
    | one n v =>
      have hc : (Idx.ints l).check n = true := hc
      simp [Kern.add, Kern.write, hc, fits, Idx.positions] at e
      subst e
      trivial
    | two n M c =>
      have hc : (Idx.ints l).check n = true := hc
      simp [Kern.add, Kern.write, hc, fits, Idx.positions] at e
      subst e
      intro i j hi hj hij hne
      exact hs i j hi hj hij (by rw [← show _ = M i j from h2 i j (Or.inr hij)]; exact hne)
  · rintro n M c rfl hlab htouch W
    obtain ⟨r, e, hsz, -, h2⟩ := C47_add_matrix (.two n M c) (.ints l) W hc hn h0
    refine ⟨r, e, ?_⟩
    obtain ⟨c', ec, g1, g2, g3, -⟩ := set_spec c l hlab h0 htouch
    have hc : (Idx.ints l).check n = true := hc
    simp [Kern.add, Kern.write, hc, fits, Idx.positions, ec] at e
    subst e
    · · intro i j hi hj hij hne
        have lab : c'.label i = c'.label j ∧ c'.label i ≠ -1 := by
          by_cases hm : i ∈ l ∧ j ∈ l
          · exact g2 i hm.1 j hm.2
          · have e2 := h2 i j (by
              rcases not_and_or.1 hm with h | h
              · exact Or.inl h
              · exact Or.inr h)
            obtain ⟨q1, k, hk, q2⟩ := hs i j hi hj hij (by rw [← show _ = M i j from e2]; exact hne)
            have hne1 : c.label i ≠ -1 := by omega
            rw [g3 i hne1, g3 j (q1 ▸ hne1)]
            exact ⟨q1, hne1⟩
        refine ⟨lab.1, ?_⟩
        rcases g1 i with h | h
        · exact absurd h lab.2
        · exact h

example : KernSep (.two 3 (fun i j => if i = j then 2 else 0) Cliques.none : Kern ℚ) ∧ LabelsOk Cliques.none ∧
    Touch Cliques.none [0, 2] := by
  refine ⟨?_, fun _ => Or.inl rfl, fun _ _ _ _ _ _ => rfl⟩
  intro i j _ _ hij h
  simp [hij] at h

/-! ### Joining two cliques -/

theorem cliqueLoop_other {n : Nat} (lab : Fin n → Int) (l : List Nat) : ∀ (M : Matrix (Fin n) (Fin n) ℝ) (ld : ℝ)
    (R : Matrix (Fin n) (Fin n) ℝ) (ld' : ℝ), cliqueLoop lab l M ld = .ok (R, ld') → ∀ i j, lab i ≠ lab j → R i j = M i j := by
  induction l with
  | nil => intro M ld R ld' h i j _; cases h; rfl
  | cons k t ih =>
    intro M ld R ld' h i j hij
    rw [cliqueLoop] at h
    split at h
    · split at h
      · cases h
      · rw [ih _ _ _ _ h i j hij]
        unfold invBlock
        rw [Matrix.of_apply, dif_neg fun hh => hij (hh.1.trans hh.2.symm)]
    · exact ih _ _ _ _ h i j hij

/-- Entries between two cliques are left as they are. -/
theorem cliqueInv_other {n : Nat} (lab : Fin n → Int) (count : Nat) (M R : Matrix (Fin n) (Fin n) ℝ) (ld : ℝ)
    (h : cliqueInv lab count M = .ok (R, ld)) (i j : Fin n) (hij : lab i ≠ lab j) : R i j = M i j := by
  unfold cliqueInv at h
  split at h
  · cases h
  · rename_i R' ld' e
    cases h
    rw [Matrix.of_apply, if_neg, cliqueLoop_other lab _ _ _ _ _ e i j hij]
    rintro ⟨rfl, -⟩
    exact hij rfl

/-- Four pulsars with one column each and prior variance two; common signals of the pulsars (0, 1), (2, 3) and
(1, 2), each with cross term one. -/
def chainPhis : List (Option (Kern ℝ)) := List.replicate 4 (some (.one 1 fun _ => 2))

def chainClasses : List (Klass ℝ) :=
  [⟨[⟨0, [0]⟩, ⟨1, [0]⟩], fun _ _ => .one 1 fun _ => 1⟩, ⟨[⟨2, [0]⟩, ⟨3, [0]⟩], fun _ _ => .one 1 fun _ => 1⟩,
   ⟨[⟨1, [0]⟩, ⟨2, [0]⟩], fun _ _ => .one 1 fun _ => 1⟩]

theorem chain_ok : ∀ k ∈ chainClasses, KlassOk (slices chainPhis 0) k := by
  simp [chainClasses, KlassOk, ItemOk, CrossOk, pairs, slices, chainPhis, List.replicate, Kern.size]
  refine ⟨?_, ?_, ?_⟩ <;> · rintro _ _ _ _ rfl rfl rfl rfl; exact ⟨rfl, rfl⟩

theorem chain_entries (M : Nat → Nat → ℝ)
    (hM : ∀ i j, M i j = blockDiag chainPhis i j + (chainClasses.map (klassTerm (slices chainPhis 0) i j)).sum) (i j : Nat) (hi : i < 4)
    (hj : j < 4) : M i j = if i = j then 2 else if i + 1 = j ∨ j + 1 = i then 1 else 0 := by
  rw [hM]
  interval_cases i <;> interval_cases j <;>
    simp [blockDiag, chainPhis, chainClasses, klassTerm, pairTerm, spread, slices, List.replicate, Kern.size, pairs, entries, diagMat, amat]

/-- C49 is false when a common signal joins two cliques: for the chain the prior covariance is the tridiagonal
matrix with diagonal two, which is invertible, but what `get_phiinv` returns is not its inverse. -/
theorem C49_merge_false : ∃ M, getPhi chainPhis chainClasses = .ok (.big 4 M) ∧ (toMatrix 4 M).det = 5 ∧
    ∀ (R : Matrix (Fin 4) (Fin 4) ℝ) (ld : ℝ), getPhiinv chainPhis chainClasses = .ok (R, ld) → R ≠ (toMatrix 4 M)⁻¹ := by
  obtain ⟨M, e, hM⟩ := C48_entries chainPhis chainClasses (by simp [chainClasses]) chain_ok
  have hent := chain_entries M hM
  have hdet : (toMatrix 4 M).det = 5 := by
    have : toMatrix 4 M = !![2, 1, 0, 0; 1, 2, 1, 0; 0, 1, 2, 1; 0, 0, 1, 2] := by
      ext i j
      rw [toMatrix, Matrix.of_apply, hent i j i.2 j.2]
      fin_cases i <;> fin_cases j <;> simp
    rw [this]
    simp [Matrix.det_succ_row_zero, Fin.sum_univ_succ, Fin.succAbove]
    norm_num
  refine ⟨M, e, hdet, ?_⟩
  intro R ld h hR
  obtain ⟨c, ec, c0, c1, c2, c3⟩ : ∃ c, ptaCliques chainPhis chainClasses = .ok c ∧ c.label 0 = 0 ∧ c.label 1 = 1 ∧
      c.label 2 = 1 ∧ c.label 3 = 1 := by
    refine ⟨_, rfl, ?_, ?_, ?_, ?_⟩ <;> decide +kernel
  unfold getPhiinv at h
  rw [e, ec] at h
  simp only at h
  have hoff : ∀ i j : Fin 4, c.label i ≠ c.label j → R i j = M i j := fun i j hij => cliqueInv_other (n := 4) _ _ _ _ _ h i j hij
  have h1 : R 0 1 = M 0 1 := hoff 0 1 (by simp [c0, c1])
  have h2 : R 0 2 = M 0 2 := hoff 0 2 (by simp [c0, c2])
  have h3 : R 0 3 = M 0 3 := hoff 0 3 (by simp [c0, c3])
  have hmul : R * toMatrix 4 M = 1 := by
    rw [hR]
    exact Matrix.nonsing_inv_mul _ (by rw [hdet]; exact isUnit_iff_ne_zero.2 (by norm_num))
  have h02 := congrFun (congrFun hmul 0) 2
  rw [Matrix.mul_apply, Fin.sum_univ_four, h1, h2, h3] at h02
  simp [toMatrix, hent] at h02

end Verif.PhiInv
