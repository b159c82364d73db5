import Verif.Model.Combine
import Verif.Props.Kernel
import Mathlib.Algebra.BigOperators.Intervals
import Mathlib.Algebra.BigOperators.Fin
import Mathlib.Tactic.Ring

/-!
# Property C46: sharing columns does not change the model
-/

set_option linter.unusedSectionVars false

namespace Verif.Combine

open Verif Verif.Kernel Finset

variable {K : Type} [Field K] {H : Type} [DecidableEq H]

/-! ## Specification -/

/-- The matrix an array stands for. -/
def amat : Arr K → Nat → Nat → K
  | .one _ v => fun i j => if i = j then v i else 0
  | .two _ _ M => M

/-- `F phi F^T` at two rows. -/
def quad (F : List (Col K)) (φ : Arr K) (a b : Nat) : K :=
  ∑ p ∈ range F.length, ∑ q ∈ range F.length, (F.getD p fun _ => 0) a * amat φ p q * (F.getD q fun _ => 0) b

/-- The covariance of one signal. -/
def sigCov (s : BSig K) (a b : Nat) : K :=
  match s.basis with
  | none => 0
  | some _ => quad s.basisAt s.phi a b

/-- The array has the size of the basis. -/
def SizeOk (n : Nat) : Arr K → Prop
  | .one m _ => m = n
  | .two m m' _ => m = n ∧ m' = n

/-- A signal with a basis has columns, as many with the parameters at hand as with default ones, the same if
nothing varies, a prior of that size, and no repeated column if it combines. -/
def SigOk (s : BSig K) : Prop :=
  ∀ F, s.basis = some F → F ≠ [] ∧ s.basisAt.length = F.length ∧ (s.varying = false → s.basisAt = F) ∧
    SizeOk F.length s.phi ∧ (s.varying = false → s.combine = true → F.Nodup)

/-- No signal that combines its columns comes after one whose basis varies. -/
def Ordered : List (BSig K) → Prop
  | [] => True
  | s :: t => (s.basis ≠ none → s.varying = true → ∀ s' ∈ t, s'.basis ≠ none → s'.varying = false → s'.combine = false) ∧
      Ordered t

/-- The hash tells the columns of the signals apart. -/
def HashOk (hash : Col K → H) (sigs : List (BSig K)) : Prop :=
  ∀ s ∈ sigs, ∀ s' ∈ sigs, ∀ F F', s.basis = some F → s'.basis = some F' → ∀ c ∈ F, ∀ c' ∈ F', hash c = hash c' → c = c'

/-! ## The positions -/

theorem columns_fresh (hash : Col K → H) (F : List (Col K)) : ∀ (hl : List H) (cc : Nat),
    (columns hash false F hl cc).1 = List.range' cc F.length ∧ (columns hash false F hl cc).2.2 = cc + F.length := by
  induction F with
  | nil => intro hl cc; exact ⟨rfl, rfl⟩
  | cons c t ih =>
    intro hl cc
    rw [columns, if_neg (by simp)]
    obtain ⟨h1, h2⟩ := ih (hl ++ [hash c]) (cc + 1)
    refine ⟨?_, ?_⟩
    · simp only [h1, List.length_cons]; rfl
    · simp only [h2, List.length_cons]; omega

/-- The positions of a signal point at its own columns in the list `L` of columns. -/
def Points (L : List (Col K)) (l : List Nat) (F : List (Col K)) : Prop :=
  l.length = F.length ∧ ∀ p i : Nat, l[p]? = some i → L[i]? = F[p]? 

theorem Points.mono {L L' : List (Col K)} {l : List Nat} {F : List (Col K)} (h : Points L l F) (hL : L <+: L') :
    Points L' l F := by
  refine ⟨h.1, ?_⟩
  intro p i hp
  have hlt : p < F.length := by rw [← h.1]; exact (List.getElem?_eq_some_iff.1 hp).1
  have := h.2 p i hp
  rw [List.getElem?_eq_getElem hlt] at this ⊢
  obtain ⟨M, rfl⟩ := hL
  rw [List.getElem?_append_left (List.getElem?_eq_some_iff.1 this).1]
  exact this

theorem points_range (L0 F : List (Col K)) : Points (L0 ++ F) (List.range' L0.length F.length) F := by
  refine ⟨by simp, ?_⟩
  intro p i hp
  obtain ⟨hlt, rfl⟩ := List.getElem?_eq_some_iff.1 hp
  simp only [List.getElem_range', Nat.one_mul]
  rw [List.getElem?_append_right (by omega)]
  congr 1
  omega

/-- With combination, starting from a list of hashes in step with the columns. -/
theorem columns_points (hash : Col K → H) (b : Bool) (F : List (Col K)) : ∀ L0 : List (Col K),
    (∀ c ∈ L0 ++ F, ∀ c' ∈ L0 ++ F, hash c = hash c' → c = c') →
    ∃ L, L0 <+: L ∧ Points L (columns hash b F (L0.map hash) L0.length).1 F ∧
      (columns hash b F (L0.map hash) L0.length).2.1 = L.map hash ∧
      (columns hash b F (L0.map hash) L0.length).2.2 = L.length ∧ (∀ c ∈ L, c ∈ L0 ++ F) := by
  induction F with
  | nil =>
    intro L0 _
    exact ⟨L0, List.prefix_rfl, ⟨rfl, by intro p i h; simp [columns] at h⟩, rfl, rfl, by simp⟩
  | cons c t ih =>
    intro L0 hh
    rw [columns]
    split
    · rename_i hc
      obtain ⟨L, hL, hp, h1, h2, h3⟩ := ih L0 fun c hc c' hc' =>
        hh c (by rcases List.mem_append.1 hc with h | h <;> simp [h]) c'
          (by rcases List.mem_append.1 hc' with h | h <;> simp [h])
      refine ⟨L, hL, ⟨by simp [hp.1], ?_⟩, h1, h2, ?_⟩
      · intro p i hi
        cases p with
        | succ p => simpa using hp.2 p i (by simpa using hi)
        | zero =>
          simp only [List.getElem?_cons_zero, Option.some.injEq] at hi
          subst hi
          have hlt : (L0.map hash).idxOf (hash c) < L0.length := by
            have := List.idxOf_lt_length_iff.2 hc.2
            simpa using this
          obtain ⟨M, rfl⟩ := hL
          rw [List.getElem?_append_left hlt, List.getElem?_eq_getElem hlt]
          simp only [List.getElem?_cons_zero, Option.some.injEq]
          have hget : hash (L0[(L0.map hash).idxOf (hash c)]) = hash c := by
            have := List.getElem_idxOf (xs := L0.map hash) (x := hash c) (by simpa using hlt)
            rw [List.getElem_map] at this
            exact this
          exact hh _ (by simp) c (by simp) hget
      · intro x hx
        have := h3 x hx
        rcases List.mem_append.1 this with h | h <;> simp [h]
    · obtain ⟨L, hL, hp, h1, h2, h3⟩ := ih (L0 ++ [c]) fun c hc c' hc' => hh c (by simpa using hc) c' (by simpa using hc')
      simp only [List.map_append, List.map_cons, List.map_nil, List.length_append, List.length_cons, List.length_nil,
        Nat.zero_add] at hp h1 h2
      refine ⟨L, (List.prefix_append L0 [c]).trans hL, ⟨by simp [hp.1], ?_⟩, h1, h2, ?_⟩
      · intro p i hi
        cases p with
        | succ p => simpa using hp.2 p i (by simpa using hi)
        | zero =>
          simp only [List.getElem?_cons_zero, Option.some.injEq] at hi
          subst hi
          obtain ⟨M, rfl⟩ := hL
          simp
      · intro x hx
        have := h3 x hx
        simp only [List.append_assoc, List.cons_append, List.nil_append] at this
        exact this

/-- The positions of all signals point at their columns. -/
inductive AllPoints (L : List (Col K)) : List (BSig K) → List (Option (List Nat)) → Prop
  | nil : AllPoints L [] []
  | none {s t ix} (h : s.basis = none) (ht : AllPoints L t ix) : AllPoints L (s :: t) (none :: ix)
  | some {s t ix l F} (h : s.basis = some F) (hp : Points L l s.basisAt) (hn : l.Nodup) (ht : AllPoints L t ix) :
      AllPoints L (s :: t) (some l :: ix)

theorem points_nodup {L : List (Col K)} {l : List Nat} {F : List (Col K)} (h : Points L l F) (hF : F.Nodup) : l.Nodup := by
  rw [List.nodup_iff_injective_getElem]
  intro p q hpq
  have h1 := h.2 p.1 _ (List.getElem?_eq_getElem p.2)
  have h2 := h.2 q.1 _ (List.getElem?_eq_getElem q.2)
  rw [show l[p.1] = l[q.1] from hpq, h2] at h1
  have hq : q.1 < F.length := by rw [← h.1]; exact q.2
  have hp : p.1 < F.length := by rw [← h.1]; exact p.2
  rw [List.getElem?_eq_getElem hq, List.getElem?_eq_getElem hp, Option.some.injEq] at h1
  exact Fin.ext ((List.Nodup.getElem_inj_iff hF).1 h1).symm

theorem combine_tail (hash : Col K → H) (sigs : List (BSig K)) : ∀ (hl : List H) (L0 : List (Col K)),
    (∀ s ∈ sigs, SigOk s) → (∀ s ∈ sigs, s.basis ≠ none → s.varying = false → s.combine = false) →
    ∃ L, L0 <+: L ∧ AllPoints L sigs (combineIdx hash sigs hl L0.length) := by
  induction sigs with
  | nil => intro hl L0 _ _; exact ⟨L0, List.prefix_rfl, AllPoints.nil⟩
  | cons s t ih =>
    intro hl L0 hok hc
    rw [combineIdx]
    cases hb : s.basis with
    | none =>
      obtain ⟨L, h1, h2⟩ := ih hl L0 (fun s hs => hok s (by simp [hs])) fun s hs => hc s (by simp [hs])
      exact ⟨L, h1, AllPoints.none hb h2⟩
    | some F =>
      obtain ⟨-, hlen, hst, -, -⟩ := hok s (by simp) F hb
      simp only
      split
      · rename_i hv
        rw [hc s (by simp) (by simp [hb]) hv]
        obtain ⟨e1, e2⟩ := columns_fresh hash F hl L0.length
        obtain ⟨L, h1, h2⟩ := ih (columns hash false F hl L0.length).2.1 (L0 ++ F) (fun s hs => hok s (by simp [hs]))
          fun s hs => hc s (by simp [hs])
        rw [List.length_append] at h2
        rw [e1, e2]
        refine ⟨L, (List.prefix_append L0 F).trans h1, AllPoints.some hb ?_ (List.nodup_range' ..) h2⟩
        rw [hst hv]
        exact (points_range L0 F).mono h1
      · obtain ⟨L, h1, h2⟩ := ih hl (L0 ++ s.basisAt) (fun s hs => hok s (by simp [hs])) fun s hs => hc s (by simp [hs])
        rw [List.length_append, hlen] at h2
        refine ⟨L, (List.prefix_append L0 _).trans h1, AllPoints.some hb ?_ (List.nodup_range' ..) h2⟩
        rw [← hlen]
        exact (points_range L0 s.basisAt).mono h1

theorem combine_all (hash : Col K → H) (sigs : List (BSig K)) : ∀ (L0 : List (Col K)),
    (∀ s ∈ sigs, SigOk s) → Ordered sigs →
    (∀ c c', (c ∈ L0 ∨ ∃ s ∈ sigs, ∃ F, s.basis = some F ∧ c ∈ F) → (c' ∈ L0 ∨ ∃ s ∈ sigs, ∃ F, s.basis = some F ∧ c' ∈ F) →
      hash c = hash c' → c = c') →
    ∃ L, L0 <+: L ∧ AllPoints L sigs (combineIdx hash sigs (L0.map hash) L0.length) := by
  induction sigs with
  | nil => intro L0 _ _ _; exact ⟨L0, List.prefix_rfl, AllPoints.nil⟩
  | cons s t ih =>
    intro L0 hok ho hh
    rw [combineIdx]
    cases hb : s.basis with
    | none =>
      obtain ⟨L, h1, h2⟩ := ih L0 (fun s hs => hok s (by simp [hs])) ho.2 fun c c' hc hc' => hh c c'
        (hc.imp_right fun ⟨s, hs, r⟩ => ⟨s, by simp [hs], r⟩) (hc'.imp_right fun ⟨s, hs, r⟩ => ⟨s, by simp [hs], r⟩)
      exact ⟨L, h1, AllPoints.none hb h2⟩
    | some F =>
      obtain ⟨-, hlen, hst, -, hnd⟩ := hok s (by simp) F hb
      simp only
      split
      · rename_i hv
        obtain ⟨L1, hL, hp, e1, e2, h3⟩ := columns_points hash s.combine F L0 fun c hc c' hc' =>
          hh c c' ((List.mem_append.1 hc).imp_right fun h => ⟨s, by simp, F, hb, h⟩)
            ((List.mem_append.1 hc').imp_right fun h => ⟨s, by simp, F, hb, h⟩)
        obtain ⟨L, h1, h2⟩ := ih L1 (fun s hs => hok s (by simp [hs])) ho.2 fun c c' hc hc' => by
          have conv : ∀ c, (c ∈ L1 ∨ ∃ s' ∈ t, ∃ F, s'.basis = some F ∧ c ∈ F) →
              (c ∈ L0 ∨ ∃ s' ∈ s :: t, ∃ F, s'.basis = some F ∧ c ∈ F) := by
            rintro c (h | ⟨s', hs, r⟩)
            · exact (List.mem_append.1 (h3 c h)).imp_right fun h => ⟨s, by simp, F, hb, h⟩
            · exact Or.inr ⟨s', by simp [hs], r⟩
          exact hh c c' (conv c hc) (conv c' hc')
        rw [e1, e2]
        have hp' : Points L (columns hash s.combine F (L0.map hash) L0.length).1 s.basisAt := by
          rw [hst hv]; exact hp.mono h1
        refine ⟨L, hL.trans h1, AllPoints.some hb hp' ?_ h2⟩
        cases hcb : s.combine with
        | true =>
          rw [hcb] at hp
          exact points_nodup hp (hnd hv hcb)
        | false =>
          rw [(columns_fresh hash F _ _).1]
          exact List.nodup_range' ..
      · rename_i hv
        obtain ⟨L, h1, h2⟩ := combine_tail hash t (L0.map hash) (L0 ++ s.basisAt) (fun s hs => hok s (by simp [hs]))
          (ho.1 (by simp [hb]) (by simpa using hv))
        rw [List.length_append, hlen] at h2
        refine ⟨L, (List.prefix_append L0 _).trans h1, AllPoints.some hb ?_ (List.nodup_range' ..) h2⟩
        rw [← hlen]
        exact (points_range L0 s.basisAt).mono h1

/-! ## The number of columns -/

theorem columns_cover (hash : Col K → H) (b : Bool) (F : List (Col K)) : ∀ (hl : List H) (cc : Nat), hl.length ≤ cc →
    (∀ i, i < (columns hash b F hl cc).2.2 ↔ i < cc ∨ i ∈ (columns hash b F hl cc).1) ∧
    (columns hash b F hl cc).2.1.length ≤ (columns hash b F hl cc).2.2 := by
  induction F with
  | nil => intro hl cc h; exact ⟨by simp [columns], h⟩
  | cons c t ih =>
    intro hl cc h
    rw [columns]
    split
    · rename_i hc
      obtain ⟨h1, h2⟩ := ih hl cc h
      refine ⟨?_, h2⟩
      intro i
      simp only [List.mem_cons]
      rw [h1]
      have : hl.idxOf (hash c) < cc := lt_of_lt_of_le (List.idxOf_lt_length_iff.2 hc.2) h
      constructor
      · rintro (h | h)
        · exact Or.inl h
        · exact Or.inr (Or.inr h)
      · rintro (h | h | h)
        · exact Or.inl h
        · exact Or.inl (h ▸ this)
        · exact Or.inr h
    · obtain ⟨h1, h2⟩ := ih (hl ++ [hash c]) (cc + 1) (by simpa using h)
      refine ⟨?_, h2⟩
      intro i
      simp only [List.mem_cons]
      rw [h1]
      constructor
      · rintro (h | h)
        · rcases Nat.lt_succ_iff_lt_or_eq.1 h with h | h
          · exact Or.inl h
          · exact Or.inr (Or.inl h)
        · exact Or.inr (Or.inr h)
      · rintro (h | h | h)
        · exact Or.inl (by omega)
        · exact Or.inl (by omega)
        · exact Or.inr h

theorem combine_cover (hash : Col K → H) (sigs : List (BSig K)) : ∀ (hl : List H) (cc : Nat), hl.length ≤ cc →
    ∃ n, ∀ i, i < n ↔ i < cc ∨ i ∈ (combineIdx hash sigs hl cc).flatMap fun o => o.getD [] := by
  induction sigs with
  | nil => intro hl cc _; exact ⟨cc, by simp [combineIdx]⟩
  | cons s t ih =>
    intro hl cc h
    rw [combineIdx]
    cases s.basis with
    | none => simpa using ih hl cc h
    | some F =>
      simp only
      split
      · obtain ⟨h1, h2⟩ := columns_cover hash s.combine F hl cc h
        obtain ⟨n, hn⟩ := ih _ _ h2
        refine ⟨n, ?_⟩
        intro i
        rw [hn, h1]
        simp [or_assoc]
      · obtain ⟨n, hn⟩ := ih hl (cc + F.length) (by omega)
        refine ⟨n, ?_⟩
        intro i
        rw [hn]
        simp only [List.flatMap_cons, Option.getD_some, List.mem_append, List.mem_range'_1]
        constructor
        · rintro (h | h)
          · by_cases hi : i < cc
            · exact Or.inl hi
            · exact Or.inr (Or.inl ⟨by omega, h⟩)
          · exact Or.inr (Or.inr h)
        · rintro (h | h | h)
          · exact Or.inl (by omega)
          · exact Or.inl h.2
          · exact Or.inr h

/-- The positions used are exactly those below the number of columns. -/
theorem mem_iff_lt_ncol (hash : Col K → H) (sigs : List (BSig K)) (i : Nat) :
    i < ncol (idxOf hash sigs) ↔ i ∈ (idxOf hash sigs).flatMap fun o => o.getD [] := by
  obtain ⟨n, hn⟩ := combine_cover hash sigs [] 0 (by simp)
  have hn' : ∀ i, i < n ↔ i ∈ (idxOf hash sigs).flatMap fun o => o.getD [] := by
    intro i; rw [hn]; simp [idxOf]
  have : ncol (idxOf hash sigs) = n := by
    unfold ncol
    have hperm : ((idxOf hash sigs).flatMap fun o => o.getD []).dedup.Perm (List.range n) := by
      rw [List.perm_ext_iff_of_nodup (List.nodup_dedup _) List.nodup_range]
      intro i
      rw [List.mem_dedup, List.mem_range, hn']
    rw [hperm.length_eq, List.length_range]
  rw [this]
  exact hn' i

/-! ## The combined basis -/

theorem putCols_other (ws : List (Nat × Col K)) : ∀ (T : Nat → Col K) (i : Nat), (∀ w ∈ ws, w.1 ≠ i) → putCols T ws i = T i := by
  induction ws with
  | nil => intro f i _; rfl
  | cons w t ih =>
    intro f i h
    rw [putCols, ih _ i fun w hw => h w (by simp [hw]), Function.update_of_ne (h w (by simp)).symm]

/-- If all assignments agree with `C`, so does the result wherever something was assigned. -/
theorem putCols_agree (C : Nat → Col K) (ws : List (Nat × Col K)) : ∀ (T : Nat → Col K), (∀ w ∈ ws, w.2 = C w.1) →
    ∀ i, (T i = C i ∨ ∃ w ∈ ws, w.1 = i) → putCols T ws i = C i := by
  induction ws with
  | nil => intro T _ i h; simpa [putCols] using h
  | cons w t ih =>
    intro T hw i h
    rw [putCols]
    apply ih _ (fun w h => hw w (by simp [h]))
    by_cases hi : w.1 = i
    · left; subst hi; rw [Function.update_self]; exact hw w (by simp)
    · rcases h with h | ⟨v, hv, e⟩
      · left; rw [Function.update_of_ne (Ne.symm hi)]; exact h
      · rcases List.mem_cons.1 hv with rfl | hv
        · exact absurd e hi
        · exact Or.inr ⟨v, hv, e⟩

theorem basisLoop_ok (n : Nat) (L : List (Col K)) {sigs : List (BSig K)} {ix : List (Option (List Nat))}
    (h : AllPoints L sigs ix) (hok : ∀ s ∈ sigs, SigOk s) (hn : ∀ o ∈ ix, ∀ l, o = some l → ∀ i ∈ l, i < n) :
    ∀ T : Nat → Col K, ∃ T', basisLoop n (sigs.zip ix) T = .ok T' ∧
      ∀ i, ((∃ o ∈ ix, ∃ l, o = some l ∧ i ∈ l) ∨ T i = L.getD i fun _ => 0) → T' i = L.getD i fun _ => 0 := by
  induction h with
  | nil => intro T; exact ⟨T, rfl, fun i h => by simpa using h⟩
  | none hb ht ih =>
    intro T
    obtain ⟨T', e, h⟩ := ih (fun s hs => hok s (by simp [hs])) (fun o ho => hn o (by simp [ho])) T
    refine ⟨T', e, ?_⟩
    intro i hi
    apply h
    rcases hi with ⟨o, ho, l, rfl, hl⟩ | hi
    · rcases List.mem_cons.1 ho with ho | ho
      · cases ho
      · exact Or.inl ⟨_, ho, l, rfl, hl⟩
    · exact Or.inr hi
  | @some s t ix l F hb hp hnd ht ih =>
    intro T
    obtain ⟨hne, hlen, -, -, -⟩ := hok s (by simp) F hb
    have hl0 : l ≠ [] := by
      intro e
      have := hp.1
      rw [e, hlen] at this
      exact hne (List.length_eq_zero_iff.1 this.symm)
    have hbc : ∀ p i, l[p]? = some i → bc s.basisAt.length p = p := by
      intro p i h
      unfold bc
      split
      · have := (List.getElem?_eq_some_iff.1 h).1; rw [hp.1] at this; omega
      · rfl
    have hag : ∀ w ∈ l.zipIdx.map (fun x => (x.1, s.basisAt.getD (bc s.basisAt.length x.2) fun _ => 0)),
        w.2 = (fun i => L.getD i fun _ => (0 : K)) w.1 := by
      intro w hw
      obtain ⟨x, hx, rfl⟩ := List.mem_map.1 hw
      have hx := (mem_zipIdx l x).1 hx
      simp only
      rw [hbc x.2 x.1 hx, List.getD_eq_getElem?_getD, List.getD_eq_getElem?_getD, hp.2 x.2 x.1 hx]
    obtain ⟨T', e, h⟩ := ih (fun s hs => hok s (by simp [hs])) (fun o ho => hn o (by simp [ho]))
      (putCols T (l.zipIdx.map fun x => (x.1, s.basisAt.getD (bc s.basisAt.length x.2) fun _ => 0)))
    refine ⟨T', ?_, ?_⟩
    · rw [List.zip_cons_cons, basisLoop, if_neg, if_neg]
      · exact e
      · simp [fits, hp.1]
      · rintro (h | ⟨i, hi, h⟩)
        · exact hl0 h
        · exact absurd (hn _ (by simp) l rfl i hi) (by omega)
    · intro i hi
      apply h
      rcases hi with ⟨o, ho, l', rfl, hl'⟩ | hi
      · rcases List.mem_cons.1 ho with ho | ho
        · cases ho
          right
          obtain ⟨p, hpl, rfl⟩ := List.getElem_of_mem hl'
          exact putCols_agree (fun i => L.getD i fun _ => (0 : K)) _ T hag _ (Or.inr ⟨_, List.mem_map.2 ⟨(l[p], p), (mem_zipIdx l _).2 (List.getElem?_eq_getElem hpl), rfl⟩, rfl⟩)
        · exact Or.inl ⟨_, ho, l', rfl, hl'⟩
      · right
        exact putCols_agree (fun i => L.getD i fun _ => (0 : K)) _ T hag i (Or.inl hi)

/-! ## The combined prior -/

/-- A sum over all positions of a function that vanishes outside `l`. -/
theorem sum_positions (n : Nat) (l : List Nat) (hl : l.Nodup) (hn : ∀ i ∈ l, i < n) (f : Nat → K) (hf : ∀ i, i ∉ l → f i = 0) :
    ∑ i ∈ range n, f i = ∑ p ∈ range l.length, f (l.getD p 0) := by
  have h1 : ∑ i ∈ range n, f i = ∑ i ∈ l.toFinset, f i := by
    symm
    apply Finset.sum_subset
    · intro i hi
      exact Finset.mem_range.2 (hn i (List.mem_toFinset.1 hi))
    · intro i _ hi
      exact hf i fun h => hi (List.mem_toFinset.2 h)
  rw [h1, List.sum_toFinset f hl, Finset.sum_range]
  rw [← List.sum_ofFn]
  congr 1
  apply List.ext_getElem
  · simp
  · intro p h1 h2
    simp only [List.length_map] at h1
    simp

theorem phi_step (Φ : Kern K) (φ : Arr K) (l : List Nat) (hl : l.Nodup) (h0 : l ≠ []) (hn : ∀ i ∈ l, i < Φ.size)
    (hs : SizeOk l.length φ) :
    ∃ r, Φ.add φ (.ints l) = .ok r ∧ r.size = Φ.size ∧
      (∀ p q i j : Nat, l[p]? = some i → l[q]? = some j → r.mat i j = Φ.mat i j + amat φ p q) ∧
      (∀ i j, i ∉ l ∨ j ∉ l → r.mat i j = Φ.mat i j) := by
  have hc : (Idx.ints l).check Φ.size = true := by
    simp only [Idx.check, List.all_eq_true]
    intro i hi
    simpa using hn i hi
  cases φ with
  | two m m' W =>
    obtain ⟨rfl, rfl⟩ := hs
    exact C47_add_matrix Φ (.ints l) W hc hl h0
  | one m w =>
    obtain rfl : m = l.length := hs
    obtain ⟨r, e, h1, h2, h3⟩ := C47_add_vector_partial Φ (.ints l) w hc hl trivial
    refine ⟨r, e, h1, ?_, ?_⟩
    · intro p q i j hp hq
      simp only [amat]
      by_cases hpq : p = q
      · subst hpq
        rw [hp] at hq
        cases hq
        rw [if_pos rfl]
        exact h2 p i hp
      · rw [if_neg hpq, add_zero]
        apply h3
        right
        rintro rfl
        obtain ⟨h1, e1⟩ := List.getElem?_eq_some_iff.1 hp
        obtain ⟨h2, e2⟩ := List.getElem?_eq_some_iff.1 hq
        exact hpq ((List.Nodup.getElem_inj_iff hl).1 (e1.trans e2.symm))
    · rintro i j (h | h)
      · exact h3 i j (Or.inl h)
      · by_cases hij : i = j
        · exact h3 i j (Or.inl (hij ▸ h))
        · exact h3 i j (Or.inr hij)

/-- `T Phi T^T` at two rows. -/
def bigQuad (n : Nat) (T : Nat → Col K) (Φ : Nat → Nat → K) (a b : Nat) : K :=
  ∑ i ∈ range n, ∑ j ∈ range n, T i a * Φ i j * T j b

theorem bigQuad_step (n : Nat) (T : Nat → Col K) (Φ r : Nat → Nat → K) (φ : Nat → Nat → K) (l : List Nat) (hl : l.Nodup)
    (hn : ∀ i ∈ l, i < n) (h1 : ∀ p q i j : Nat, l[p]? = some i → l[q]? = some j → r i j = Φ i j + φ p q)
    (h2 : ∀ i j, i ∉ l ∨ j ∉ l → r i j = Φ i j) (a b : Nat) :
    bigQuad n T r a b = bigQuad n T Φ a b +
      ∑ p ∈ range l.length, ∑ q ∈ range l.length, T (l.getD p 0) a * φ p q * T (l.getD q 0) b := by
  have key : ∑ i ∈ range n, ∑ j ∈ range n, T i a * (r i j - Φ i j) * T j b =
      ∑ p ∈ range l.length, ∑ q ∈ range l.length, T (l.getD p 0) a * φ p q * T (l.getD q 0) b := by
    rw [sum_positions n l hl hn]
    · apply Finset.sum_congr rfl
      intro p hp
      rw [sum_positions n l hl hn]
      · apply Finset.sum_congr rfl
        intro q hq
        rw [Finset.mem_range] at hp hq
        have e1 : l[p]? = some (l.getD p 0) := by simp [hp]
        have e2 : l[q]? = some (l.getD q 0) := by simp [hq]
        rw [h1 p q _ _ e1 e2]
        ring
      · intro j hj
        rw [h2 _ j (Or.inr hj)]
        ring
    · intro i hi
      apply Finset.sum_eq_zero
      intro j _
      rw [h2 i j (Or.inl hi)]
      ring
  rw [← key]
  unfold bigQuad
  rw [← Finset.sum_add_distrib]
  apply Finset.sum_congr rfl
  intro i _
  rw [← Finset.sum_add_distrib]
  apply Finset.sum_congr rfl
  intro j _
  ring

theorem phiLoop_ok (n : Nat) (L : List (Col K)) (T : Nat → Col K) {sigs : List (BSig K)} {ix : List (Option (List Nat))}
    (h : AllPoints L sigs ix) (hok : ∀ s ∈ sigs, SigOk s) (hn : ∀ o ∈ ix, ∀ l, o = some l → ∀ i ∈ l, i < n)
    (hT : ∀ o ∈ ix, ∀ l, o = some l → ∀ i ∈ l, T i = L.getD i fun _ => 0) :
    ∀ Φ : Kern K, Φ.size = n → ∃ Φ', phiLoop (sigs.zip ix) Φ = .ok Φ' ∧ Φ'.size = n ∧
      ∀ a b, bigQuad n T Φ'.mat a b = bigQuad n T Φ.mat a b + (sigs.map fun s => sigCov s a b).sum := by
  induction h with
  | nil => intro Φ hs; exact ⟨Φ, rfl, hs, fun a b => by simp⟩
  | none hb ht ih =>
    intro Φ hs
    obtain ⟨Φ', e, h1, h2⟩ := ih (fun s hs => hok s (by simp [hs])) (fun o ho => hn o (by simp [ho]))
      (fun o ho => hT o (by simp [ho])) Φ hs
    refine ⟨Φ', e, h1, ?_⟩
    intro a b
    rw [h2, List.map_cons, List.sum_cons]
    simp [sigCov, hb]
  | @some s t ix l F hb hp hnd ht ih =>
    intro Φ hs
    obtain ⟨hne, hlen, -, hsz, -⟩ := hok s (by simp) F hb
    have hl0 : l ≠ [] := by
      intro e
      have := hp.1
      rw [e, hlen] at this
      exact hne (List.length_eq_zero_iff.1 this.symm)
    have hll : l.length = F.length := hp.1.trans hlen
    obtain ⟨r, e1, hr, h3, h4⟩ := phi_step Φ s.phi l hnd hl0 (by rw [hs]; exact hn _ (by simp) l rfl) (hll ▸ hsz)
    obtain ⟨Φ', e, h1, h2⟩ := ih (fun s hs => hok s (by simp [hs])) (fun o ho => hn o (by simp [ho]))
      (fun o ho => hT o (by simp [ho])) r (hr.trans hs)
    refine ⟨Φ', ?_, h1, ?_⟩
    · rw [List.zip_cons_cons, phiLoop, if_neg hl0, e1]
      exact e
    · intro a b
      rw [h2, bigQuad_step n T Φ.mat r.mat (amat s.phi) l hnd (hn _ (by simp) l rfl) h3 h4, List.map_cons, List.sum_cons,
        ← add_assoc]
      congr 2
      simp only [sigCov, hb, quad]
      rw [← hp.1]
      have hcol : ∀ p ∈ range l.length, T (l.getD p 0) = s.basisAt.getD p fun _ => 0 := by
        intro p hpr
        rw [Finset.mem_range] at hpr
        have e1 : l[p]? = some (l.getD p 0) := by simp [hpr]
        rw [hT _ (List.mem_cons_self ..) l rfl _ (List.mem_of_getElem? e1), List.getD_eq_getElem?_getD,
          hp.2 p _ e1, ← List.getD_eq_getElem?_getD]
      apply Finset.sum_congr rfl
      intro p hpr
      apply Finset.sum_congr rfl
      intro q hqr
      rw [hcol p hpr, hcol q hqr]

/-! ## C46 -/

/-- C46 (partial): `T Phi T^T` is the sum of the signals' `F phi F^T`, if the hash tells columns apart, no
combining signal has a repeated column, and none comes after a signal whose basis varies.  Missing: the other
cases, in which it fails (`C46_varying_false`, `C46_repeated_false`). -/
theorem C46_partial (hash : Col K → H) (sigs : List (BSig K)) (hok : ∀ s ∈ sigs, SigOk s) (ho : Ordered sigs)
    (hh : HashOk hash sigs) (hb : ∃ s ∈ sigs, s.basis ≠ none) :
    ∃ n T Φ, getBasis hash sigs = .ok (some (n, T)) ∧ getPhi hash sigs = .ok (some Φ) ∧ Φ.size = n ∧
      ∀ a b, bigQuad n T Φ.mat a b = (sigs.map fun s => sigCov s a b).sum := by
  obtain ⟨L, -, hL⟩ := combine_all hash sigs [] hok ho (by
    rintro c c' (h | ⟨s, hs, F, hF, hc⟩) (h' | ⟨s', hs', F', hF', hc'⟩)
    · simp at h
    · simp at h
    · simp at h'
    · exact hh s hs s' hs' F F' hF hF' c hc c' hc')
  have hL : AllPoints L sigs (idxOf hash sigs) := hL
  have hne : ¬ ∀ o ∈ idxOf hash sigs, o = none := by
    obtain ⟨s, hs, hsb⟩ := hb
    intro h
    have gen : ∀ {sigs : List (BSig K)} {ix}, AllPoints L sigs ix → (∀ o ∈ ix, o = none) → ∀ s ∈ sigs, s.basis = none := by
      intro sigs ix h
      induction h with
      | nil => intro _ s hs; simp at hs
      | none hb ht ih =>
        intro hn s hs
        rcases List.mem_cons.1 hs with rfl | hs
        · exact hb
        · exact ih (fun o ho => hn o (by simp [ho])) s hs
      | some hb hp hnd ht ih =>
        intro hn
        exact absurd (hn _ (List.mem_cons_self ..)) (by simp)
    exact hsb (gen hL h s hs)
  have hmem : ∀ o ∈ idxOf hash sigs, ∀ l, o = some l → ∀ i ∈ l, i < ncol (idxOf hash sigs) := by
    intro o ho l hl i hi
    rw [mem_iff_lt_ncol]
    exact List.mem_flatMap.2 ⟨o, ho, by rw [hl]; exact hi⟩
  obtain ⟨T, e1, hT⟩ := basisLoop_ok (ncol (idxOf hash sigs)) L hL hok hmem fun _ _ => 0
  obtain ⟨Φ, e2, hs, hΦ⟩ := phiLoop_ok (ncol (idxOf hash sigs)) L T hL hok hmem
    (fun o ho l hl i hi => hT i (Or.inl ⟨o, ho, l, hl, hi⟩)) (Kern.zeros (ncol (idxOf hash sigs))) rfl
  refine ⟨ncol (idxOf hash sigs), T, Φ, ?_, ?_, hs, ?_⟩
  · unfold getBasis
    simp only
    rw [if_neg hne, e1]
  · unfold getPhi
    simp only
    rw [if_neg hne, e2]
  · intro a b
    rw [hΦ]
    have : bigQuad (ncol (idxOf hash sigs)) T (Kern.zeros (ncol (idxOf hash sigs))).mat a b = 0 := by
      apply Finset.sum_eq_zero
      intro i _
      apply Finset.sum_eq_zero
      intro j _
      simp [Kern.zeros, Kern.mat, diagMat]
    rw [this, zero_add]

/-- C46: a pulsar without bases has neither basis nor prior. -/
theorem C46_none (hash : Col K → H) (sigs : List (BSig K)) (hb : ∀ s ∈ sigs, s.basis = none) :
    getBasis hash sigs = .ok none ∧ getPhi hash sigs = .ok none := by
  have h : ∀ (sigs : List (BSig K)) (hl : List H) (cc : Nat), (∀ s ∈ sigs, s.basis = none) →
      ∀ o ∈ combineIdx hash sigs hl cc, o = none := by
    intro sigs
    induction sigs with
    | nil => intro hl cc _ o ho; simp [combineIdx] at ho
    | cons s t ih =>
      intro hl cc h o ho
      rw [combineIdx, h s (by simp)] at ho
      rcases List.mem_cons.1 ho with rfl | ho
      · rfl
      · exact ih hl cc (fun s hs => h s (by simp [hs])) o ho
  have := h sigs [] 0 hb
  exact ⟨if_pos this, if_pos this⟩

/-! ### Cases in which sharing changes the model -/

/-- A column with one row. -/
def c1 (x : ℚ) : Col ℚ := fun _ => x

/-- The first signal's basis varies (column 5), the second has the fixed column 7, and the third shares the
second's column. -/
def varyingFirst : List (BSig ℚ) :=
  [⟨true, true, some [c1 5], [c1 5], .one 1 fun _ => 1⟩, ⟨true, false, some [c1 7], [c1 7], .one 1 fun _ => 1⟩,
   ⟨true, false, some [c1 7], [c1 7], .one 1 fun _ => 1⟩]

/-- C46 is false when a basis that varies precedes shared columns: the shared column is looked up at the
wrong position and overwrites the varying one; the covariance is 147 instead of 123. -/
theorem C46_varying_false : ∃ n T Φ, getBasis (fun c : Col ℚ => c 0) varyingFirst = .ok (some (n, T)) ∧
    getPhi (fun c : Col ℚ => c 0) varyingFirst = .ok (some Φ) ∧ bigQuad n T Φ.mat 0 0 = 147 ∧
    (varyingFirst.map fun s => sigCov s 0 0).sum = 123 := by
  refine ⟨2, _, _, rfl, rfl, ?_, ?_⟩ <;> decide +kernel

/-- One combining signal with the column 3 twice, with prior variances 1 and 2. -/
def repeatedColumn : List (BSig ℚ) :=
  [⟨true, false, some [c1 3, c1 3], [c1 3, c1 3], .one 2 fun i => i + 1⟩]

/-- C46 is false when a combining signal repeats a column: only the last prior variance counts; the
covariance is 18 instead of 27. -/
theorem C46_repeated_false : ∃ n T Φ, getBasis (fun c : Col ℚ => c 0) repeatedColumn = .ok (some (n, T)) ∧
    getPhi (fun c : Col ℚ => c 0) repeatedColumn = .ok (some Φ) ∧ bigQuad n T Φ.mat 0 0 = 18 ∧
    (repeatedColumn.map fun s => sigCov s 0 0).sum = 27 := by
  refine ⟨1, _, _, rfl, rfl, ?_, ?_⟩ <;> decide +kernel

/-- Two signals sharing one column of two, and a varying one after them, meet the hypotheses. -/
def sharing : List (BSig ℚ) :=
  [⟨true, false, some [c1 2, c1 3], [c1 2, c1 3], .one 2 fun _ => 1⟩,
   ⟨true, false, some [c1 3, c1 4], [c1 3, c1 4], .two 2 2 fun _ _ => 1⟩,
   ⟨false, true, some [c1 3], [c1 8], .one 1 fun _ => 1⟩]

example : ∃ n T Φ, getBasis (fun c : Col ℚ => c 0) sharing = .ok (some (n, T)) ∧
    getPhi (fun c : Col ℚ => c 0) sharing = .ok (some Φ) ∧ n = 4 ∧ bigQuad n T Φ.mat 0 0 = 4 + 9 + 49 + 64 := by
  refine ⟨4, _, _, rfl, rfl, rfl, ?_⟩; decide +kernel

end Verif.Combine
