import Verif.Model.PtaPhi
import Verif.Props.Combine
import Verif.Lemmas.Dict
import Mathlib.Data.List.GetD

/-!
# Property C48: the prior covariance of an array
-/

set_option linter.unusedSectionVars false

namespace Verif.PtaPhi

open Verif Verif.Kernel Finset
open Verif.Combine (amat)

variable {K : Type} [Field K]

/-! ## Common signals -/

/-- The common signals of class `c` that are not coefficient based, pulsar by pulsar. -/
def members (ps : List (Bool × List PSig)) (c : Nat) : List Item :=
  ps.zipIdx.flatMap fun x => if x.1.1 = true then
    (x.1.2.filter fun s => s.common && !s.coeff && (s.cls == c)).map fun s => ⟨x.2, s.idx⟩ else []

theorem collectPsr_get (a : Nat) (l : List PSig) : ∀ (d : Dict Nat (List Item)) (c : Nat),
    (Dict.get? (collectPsr a l d) c).getD [] = (Dict.get? d c).getD [] ++
      (l.filter fun s => s.common && !s.coeff && (s.cls == c)).map (fun s => ⟨a, s.idx⟩) := by
  induction l with
  | nil => intro d c; simp [collectPsr]
  | cons s t ih =>
    intro d c
    rw [collectPsr]
    split
    · rename_i h
      rw [ih, Dict.get?_set]
      by_cases hc : s.cls = c
      · subst hc
        rw [if_pos rfl, List.filter_cons_of_pos (by simp [h.1, h.2])]
        simp
      · rw [if_neg hc, List.filter_cons_of_neg (by simp [hc])]
    · rename_i h
      rw [ih, List.filter_cons_of_neg]
      simp only [Bool.and_eq_true, Bool.not_eq_true', beq_iff_eq]
      exact fun hh => h hh.1

theorem collectPsr_nodup (a : Nat) (l : List PSig) : ∀ (d : Dict Nat (List Item)), (d.map Prod.fst).Nodup →
    ((collectPsr a l d).map Prod.fst).Nodup := by
  induction l with
  | nil => intro d h; exact h
  | cons s t ih =>
    intro d h
    rw [collectPsr]
    split
    · exact ih _ (Dict.nodup_keys_set _ _ h)
    · exact ih _ h

theorem collect_get (ps : List (Bool × List PSig)) : ∀ (a : Nat) (d : Dict Nat (List Item)) (c : Nat),
    (Dict.get? (collect ps a d) c).getD [] = (Dict.get? d c).getD [] ++
      (ps.zipIdx a).flatMap fun x => if x.1.1 = true then
        (x.1.2.filter fun s => s.common && !s.coeff && (s.cls == c)).map (fun s => ⟨x.2, s.idx⟩) else [] := by
  induction ps with
  | nil => intro a d c; simp [collect]
  | cons p t ih =>
    intro a d c
    rw [collect, ih, List.zipIdx_cons, List.flatMap_cons]
    split
    · rw [collectPsr_get, List.append_assoc]
    · simp

theorem collect_nodup (ps : List (Bool × List PSig)) : ∀ (a : Nat) (d : Dict Nat (List Item)), (d.map Prod.fst).Nodup →
    ((collect ps a d).map Prod.fst).Nodup := by
  induction ps with
  | nil => intro a d h; exact h
  | cons p t ih =>
    intro a d h
    rw [collect]
    apply ih
    split
    · exact collectPsr_nodup a _ d h
    · exact h

theorem get?_filter (d : Dict Nat (List Item)) (P : List Item → Bool) (h : (d.map Prod.fst).Nodup) (c : Nat) :
    Dict.get? (d.filter fun kv => P kv.2) c = (Dict.get? d c).filter P := by
  induction d with
  | nil => rfl
  | cons kv t ih =>
    obtain ⟨k, v⟩ := kv
    simp only [List.map_cons, List.nodup_cons] at h
    rw [Dict.get?_cons, List.filter_cons]
    by_cases hk : k = c
    · subst hk
      rw [if_pos rfl]
      by_cases hp : P v = true
      · rw [if_pos hp, Dict.get?_cons, if_pos rfl, Option.filter_some, if_pos hp]
      · have : Dict.get? t k = none := (Dict.get?_eq_none_iff t k).2 h.1
        rw [if_neg hp, ih h.2, this, Option.filter_some, if_neg hp]
        rfl
    · rw [if_neg hk]
      split
      · rw [Dict.get?_cons, if_neg hk, ih h.2]
      · exact ih h.2

/-- C48: the common signals of the array are, class by class, all common signals of the pulsars that have a
basis, leaving out coefficient-based ones and classes with a single signal. -/
theorem C48_common (ps : List (Bool × List PSig)) (c : Nat) :
    Dict.get? (commonSignals ps) c = if 1 < (members ps c).length then some (members ps c) else none := by
  have h := collect_get ps 0 [] c
  simp only [Dict.get?_nil, Option.getD_none, List.nil_append] at h
  have hn := collect_nodup ps 0 [] (by simp)
  unfold commonSignals
  rw [get?_filter _ (fun l => decide (1 < l.length)) hn]
  have hm : members ps c = (Dict.get? (collect ps 0 []) c).getD [] := h.symm
  rw [hm]
  cases Dict.get? (collect ps 0 []) c with
  | none => simp
  | some l => simp only [Option.getD_some, Option.filter_some, decide_eq_true_eq]

example :
    Dict.get? (commonSignals [(true, [⟨7, true, false, [0]⟩, ⟨8, true, false, [1]⟩]), (false, [⟨7, true, false, [5]⟩]),
      (true, [⟨7, true, true, [2]⟩, ⟨7, true, false, [3]⟩])]) 7 = some [⟨0, [0]⟩, ⟨2, [3]⟩] ∧
    Dict.get? (commonSignals [(true, [⟨8, true, false, [1]⟩])]) 8 = none := by decide +kernel

/-! ## Entries of the matrix -/

/-- The matrix with `phi p q` at the row of the `p`-th position of `l1` and the column of the `q`-th position
of `l2`, in blocks starting at `s1`, `s2`. -/
def spread (s1 : Nat) (l1 : List Nat) (s2 : Nat) (l2 : List Nat) (φ : Nat → Nat → K) (i j : Nat) : K :=
  ∑ p ∈ range l1.length, ∑ q ∈ range l2.length, if s1 + l1.getD p 0 = i ∧ s2 + l2.getD q 0 = j then φ p q else 0

theorem getD_inj {l : List Nat} (hl : l.Nodup) {p q : Nat} (hp : p < l.length) (hq : q < l.length)
    (h : l.getD p 0 = l.getD q 0) : p = q := by
  rw [List.getD_eq_getElem _ _ hp, List.getD_eq_getElem _ _ hq] at h
  exact (List.Nodup.getElem_inj_iff hl).1 h

theorem spread_at (s1 : Nat) (l1 : List Nat) (s2 : Nat) (l2 : List Nat) (φ : Nat → Nat → K) (h1 : l1.Nodup) (h2 : l2.Nodup)
    (p q a b : Nat) (hp : l1[p]? = some a) (hq : l2[q]? = some b) : spread s1 l1 s2 l2 φ (s1 + a) (s2 + b) = φ p q := by
  obtain ⟨hpl, rfl⟩ := List.getElem?_eq_some_iff.1 hp
  obtain ⟨hql, rfl⟩ := List.getElem?_eq_some_iff.1 hq
  unfold spread
  rw [Finset.sum_eq_single p, Finset.sum_eq_single q]
  · simp [hpl, hql]
  · intro q' hq' hne
    rw [if_neg]
    rintro ⟨-, h⟩
    apply hne
    apply getD_inj h2 (Finset.mem_range.1 hq') hql
    rw [List.getD_eq_getElem _ _ hql]
    omega
  · intro h; exact absurd (Finset.mem_range.2 hql) h
  · intro p' hp' hne
    apply Finset.sum_eq_zero
    intro q' _
    rw [if_neg]
    rintro ⟨h, -⟩
    apply hne
    apply getD_inj h1 (Finset.mem_range.1 hp') hpl
    rw [List.getD_eq_getElem _ _ hpl]
    omega
  · intro h; exact absurd (Finset.mem_range.2 hpl) h

theorem spread_zero (s1 : Nat) (l1 : List Nat) (s2 : Nat) (l2 : List Nat) (φ : Nat → Nat → K) (i j : Nat)
    (h : (∀ a ∈ l1, s1 + a ≠ i) ∨ (∀ b ∈ l2, s2 + b ≠ j)) : spread s1 l1 s2 l2 φ i j = 0 := by
  apply Finset.sum_eq_zero
  intro p hp
  apply Finset.sum_eq_zero
  intro q hq
  rw [if_neg]
  rintro ⟨e1, e2⟩
  rw [Finset.mem_range] at hp hq
  rw [List.getD_eq_getElem _ _ hp] at e1
  rw [List.getD_eq_getElem _ _ hq] at e2
  rcases h with h | h
  · exact h _ (List.getElem_mem hp) e1
  · exact h _ (List.getElem_mem hq) e2

/-- The cross term fits both sets of positions. -/
def CrossOk (l1 l2 : List Nat) : Arr K → Prop
  | .one m _ => m = l1.length ∧ l1.length = l2.length
  | .two p q _ => p = l1.length ∧ q = l2.length ∧ l1.length = l2.length

theorem addCross_ok (M : Nat → Nat → K) (b1 : Nat × Nat) (l1 : List Nat) (b2 : Nat × Nat) (l2 : List Nat) (X : Arr K)
    (h1 : l1.Nodup) (h2 : l2.Nodup) (r1 : ∀ i ∈ l1, i < b1.2) (r2 : ∀ i ∈ l2, i < b2.2) (hX : CrossOk l1 l2 X) :
    ∃ M', addCross M b1 l1 b2 l2 X = .ok M' ∧ ∀ i j, M' i j = M i j + spread b1.1 l1 b2.1 l2 (amat X) i j := by
  have hr : ¬ ((∃ i ∈ l1, b1.2 ≤ i) ∨ (∃ j ∈ l2, b2.2 ≤ j)) := by
    rintro (⟨i, hi, h⟩ | ⟨i, hi, h⟩)
    · exact absurd (r1 i hi) (by omega)
    · exact absurd (r2 i hi) (by omega)
  have hbc : ∀ (m p : Nat), p < m → bc m p = p := by
    intro m p h
    unfold bc
    split <;> omega
  cases X with
  | one m w =>
    obtain ⟨rfl, hl⟩ := hX
    refine ⟨put2 M ((l1.zip l2).zipIdx.map fun x =>
        (b1.1 + x.1.1, b2.1 + x.1.2, M (b1.1 + x.1.1) (b2.1 + x.1.2) + w (bc l1.length x.2))), ?_, ?_⟩
    · unfold addCross
      rw [if_neg hr]
      simp only
      rw [if_neg (by simp [hl]), if_neg (by simp [fits])]
    · intro i j
      by_cases hex : ∃ p : Nat, ∃ hp1 : p < l1.length, ∃ hp2 : p < l2.length, b1.1 + l1[p] = i ∧ b2.1 + l2[p] = j
      · obtain ⟨p, hp1, hp2, rfl, rfl⟩ := hex
        rw [spread_at _ _ _ _ _ h1 h2 p p _ _ (List.getElem?_eq_getElem hp1) (List.getElem?_eq_getElem hp2)]
        simp only [amat, if_true]
        have hz : (l1.zip l2)[p]? = some (l1[p], l2[p]) := by
          rw [List.getElem?_eq_getElem (by simp [hp1, hp2]), List.getElem_zip]
        have hkeys : (((l1.zip l2).zipIdx.map fun x => (b1.1 + x.1.1, b2.1 + x.1.2, M (b1.1 + x.1.1) (b2.1 + x.1.2) + w (bc l1.length x.2))).map
            fun w => (w.1, w.2.1)).Nodup := by
          rw [List.map_map]
          have : ((fun w : Nat × Nat × K => (w.1, w.2.1)) ∘ fun x : (Nat × Nat) × Nat =>
              (b1.1 + x.1.1, b2.1 + x.1.2, M (b1.1 + x.1.1) (b2.1 + x.1.2) + w (bc l1.length x.2))) =
              (fun y : Nat × Nat => (b1.1 + y.1, b2.1 + y.2)) ∘ Prod.fst := rfl
          rw [this, ← List.map_map, List.zipIdx_map_fst]
          apply List.Nodup.map
          · rintro ⟨a, b⟩ ⟨c, d⟩ h
            simp only [Prod.mk.injEq] at h ⊢
            omega
          · apply List.Nodup.of_map Prod.fst
            rw [List.map_fst_zip (by omega)]
            exact h1
        have := put2_mem _ M hkeys (b1.1 + l1[p], b2.1 + l2[p], M (b1.1 + l1[p]) (b2.1 + l2[p]) + w (bc l1.length p))
          (List.mem_map.2 ⟨((l1[p], l2[p]), p), List.mem_zipIdx_iff_getElem?.2 hz, rfl⟩)
        rw [this, hbc _ _ hp1]
      · rw [put2_other]
        · have : spread b1.1 l1 b2.1 l2 (amat (.one l1.length w)) i j = 0 := by
            apply Finset.sum_eq_zero
            intro p hp
            apply Finset.sum_eq_zero
            intro q hq
            rw [Finset.mem_range] at hp hq
            split
            · rename_i h
              simp only [amat]
              rw [if_neg]
              rintro rfl
              rw [List.getD_eq_getElem _ _ hp, List.getD_eq_getElem _ _ hq] at h
              exact hex ⟨p, hp, hq, h⟩
            · rfl
          rw [this, add_zero]
        · rintro v hv ⟨e1, e2⟩
          obtain ⟨x, hx, rfl⟩ := List.mem_map.1 hv
          have hx := List.mem_zipIdx_iff_getElem?.1 hx
          obtain ⟨hlt, hx⟩ := List.getElem?_eq_some_iff.1 hx
          rw [List.getElem_zip] at hx
          simp only [List.length_zip, lt_min_iff] at hlt
          refine hex ⟨x.2, hlt.1, hlt.2, ?_, ?_⟩
          · rw [← e1, ← hx]
          · rw [← e2, ← hx]
  | two p q W =>
    obtain ⟨rfl, rfl, hl⟩ := hX
    have e : (l1.zipIdx.flatMap fun x => l2.zipIdx.map fun y =>
        (b1.1 + x.1, b2.1 + y.1, M (b1.1 + x.1) (b2.1 + y.1) + W (bc l1.length x.2) (bc l2.length y.2))) =
        ((l1.map (b1.1 + ·)).zipIdx.flatMap fun x => (l2.map (b2.1 + ·)).zipIdx.map fun y =>
          (x.1, y.1, M x.1 y.1 + W (bc l1.length x.2) (bc l2.length y.2))) := by
      rw [List.zipIdx_map, List.zipIdx_map, List.flatMap_map]
      simp [List.map_map, Function.comp_def]
    have n1 : (l1.map (b1.1 + ·)).Nodup := h1.map fun a b h => by simpa using h
    have n2 : (l2.map (b2.1 + ·)).Nodup := h2.map fun a b h => by simpa using h
    refine ⟨put2 M (l1.zipIdx.flatMap fun x => l2.zipIdx.map fun y =>
        (b1.1 + x.1, b2.1 + y.1, M (b1.1 + x.1) (b2.1 + y.1) + W (bc l1.length x.2) (bc l2.length y.2))), ?_, ?_⟩
    · unfold addCross
      rw [if_neg hr]
      simp [fits]
    · intro i j
      rw [e]
      have hb := put2_block _ _ n1 n2 M (fun x y => M x.1 y.1 + W (bc l1.length x.2) (bc l2.length y.2)) i j
      by_cases hi : i ∈ l1.map (b1.1 + ·)
      · by_cases hj : j ∈ l2.map (b2.1 + ·)
        · obtain ⟨a, ha, rfl⟩ := List.mem_map.1 hi
          obtain ⟨b, hb', rfl⟩ := List.mem_map.1 hj
          obtain ⟨p, hp, rfl⟩ := List.getElem_of_mem ha
          obtain ⟨q, hq, rfl⟩ := List.getElem_of_mem hb'
          rw [hb.1 p q (by simp [hp]) (by simp [hq]), hbc _ _ hp, hbc _ _ hq,
            spread_at _ _ _ _ _ h1 h2 p q _ _ (List.getElem?_eq_getElem hp) (List.getElem?_eq_getElem hq)]
          rfl
        · rw [hb.2 (Or.inr hj), spread_zero, add_zero]
          right
          intro b hb' e
          exact hj (List.mem_map.2 ⟨b, hb', e⟩)
      · rw [hb.2 (Or.inl hi), spread_zero, add_zero]
        left
        intro b hb' e
        exact hi (List.mem_map.2 ⟨b, hb', e⟩)

/-- The contribution of a pair of items of a class. -/
def pairTerm (sl : List (Nat × Nat)) (cross : Nat → Nat → Arr K) (i j : Nat) (xy : (Item × Nat) × (Item × Nat)) : K :=
  spread (sl.getD xy.1.1.psr (0, 0)).1 xy.1.1.idx (sl.getD xy.2.1.psr (0, 0)).1 xy.2.1.idx (amat (cross xy.1.2 xy.2.2)) i j +
  spread (sl.getD xy.2.1.psr (0, 0)).1 xy.2.1.idx (sl.getD xy.1.1.psr (0, 0)).1 xy.1.1.idx (amat (cross xy.1.2 xy.2.2)) i j

/-- The positions of an item are distinct and within the span of its pulsar. -/
def ItemOk (sl : List (Nat × Nat)) (it : Item) : Prop :=
  it.idx.Nodup ∧ ∀ i ∈ it.idx, i < (sl.getD it.psr (0, 0)).2

/-- A class of well-formed items, all cross terms fitting. -/
def KlassOk (sl : List (Nat × Nat)) (c : Klass K) : Prop :=
  (∀ it ∈ c.items, ItemOk sl it) ∧ ∀ xy ∈ pairs c.items.zipIdx, CrossOk xy.1.1.idx xy.2.1.idx (c.cross xy.1.2 xy.2.2)

theorem CrossOk.symm {l1 l2 : List Nat} {X : Arr K} (h : CrossOk l1 l2 X) : CrossOk l2 l1 X := by
  cases X with
  | one m w => exact ⟨h.1.trans h.2, h.2.symm⟩
  | two p q W => exact ⟨h.1.trans h.2.2, h.2.1.trans h.2.2.symm, h.2.2.symm⟩

theorem pairLoop_ok (sl : List (Nat × Nat)) (cross : Nat → Nat → Arr K) (ps : List ((Item × Nat) × (Item × Nat))) :
    ∀ M : Nat → Nat → K, (∀ xy ∈ ps, ItemOk sl xy.1.1 ∧ ItemOk sl xy.2.1 ∧ CrossOk xy.1.1.idx xy.2.1.idx (cross xy.1.2 xy.2.2)) →
    ∃ M', pairLoop sl cross ps M = .ok M' ∧ ∀ i j, M' i j = M i j + (ps.map (pairTerm sl cross i j)).sum := by
  induction ps with
  | nil => intro M _; exact ⟨M, rfl, by simp⟩
  | cons xy t ih =>
    intro M h
    obtain ⟨x, y⟩ := xy
    obtain ⟨hx, hy, hc⟩ := h (x, y) (by simp)
    obtain ⟨M1, e1, h1⟩ := addCross_ok M (sl.getD x.1.psr (0, 0)) x.1.idx (sl.getD y.1.psr (0, 0)) y.1.idx (cross x.2 y.2)
      hx.1 hy.1 hx.2 hy.2 hc
    obtain ⟨M2, e2, h2⟩ := addCross_ok M1 (sl.getD y.1.psr (0, 0)) y.1.idx (sl.getD x.1.psr (0, 0)) x.1.idx (cross x.2 y.2)
      hy.1 hx.1 hy.2 hx.2 hc.symm
    obtain ⟨M', e, h'⟩ := ih M2 fun xy hxy => h xy (by simp [hxy])
    refine ⟨M', ?_, ?_⟩
    · rw [pairLoop, e1]
      simp only
      rw [e2]
      exact e
    · intro i j
      rw [h', h2, h1, List.map_cons, List.sum_cons]
      simp only [pairTerm]
      ring

theorem mem_pairs {α : Type} (l : List α) (x y : α) :
    (x, y) ∈ pairs l ↔ ∃ i j : Nat, i < j ∧ l[i]? = some x ∧ l[j]? = some y := by
  induction l with
  | nil => simp [pairs]
  | cons a t ih =>
    rw [pairs, List.mem_append, ih]
    constructor
    · rintro (h | ⟨i, j, hij, hi, hj⟩)
      · obtain ⟨b, hb, e⟩ := List.mem_map.1 h
        simp only [Prod.mk.injEq] at e
        obtain ⟨rfl, rfl⟩ := e
        obtain ⟨j, hj⟩ := List.mem_iff_getElem?.1 hb
        exact ⟨0, j + 1, by omega, rfl, by simpa using hj⟩
      · exact ⟨i + 1, j + 1, by omega, by simpa using hi, by simpa using hj⟩
    · rintro ⟨i, j, hij, hi, hj⟩
      cases j with
      | zero => omega
      | succ j =>
        cases i with
        | zero =>
          left
          simp only [List.getElem?_cons_zero, Option.some.injEq] at hi
          subst hi
          exact List.mem_map.2 ⟨y, List.mem_of_getElem? (by simpa using hj), rfl⟩
        | succ i => exact Or.inr ⟨i, j, by omega, by simpa using hi, by simpa using hj⟩

theorem mem_of_mem_pairs {α : Type} {l : List α} {x y : α} (h : (x, y) ∈ pairs l) : x ∈ l ∧ y ∈ l := by
  obtain ⟨i, j, -, hi, hj⟩ := (mem_pairs l x y).1 h
  exact ⟨List.mem_of_getElem? hi, List.mem_of_getElem? hj⟩

theorem klass_pairs {sl : List (Nat × Nat)} {c : Klass K} (h : KlassOk sl c) :
    ∀ xy ∈ pairs c.items.zipIdx, ItemOk sl xy.1.1 ∧ ItemOk sl xy.2.1 ∧ CrossOk xy.1.1.idx xy.2.1.idx (c.cross xy.1.2 xy.2.2) := by
  rintro ⟨x, y⟩ hxy
  obtain ⟨hx, hy⟩ := mem_of_mem_pairs hxy
  exact ⟨h.1 _ (List.mem_of_getElem? (List.mem_zipIdx_iff_getElem?.1 hx)),
    h.1 _ (List.mem_of_getElem? (List.mem_zipIdx_iff_getElem?.1 hy)), h.2 _ hxy⟩

/-- The contribution of a class. -/
def klassTerm (sl : List (Nat × Nat)) (i j : Nat) (c : Klass K) : K :=
  ((pairs c.items.zipIdx).map (pairTerm sl c.cross i j)).sum

theorem classLoop_ok (sl : List (Nat × Nat)) (cs : List (Klass K)) : ∀ M : Nat → Nat → K, (∀ c ∈ cs, KlassOk sl c) →
    ∃ M', classLoop sl cs M = .ok M' ∧ ∀ i j, M' i j = M i j + (cs.map (klassTerm sl i j)).sum := by
  induction cs with
  | nil => intro M _; exact ⟨M, rfl, by simp⟩
  | cons c t ih =>
    intro M h
    obtain ⟨M1, e1, h1⟩ := pairLoop_ok sl c.cross (pairs c.items.zipIdx) M (klass_pairs (h c (by simp)))
    obtain ⟨M2, e2, h2⟩ := ih M1 fun c hc => h c (by simp [hc])
    refine ⟨M2, by rw [classLoop, e1]; exact e2, ?_⟩
    intro i j
    rw [h2, h1, List.map_cons, List.sum_cons, ← add_assoc]
    rfl

/-- C48: with common signals the covariance is the block diagonal of the pulsars' priors plus, for every
class and pair of its signals, the cross term at the matching positions, both above and below the diagonal. -/
theorem C48_entries (phis : List (Option (Kern K))) (cs : List (Klass K)) (h0 : cs ≠ [])
    (h : ∀ c ∈ cs, KlassOk (slices phis 0) c) :
    ∃ M, getPhi phis cs = .ok (.big (total phis) M) ∧
      ∀ i j, M i j = blockDiag phis i j + (cs.map (klassTerm (slices phis 0) i j)).sum := by
  obtain ⟨M, e, hM⟩ := classLoop_ok (slices phis 0) cs (blockDiag phis) h
  refine ⟨M, ?_, hM⟩
  cases cs with
  | nil => exact absurd rfl h0
  | cons c t => simp only [getPhi, e]

/-- C48: without common signals the result is the list of the pulsars' priors. -/
theorem C48_uncorrelated (phis : List (Option (Kern K))) : getPhi phis [] = .ok (.list phis) := rfl

/-! ## Symmetry -/

theorem spread_symm (s1 : Nat) (l1 : List Nat) (s2 : Nat) (l2 : List Nat) (φ : Nat → Nat → K) (i j : Nat)
    (h : ∀ p q, p < l1.length → q < l2.length → φ p q = φ q p) : spread s1 l1 s2 l2 φ i j = spread s2 l2 s1 l1 φ j i := by
  unfold spread
  rw [Finset.sum_comm]
  apply Finset.sum_congr rfl
  intro q hq
  apply Finset.sum_congr rfl
  intro p hp
  rw [Finset.mem_range] at hp hq
  rw [h p q hp hq]
  by_cases hc : s1 + l1.getD p 0 = i ∧ s2 + l2.getD q 0 = j
  · rw [if_pos hc, if_pos hc.symm]
  · rw [if_neg hc, if_neg fun h => hc h.symm]

/-- A symmetric kernel. -/
def KernSymm (k : Kern K) : Prop := ∀ i j, i < k.size → j < k.size → entries k i j = entries k j i

theorem blockDiag_symm (phis : List (Option (Kern K))) (h : ∀ k, some k ∈ phis → KernSymm k) :
    ∀ i j, blockDiag phis i j = blockDiag phis j i := by
  induction phis with
  | nil => intro i j; rfl
  | cons o t ih =>
    intro i j
    have iht := ih fun k hk => h k (by simp [hk])
    cases o with
    | none => exact iht i j
    | some k =>
      simp only [blockDiag]
      by_cases hc : i < k.size ∧ j < k.size
      · rw [if_pos hc, if_pos hc.symm]
        exact h k (by simp) i j hc.1 hc.2
      · rw [if_neg hc, if_neg (fun h : j < k.size ∧ i < k.size => hc h.symm)]
        by_cases hd : k.size ≤ i ∧ k.size ≤ j
        · rw [if_pos hd, if_pos hd.symm]; exact iht _ _
        · rw [if_neg hd, if_neg (fun h : k.size ≤ j ∧ k.size ≤ i => hd h.symm)]

/-- C48: the covariance is symmetric if the pulsars' priors and the cross terms are. -/
theorem C48_symmetric (phis : List (Option (Kern K))) (cs : List (Klass K)) (h0 : cs ≠ [])
    (h : ∀ c ∈ cs, KlassOk (slices phis 0) c) (hk : ∀ k, some k ∈ phis → KernSymm k)
    (hX : ∀ c ∈ cs, ∀ xy ∈ pairs c.items.zipIdx, ∀ p q, p < xy.1.1.idx.length → q < xy.1.1.idx.length →
      amat (c.cross xy.1.2 xy.2.2) p q = amat (c.cross xy.1.2 xy.2.2) q p) :
    ∃ M, getPhi phis cs = .ok (.big (total phis) M) ∧ ∀ i j, M i j = M j i := by
  obtain ⟨M, e, hM⟩ := C48_entries phis cs h0 h
  refine ⟨M, e, ?_⟩
  intro i j
  rw [hM, hM, blockDiag_symm phis hk i j]
  congr 2
  apply List.map_congr_left
  intro c hc
  unfold klassTerm
  congr 1
  apply List.map_congr_left
  intro xy hxy
  obtain ⟨-, -, hco⟩ := klass_pairs (h c hc) xy hxy
  have hlen : xy.1.1.idx.length = xy.2.1.idx.length := by
    cases hcr : c.cross xy.1.2 xy.2.2 with
    | one m w => rw [hcr] at hco; exact hco.2
    | two p q W => rw [hcr] at hco; exact hco.2.2
  unfold pairTerm
  rw [add_comm]
  congr 1
  · exact spread_symm _ _ _ _ _ _ _ fun p q hp hq => hX c hc xy hxy p q (by omega) hq
  · exact spread_symm _ _ _ _ _ _ _ fun p q hp hq => hX c hc xy hxy p q hp (by omega)

/-! ## One class: the block of two pulsars -/

theorem slices_length (phis : List (Option (Kern K))) : ∀ o, (slices phis o).length = phis.length := by
  induction phis with
  | nil => intro o; rfl
  | cons k t ih => intro o; cases k <;> simp [slices, ih]

/-- Spans of later pulsars start after spans of earlier ones end. -/
theorem slices_mono (phis : List (Option (Kern K))) : ∀ (o a b : Nat), a < b → b < phis.length →
    ((slices phis o).getD a (0, 0)).1 + ((slices phis o).getD a (0, 0)).2 ≤ ((slices phis o).getD b (0, 0)).1 ∧
    o ≤ ((slices phis o).getD a (0, 0)).1 := by
  induction phis with
  | nil => intro o a b _ h; simp at h
  | cons k t ih =>
    intro o a b hab hb
    have low : ∀ (t : List (Option (Kern K))) (o c : Nat), c < t.length → o ≤ ((slices t o).getD c (0, 0)).1 := by
      intro t
      induction t with
      | nil => intro o c h; simp at h
      | cons k t ih =>
        intro o c hc
        cases c with
        | zero => cases k <;> simp [slices]
        | succ c =>
          simp only [List.length_cons] at hc
          cases k with
          | none => simpa [slices] using ih o c (by omega)
          | some k =>
            have := ih (o + k.size) c (by omega)
            simp only [slices, List.getD_cons_succ]
            omega
    cases b with
    | zero => omega
    | succ b =>
      simp only [List.length_cons] at hb
      cases a with
      | zero =>
        cases k with
        | none => have := low t o b (by omega); simp only [slices, List.getD_cons_zero, List.getD_cons_succ]; omega
        | some k => have := low t (o + k.size) b (by omega); simp only [slices, List.getD_cons_zero, List.getD_cons_succ]; omega
      | succ a =>
        cases k with
        | none => have := ih o a b (by omega) (by omega); simp only [slices, List.getD_cons_succ]; omega
        | some k => have := ih (o + k.size) a b (by omega) (by omega); simp only [slices, List.getD_cons_succ]; omega

/-- Spans of different pulsars do not meet. -/
theorem slices_disjoint (phis : List (Option (Kern K))) (a b i j : Nat) (ha : a < phis.length) (hb : b < phis.length)
    (hi : i < ((slices phis 0).getD a (0, 0)).2) (hj : j < ((slices phis 0).getD b (0, 0)).2)
    (h : ((slices phis 0).getD a (0, 0)).1 + i = ((slices phis 0).getD b (0, 0)).1 + j) : a = b := by
  rcases Nat.lt_trichotomy a b with hab | hab | hab
  · have := (slices_mono phis 0 a b hab hb).1; omega
  · exact hab
  · have := (slices_mono phis 0 b a hab ha).1; omega

/-- Entries of the block diagonal: a pulsar's own prior inside its span, zero between spans. -/
theorem blockDiag_span (phis : List (Option (Kern K))) : ∀ (o : Nat) (a b i j : Nat), a < phis.length → b < phis.length →
    i < ((slices phis o).getD a (0, 0)).2 → j < ((slices phis o).getD b (0, 0)).2 →
    blockDiag phis (((slices phis o).getD a (0, 0)).1 - o + i) (((slices phis o).getD b (0, 0)).1 - o + j) =
      if a = b then match phis.getD a none with | some k => entries k i j | none => 0 else 0 := by
  induction phis with
  | nil => intro o a b i j ha; simp at ha
  | cons k t ih =>
    intro o a b i j ha hb hi hj
    have low : ∀ (t : List (Option (Kern K))) (o c : Nat), c < t.length → o ≤ ((slices t o).getD c (0, 0)).1 := by
      intro t
      induction t with
      | nil => intro o c h; simp at h
      | cons k t ih =>
        intro o c hc
        cases c with
        | zero => cases k <;> simp [slices]
        | succ c =>
          simp only [List.length_cons] at hc
          cases k with
          | none => simpa [slices] using ih o c (by omega)
          | some k =>
            have := ih (o + k.size) c (by omega)
            simp only [slices, List.getD_cons_succ]
            omega
    simp only [List.length_cons] at ha hb
    cases k with
    | none =>
      cases a with
      | zero => simp [slices] at hi
      | succ a =>
        cases b with
        | zero => simp [slices] at hj
        | succ b =>
          simp only [slices, List.getD_cons_succ] at hi hj ⊢
          rw [blockDiag, ih o a b i j (by omega) (by omega) hi hj]
          simp
    | some k =>
      cases a with
      | zero =>
        simp only [slices, List.getD_cons_zero] at hi
        cases b with
        | zero =>
          simp only [slices, List.getD_cons_zero] at hj ⊢
          simp only [blockDiag]
          rw [if_pos (by omega)]
          simp
        | succ b =>
          simp only [slices, List.getD_cons_zero, List.getD_cons_succ] at hj ⊢
          have := low t (o + k.size) b (by omega)
          simp only [blockDiag]
          rw [if_neg (by omega), if_neg (by omega), if_neg (by omega)]
      | succ a =>
        simp only [slices, List.getD_cons_succ] at hi
        have hla := low t (o + k.size) a (by omega)
        cases b with
        | zero =>
          simp only [slices, List.getD_cons_zero, List.getD_cons_succ] at hj ⊢
          simp only [blockDiag]
          rw [if_neg (by omega), if_neg (by omega), if_neg (by omega)]
        | succ b =>
          simp only [slices, List.getD_cons_succ] at hj ⊢
          have hlb := low t (o + k.size) b (by omega)
          simp only [blockDiag]
          rw [if_neg (by omega), if_pos (by omega)]
          have e := ih (o + k.size) a b i j (by omega) (by omega) hi hj
          have e1 : ((slices t (o + k.size)).getD a (0, 0)).1 - o + i - k.size = ((slices t (o + k.size)).getD a (0, 0)).1 - (o + k.size) + i := by omega
          have e2 : ((slices t (o + k.size)).getD b (0, 0)).1 - o + j - k.size = ((slices t (o + k.size)).getD b (0, 0)).1 - (o + k.size) + j := by omega
          rw [e1, e2, e]
          simp

theorem pairs_nodup {α : Type} (l : List α) (h : l.Nodup) : (pairs l).Nodup := by
  induction l with
  | nil => simp [pairs]
  | cons a t ih =>
    rw [List.nodup_cons] at h
    rw [pairs, List.nodup_append]
    refine ⟨h.2.map fun b c e => (Prod.mk.inj e).2, ih h.2, ?_⟩
    rintro x hx y hy rfl
    obtain ⟨b, hb, rfl⟩ := List.mem_map.1 hx
    exact h.1 (mem_of_mem_pairs hy).1

theorem sum_single {α : Type} (l : List α) (hn : l.Nodup) (a : α) (ha : a ∈ l) (f : α → K)
    (h : ∀ b ∈ l, b ≠ a → f b = 0) : (l.map f).sum = f a := by
  induction l with
  | nil => simp at ha
  | cons c t ih =>
    rw [List.nodup_cons] at hn
    rw [List.map_cons, List.sum_cons]
    rcases List.mem_cons.1 ha with rfl | ha
    · have : (t.map f).sum = 0 := by
        apply List.sum_eq_zero
        intro z hz
        obtain ⟨b, hb, rfl⟩ := List.mem_map.1 hz
        exact h b (by simp [hb]) fun e => hn.1 (e ▸ hb)
      rw [this, add_zero]
    · rw [ih hn.2 ha fun b hb => h b (by simp [hb]), h c (by simp) fun e => hn.1 (e ▸ ha), zero_add]

theorem zipIdx_nodup {α : Type} (l : List α) : l.zipIdx.Nodup := by
  apply List.Nodup.of_map Prod.snd
  rw [List.zipIdx_map_snd]
  exact List.nodup_range' ..

/-- C48: with one class of common signals in different pulsars, the entry between a basis column of one
pulsar and one of another is the cross term of that pair at the matching position of both, and zero at other
columns; inside a pulsar it is the pulsar's own prior. -/
theorem C48_cross (phis : List (Option (Kern K))) (c : Klass K) (h : KlassOk (slices phis 0) c)
    (hp : ∀ it ∈ c.items, it.psr < phis.length) (hd : c.items.Pairwise fun x y => x.psr ≠ y.psr) :
    ∃ M, getPhi phis [c] = .ok (.big (total phis) M) ∧
      (∀ x y : Nat, ∀ a b : Item, c.items[x]? = some a → c.items[y]? = some b → x < y → ∀ i j,
        i < ((slices phis 0).getD a.psr (0, 0)).2 → j < ((slices phis 0).getD b.psr (0, 0)).2 →
        M (((slices phis 0).getD a.psr (0, 0)).1 + i) (((slices phis 0).getD b.psr (0, 0)).1 + j) =
          spread 0 a.idx 0 b.idx (amat (c.cross x y)) i j) ∧
      (∀ P i j, P < phis.length → i < ((slices phis 0).getD P (0, 0)).2 → j < ((slices phis 0).getD P (0, 0)).2 →
        M (((slices phis 0).getD P (0, 0)).1 + i) (((slices phis 0).getD P (0, 0)).1 + j) =
          match phis.getD P none with | some k => entries k i j | none => 0) := by
  classical
  obtain ⟨M, e, hM⟩ := C48_entries phis [c] (by simp) (by simpa using h)
  simp only [List.map_cons, List.map_nil, List.sum_cons, List.sum_nil, add_zero] at hM
  have span0 : ∀ (a b i j : Nat), a < phis.length → b < phis.length →
      i < ((slices phis 0).getD a (0, 0)).2 → j < ((slices phis 0).getD b (0, 0)).2 → 
      blockDiag phis (((slices phis 0).getD a (0, 0)).1 + i) (((slices phis 0).getD b (0, 0)).1 + j) =
      if a = b then match phis.getD a none with | some k => entries k i j | none => 0 else 0 := by
    intro a b i j ha hb hi hj
    simpa using blockDiag_span phis 0 a b i j ha hb hi hj
  -- a spread between items reaches only their pulsars
  have hz : ∀ u v : Item, u ∈ c.items → v ∈ c.items → ∀ φ : Nat → Nat → K, ∀ P Q i j, P < phis.length → Q < phis.length →
      i < ((slices phis 0).getD P (0, 0)).2 → j < ((slices phis 0).getD Q (0, 0)).2 → ¬ (u.psr = P ∧ v.psr = Q) →
      spread ((slices phis 0).getD u.psr (0, 0)).1 u.idx ((slices phis 0).getD v.psr (0, 0)).1 v.idx φ
        (((slices phis 0).getD P (0, 0)).1 + i) (((slices phis 0).getD Q (0, 0)).1 + j) = 0 := by
    intro u v hu hv φ P Q i j hP hQ hi hj hne
    apply spread_zero
    by_cases hup : u.psr = P
    · right
      intro b hb e
      exact hne ⟨hup, slices_disjoint phis v.psr Q b j (hp v hv) hQ ((h.1 v hv).2 b hb) hj e⟩
    · left
      intro a ha e
      exact hup (slices_disjoint phis u.psr P a i (hp u hu) hP ((h.1 u hu).2 a ha) hi e)
  have hdist : ∀ (x y : Nat) (a b : Item), c.items[x]? = some a → c.items[y]? = some b → a.psr = b.psr → x = y := by
    intro x y a b hx hy hab
    obtain ⟨hx', rfl⟩ := List.getElem?_eq_some_iff.1 hx
    obtain ⟨hy', rfl⟩ := List.getElem?_eq_some_iff.1 hy
    rw [List.pairwise_iff_getElem] at hd
    rcases Nat.lt_trichotomy x y with hlt | hlt | hlt
    · exact absurd hab (hd x y hx' hy' hlt)
    · exact hlt
    · exact absurd hab.symm (hd y x hy' hx' hlt)
  refine ⟨M, e, ?_, ?_⟩
  · intro x y a b hx hy hxy i j hi hj
    have ha := List.mem_of_getElem? hx
    have hb := List.mem_of_getElem? hy
    have hab : a.psr ≠ b.psr := fun e => absurd (hdist x y a b hx hy e) (by omega)
    rw [hM, span0 a.psr b.psr i j (hp a ha) (hp b hb) hi hj, if_neg hab, zero_add]
    unfold klassTerm
    have hmem : ((a, x), (b, y)) ∈ pairs c.items.zipIdx := by
      rw [mem_pairs]
      refine ⟨x, y, hxy, ?_, ?_⟩
      · simp [List.getElem?_zipIdx, hx]
      · simp [List.getElem?_zipIdx, hy]
    rw [sum_single _ (pairs_nodup _ (zipIdx_nodup _)) _ hmem]
    · unfold pairTerm
      simp only
      rw [hz b a hb ha _ a.psr b.psr i j (hp a ha) (hp b hb) hi hj (fun h => hab h.2), add_zero]
      unfold spread
      simp
    · rintro ⟨⟨u, m⟩, ⟨v, n⟩⟩ huv hne
      obtain ⟨i', j', hij, hi', hj'⟩ := (mem_pairs _ _ _).1 huv
      have hu : c.items[i']? = some u ∧ i' = m := by
        rw [List.getElem?_zipIdx, Option.map_eq_some_iff] at hi'
        obtain ⟨w, hw, e⟩ := hi'
        simp only [Prod.mk.injEq, Nat.zero_add] at e
        exact ⟨by rw [hw, e.1], e.2⟩
      have hv : c.items[j']? = some v ∧ j' = n := by
        rw [List.getElem?_zipIdx, Option.map_eq_some_iff] at hj'
        obtain ⟨w, hw, e⟩ := hj'
        simp only [Prod.mk.injEq, Nat.zero_add] at e
        exact ⟨by rw [hw, e.1], e.2⟩
      obtain ⟨hu, rfl⟩ := hu
      obtain ⟨hv, rfl⟩ := hv
      have mu := List.mem_of_getElem? hu
      have mv := List.mem_of_getElem? hv
      unfold pairTerm
      simp only
      rw [hz u v mu mv _ a.psr b.psr i j (hp a ha) (hp b hb) hi hj, hz v u mv mu _ a.psr b.psr i j (hp a ha) (hp b hb) hi hj,
        add_zero]
      · rintro ⟨h1, h2⟩
        have q1 := hdist j' x v a hv hx h1
        have q2 := hdist i' y u b hu hy h2
        omega
      · rintro ⟨h1, h2⟩
        have q1 := hdist i' x u a hu hx h1
        have q2 := hdist j' y v b hv hy h2
        subst q1 q2
        rw [hx] at hu
        rw [hy] at hv
        cases hu
        cases hv
        exact hne rfl
  · intro P i j hP hi hj
    rw [hM, span0 P P i j hP hP hi hj, if_pos rfl]
    have : klassTerm (slices phis 0) (((slices phis 0).getD P (0, 0)).1 + i) (((slices phis 0).getD P (0, 0)).1 + j) c = 0 := by
      unfold klassTerm
      apply List.sum_eq_zero
      intro z hz'
      obtain ⟨⟨⟨u, m⟩, ⟨v, n⟩⟩, huv, rfl⟩ := List.mem_map.1 hz'
      obtain ⟨i', j', hij, hi', hj'⟩ := (mem_pairs _ _ _).1 huv
      have hu : c.items[i']? = some u := by
        rw [List.getElem?_zipIdx, Option.map_eq_some_iff] at hi'
        obtain ⟨w, hw, e⟩ := hi'
        simp only [Prod.mk.injEq] at e
        rw [hw, e.1]
      have hv : c.items[j']? = some v := by
        rw [List.getElem?_zipIdx, Option.map_eq_some_iff] at hj'
        obtain ⟨w, hw, e⟩ := hj'
        simp only [Prod.mk.injEq] at e
        rw [hw, e.1]
      have hne : u.psr ≠ v.psr := fun e => absurd (hdist i' j' u v hu hv e) (by omega)
      have mu := List.mem_of_getElem? hu
      have mv := List.mem_of_getElem? hv
      unfold pairTerm
      simp only
      rw [hz u v mu mv _ P P i j hP hP hi hj fun h => hne (h.1.trans h.2.symm),
        hz v u mv mu _ P P i j hP hP hi hj fun h => hne (h.2.trans h.1.symm), add_zero]
    rw [this, add_zero]

/-- C48: at the matching columns of two pulsars the covariance is prior times overlap. -/
theorem C48_prior_times_overlap (phis : List (Option (Kern K))) (items : List Item) (prior : Arr K) (orf : Nat → Nat → K)
    (h : KlassOk (slices phis 0) ⟨items, fun x y => phicross prior (orf x y)⟩)
    (hp : ∀ it ∈ items, it.psr < phis.length) (hd : items.Pairwise fun x y => x.psr ≠ y.psr) :
    ∃ M, getPhi phis [⟨items, fun x y => phicross prior (orf x y)⟩] = .ok (.big (total phis) M) ∧
      ∀ (x y p q : Nat) (a b : Item) (i j : Nat), items[x]? = some a → items[y]? = some b → x < y → a.idx[p]? = some i →
        b.idx[q]? = some j →
        M (((slices phis 0).getD a.psr (0, 0)).1 + i) (((slices phis 0).getD b.psr (0, 0)).1 + j) =
          amat prior p q * orf x y := by
  obtain ⟨M, e, h1, -⟩ := C48_cross phis _ h hp hd
  refine ⟨M, e, ?_⟩
  intro x y p q a b i j hx hy hxy hi hj
  have ia := h.1 a (List.mem_of_getElem? hx)
  have ib := h.1 b (List.mem_of_getElem? hy)
  rw [h1 x y a b hx hy hxy i j (ia.2 i (List.mem_of_getElem? hi)) (ib.2 j (List.mem_of_getElem? hj))]
  have := spread_at 0 a.idx 0 b.idx (amat (phicross prior (orf x y))) ia.1 ib.1 p q i j hi hj
  simp only [Nat.zero_add] at this
  rw [this]
  cases prior with
  | one n v => simp only [phicross, amat]; split <;> simp
  | two n m W => rfl

/-- Two pulsars with three and two columns; the common signal uses columns 1, 2 and 0, 1. -/
example : ∃ M : Nat → Nat → ℚ, getPhi (K := ℚ) [some (.one 3 fun _ => 1), some (.one 2 fun _ => 2)]
      [⟨[⟨0, [1, 2]⟩, ⟨1, [0, 1]⟩], fun _ _ => .one 2 fun p => p + 5⟩] = .ok (.big 5 M) ∧
    M 1 3 = 5 ∧ M 3 1 = 5 ∧ M 2 4 = 6 ∧ M 1 4 = 0 ∧ M 0 3 = 0 ∧ M 4 4 = 2 := by
  refine ⟨_, rfl, ?_⟩; decide +kernel

end Verif.PtaPhi
