import Verif.Model.PulsarData
import Verif.Spec.PulsarData
import Verif.Lemmas.Dict
import Verif.Lemmas.WhiteNoise

/-! Helper lemmas for the pulsar arrays. -/

set_option linter.unusedSectionVars false

namespace Verif.PulsarData

open Verif

theorem gather_nil {α : Type} (arr : List α) : gather arr [] = .ok [] := rfl

theorem gather_cons {α : Type} (arr : List α) (i : Nat) (t : List Nat) :
    gather arr (i :: t) = match arr[i]? with
      | none => .error .indexError
      | some a => match gather arr t with
        | .ok l => .ok (a :: l)
        | .error e => .error e := by
  unfold gather
  rw [List.mapM_cons]
  cases arr[i]? with
  | none => rfl
  | some a =>
    generalize hg : List.mapM (fun i => match arr[i]? with
        | some a => Except.ok a
        | none => Except.error PyErr.indexError) t = r
    cases r <;> rfl

theorem gather_ok_iff {α : Type} (arr : List α) (idx : List Nat) (out : List α) :
    gather arr idx = .ok out ↔ Picks arr idx out := by
  unfold Picks
  induction idx generalizing out with
  | nil =>
    rw [gather_nil]
    constructor
    · intro h; cases h; rfl
    · intro h; cases out with
      | nil => rfl
      | cons a t => simp at h
  | cons i t ih =>
    rw [gather_cons, List.map_cons]
    cases h : arr[i]? with
    | none =>
      constructor
      · intro hh; cases hh
      · intro hh; cases out <;> simp at hh
    | some a =>
      cases out with
      | nil =>
        constructor
        · intro hh
          cases hg : gather arr t <;> simp [hg] at hh
        · intro hh; simp at hh
      | cons o os =>
        rw [List.map_cons, List.cons.injEq, ← ih]
        cases hg : gather arr t with
        | error e => simp
        | ok l => simp [eq_comm]

theorem Picks.length_eq {α : Type} {raw : List α} {q : List Nat} {out : List α}
    (h : Picks raw q out) : out.length = q.length := by
  have := congrArg List.length h; simpa using this

theorem Picks.getElem? {α : Type} {raw : List α} {q : List Nat} {out : List α}
    (h : Picks raw q out) (k : Nat) : out[k]? = (q[k]?).bind fun i => raw[i]? := by
  have := congrArg (fun l => l[k]?) h
  simp only [List.getElem?_map] at this
  cases h1 : out[k]? <;> cases h2 : q[k]? <;> simp [h1, h2] at this ⊢
  exact this

theorem picks_of_getElem? {α : Type} {raw : List α} {q : List Nat} {out : List α}
    (hlen : out.length = q.length) (h : ∀ (k : Nat), out[k]? = (q[k]?).bind fun i => raw[i]?) :
    Picks raw q out := by
  apply List.ext_getElem?
  intro k
  simp only [List.getElem?_map]
  have hk := h k
  by_cases hlt : k < q.length
  · rw [List.getElem?_eq_getElem hlt] at hk ⊢
    rw [List.getElem?_eq_getElem (hlen ▸ hlt)] at hk ⊢
    simp only [Option.bind_some] at hk
    show some (some _) = some _
    rw [hk]
  · rw [List.getElem?_eq_none (by omega), List.getElem?_eq_none (by omega)]; rfl

theorem picks_exists {α : Type} (raw : List α) (q : List Nat) (h : ∀ i ∈ q, i < raw.length) :
    ∃ out, Picks raw q out := by
  induction q with
  | nil => exact ⟨[], rfl⟩
  | cons i t ih =>
    obtain ⟨o, ho⟩ := ih fun i hi => h i (by simp [hi])
    refine ⟨raw[i]'(h i (by simp)) :: o, ?_⟩
    have : o.map some = t.map fun i => raw[i]? := ho
    simp [Picks, this]

theorem picks_range {α : Type} (raw : List α) : Picks raw (List.range raw.length) raw := by
  apply picks_of_getElem? (by simp)
  intro k
  by_cases h : k < raw.length
  · simp [h]
  · rw [List.getElem?_eq_none (by omega), List.getElem?_eq_none (by simp; omega)]; rfl

/-- Reading through two index lists. -/
theorem Picks.trans {α : Type} {raw mid out : List α} {q1 q2 : List Nat} {q : List Nat}
    (h1 : Picks raw q1 mid) (h2 : Picks mid q2 out) (hq : Picks q1 q2 q) : Picks raw q out := by
  apply picks_of_getElem? (by rw [h2.length_eq, hq.length_eq])
  intro k
  rw [h2.getElem?, hq.getElem?, Option.bind_assoc]
  congr 1; funext i
  exact h1.getElem? i

section sort
variable {K V : Type} [Field K] [LinearOrder K]

instance (t : Nat → K) : Std.Total (lexLe t) := ⟨fun i j => by
  unfold lexLe
  rcases lt_trichotomy (t i) (t j) with h | h | h
  · exact Or.inl (Or.inl h)
  · rcases le_total i j with h' | h'
    · exact Or.inl (Or.inr ⟨h, h'⟩)
    · exact Or.inr (Or.inr ⟨h.symm, h'⟩)
  · exact Or.inr (Or.inl h)⟩

instance (t : Nat → K) : IsTrans Nat (lexLe t) := ⟨fun i j k h1 h2 => by
  unfold lexLe at *
  rcases h1 with h1 | ⟨e1, l1⟩ <;> rcases h2 with h2 | ⟨e2, l2⟩
  · exact Or.inl (h1.trans h2)
  · exact Or.inl (e2 ▸ h1)
  · exact Or.inl (e1 ▸ h2)
  · exact Or.inr ⟨e1.trans e2, l1.trans l2⟩⟩

theorem perm_argsortStable (toas : List K) : (argsortStable toas).Perm (List.range toas.length) :=
  List.perm_insertionSort _ _

theorem pairwise_argsortStable (toas : List K) :
    (argsortStable toas).Pairwise (lexLe fun i => toas.getD i 0) :=
  List.pairwise_insertionSort _ _

theorem nodup_argsortStable (toas : List K) : (argsortStable toas).Nodup :=
  (perm_argsortStable toas).nodup_iff.2 List.nodup_range

theorem mem_argsortStable (toas : List K) (i : Nat) : i ∈ argsortStable toas ↔ i < toas.length := by
  rw [(perm_argsortStable toas).mem_iff, List.mem_range]

theorem length_argsortStable (toas : List K) : (argsortStable toas).length = toas.length := by
  rw [(perm_argsortStable toas).length_eq, List.length_range]

theorem argsortStable_of_sorted {toas : List K} (h : toas.Pairwise (· ≤ ·)) :
    argsortStable toas = List.range toas.length := by
  apply List.Perm.eq_of_pairwise _ (pairwise_argsortStable toas) _ (perm_argsortStable toas)
  · intro i j _ _ h1 h2
    unfold lexLe at h1 h2
    rcases h1 with h1 | ⟨e1, l1⟩ <;> rcases h2 with h2 | ⟨e2, l2⟩
    · exact absurd h1 (not_lt.2 h2.le)
    · exact absurd h1 (not_lt.2 e2.le)
    · exact absurd h2 (not_lt.2 e1.le)
    · omega
  · rw [List.pairwise_iff_getElem]
    intro i j hi hj hij
    simp only [List.length_range] at hi hj
    have := List.pairwise_iff_getElem.1 h i j hi hj hij
    simp only [List.getElem_range, lexLe, List.getD_eq_getElem?_getD, List.getElem?_eq_getElem hi,
      List.getElem?_eq_getElem hj, Option.getD_some]
    rcases this.lt_or_eq with h | h
    · exact Or.inl h
    · exact Or.inr ⟨h, hij.le⟩

theorem timeOrdered_argsort (toas : List K) :
    TimeOrdered toas (fun _ => True) (argsortStable toas) := by
  refine ⟨nodup_argsortStable _, ?_, ?_⟩
  · intro i
    rw [mem_argsortStable]
    constructor
    · intro h; exact ⟨toas[i], by simp [h], trivial⟩
    · rintro ⟨t, ht, -⟩; exact (List.getElem?_eq_some_iff.1 ht).1
  · intro a b i j hab ha hb
    obtain ⟨hal, hai⟩ := List.getElem?_eq_some_iff.1 ha
    obtain ⟨hbl, hbj⟩ := List.getElem?_eq_some_iff.1 hb
    have hp := List.pairwise_iff_getElem.1 (pairwise_argsortStable toas) a b hal hbl hab
    rw [hai, hbj] at hp
    have hi : i < toas.length := (mem_argsortStable toas i).1 (hai ▸ List.getElem_mem hal)
    have hj : j < toas.length := (mem_argsortStable toas j).1 (hbj ▸ List.getElem_mem hbl)
    refine ⟨toas[i], toas[j], by simp [hi], by simp [hj], ?_⟩
    have hne : i ≠ j := by
      intro h
      have := (nodup_argsortStable toas).getElem_inj_iff (hi := hal) (hj := hbl)
      rw [hai, hbj] at this
      omega
    unfold lexLe at hp
    simp only [List.getD_eq_getElem?_getD, List.getElem?_eq_getElem hi,
      List.getElem?_eq_getElem hj, Option.getD_some] at hp
    rcases hp with h | ⟨h, h'⟩
    · exact Or.inl h
    · exact Or.inr ⟨h, by omega⟩

/-- The loop building the inverse permutation. -/
theorem getElem?_invFold (l : List Nat) (k : Nat) (acc : List Nat) (hn : l.Nodup)
    (hb : ∀ i ∈ l, i < acc.length) (i : Nat) :
    ((l.zipIdx k).foldl (fun acc pi => acc.set pi.1 pi.2) acc)[i]? =
      if i ∈ l then some (k + l.idxOf i) else acc[i]? := by
  induction l generalizing k acc with
  | nil => simp
  | cons p t ih =>
    rw [List.zipIdx_cons, List.foldl_cons, ih _ _ (List.nodup_cons.1 hn).2
      (fun j hj => by simpa using hb j (by simp [hj]))]
    have hp := (List.nodup_cons.1 hn).1
    by_cases hit : i ∈ t
    · have hne : p ≠ i := fun h => hp (h ▸ hit)
      simp [hit, List.idxOf_cons_ne _ hne]; omega
    · by_cases hpi : p = i
      · subst hpi
        have := hb p (by simp)
        simp [hit, this]
      · simp [hit, List.getElem?_set_ne hpi, Ne.symm hpi]

theorem length_invFold (l : List (Nat × Nat)) (acc : List Nat) :
    (l.foldl (fun acc pi => acc.set pi.1 pi.2) acc).length = acc.length := by
  induction l generalizing acc with
  | nil => rfl
  | cons p t ih => rw [List.foldl_cons, ih]; simp

theorem length_invPerm (l : List Nat) : (invPerm l).length = l.length := by
  unfold invPerm; rw [length_invFold]; simp

theorem getElem?_invPerm {l : List Nat} (hp : l.Perm (List.range l.length)) (i : Nat) :
    (invPerm l)[i]? = if i < l.length then some (l.idxOf i) else none := by
  have hn : l.Nodup := hp.nodup_iff.2 List.nodup_range
  have hm : ∀ i, i ∈ l ↔ i < l.length := fun i => by rw [hp.mem_iff, List.mem_range]
  unfold invPerm
  rw [getElem?_invFold l 0 _ hn (fun i hi => by simpa using (hm i).1 hi)]
  by_cases h : i < l.length
  · simp [h, (hm i).2 h]
  · simp [h, mt (hm i).1 h]

theorem picks_inv_comp {l : List Nat} (hp : l.Perm (List.range l.length)) :
    Picks l (invPerm l) (List.range l.length) := by
  have hm : ∀ i, i ∈ l ↔ i < l.length := fun i => by rw [hp.mem_iff, List.mem_range]
  apply picks_of_getElem? (by rw [length_invPerm]; simp)
  intro k
  rw [getElem?_invPerm hp]
  by_cases h : k < l.length
  · have hk := (hm k).2 h
    simp [h, List.getElem?_eq_getElem (List.idxOf_lt_length_of_mem hk)]
  · simp [h]

theorem picks_comp_inv {l : List Nat} (hp : l.Perm (List.range l.length)) :
    Picks (invPerm l) l (List.range l.length) := by
  have hm : ∀ i, i ∈ l ↔ i < l.length := fun i => by rw [hp.mem_iff, List.mem_range]
  have hn : l.Nodup := hp.nodup_iff.2 List.nodup_range
  apply picks_of_getElem? (by simp)
  intro k
  by_cases h : k < l.length
  · rw [List.getElem?_eq_getElem h]
    simp only [Option.bind_some, getElem?_invPerm hp]
    have := (hm l[k]).1 (List.getElem_mem h)
    simp [h, this, hn.idxOf_getElem]
  · rw [List.getElem?_eq_none (by simp; omega), List.getElem?_eq_none (by omega)]; rfl

end sort

theorem picks_maskSelect {α : Type} (l : List α) (m : Mask) (k : Nat) (pre : List α)
    (hk : pre.length = k) (h : m.length = l.length) :
    (maskSelect l m).map some = (maskIdxFrom k m).map fun i => (pre ++ l)[i]? := by
  induction m generalizing l k pre with
  | nil => cases l <;> simp_all [maskSelect, maskIdxFrom]
  | cons b t ih =>
    cases l with
    | nil => simp at h
    | cons a as =>
      have h' : t.length = as.length := by simpa using h
      have := ih as (k + 1) (pre ++ [a]) (by simp [hk]) h'
      simp only [List.append_assoc, List.singleton_append] at this
      cases b with
      | true => simp [maskSelect, maskIdxFrom, this, ← hk]
      | false => simp [maskSelect, maskIdxFrom, this]

theorem picks_mask {α : Type} {l : List α} {m : Mask} (h : m.length = l.length) :
    Picks l (maskIdx m) (maskSelect l m) := by
  have := picks_maskSelect l m 0 [] rfl h
  simpa [Picks, maskIdx] using this

theorem mem_maskIdxFrom (m : Mask) (k i : Nat) :
    i ∈ maskIdxFrom k m ↔ ∃ (j : Nat), i = k + j ∧ m[j]? = some true := by
  induction m generalizing k with
  | nil => simp [maskIdxFrom]
  | cons b t ih =>
    have key : (∃ (j : Nat), i = k + j ∧ (b :: t)[j]? = some true) ↔
        (i = k ∧ b = true) ∨ ∃ (j : Nat), i = k + 1 + j ∧ t[j]? = some true := by
      constructor
      · rintro ⟨j, hj, hb⟩
        cases j with
        | zero => left; simpa using And.intro hj hb
        | succ j => right; exact ⟨j, by omega, by simpa using hb⟩
      · rintro (⟨h1, h2⟩ | ⟨j, h1, h2⟩)
        · exact ⟨0, by simpa using h1, by simp [h2]⟩
        · exact ⟨j + 1, by omega, by simpa using h2⟩
    rw [key, ← ih]
    cases b <;> simp [maskIdxFrom]

theorem mem_maskIdx (m : Mask) (i : Nat) : i ∈ maskIdx m ↔ m[i]? = some true := by
  unfold maskIdx; rw [mem_maskIdxFrom]
  constructor
  · rintro ⟨j, h1, h2⟩; simpa [h1] using h2
  · intro h; exact ⟨i, by simp, h⟩

theorem pairwise_maskIdxFrom (m : Mask) (k : Nat) : (maskIdxFrom k m).Pairwise (· < ·) := by
  induction m generalizing k with
  | nil => exact List.Pairwise.nil
  | cons b t ih =>
    cases b with
    | true =>
      rw [maskIdxFrom, List.pairwise_cons]
      refine ⟨?_, ih _⟩
      intro j hj
      obtain ⟨x, hx, -⟩ := (mem_maskIdxFrom t (k+1) j).1 hj
      omega
    | false => exact ih _

theorem pairwise_maskIdx (m : Mask) : (maskIdx m).Pairwise (· < ·) := pairwise_maskIdxFrom m 0

/-- Time order is inherited through a mask. -/
theorem timeOrdered_comp {K : Type} [LinearOrder K] {raw mid : List K} {P : K → Prop}
    {q1 q2 q : List Nat}
    (hinc : q1.Pairwise (· < ·)) (hmem : ∀ i, i ∈ q1 ↔ ∃ t, raw[i]? = some t ∧ P t)
    (h1 : Picks raw q1 mid) (h2 : TimeOrdered mid (fun _ => True) q2) (hq : Picks q1 q2 q) :
    TimeOrdered raw P q := by
  obtain ⟨hn2, hm2, ho2⟩ := h2
  have hmid : ∀ (k : Nat), mid[k]? = (q1[k]?).bind fun i => raw[i]? := h1.getElem?
  have hord : ∀ (a b i j : Nat), a < b → q[a]? = some i → q[b]? = some j →
      ∃ ti tj, raw[i]? = some ti ∧ raw[j]? = some tj ∧ (ti < tj ∨ (ti = tj ∧ i < j)) := by
    intro a b i j hab ha hb
    rw [hq.getElem?] at ha hb
    obtain ⟨a', ha1, ha2⟩ := Option.bind_eq_some_iff.1 ha
    obtain ⟨b', hb1, hb2⟩ := Option.bind_eq_some_iff.1 hb
    obtain ⟨ti, tj, hti, htj, h⟩ := ho2 a b a' b' hab ha1 hb1
    rw [hmid, ha2] at hti
    rw [hmid, hb2] at htj
    refine ⟨ti, tj, hti, htj, ?_⟩
    rcases h with h | ⟨h, h'⟩
    · exact Or.inl h
    · refine Or.inr ⟨h, ?_⟩
      obtain ⟨hal, rfl⟩ := List.getElem?_eq_some_iff.1 ha2
      obtain ⟨hbl, rfl⟩ := List.getElem?_eq_some_iff.1 hb2
      exact List.pairwise_iff_getElem.1 hinc a' b' hal hbl h'
  refine ⟨?_, ?_, hord⟩
  · rw [List.Nodup, List.pairwise_iff_getElem]
    intro a b hal hbl hab heq
    obtain ⟨ti, tj, hti, htj, h⟩ := hord a b q[a] q[b] hab (by simp [hal]) (by simp [hbl])
    rw [heq] at hti h
    rw [hti] at htj
    cases htj
    rcases h with h | h
    · exact lt_irrefl _ h
    · exact lt_irrefl _ h.2
  · intro i
    rw [← hmem]
    constructor
    · intro hi
      obtain ⟨a, hal, rfl⟩ := List.getElem_of_mem hi
      have := hq.getElem? a
      rw [List.getElem?_eq_getElem hal] at this
      obtain ⟨k, -, hk⟩ := Option.bind_eq_some_iff.1 this.symm
      exact List.mem_of_getElem? hk
    · intro hi
      obtain ⟨k, hkl, rfl⟩ := List.getElem_of_mem hi
      have hkm : k < mid.length := by rw [h1.length_eq]; exact hkl
      obtain ⟨a, hal, hak⟩ := List.getElem_of_mem ((hm2 k).2 ⟨mid[k], by simp [hkm], trivial⟩)
      have := hq.getElem? a
      rw [List.getElem?_eq_getElem hal, hak] at this
      simp only [Option.bind_some, List.getElem?_eq_getElem hkl] at this
      exact List.mem_of_getElem? this

theorem String_trunc_of_le {w : Nat} {s : String} (h : s.toList.length ≤ w) : trunc w s = s := by
  unfold trunc; rw [List.take_of_length_le h]; exact String.ofList_toList

end Verif.PulsarData
