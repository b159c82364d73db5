import Verif.Model.WhiteNoise
import Verif.Lemmas.Dict
import Verif.Spec.Partition

/-! Helper lemmas for white noise and deterministic signals. -/

namespace Verif.WhiteNoise

open Verif

theorem mem_sortedItems {α : Type*} {d : Dict String α} (hn : (d.map Prod.fst).Nodup)
    (km : String × α) : km ∈ sortedItems d ↔ km ∈ d := by
  obtain ⟨k, m⟩ := km
  simp only [sortedItems, List.mem_filterMap, List.mem_insertionSort, Option.map_eq_some_iff,
    Prod.mk.injEq]
  constructor
  · rintro ⟨k', _, m', h, rfl, rfl⟩
    exact Dict.mem_of_get?_eq_some h
  · intro h
    exact ⟨k, List.mem_map.2 ⟨_, h, rfl⟩, m, Dict.get?_of_mem hn h, rfl, rfl⟩

theorem keys_sortedItems {α : Type*} (d : Dict String α) :
    (sortedItems d).map Prod.fst = (Dict.keys d).insertionSort (· ≤ ·) := by
  have hall : ∀ k ∈ (Dict.keys d).insertionSort (· ≤ ·), ∃ v, Dict.get? d k = some v := by
    intro k hk
    rw [List.mem_insertionSort] at hk
    by_contra hc
    have : Dict.get? d k = none := by
      cases h : Dict.get? d k with
      | none => rfl
      | some v => exact absurd ⟨v, h⟩ hc
    exact (Dict.get?_eq_none_iff d k).1 this hk
  unfold sortedItems
  generalize (Dict.keys d).insertionSort (· ≤ ·) = l at hall
  induction l with
  | nil => rfl
  | cons a t ih =>
    obtain ⟨v, hv⟩ := hall a (by simp)
    rw [List.filterMap_cons]
    simp only [hv, Option.map_some, List.map_cons, List.cons.injEq, true_and]
    exact ih fun k hk => hall k (by simp [hk])

theorem sortedItems_pairwise {α : Type*} {d : Dict String α} (hn : (d.map Prod.fst).Nodup) :
    ((sortedItems d).map Prod.fst).Pairwise (· < ·) := by
  rw [keys_sortedItems]
  have h1 : ((Dict.keys d).insertionSort (· ≤ ·)).Pairwise (· ≤ ·) :=
    List.pairwise_insertionSort _ _
  have h2 : ((Dict.keys d).insertionSort (· ≤ ·)).Nodup :=
    (List.perm_insertionSort _ _).nodup_iff.2 hn
  exact (h1.and h2).imp fun h => lt_of_le_of_ne h.1 h.2

theorem sortedItems_perm {α : Type*} {d : Dict String α} (hn : (d.map Prod.fst).Nodup) :
    (sortedItems d).Perm d := by
  have h1 : (sortedItems d).Nodup := by
    have := (sortedItems_pairwise hn).imp (fun h => ne_of_lt h)
    exact List.Nodup.of_map _ this
  have h2 : d.Nodup := List.Nodup.of_map _ hn
  exact (List.perm_ext_iff_of_nodup h1 h2).2 fun km => mem_sortedItems hn km

section
variable {K : Type*} [Field K]

theorem getElem?_ndiagStep (ndiag : String → List K) (ret : List K) (km : String × Mask) (i : Nat) :
    (ndiagStep ndiag ret km)[i]? =
      match ret[i]?, (ndiag km.1)[i]?, km.2[i]? with
      | some r, some a, some b => some (r + if b then a else 0)
      | _, _, _ => none := by
  simp only [ndiagStep, mulMask, List.getElem?_zipWith]
  cases ret[i]? <;> cases (ndiag km.1)[i]? <;> cases km.2[i]? <;> rfl

/-- Value at TOA `i` of the accumulated variance. -/
theorem getElem?_foldl_ndiag (ndiag : String → List K) (items : List (String × Mask)) (n : Nat)
    (hlen : ∀ km ∈ items, km.2.length = n) (hv : ∀ km ∈ items, (ndiag km.1).length = n)
    (ret : List K) (i : Nat) (r : K) (hr : ret[i]? = some r) (hi : i < n) :
    (items.foldl (ndiagStep ndiag) ret)[i]? =
      some (r + (items.map fun km =>
        if km.2.getD i false then (ndiag km.1).getD i 0 else 0).sum) := by
  induction items generalizing ret r with
  | nil => simp [hr]
  | cons km t ih =>
    have h1 : i < km.2.length := by rw [hlen km (by simp)]; exact hi
    have h2 : i < (ndiag km.1).length := by rw [hv km (by simp)]; exact hi
    have hs : (ndiagStep ndiag ret km)[i]? =
        some (r + if km.2.getD i false then (ndiag km.1).getD i 0 else 0) := by
      rw [getElem?_ndiagStep, hr]
      simp [h1, h2]
    rw [List.foldl_cons, ih (fun k hk => hlen k (by simp [hk])) (fun k hk => hv k (by simp [hk]))
      _ _ hs]
    simp [add_assoc]

theorem length_foldl_ndiag (ndiag : String → List K) (items : List (String × Mask)) (n : Nat)
    (hlen : ∀ km ∈ items, km.2.length = n) (hv : ∀ km ∈ items, (ndiag km.1).length = n)
    (ret : List K) (hr : ret.length = n) :
    (items.foldl (ndiagStep ndiag) ret).length = n := by
  induction items generalizing ret with
  | nil => exact hr
  | cons km t ih =>
    rw [List.foldl_cons]
    apply ih (fun k hk => hlen k (by simp [hk])) (fun k hk => hv k (by simp [hk]))
    simp [ndiagStep, mulMask, hr, hlen km (by simp), hv km (by simp)]

end

theorem length_maskSelect {α : Type*} (l : List α) (m : Mask) (h : m.length = l.length) :
    (maskSelect l m).length = maskCount m := by
  induction l generalizing m with
  | nil =>
    have : m = [] := List.length_eq_zero_iff.1 (by simpa using h)
    subst this; rfl
  | cons a t ih =>
    cases m with
    | nil => simp at h
    | cons b ms =>
      have h' : ms.length = t.length := by simpa using h
      cases b
      · simpa [maskSelect, maskCount] using ih ms h'
      · simpa [maskSelect, maskCount] using ih ms h'

theorem length_maskScatter {α : Type*} (l : List α) (m : Mask) (v : List α) :
    (maskScatter l m v).length = l.length := by
  induction l generalizing m v with
  | nil => cases m <;> simp [maskScatter]
  | cons a t ih =>
    cases m with
    | nil => simp [maskScatter]
    | cons b ms =>
      cases b
      · simp [maskScatter, ih]
      · cases v <;> simp [maskScatter, ih]

theorem getElem?_maskScatter_select {α : Type*} (l w : List α) (m : Mask)
    (hm : m.length = l.length) (hw : w.length = l.length) (i : Nat) :
    (maskScatter l m (maskSelect w m))[i]? = if m[i]? = some true then w[i]? else l[i]? := by
  induction l generalizing m w i with
  | nil =>
    have : m = [] := List.length_eq_zero_iff.1 (by simpa using hm)
    subst this; simp [maskScatter]
  | cons a t ih =>
    cases m with
    | nil => simp at hm
    | cons b ms =>
      cases w with
      | nil => simp at hw
      | cons c ws =>
        have h1 : ms.length = t.length := by simpa using hm
        have h2 : ws.length = t.length := by simpa using hw
        cases b <;> cases i <;> simp [maskScatter, maskSelect, ih ws ms h1 h2]

end Verif.WhiteNoise
