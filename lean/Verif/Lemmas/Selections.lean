import Verif.Model.Selections
import Verif.Lemmas.Dict
import Verif.Spec.Partition

/-! Helper lemmas for the selection functions. -/

namespace Verif.Selections

open Verif

theorem mem_npUnique (l : List String) (a : String) : a ∈ npUnique l ↔ a ∈ l := by
  simp [npUnique]

theorem nodup_npUnique (l : List String) : (npUnique l).Nodup :=
  (List.perm_insertionSort _ _).nodup_iff.2 (List.nodup_dedup l)

theorem pairwise_npUnique (l : List String) : (npUnique l).Pairwise (· < ·) := by
  have h1 : (npUnique l).Pairwise (· ≤ ·) := List.pairwise_insertionSort _ _
  have h2 := nodup_npUnique l
  exact (h1.and h2).imp fun h => lt_of_le_of_ne h.1 h.2

theorem inMask_eqMask (flags : List String) (v : String) (i : Nat) :
    InMask (eqMask flags v) i ↔ flags[i]? = some v := by
  simp [InMask, eqMask]

theorem maskDict_eq (flags vals : List String) (h : vals.Nodup) :
    maskDict flags vals = vals.map fun v => (v, eqMask flags v) := by
  apply Dict.ofList_of_nodup
  simpa [Function.comp_def] using h

theorem nodup_filterNames (names vals : List String) (h : vals.Nodup) :
    (filterNames names vals).Nodup := h.filter _

end Verif.Selections
