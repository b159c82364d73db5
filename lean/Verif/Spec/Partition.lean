import Verif.Model.Basic

/-! Specification vocabulary: TOAs in masks, partitions. -/

namespace Verif

/-- TOA number `i` is selected by the mask. -/
def InMask (m : Mask) (i : Nat) : Prop := m[i]? = some true

/-- The masks of `d` partition TOAs `0..n-1`: right lengths, distinct keys, every
TOA in exactly one mask. -/
structure IsPartition (n : Nat) (d : Dict String Mask) : Prop where
  length_eq : ∀ km ∈ d, km.2.length = n
  keys_nodup : (d.map Prod.fst).Nodup
  exists_unique : ∀ i, i < n → ∃! km, km ∈ d ∧ InMask km.2 i

/-- The masks of `d` are pairwise disjoint. -/
def MasksDisjoint (d : Dict String Mask) : Prop :=
  ∀ km ∈ d, ∀ km' ∈ d, ∀ i, InMask km.2 i → InMask km'.2 i → km = km'

end Verif
