import Verif.Model.Feather
import Verif.Lemmas.Dict
import Std.Data.String.ToNat

set_option linter.unusedSectionVars false

namespace Verif.Feather

open Verif

variable {V M : Type}

/-! ### Splitting and joining -/

theorem splitU_ne_nil (l : List Char) : splitU l ≠ [] := by
  induction l with
  | nil => simp [splitU]
  | cons c t ih =>
    unfold splitU
    split
    · simp
    · split <;> simp

theorem splitU_append (x y : List Char) : splitU (x ++ '_' :: y) = splitU x ++ splitU y := by
  induction x with
  | nil => simp [splitU]
  | cons c t ih =>
    simp only [List.cons_append, splitU]
    split
    · rw [ih]; rfl
    · rw [ih]
      cases h : splitU t with
      | nil => exact absurd h (splitU_ne_nil t)
      | cons a r => rfl

theorem splitU_of_not_mem {x : List Char} (h : '_' ∉ x) : splitU x = [x] := by
  induction x with
  | nil => rfl
  | cons c t ih =>
    simp only [List.mem_cons, not_or] at h
    simp [splitU, Ne.symm h.1, ih h.2]

theorem joinU_splitU (l : List Char) : joinU (splitU l) = l := by
  induction l with
  | nil => rfl
  | cons c t ih =>
    unfold splitU
    split
    · next h =>
      subst h
      cases hs : splitU t with
      | nil => exact absurd hs (splitU_ne_nil t)
      | cons a r => rw [hs] at ih; simp [joinU, ih]
    · cases hs : splitU t with
      | nil => exact absurd hs (splitU_ne_nil t)
      | cons a r =>
        rw [hs] at ih
        cases r with
        | nil => simp only [joinU] at ih ⊢; rw [ih]
        | cons b r' => simp only [joinU, List.cons_append] at ih ⊢; rw [ih]

theorem underscore_not_mem_repr (n : Nat) : '_' ∉ (Nat.repr n).toList := by
  rw [Nat.toList_repr]; exact Nat.underscore_not_in_toDigits

theorem dropLastPart_append (r : String) (j : Nat) : dropLastPart (r ++ "_" ++ Nat.repr j) = r := by
  unfold dropLastPart
  have : (r ++ "_" ++ Nat.repr j).toList = r.toList ++ '_' :: (Nat.repr j).toList := by
    simp [String.toList_append]
  rw [this, splitU_append, splitU_of_not_mem (underscore_not_mem_repr j)]
  simp [joinU_splitU]

theorem dropFirstPart_flags (f : String) : dropFirstPart ("flags_" ++ f) = f := by
  unfold dropFirstPart
  have : ("flags_" ++ f).toList = "flags".toList ++ '_' :: f.toList := by
    simp [String.toList_append]
  rw [this, splitU_append, splitU_of_not_mem (by decide)]
  simp [joinU_splitU]

/-! ### Prefix tests -/

theorem startsWith_append (a s : String) : startsWith (a ++ s) a = true := by
  simp [startsWith, String.toList_append]

theorem startsWith_false {a b : String} (s : String) (h1 : ¬ a.toList <+: b.toList)
    (h2 : ¬ b.toList <+: a.toList) : startsWith (a ++ s) b = false := by
  simp only [startsWith, decide_eq_false_iff_not, String.toList_append]
  intro h
  rcases List.prefix_or_prefix_of_prefix h (List.prefix_append a.toList s.toList) with h | h
  · exact h2 h
  · exact h1 h

theorem filter_all {l : List (String × V)} {f : String → Bool} (h : ∀ kv ∈ l, f kv.1 = true) :
    (l.filter fun kv => f kv.1) = l := List.filter_eq_self.2 h

theorem filter_none {l : List (String × V)} {f : String → Bool} (h : ∀ kv ∈ l, f kv.1 = false) :
    (l.filter fun kv => f kv.1) = [] := List.filter_eq_nil_iff.2 fun kv hk => by simp [h kv hk]

theorem mem_vecCols {a : String} {vs : List V} {kv : String × V} (h : kv ∈ vecCols a vs) :
    ∃ i : Nat, kv.1 = a ++ "_" ++ Nat.repr i ∧ vs[i]? = some kv.2 := by
  unfold vecCols at h
  obtain ⟨vi, hvi, rfl⟩ := List.mem_map.1 h
  refine ⟨vi.2, rfl, ?_⟩
  have := List.mem_zipIdx_iff_getElem?.1 hvi
  exact this

theorem vecCols_values (a : String) (vs : List V) : (vecCols a vs).map Prod.snd = vs := by
  simp [vecCols, Function.comp_def]

theorem vecCols_keys_nodup (a : String) (vs : List V) : ((vecCols a vs).map Prod.fst).Nodup := by
  unfold vecCols
  rw [List.map_map]
  have hk : (Prod.fst ∘ fun vi : V × Nat => (a ++ "_" ++ Nat.repr vi.2, vi.1)) =
      (fun i => a ++ "_" ++ Nat.repr i) ∘ Prod.snd := rfl
  rw [hk, ← List.map_map]
  apply List.Nodup.map
  · intro i j h
    simp only at h
    have h' := congrArg String.toList h
    simp only [String.toList_append, List.append_cancel_left_eq] at h'
    exact Nat.repr_injective (String.toList_injective h')
  · rw [List.zipIdx_map_snd]
    exact List.nodup_range'

theorem mem_tenCols {a : String} {pl : List (List V)} {kv : String × V} (h : kv ∈ tenCols a pl) :
    ∃ i j : Nat, kv.1 = a ++ "_" ++ Nat.repr i ++ "_" ++ Nat.repr j ∧ i < pl.length := by
  unfold tenCols at h
  obtain ⟨ri, hri, hkv⟩ := List.mem_flatMap.1 h
  obtain ⟨j, hj, -⟩ := mem_vecCols hkv
  refine ⟨ri.2, j, hj, ?_⟩
  have := List.mem_zipIdx_iff_getElem?.1 hri
  exact (List.getElem?_eq_some_iff.1 this).1

theorem repr_prefix_inj (a : String) : Function.Injective fun i : Nat => a ++ "_" ++ Nat.repr i := by
  intro i j h
  simp only at h
  have h' := congrArg String.toList h
  simp only [String.toList_append, List.append_cancel_left_eq] at h'
  exact Nat.repr_injective (String.toList_injective h')

theorem tenCols_keys_nodup (a : String) (pl : List (List V)) :
    ((tenCols a pl).map Prod.fst).Nodup := by
  unfold tenCols
  rw [List.map_flatMap, List.nodup_flatMap]
  refine ⟨fun ri _ => vecCols_keys_nodup _ _, ?_⟩
  have hnd : (pl.zipIdx.map Prod.snd).Nodup := by
    rw [List.zipIdx_map_snd]; exact List.nodup_range'
  rw [List.Nodup, List.pairwise_map] at hnd
  refine hnd.imp ?_
  intro r r' hne
  rw [Function.onFun, List.disjoint_left]
  intro k hk hk'
  obtain ⟨kv, hkv, rfl⟩ := List.mem_map.1 hk
  obtain ⟨kv', hkv', he⟩ := List.mem_map.1 hk'
  obtain ⟨i, hi, -⟩ := mem_vecCols hkv
  obtain ⟨j, hj, -⟩ := mem_vecCols hkv'
  have := congrArg dropLastPart he
  rw [hj, hi, dropLastPart_append, dropLastPart_append] at this
  exact hne (repr_prefix_inj a this).symm

end Verif.Feather
