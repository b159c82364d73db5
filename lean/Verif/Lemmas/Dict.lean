import Verif.Model.Basic

/-! Helper lemmas on dictionaries and masks. -/

namespace Verif
namespace Dict

variable {κ α : Type*} [DecidableEq κ]

@[simp] theorem get?_nil (k : κ) : get? ([] : Dict κ α) k = none := rfl

theorem get?_cons (k' : κ) (v' : α) (t : Dict κ α) (k : κ) :
    get? ((k', v') :: t) k = if k' = k then some v' else get? t k := rfl

theorem get?_set_self (d : Dict κ α) (k : κ) (v : α) : get? (set d k v) k = some v := by
  induction d with
  | nil => simp [set, get?]
  | cons a t ih =>
    obtain ⟨k', v'⟩ := a
    by_cases h : k' = k <;> simp [set, get?, h, ih]

theorem get?_set_ne (d : Dict κ α) {k k' : κ} (v : α) (h : k ≠ k') :
    get? (set d k v) k' = get? d k' := by
  induction d with
  | nil => simp [set, get?, h]
  | cons a t ih =>
    obtain ⟨k₁, v₁⟩ := a
    by_cases h1 : k₁ = k
    · subst h1; simp [set, get?, h]
    · have : set ((k₁, v₁) :: t) k v = (k₁, v₁) :: set t k v := by simp [set, h1]
      rw [this, get?_cons, get?_cons, ih]

theorem get?_set (d : Dict κ α) (k k' : κ) (v : α) :
    get? (set d k v) k' = if k = k' then some v else get? d k' := by
  split
  · next h => subst h; exact get?_set_self d k v
  · next h => exact get?_set_ne d v h

theorem set_of_not_mem {d : Dict κ α} {k : κ} (v : α) (h : k ∉ d.map Prod.fst) :
    set d k v = d ++ [(k, v)] := by
  induction d with
  | nil => rfl
  | cons a t ih =>
    obtain ⟨k', v'⟩ := a
    simp only [List.map_cons, List.mem_cons, not_or] at h
    have : k' ≠ k := fun e => h.1 e.symm
    simp [set, this, ih h.2]

theorem keys_set_of_mem {d : Dict κ α} {k : κ} (v : α) (h : k ∈ d.map Prod.fst) :
    (set d k v).map Prod.fst = d.map Prod.fst := by
  induction d with
  | nil => simp at h
  | cons a t ih =>
    obtain ⟨k', v'⟩ := a
    by_cases e : k' = k
    · simp [set, e]
    · have : k ∈ t.map Prod.fst := by
        simp only [List.map_cons, List.mem_cons] at h
        rcases h with h | h
        · exact absurd h.symm e
        · exact h
      simp [set, e, ih this]

theorem mem_keys_set (d : Dict κ α) (k : κ) (v : α) (k' : κ) :
    k' ∈ (set d k v).map Prod.fst ↔ k' = k ∨ k' ∈ d.map Prod.fst := by
  by_cases h : k ∈ d.map Prod.fst
  · rw [keys_set_of_mem v h]
    constructor
    · exact Or.inr
    · rintro (rfl | h')
      · exact h
      · exact h'
  · rw [set_of_not_mem v h]; simp [or_comm]

theorem nodup_keys_set {d : Dict κ α} (k : κ) (v : α) (h : (d.map Prod.fst).Nodup) :
    ((set d k v).map Prod.fst).Nodup := by
  by_cases hk : k ∈ d.map Prod.fst
  · rw [keys_set_of_mem v hk]; exact h
  · rw [set_of_not_mem v hk]
    rw [List.map_append, List.nodup_append]
    refine ⟨h, by simp, ?_⟩
    intro a ha b hb
    simp at hb
    subst hb
    rintro rfl
    exact hk ha

theorem nodup_keys_update {d : Dict κ α} (e : List (κ × α)) (h : (d.map Prod.fst).Nodup) :
    ((update d e).map Prod.fst).Nodup := by
  induction e generalizing d with
  | nil => exact h
  | cons a t ih => exact ih (nodup_keys_set a.1 a.2 h)

theorem update_append_of_fresh {d : Dict κ α} {e : List (κ × α)}
    (hn : (e.map Prod.fst).Nodup) (hd : ∀ k ∈ e.map Prod.fst, k ∉ d.map Prod.fst) :
    update d e = d ++ e := by
  induction e generalizing d with
  | nil => simp [update]
  | cons a t ih =>
    obtain ⟨k, v⟩ := a
    simp only [List.map_cons, List.nodup_cons] at hn
    have h1 : k ∉ d.map Prod.fst := hd k (by simp)
    have : update d ((k, v) :: t) = update (set d k v) t := rfl
    rw [this, set_of_not_mem v h1, ih hn.2]
    · simp
    · intro k' hk'
      have : k' ≠ k := by rintro rfl; exact hn.1 hk'
      have := hd k' (by simp at hk' ⊢; exact Or.inr hk')
      simp_all

theorem ofList_of_nodup {e : List (κ × α)} (hn : (e.map Prod.fst).Nodup) : ofList e = e := by
  have := update_append_of_fresh (d := []) hn (by simp)
  simpa [ofList] using this

theorem get?_eq_none_iff (d : Dict κ α) (k : κ) : get? d k = none ↔ k ∉ d.map Prod.fst := by
  induction d with
  | nil => simp
  | cons a t ih =>
    obtain ⟨k', v'⟩ := a
    by_cases e : k' = k
    · simp [get?, e]
    · have e' : k ≠ k' := fun h => e h.symm
      simp only [get?, e, if_false, ih, List.map_cons, List.mem_cons, e', false_or]

theorem mem_of_get?_eq_some {d : Dict κ α} {k : κ} {v : α} (h : get? d k = some v) :
    (k, v) ∈ d := by
  induction d with
  | nil => simp at h
  | cons a t ih =>
    obtain ⟨k', v'⟩ := a
    by_cases e : k' = k
    · simp [get?, e] at h; simp [e, h]
    · simp [get?, e] at h; exact List.mem_cons_of_mem _ (ih h)

theorem get?_of_mem {d : Dict κ α} {k : κ} {v : α} (hn : (d.map Prod.fst).Nodup)
    (h : (k, v) ∈ d) : get? d k = some v := by
  induction d with
  | nil => simp at h
  | cons a t ih =>
    obtain ⟨k', v'⟩ := a
    simp only [List.map_cons, List.nodup_cons] at hn
    rcases List.mem_cons.1 h with h | h
    · cases h; simp [get?]
    · have : k' ≠ k := by
        rintro rfl
        exact hn.1 (List.mem_map.2 ⟨_, h, rfl⟩)
      simp [get?, this, ih hn.2 h]

theorem get?_update_of_nodup (d : Dict κ α) (e : List (κ × α)) (hn : (e.map Prod.fst).Nodup)
    (k : κ) : get? (update d e) k = (get? e k).or (get? d k) := by
  induction e generalizing d with
  | nil => simp [update]
  | cons a t ih =>
    obtain ⟨k', v'⟩ := a
    simp only [List.map_cons, List.nodup_cons] at hn
    have : update d ((k', v') :: t) = update (set d k' v') t := rfl
    rw [this, ih _ hn.2, get?_set, get?_cons]
    by_cases h : k' = k
    · subst h
      have : get? t k' = none := (get?_eq_none_iff t k').2 hn.1
      simp [this]
    · simp [h]

end Dict
end Verif
