import Verif.Lemmas.Dict
import Verif.Model.Mapping
import Verif.Props.Collections

/-!
# PTA and SignalCollection as dictionaries

C160.
-/

namespace Verif.Mapping

open Verif Verif.Coll

variable {α : Type} (attr : α → String) (l : List α)

/-- The model of both classes. -/
theorem pta_get (l : List ScObj) : ptaGet l = getItem ScObj.psrname l := by
  funext k
  cases k <;> rfl

theorem sc_get (c : ScObj) : scGet c = getItem SigObj.sid c.signals := by
  funext k
  cases k <;> rfl

/-! ## Names -/

theorem firstWith_unique {l : List α} (hn : (l.map attr).Nodup) {a : α} (ha : a ∈ l) : firstWith attr (attr a) l = .ok a := by
  rw [firstWith_ok]
  obtain ⟨pre, post, rfl⟩ := List.append_of_mem ha
  refine ⟨pre, post, rfl, rfl, fun y hy h => ?_⟩
  rw [List.map_append, List.nodup_append] at hn
  exact hn.2.2 _ (List.mem_map_of_mem hy) _ (List.mem_map_of_mem List.mem_cons_self) h

/-- C160: with distinct names `obj[k]` is the value of the item with key `k`, and each key has one. -/
theorem C160_items (hn : (l.map attr).Nodup) : (items attr l).map Prod.fst = keys attr l ∧ (items attr l).map Prod.snd = l ∧
    ∀ k a, getItem attr l (.str k) = .ok a ↔ (k, a) ∈ items attr l := by
  refine ⟨by simp [items, keys], by rw [items, List.map_map]; exact List.map_id l, fun k a => ?_⟩
  constructor
  · intro h
    obtain ⟨pre, post, rfl, rfl, -⟩ := (firstWith_ok attr k l a).1 h
    simp [items]
  · intro h
    simp only [items, List.mem_map, Prod.mk.injEq] at h
    obtain ⟨b, hb, rfl, rfl⟩ := h
    exact firstWith_unique attr hn hb

/-- C160: `obj[k]` raises `KeyError` if and only if `k` is not in `keys()`. -/
theorem C160_keyError (k : String) : getItem attr l (.str k) = .error .keyError ↔ k ∉ keys attr l := by
  refine (firstWith_err attr k l).trans ?_
  simp [keys]

theorem mapM_pairs {l' : List α} (h : ∀ a ∈ l', getItem attr l (.str (attr a)) = .ok a) :
    ((keys attr l').mapM fun k => do
      let v ← getItem attr l (.str k)
      return (k, v)) = .ok (items attr l') := by
  induction l' with
  | nil => rfl
  | cons a t ih =>
    have h1 := h a List.mem_cons_self
    have h2 := ih fun b hb => h b (List.mem_cons_of_mem _ hb)
    rw [keys, List.map_cons, List.mapM_cons, h1]
    rw [keys] at h2
    simp only [bind, Except.bind, pure, Except.pure] at h2 ⊢
    rw [h2]
    rfl

/-- C160: with distinct names `dict(obj)` has the items, in order. -/
theorem C160_dict (hn : (l.map attr).Nodup) : toDict attr l = .ok (items attr l) := by
  rw [toDict, mapM_pairs attr l fun a ha => firstWith_unique attr hn ha]
  show Except.ok (Dict.ofList (items attr l)) = _
  rw [Dict.ofList_of_nodup]
  rwa [(C160_items attr l hn).1]

/-! ## Iteration -/

theorem iterates_drop (get : Key → Except PyErr α) (l : List α) (h : ∀ i : Nat, get (.int i) = match l[i]? with
    | some a => .ok a
    | none => .error .indexError) (i : Nat) (xs : List α) : Iterates get i xs ↔ xs = l.drop i := by
  constructor
  · intro hi
    induction hi with
    | @stop i he =>
      rw [h] at he
      cases hl : l[i]? with
      | none => exact (List.drop_eq_nil_of_le (List.getElem?_eq_none_iff.1 hl)).symm
      | some a => rw [hl] at he; cases he
    | @next i a xs he _ ih =>
      rw [h] at he
      cases hl : l[i]? with
      | none => rw [hl] at he; cases he
      | some b =>
        rw [hl] at he
        obtain rfl := Except.ok.inj he
        obtain ⟨hlt, e⟩ := List.getElem?_eq_some_iff.1 hl
        rw [List.drop_eq_getElem_cons hlt, e, ih]
  · rintro rfl
    induction hk : l.length - i generalizing i with
    | zero =>
      rw [List.drop_eq_nil_of_le (by omega)]
      refine .stop ?_
      rw [h, List.getElem?_eq_none (by omega)]
    | succ k ih =>
      have hlt : i < l.length := by omega
      rw [List.drop_eq_getElem_cons hlt]
      refine .next ?_ (ih (i + 1) (by omega))
      rw [h, List.getElem?_eq_getElem hlt]

/-- C160: iteration gives the members, `values()`, in order. -/
theorem C160_iterate (xs : List α) : Iterates (getItem attr l) 0 xs ↔ xs = l := by
  have h := iterates_drop (getItem attr l) l (fun i => by
    simp only [getItem, pyIndex]
    rw [if_neg (by omega), if_neg (by omega)]
    simp only [Int.toNat_natCast]
    cases l[i]? <;> rfl) 0 xs
  rwa [List.drop_zero] at h

/-- C160: `a in obj` for a member: whether it is one of `values()`. -/
theorem C160_member (a : α) : Contains (getItem attr l) (.member a) ↔ a ∈ l := by
  constructor
  · rintro ⟨xs, hx, b, hb, rfl⟩
    exact (C160_iterate attr l xs).1 hx ▸ hb
  · intro h
    exact ⟨l, (C160_iterate attr l l).2 rfl, a, h, rfl⟩

/-- C160 is false for `in`: no name is in the object, also where `obj[name]` exists. -/
theorem C160_contains_false (k : String) : ¬ Contains (getItem attr l) (.str k) := by
  rintro ⟨_, _, _, _, h⟩
  exact h

/-- C160 is false for iteration: a dictionary would give the keys. -/
theorem C160_iterate_false : ∃ l : List ScObj, Iterates (ptaGet l) 0 l ∧ keys ScObj.psrname l = ["J0030+0451", "B1855+09"] := by
  refine ⟨[⟨"J0030+0451", []⟩, ⟨"B1855+09", []⟩], ?_, rfl⟩
  rw [pta_get]
  exact (C160_iterate _ _ _).2 rfl

/-- C160 is false for two models of one pulsar: `dict(pta)` has the first, `dict(pta.items())` the last. -/
theorem C160_duplicates_false (c d : ScObj) (h : c.psrname = d.psrname) :
    toDict ScObj.psrname [c, d] = .ok [(c.psrname, c)] ∧ Dict.ofList (items ScObj.psrname [c, d]) = [(c.psrname, d)] := by
  constructor
  · simp [toDict, keys, getItem, firstWith, h, bind, Except.bind, pure, Except.pure, Dict.ofList, Dict.update, Dict.set]
  · simp [items, h, Dict.ofList, Dict.update, Dict.set]

/-- C160 for two pulsars. -/
example (s : SigObj) : ∃ l : List ScObj, toDict ScObj.psrname l = .ok [("J0030+0451", ⟨"J0030+0451", [s]⟩), ("B1855+09", ⟨"B1855+09", []⟩)] ∧
    ptaGet l (.str "B1855+09") = .ok ⟨"B1855+09", []⟩ :=
  ⟨[⟨"J0030+0451", [s]⟩, ⟨"B1855+09", []⟩], C160_dict _ _ (by simp), by
    rw [pta_get]
    exact ((C160_items _ _ (by simp)).2.2 _ _).2 (by simp [items])⟩

end Verif.Mapping
