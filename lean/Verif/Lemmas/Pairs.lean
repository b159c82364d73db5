import Verif.Model.PtaPhi
import Mathlib.Data.Real.Basic
import Mathlib.Algebra.BigOperators.Group.List.Basic
import Mathlib.Tactic.Ring

/-!
Sums over the pairs of a list, and over its classes.
-/

namespace Verif.PtaPhi

variable {α β : Type}

theorem double_sum (l : List α) (f : α → α → ℝ) :
    (l.map fun x => (l.map (f x)).sum).sum =
      (l.map fun x => f x x).sum + ((pairs l).map fun z => f z.1 z.2 + f z.2 z.1).sum := by
  induction l with
  | nil => simp [pairs]
  | cons a t ih =>
    simp only [pairs, List.map_cons, List.sum_cons, List.map_append, List.sum_append, List.map_map, Function.comp_def,
      List.sum_map_add]
    rw [List.sum_map_add] at ih
    rw [ih]
    ring

theorem pairs_map (f : α → β) (l : List α) : pairs (l.map f) = (pairs l).map (Prod.map f f) := by
  induction l with
  | nil => rfl
  | cons a t ih =>
    simp only [pairs, List.map_cons, List.map_append, List.map_map, ih]
    rfl

theorem sum_pick (K : List Nat) (hK : K.Nodup) (d : Nat) (hd : d ∈ K) (f : Nat → ℝ) :
    (K.map fun c => if d = c then f c else 0).sum = f d := by
  induction K with
  | nil => simp at hd
  | cons a t ih =>
    rw [List.nodup_cons] at hK
    rw [List.map_cons, List.sum_cons]
    rcases List.mem_cons.1 hd with rfl | h
    · rw [if_pos rfl]
      have : (t.map fun c => if d = c then f c else 0) = t.map fun _ => 0 := by
        apply List.map_congr_left
        intro c hc
        rw [if_neg]
        rintro rfl
        exact hK.1 hc
      rw [this]
      simp
    · rw [if_neg (by rintro rfl; exact hK.1 h), ih hK.2 h, zero_add]

theorem classes_sum (K : List Nat) (hK : K.Nodup) (cls : α → Option Nat) (l : List α)
    (h : ∀ x ∈ l, ∀ c, cls x = some c → c ∈ K) (f : α → ℝ) :
    (l.map f).sum = ((l.filter fun x => decide (cls x = none)).map f).sum +
      (K.map fun c => ((l.filter fun x => decide (cls x = some c)).map f).sum).sum := by
  induction l with
  | nil => simp
  | cons a t ih =>
    replace ih := ih fun x hx => h x (by simp [hx])
    cases ha : cls a with
    | none =>
      rw [List.filter_cons_of_pos (by simp [ha]), List.map_cons, List.sum_cons, List.map_cons, List.sum_cons, ih]
      have : ∀ c, (a :: t).filter (fun x => decide (cls x = some c)) = t.filter fun x => decide (cls x = some c) := by
        intro c
        rw [List.filter_cons_of_neg (by simp [ha])]
      simp only [this]
      ring
    | some d =>
      rw [List.filter_cons_of_neg (by simp [ha]), List.map_cons, List.sum_cons, ih]
      have : ∀ c, (((a :: t).filter fun x => decide (cls x = some c)).map f).sum =
          (if d = c then f a else 0) + ((t.filter fun x => decide (cls x = some c)).map f).sum := by
        intro c
        by_cases hc : d = c
        · rw [List.filter_cons_of_pos (by simp [ha, hc]), if_pos hc, List.map_cons, List.sum_cons]
        · rw [List.filter_cons_of_neg (by simp [ha, hc]), if_neg hc, zero_add]
      simp only [this, List.sum_map_add]
      rw [sum_pick K hK d (h a (by simp) d ha) fun _ => f a]
      ring

theorem classes_pairs (K : List Nat) (hK : K.Nodup) (cls : α → Option Nat) (l : List α)
    (h : ∀ x ∈ l, ∀ c, cls x = some c → c ∈ K) (f : α × α → ℝ) :
    (K.map fun c => ((pairs (l.filter fun x => decide (cls x = some c))).map f).sum).sum =
      ((pairs l).map fun z => if cls z.1 ≠ none ∧ cls z.1 = cls z.2 then f z else 0).sum := by
  induction l with
  | nil => simp [pairs]
  | cons a t ih =>
    replace ih := ih fun x hx => h x (by simp [hx])
    rw [pairs, List.map_append, List.sum_append, ← ih, List.map_map]
    cases ha : cls a with
    | none =>
      have : ∀ c, (a :: t).filter (fun x => decide (cls x = some c)) = t.filter fun x => decide (cls x = some c) := by
        intro c
        rw [List.filter_cons_of_neg (by simp [ha])]
      simp only [this]
      have h0 : (t.map ((fun z : α × α => if cls z.1 ≠ none ∧ cls z.1 = cls z.2 then f z else 0) ∘ fun b => (a, b))) =
          t.map fun _ => 0 := by
        apply List.map_congr_left
        intro b _
        simp [ha]
      rw [h0]
      simp
    | some d =>
      have : ∀ c, ((pairs ((a :: t).filter fun x => decide (cls x = some c))).map f).sum =
          (if d = c then ((t.filter fun x => decide (cls x = some c)).map fun y => f (a, y)).sum else 0) +
            ((pairs (t.filter fun x => decide (cls x = some c))).map f).sum := by
        intro c
        by_cases hc : d = c
        · rw [List.filter_cons_of_pos (by simp [ha, hc]), if_pos hc, pairs, List.map_append, List.sum_append, List.map_map]
          rfl
        · rw [List.filter_cons_of_neg (by simp [ha, hc]), if_neg hc, zero_add]
      simp only [this, List.sum_map_add]
      rw [sum_pick K hK d (h a (by simp) d ha) fun c => ((t.filter fun x => decide (cls x = some c)).map fun y => f (a, y)).sum]
      congr 1
      clear ih this h
      induction t with
      | nil => rfl
      | cons b t ih =>
        rw [List.map_cons, List.sum_cons]
        by_cases hb : cls b = some d
        · rw [List.filter_cons_of_pos (by simp [hb]), List.map_cons, List.sum_cons, ih]
          simp [ha, hb]
        · rw [List.filter_cons_of_neg (by simp [hb]), ih]
          have : ¬ some d = cls b := fun e => hb e.symm
          simp [ha, this]

end Verif.PtaPhi
