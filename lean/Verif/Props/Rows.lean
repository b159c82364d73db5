import Verif.Props.Joined

/-!
# The covariance of an array, pulsar by pulsar
-/

namespace Verif.Joined

open Verif Verif.Likelihood Verif.Noise Verif.Combine
open Verif.Kernel (Arr)
open Verif.Orf (Pos)
open Finset

theorem sum_listRange (n : Nat) (f : Nat → ℝ) : ((List.range n).map f).sum = ∑ i ∈ range n, f i := by
  induction n with
  | zero => rfl
  | succ n ih => rw [List.range_succ, List.map_append, List.sum_append, ih, sum_range_succ]; simp

theorem zipIdx_single {α : Type} (l : List α) (a : Nat) (x : α) (ha : l[a]? = some x) (h : α × Nat → ℝ)
    (h0 : ∀ y ∈ l.zipIdx, y.2 ≠ a → h y = 0) : (l.zipIdx.map h).sum = h (x, a) := by
  obtain ⟨hlt, hx⟩ := List.getElem?_eq_some_iff.1 ha
  have : l.zipIdx.map h = (List.range l.length).map fun i => if hi : i < l.length then h (l[i], i) else 0 := by
    apply List.ext_getElem
    · simp
    · intro i h1 h2
      have hi : i < l.length := by simpa using h1
      simp [hi]
  rw [this, sum_listRange, sum_eq_single a]
  · rw [dif_pos hlt, hx]
  · intro b hb hne
    rw [mem_range] at hb
    rw [dif_pos hb]
    refine h0 _ ?_ hne
    rw [List.mem_zipIdx_iff_getElem?]
    exact List.getElem?_eq_getElem hb
  · intro hn
    exact absurd (mem_range.2 hlt) hn

theorem sum_map_add {α : Type} (l : List α) (f g : α → ℝ) : (l.map fun x => f x + g x).sum = (l.map f).sum + (l.map g).sum := by
  induction l with
  | nil => simp
  | cons x t ih => simp only [List.map_cons, List.sum_cons, ih]; ring

/-- A double sum over a list in which terms of different positions and terms of one position are kept apart. -/
theorem zip_sum {α : Type} (l : List α) (t : α × Nat → α × Nat → ℝ) (A : α → α → ℝ) (G : α → ℝ)
    (h : ∀ x ∈ l.zipIdx, ∀ y ∈ l.zipIdx, t x y = A x.1 y.1 + if x.2 = y.2 then G x.1 else 0) :
    (l.zipIdx.map fun x => (l.zipIdx.map fun y => t x y).sum).sum = (l.map fun x => (l.map fun y => A x y).sum).sum + (l.map G).sum := by
  have hfst : ∀ f : α → ℝ, (l.zipIdx.map fun x => f x.1).sum = (l.map f).sum := by
    intro f
    rw [show (fun x : α × Nat => f x.1) = f ∘ Prod.fst from rfl, ← List.map_map, List.zipIdx_map_fst]
  have e : (l.zipIdx.map fun x => (l.zipIdx.map fun y => t x y).sum) = l.zipIdx.map fun x => (l.map fun y => A x.1 y).sum + G x.1 := by
    apply List.map_congr_left
    intro x hx
    have e1 : (l.zipIdx.map fun y => t x y) = l.zipIdx.map fun y => A x.1 y.1 + if x.2 = y.2 then G x.1 else 0 :=
      List.map_congr_left fun y hy => h x hx y hy
    rw [e1, sum_map_add, hfst fun y => A x.1 y]
    congr 1
    rw [List.mem_zipIdx_iff_getElem?] at hx
    rw [zipIdx_single l x.2 x.1 hx (fun y => if x.2 = y.2 then G x.1 else 0) fun y _ hy => if_neg fun e => hy e.symm]
    exact if_pos rfl
  rw [e, sum_map_add, hfst fun x => (l.map fun y => A x y).sum, hfst G]

theorem rowStart_le (ps : List JPsr) (a b : Nat) (p : JPsr) (ha : ps[a]? = some p) (hab : a < b) : rowStart ps a + p.n ≤ rowStart ps b := by
  induction ps generalizing a b with
  | nil => simp at ha
  | cons q t ih =>
    cases b with
    | zero => omega
    | succ b =>
      cases a with
      | zero =>
        have : q = p := by simpa using ha
        subst this
        simp [rowStart]
      | succ a =>
        have := ih a b (by simpa using ha) (by omega)
        simp only [rowStart, List.take_succ_cons, List.map_cons, List.sum_cons] at this ⊢
        omega

theorem not_row (ps : List JPsr) (a b : Nat) (p q : JPsr) (ha : ps[a]? = some p) (hb : ps[b]? = some q) (hab : b ≠ a) (i : Nat) (hi : i < p.n) :
    ¬ (rowStart ps b ≤ rowStart ps a + i ∧ rowStart ps a + i < rowStart ps b + q.n) := by
  rcases Nat.lt_or_gt_of_ne hab with h | h
  · have := rowStart_le ps b a q hb h
    omega
  · have := rowStart_le ps a b p ha h
    omega

/-- Entry of `F φ F'ᵀ` between row `i` of one process and row `j` of another with as many columns. -/
noncomputable def crossCov (g g' : GSig) (i j : Nat) : ℝ :=
  ∑ p ∈ range g.basisAt.length, ∑ q ∈ range g'.basisAt.length,
    (g.basisAt.getD p fun _ => 0) i * amat g.prior p q * (g'.basisAt.getD q fun _ => 0) j

theorem procs_sum (ps : List JPsr) (f : Nat × JPsr × GSig → ℝ) (a : Nat) (p : JPsr) (ha : ps[a]? = some p)
    (h0 : ∀ b q g, ps[b]? = some q → b ≠ a → f (rowStart ps b, q, g) = 0) :
    ((procs ps).map f).sum = ((p.gps.filter fun g => g.basis.isSome).map fun g => f (rowStart ps a, p, g)).sum := by
  have e : ((procs ps).map f).sum =
      (ps.zipIdx.map fun x => ((x.1.gps.filter fun g => g.basis.isSome).map fun g => f (rowStart ps x.2, x.1, g)).sum).sum := by
    unfold procs
    generalize ps.zipIdx = l
    induction l with
    | nil => rfl
    | cons x t ih =>
      rw [List.flatMap_cons, List.map_append, List.sum_append, ih, List.map_cons, List.sum_cons, List.map_map]
      rfl
  rw [e, zipIdx_single ps a p ha]
  intro y hy hne
  rw [List.mem_zipIdx_iff_getElem?] at hy
  apply List.sum_eq_zero
  intro z hz
  obtain ⟨g, -, rfl⟩ := List.mem_map.1 hz
  exact h0 y.2 y.1 g hy hne

/-- The covariance of the processes between row `i` of pulsar `a` and row `j` of pulsar `b`: the own processes of a pulsar count
within it, and processes of a class count between any two pulsars with the overlap of their positions. -/
theorem gpCov_rows (orf : Nat → Pos → Pos → ℝ) (ps : List JPsr) (a b : Nat) (p q : JPsr) (ha : ps[a]? = some p) (hb : ps[b]? = some q)
    (i j : Nat) (hi : i < p.n) (hj : j < q.n) :
    gpCov orf ps (rowStart ps a + i) (rowStart ps b + j) =
      (if a = b then ((p.gps.filter fun g => g.basis.isSome).map fun g => if g.cls = none then crossCov g g i j else 0).sum else 0) +
      ((p.gps.filter fun g => g.basis.isSome).map fun g => ((q.gps.filter fun g => g.basis.isSome).map fun g' =>
        match g.cls, g'.cls with
        | some c, some d => if c = d then orf c p.pos q.pos * crossCov g g' i j else 0
        | _, _ => 0).sum).sum := by
  let r := rowStart ps a + i
  let s := rowStart ps b + j
  let A : Nat × JPsr × GSig → Nat × JPsr × GSig → ℝ := fun x y =>
    match x.2.2.cls, y.2.2.cls with
    | some c, some d => if c = d then orf c x.2.1.pos y.2.1.pos * ∑ p ∈ range x.2.2.basisAt.length, ∑ q ∈ range y.2.2.basisAt.length,
        col x p r * amat x.2.2.prior p q * col y q s else 0
    | _, _ => 0
  let G : Nat × JPsr × GSig → ℝ := fun x => if x.2.2.cls = none then ∑ p ∈ range x.2.2.basisAt.length, ∑ q ∈ range x.2.2.basisAt.length,
        col x p r * amat x.2.2.prior p q * col x q s else 0
  have h1 : gpCov orf ps r s = ((procs ps).map fun x => ((procs ps).map fun y => A x y).sum).sum + ((procs ps).map G).sum := by
    unfold gpCov
    refine zip_sum (procs ps) _ A G fun x hx y hy => ?_
    rw [List.mem_zipIdx_iff_getElem?] at hx hy
    have hsame : x.2 = y.2 → x.1 = y.1 := by
      intro e
      rw [e, hy] at hx
      exact (Option.some.inj hx).symm
    simp only [A, G, kov]
    cases hc : x.1.2.2.cls with
    | none =>
      by_cases e : x.2 = y.2
      · rw [if_pos e, if_pos rfl, ← hsame e, zero_add]
        simp only [e, if_true]
      · rw [if_neg e, add_zero]
        simp only [if_neg e]
        simp
    | some c =>
      cases hd : y.1.2.2.cls with
      | none =>
        have e : x.2 ≠ y.2 := by
          intro e
          rw [hsame e, hd] at hc
          cases hc
        simp only [if_neg e]
        simp
      | some d =>
        have h0 : (if x.2 = y.2 then (if (some c : Option Nat) = none then ∑ p ∈ range x.1.2.2.basisAt.length, ∑ q ∈ range x.1.2.2.basisAt.length,
          col x.1 p r * amat x.1.2.2.prior p q * col x.1 q s else 0) else 0) = 0 := by simp
        rw [h0, add_zero]
        by_cases e : c = d
        · simp only [if_pos e, mul_sum]
          apply sum_congr rfl
          intro u _
          apply sum_congr rfl
          intro v _
          ring
        · simp only [if_neg e]
          simp
  have col0 : ∀ (b' : Nat) (q' : JPsr) (g : GSig), ps[b']? = some q' → b' ≠ a → ∀ k, col (rowStart ps b', q', g) k r = 0 := by
    intro b' q' g hq hne k
    exact if_neg (not_row ps a b' p q' ha hq hne i hi)
  have col0' : ∀ (b' : Nat) (q' : JPsr) (g : GSig), ps[b']? = some q' → b' ≠ b → ∀ k, col (rowStart ps b', q', g) k s = 0 := by
    intro b' q' g hq hne k
    exact if_neg (not_row ps b b' q q' hb hq hne j hj)
  have col1 : ∀ (g : GSig) k, col (rowStart ps a, p, g) k r = (g.basisAt.getD k fun _ => 0) i := by
    intro g k
    have : rowStart ps a ≤ r ∧ r < rowStart ps a + p.n := ⟨Nat.le_add_right _ _, by omega⟩
    simp only [col, if_pos this]
    exact congrArg _ (Nat.add_sub_cancel_left _ _)
  have col1' : ∀ (g : GSig) k, col (rowStart ps b, q, g) k s = (g.basisAt.getD k fun _ => 0) j := by
    intro g k
    have : rowStart ps b ≤ s ∧ s < rowStart ps b + q.n := ⟨Nat.le_add_right _ _, by omega⟩
    simp only [col, if_pos this]
    exact congrArg _ (Nat.add_sub_cancel_left _ _)
  rw [show gpCov orf ps (rowStart ps a + i) (rowStart ps b + j) = gpCov orf ps r s from rfl, h1, add_comm]
  congr 1
  · rw [procs_sum ps G a p ha (by
      intro b' q' g hq hne
      simp only [G, col0 b' q' g hq hne, zero_mul, sum_const_zero, ite_self])]
    by_cases hab : a = b
    · subst hab
      rw [if_pos rfl]
      congr 1
      apply List.map_congr_left
      intro g _
      rw [ha] at hb
      cases hb
      simp only [G, col1, col1', crossCov]
    · rw [if_neg hab]
      apply List.sum_eq_zero
      intro z hz
      obtain ⟨g, -, rfl⟩ := List.mem_map.1 hz
      simp only [G, col0' a p g ha hab, mul_zero, sum_const_zero, ite_self]
  · rw [procs_sum ps _ a p ha (by
      intro b' q' g hq hne
      apply List.sum_eq_zero
      intro z hz
      obtain ⟨y, -, rfl⟩ := List.mem_map.1 hz
      simp only [A]
      split
      · simp only [col0 b' q' g hq hne, zero_mul, sum_const_zero, mul_zero, ite_self]
      · rfl)]
    congr 1
    apply List.map_congr_left
    intro g _
    rw [procs_sum ps _ b q hb (by
      intro b' q' g' hq hne
      simp only [A]
      split
      · simp only [col0' b' q' g' hq hne, mul_zero, sum_const_zero, ite_self]
      · rfl)]
    congr 1
    apply List.map_congr_left
    intro g' _
    simp only [A, col1, col1', crossCov]

end Verif.Joined
