import Verif.Props.Marg

/-!
Short blocks in `ShermanMorrison` and `BlockMatrix` (C51-C53), and additions that commute (C54).
-/

namespace Verif.Noise

open Matrix

variable {n : Nat}

/-- The epochs that have at least two TOAs. -/
def long {α : Type} (ep : List (List (Fin n) × α)) : List (List (Fin n) × α) :=
  ep.filter fun e => decide (2 ≤ e.1.length)

theorem long_epochs {α : Type} (ep : List (List (Fin n) × α)) (he : Epochs ep) :
    Epochs (long ep) :=
  ⟨fun e h => he.nodup e (List.mem_of_mem_filter h), he.disj.sublist List.filter_sublist⟩

theorem long_len {α : Type} (ep : List (List (Fin n) × α)) : ∀ e ∈ long ep, 2 ≤ e.1.length := by
  intro e h
  simpa using (List.mem_filter.1 h).2

theorem foldl_long {α β : Type} (f : β → List (Fin n) × α → β)
    (hf : ∀ b e, ¬ 1 < e.1.length → f b e = b) (ep : List (List (Fin n) × α)) (b : β) :
    ep.foldl f b = (long ep).foldl f b := by
  induction ep generalizing b with
  | nil => rfl
  | cons e t ih =>
    unfold long at *
    by_cases h : 2 ≤ e.1.length
    · rw [List.filter_cons_of_pos (by simpa using h), List.foldl_cons, List.foldl_cons, ih]
    · rw [List.filter_cons_of_neg (by simpa using h), List.foldl_cons, hf _ _ (by omega), ih]

/-- C51, C52 for epochs of any length: `ShermanMorrison` solves exactly with the covariance in which
the epochs of fewer than two TOAs are left out. -/
theorem C51_short (ep : List (List (Fin n) × ℝ)) (v : Fin n → ℝ) (hv : ∀ i, 0 < v i)
    (he : Epochs ep) (hj : ∀ e ∈ ep, 0 < e.2) :
    (ecorrN (long ep) v).PosDef ∧
    (∀ other left o, (∀ m X, other = .d2 m X → left ≠ none) →
      want (ecorrN (long ep) v) other left = some o → smSolve ep v other left = .ok o) ∧
    smLogdet ep v = Real.log (ecorrN (long ep) v).det := by
  have hD : ∀ x, solveD1 ep v x = solveD1 (long ep) v x := fun x => by
    unfold solveD1
    refine foldl_long _ (fun b e h => ?_) _ _
    unfold stepD1; rw [if_neg h]
  have h1 : ∀ x y, solve1D1 ep v x y = solve1D1 (long ep) v x y := fun x y => by
    unfold solve1D1
    exact foldl_long _ (fun b e h => if_neg h) _ _
  have h2 : ∀ (m p : Nat) (X : Matrix (Fin n) (Fin m) ℝ) (Z : Matrix (Fin n) (Fin p) ℝ),
      solve2D2 ep v X Z = solve2D2 (long ep) v X Z := fun m p X Z => by
    unfold solve2D2
    refine foldl_long _ (fun b e h => ?_) _ _
    unfold step2D2; rw [if_neg h]
  have hs : ∀ other left, smSolve ep v other left = smSolve (long ep) v other left := by
    intro other left
    unfold smSolve
    simp only [hD, h1, h2]
  have hl : smLogdet ep v = smLogdet (long ep) v := by
    unfold smLogdet
    exact foldl_long _ (fun b e h => if_neg h) _ _
  have hj' : ∀ e ∈ long ep, 0 < e.2 := fun e h => hj e (List.mem_of_mem_filter h)
  obtain ⟨hp, h⟩ := C51_partial (long ep) v hv (long_epochs ep he) (long_len ep) hj'
  refine ⟨hp, ?_, ?_⟩
  · intro other left o a b
    rw [hs]; exact h other left o a b
  · rw [hl]; exact C52_partial (long ep) v hv (long_epochs ep he) (long_len ep) hj'

-- An epoch of two TOAs beside one of a single TOA.
example : Epochs [([(0 : Fin 3), 2], (2 : ℝ)), ([1], 5)] ∧
    long [([(0 : Fin 3), 2], (2 : ℝ)), ([1], 5)] = [([0, 2], 2)] := by
  refine ⟨⟨?_, ?_⟩, by simp [long]⟩
  · intro e h
    simp at h
    rcases h with rfl | rfl <;> decide
  · simp

theorem blockZNXLoop_shift {m p : Nat} (v : Fin n → ℝ) (X : Matrix (Fin n) (Fin m) ℝ)
    (Z : Matrix (Fin n) (Fin p) ℝ) (bl : List (List (Fin n) × (Nat → Nat → ℝ)))
    (acc A : Matrix (Fin p) (Fin m) ℝ) :
    blockZNXLoop v X Z bl (acc + A) = (blockZNXLoop v X Z bl acc).map (· + A) := by
  induction bl generalizing acc with
  | nil => rfl
  | cons e t ih =>
    unfold blockZNXLoop
    cases blockTerm v X Z e with
    | error x => rfl
    | ok B => simp only; rw [add_right_comm, ih]

/-- The part of the short blocks in a solve. -/
noncomputable def shortSum {m p : Nat} (v : Fin n → ℝ) (X : Matrix (Fin n) (Fin m) ℝ)
    (Z : Matrix (Fin n) (Fin p) ℝ) (bl : List (List (Fin n) × (Nat → Nat → ℝ))) :
    Matrix (Fin p) (Fin m) ℝ :=
  of fun a b => (bl.map fun e => over e.1 fun i => Z i a * (X i b / v i)).sum -
    ((long bl).map fun e => over e.1 fun i => Z i a * (X i b / v i)).sum

theorem blockZNXLoop_long {m p : Nat} (v : Fin n → ℝ) (X : Matrix (Fin n) (Fin m) ℝ)
    (Z : Matrix (Fin n) (Fin p) ℝ) (bl : List (List (Fin n) × (Nat → Nat → ℝ)))
    (acc : Matrix (Fin p) (Fin m) ℝ) :
    blockZNXLoop v X Z bl acc =
      (blockZNXLoop v X Z (long bl) acc).map (· + shortSum v X Z bl) := by
  induction bl generalizing acc with
  | nil =>
    simp only [long, List.filter_nil, blockZNXLoop, Except.map, shortSum, List.map_nil,
      List.sum_nil, sub_self]
    congr 1
    ext a b; simp
  | cons e t ih =>
    by_cases h : 2 ≤ e.1.length
    · have hf : long (e :: t) = e :: long t :=
        List.filter_cons_of_pos (by simpa using h)
      have hS : shortSum v X Z (e :: t) = shortSum v X Z t := by
        unfold shortSum
        rw [hf]
        ext a b
        simp only [of_apply, List.map_cons, List.sum_cons]; ring
      rw [hf, hS]
      unfold blockZNXLoop
      cases blockTerm v X Z e with
      | error x => rfl
      | ok B => simp only; rw [ih]
    · have hf : long (e :: t) = long t := List.filter_cons_of_neg (by simpa using h)
      rw [hf]
      conv_lhs => unfold blockZNXLoop
      unfold blockTerm
      rw [if_neg (by omega)]
      simp only
      rw [ih, blockZNXLoop_shift]
      have hS : shortSum v X Z (e :: t) = ((Z.submatrix e.1.get id)ᵀ *
          of fun r b => X (e.1.get r) b / v (e.1.get r)) + shortSum v X Z t := by
        unfold shortSum
        rw [hf]
        ext a b
        simp only [of_apply, List.map_cons, List.sum_cons, Matrix.add_apply, Matrix.mul_apply,
          transpose_apply, submatrix_apply, id_eq]
        rw [over_get]; ring
      rw [hS]
      cases blockZNXLoop v X Z (long t) acc with
      | error x => rfl
      | ok B => simp only [Except.map]; rw [add_assoc]

theorem blockNXLoop_long {m : Nat} (v : Fin n → ℝ) (X : Matrix (Fin n) (Fin m) ℝ)
    (bl : List (List (Fin n) × (Nat → Nat → ℝ))) (acc : Matrix (Fin n) (Fin m) ℝ) :
    blockNXLoop v X bl acc = blockNXLoop v X (long bl) acc := by
  induction bl generalizing acc with
  | nil => rfl
  | cons e t ih =>
    by_cases h : 2 ≤ e.1.length
    · rw [show long (e :: t) = e :: long t from List.filter_cons_of_pos (by simpa using h)]
      unfold blockNXLoop
      simp only [show 1 < e.1.length from h, if_true, ih]
    · rw [show long (e :: t) = long t from List.filter_cons_of_neg (by simpa using h)]
      conv_lhs => unfold blockNXLoop
      rw [if_neg (by omega), ih]

theorem blockLogdetLoop_long (v : Fin n → ℝ) (bl : List (List (Fin n) × (Nat → Nat → ℝ)))
    (acc s : ℝ) : blockLogdetLoop v bl
        (acc - (bl.map fun e => over e.1 fun i => Real.log (v i)).sum + s) =
      blockLogdetLoop v (long bl)
        (acc - ((long bl).map fun e => over e.1 fun i => Real.log (v i)).sum + s) := by
  induction bl generalizing acc s with
  | nil => rfl
  | cons e t ih =>
    by_cases h : 2 ≤ e.1.length
    · rw [show long (e :: t) = e :: long t from List.filter_cons_of_pos (by simpa using h)]
      unfold blockLogdetLoop
      simp only [show 1 < e.1.length from h, if_true, List.map_cons, List.sum_cons]
      by_cases hp : (blockMat v e).PosDef
      · rw [if_pos hp, if_pos hp]
        have := ih acc (s - over e.1 (fun i => Real.log (v i)) + Real.log (blockMat v e).det)
        convert this using 2 <;> ring
      · rw [if_neg hp, if_neg hp]
    · rw [show long (e :: t) = long t from List.filter_cons_of_neg (by simpa using h)]
      conv_lhs => unfold blockLogdetLoop
      rw [if_neg (by omega)]
      simp only [List.map_cons, List.sum_cons]
      have := ih acc s
      convert this using 2; ring

/-- C53 for blocks of any length: `BlockMatrix` solves exactly with the covariance in which the
blocks of fewer than two rows are left out. -/
theorem C53_short (bl : List (List (Fin n) × (Nat → Nat → ℝ))) (v : Fin n → ℝ) (hn : 0 < n)
    (hv : ∀ i, 0 < v i) (he : Epochs bl) (hN : (blockN (long bl) v).PosDef) :
    (∀ other left o, Fits n other left → want (blockN (long bl) v) other left = some o →
      blockSolve bl v other left = .ok o) ∧
    blockLogdet bl v = .ok (Real.log (blockN (long bl) v).det) := by
  have hz : ¬ ∀ i, v i = 0 := fun h => (hv ⟨0, hn⟩).ne' (h _)
  have hZ : ∀ (m p : Nat) (X : Matrix (Fin n) (Fin m) ℝ) (Z : Matrix (Fin n) (Fin p) ℝ),
      blockZNX bl v X Z = blockZNX (long bl) v X Z := by
    intro m p X Z
    unfold blockZNX
    rw [if_neg hz, if_neg hz, blockZNXLoop_long]
    cases blockZNXLoop v X Z (long bl) 0 with
    | error x => rfl
    | ok A =>
      simp only [Except.map]
      congr 1
      ext a b
      simp only [Matrix.add_apply, of_apply, shortSum]
      rw [sum_outside bl he, sum_outside (long bl) (long_epochs bl he)]
      ring
  have hX : ∀ (m : Nat) (X : Matrix (Fin n) (Fin m) ℝ),
      blockNX bl v X = blockNX (long bl) v X := by
    intro m X
    unfold blockNX
    rw [blockNXLoop_long]
  have hs : ∀ other left, blockSolve bl v other left = blockSolve (long bl) v other left := by
    intro other left
    unfold blockSolve
    simp only [hZ, hX]
  have hl : blockLogdet bl v = blockLogdet (long bl) v := by
    unfold blockLogdet
    rw [if_neg hz, if_neg hz, sum_outside bl he, sum_outside (long bl) (long_epochs bl he)]
    simpa using blockLogdetLoop_long v bl (∑ i, Real.log (v i)) 0
  obtain ⟨h1, h2⟩ := C53_block (long bl) v hn hv (long_epochs bl he) (long_len bl) hN
  exact ⟨fun other left o a b => by rw [hs]; exact h1 other left o a b, by rw [hl]; exact h2⟩

-- A block of two rows beside one of a single row.
example : Epochs [([(0 : Fin 3), 2], fun _ _ : Nat => (2 : ℝ)), ([1], fun _ _ => 5)] ∧
    (blockN (long [([(0 : Fin 3), 2], fun _ _ : Nat => (2 : ℝ)), ([1], fun _ _ => 5)])
      fun _ => 1).PosDef := by
  refine ⟨⟨?_, ?_⟩, ?_⟩
  · intro e h
    simp at h
    rcases h with rfl | rfl <;> simp
  · simp
  · have : long [([(0 : Fin 3), 2], fun _ _ : Nat => (2 : ℝ)), ([1], fun _ _ => 5)] =
      [([(0 : Fin 3), 2], (2 : ℝ))].map fun e => (e.1, fun _ _ : Nat => e.2) := by simp [long]
    rw [this, blockN_const]
    exact ecorrN_posDef _ _ (fun _ => one_pos) (by simp)

/-! ### C54: additions -/

section Comm

variable {K : Type} [Field K] [DecidableEq K]

/-- A diagonal that is not all zero and a kernel, with any diagonal already added to it, give the
same object in either order. -/
theorem C54_comm (v : Fin n → K) (hv : ∃ i, v i ≠ 0) (b : Base n K) :
    Base.add (.arr v) b = Base.add b (.arr v) := by
  have hz : ¬ ∀ i, v i = 0 := fun h => hv.elim fun i hi => hi (h i)
  cases b with
  | zero => rfl
  | arr w => simp only [Base.add, add_comm]
  | sm ep nv => simp only [Base.add, if_neg hz]
  | block bl nv => simp only [Base.add, if_neg hz]
  | csc M => rfl
  | bad => rfl

/-- Two diagonals may be added to a kernel one after the other or together. -/
theorem C54_assoc (v w : Fin n → K) (ep : List (List (Fin n) × K)) (nv : NV n K) :
    (Base.add (.sm ep nv) (.arr v)).bind (·.add (.arr w)) =
      Base.add (.sm ep nv) (.arr fun i => v i + w i) := by
  cases nv <;> simp [Base.add, Except.bind, NV.add, add_assoc]

end Comm

end Verif.Noise
