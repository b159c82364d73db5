import Verif.Model.Kernel
import Mathlib.Algebra.Order.Field.Rat
import Mathlib.Data.List.Nodup
import Mathlib.Tactic.NormNum

/-!
# Property C47: `KernelMatrix.add` and `KernelMatrix.set`
-/

set_option linter.unusedSectionVars false

namespace Verif.Kernel

open Verif

variable {K : Type} [Field K]

/-! ## Writing at several positions -/

theorem put1_other (ws : List (Nat × K)) : ∀ (f : Nat → K) (i : Nat), (∀ w ∈ ws, w.1 ≠ i) → put1 f ws i = f i := by
  induction ws with
  | nil => intro f i _; rfl
  | cons w t ih =>
    intro f i h
    rw [put1, ih _ i fun w hw => h w (by simp [hw]), Function.update_of_ne (h w (by simp)).symm]

theorem put1_mem (ws : List (Nat × K)) : ∀ (f : Nat → K), (ws.map (·.1)).Nodup → ∀ w ∈ ws, put1 f ws w.1 = w.2 := by
  induction ws with
  | nil => intro f _ w hw; simp at hw
  | cons a t ih =>
    intro f hn w hw
    simp only [List.map_cons, List.nodup_cons] at hn
    rw [put1]
    rcases List.mem_cons.1 hw with rfl | hw
    · rw [put1_other]
      · simp
      · intro v hv e
        exact hn.1 (e ▸ List.mem_map_of_mem hv)
    · exact ih _ hn.2 w hw

theorem put2_other (ws : List (Nat × Nat × K)) : ∀ (M : Nat → Nat → K) (i j : Nat),
    (∀ w ∈ ws, ¬ (w.1 = i ∧ w.2.1 = j)) → put2 M ws i j = M i j := by
  induction ws with
  | nil => intro f i j _; rfl
  | cons w t ih =>
    intro f i j h
    rw [put2, ih _ i j fun w hw => h w (by simp [hw])]
    have := h w (by simp)
    rw [if_neg]
    rintro ⟨rfl, rfl⟩
    exact this ⟨rfl, rfl⟩

theorem put2_mem (ws : List (Nat × Nat × K)) : ∀ (M : Nat → Nat → K), (ws.map fun w => (w.1, w.2.1)).Nodup →
    ∀ w ∈ ws, put2 M ws w.1 w.2.1 = w.2.2 := by
  induction ws with
  | nil => intro f _ w hw; simp at hw
  | cons a t ih =>
    intro f hn w hw
    simp only [List.map_cons, List.nodup_cons] at hn
    rw [put2]
    rcases List.mem_cons.1 hw with rfl | hw
    · rw [put2_other]
      · simp
      · intro v hv e
        exact hn.1 (List.mem_map.2 ⟨v, hv, by rw [e.1, e.2]⟩)
    · exact ih _ hn.2 w hw

/-- The positions of a list with their ranks. -/
theorem mem_zipIdx (l : List Nat) (x : Nat × Nat) : x ∈ l.zipIdx ↔ l[x.2]? = some x.1 :=
  List.mem_zipIdx_iff_getElem? ..

theorem put1_pos (pos : List Nat) (hn : pos.Nodup) (f : Nat → K) (g : Nat × Nat → K) (i p : Nat)
    (h : pos[p]? = some i) : put1 f (pos.zipIdx.map fun x => (x.1, g x)) i = g (i, p) := by
  have := put1_mem (pos.zipIdx.map fun x => (x.1, g x)) f
    (by simpa [List.map_map, Function.comp_def] using hn) (i, g (i, p))
    (List.mem_map.2 ⟨(i, p), (mem_zipIdx pos (i, p)).2 h, rfl⟩)
  exact this

theorem put1_notpos (pos : List Nat) (f : Nat → K) (g : Nat × Nat → K) (i : Nat) (h : i ∉ pos) :
    put1 f (pos.zipIdx.map fun x => (x.1, g x)) i = f i := by
  apply put1_other
  intro w hw e
  obtain ⟨x, hx, rfl⟩ := List.mem_map.1 hw
  have := List.mem_of_getElem? ((mem_zipIdx pos x).1 hx)
  exact h (e ▸ this)

theorem put2_points (pos : List Nat) (hn : pos.Nodup) (M : Nat → Nat → K) (g : Nat × Nat → K) (i j : Nat) :
    (∀ p, pos[p]? = some i → i = j → put2 M (pos.zipIdx.map fun x => (x.1, x.1, g x)) i j = g (i, p)) ∧
    (i ∉ pos ∨ i ≠ j → put2 M (pos.zipIdx.map fun x => (x.1, x.1, g x)) i j = M i j) := by
  constructor
  · intro p hp hij
    subst hij
    have hk : ((pos.zipIdx.map fun x => (x.1, x.1, g x)).map fun w => (w.1, w.2.1)).Nodup := by
      rw [List.map_map]
      have : ((fun w : Nat × Nat × K => (w.1, w.2.1)) ∘ fun x : Nat × Nat => (x.1, x.1, g x)) =
          (fun a : Nat => (a, a)) ∘ Prod.fst := rfl
      rw [this, ← List.map_map]
      apply List.Nodup.map
      · intro a b h; exact (Prod.mk.inj h).1
      · simpa using hn
    exact put2_mem _ M hk (i, i, g (i, p)) (List.mem_map.2 ⟨(i, p), (mem_zipIdx pos (i, p)).2 hp, rfl⟩)
  · intro h
    apply put2_other
    rintro w hw ⟨e1, e2⟩
    obtain ⟨x, hx, rfl⟩ := List.mem_map.1 hw
    have hm := List.mem_of_getElem? ((mem_zipIdx pos x).1 hx)
    rcases h with h | h
    · exact h (e1 ▸ hm)
    · exact h (e1 ▸ e2)

theorem put2_block (r c : List Nat) (hr : r.Nodup) (hc : c.Nodup) (M : Nat → Nat → K)
    (g : Nat × Nat → Nat × Nat → K) (i j : Nat) :
    (∀ p q, r[p]? = some i → c[q]? = some j →
      put2 M (r.zipIdx.flatMap fun x => c.zipIdx.map fun y => (x.1, y.1, g x y)) i j = g (i, p) (j, q)) ∧
    (i ∉ r ∨ j ∉ c →
      put2 M (r.zipIdx.flatMap fun x => c.zipIdx.map fun y => (x.1, y.1, g x y)) i j = M i j) := by
  constructor
  · intro p q hp hq
    have hk : ((r.zipIdx.flatMap fun x => c.zipIdx.map fun y => (x.1, y.1, g x y)).map
        fun w => (w.1, w.2.1)).Nodup := by
      rw [List.map_flatMap]
      have : (fun a : Nat × Nat => List.map (fun w : Nat × Nat × K => (w.1, w.2.1)) (c.zipIdx.map fun y => (a.1, y.1, g a y))) =
          fun a : Nat × Nat => c.map fun b => (a.1, b) := by
        funext a
        rw [List.map_map]
        have : ((fun w : Nat × Nat × K => (w.1, w.2.1)) ∘ fun y : Nat × Nat => (a.1, y.1, g a y)) =
          (fun b : Nat => (a.1, b)) ∘ Prod.fst := rfl
        rw [this, ← List.map_map]
        simp
      rw [this]
      have e : (r.zipIdx.flatMap fun a => c.map fun b => (a.1, b)) = r.flatMap fun a => c.map fun b => (a, b) := by
        conv_rhs => rw [← List.zipIdx_map_fst 0 r]
        rw [List.flatMap_map]
      rw [e]
      exact hr.product hc
    exact put2_mem _ M hk (i, j, g (i, p) (j, q)) (List.mem_flatMap.2 ⟨(i, p), (mem_zipIdx r (i, p)).2 hp,
      List.mem_map.2 ⟨(j, q), (mem_zipIdx c (j, q)).2 hq, rfl⟩⟩)
  · intro h
    apply put2_other
    rintro w hw ⟨e1, e2⟩
    obtain ⟨x, hx, hw⟩ := List.mem_flatMap.1 hw
    obtain ⟨y, hy, rfl⟩ := List.mem_map.1 hw
    have hm := List.mem_of_getElem? ((mem_zipIdx r x).1 hx)
    have hm' := List.mem_of_getElem? ((mem_zipIdx c y).1 hy)
    rcases h with h | h
    · exact h (e1 ▸ hm)
    · exact h (e2 ▸ hm')

/-! ## C47 -/

/-- The covariance a `KernelMatrix` stands for. -/
def Kern.mat : Kern K → Nat → Nat → K
  | .one _ v => diagMat v
  | .two _ M _ => M

/-- The covariance after a write of a matrix. -/
theorem write_two (op : K → K → K) (s : Kern K) (idx : Idx) (W : Nat → Nat → K)
    (hc : idx.check s.size = true) (hn : (idx.positions s.size).Nodup) (h0 : idx.positions s.size ≠ []) :
    ∃ r, s.write op (.two (idx.positions s.size).length (idx.positions s.size).length W) idx = .ok r ∧
      r.size = s.size ∧
      (∀ p q i j, (idx.positions s.size)[p]? = some i → (idx.positions s.size)[q]? = some j →
        r.mat i j = op (s.mat i j) (W p q)) ∧
      (∀ i j, i ∉ idx.positions s.size ∨ j ∉ idx.positions s.size → r.mat i j = s.mat i j) := by
  have hset : ∀ c : Cliques, ∃ c', c.set (idx.positions s.size) = .ok c' := by
    intro c
    unfold Cliques.set
    cases hp : List.map c.label (idx.positions s.size) with
    | nil => exact absurd (List.map_eq_nil_iff.1 hp) h0
    | cons a t => simp only; split <;> exact ⟨_, rfl⟩
  have hbc : ∀ p i, (idx.positions s.size)[p]? = some i → bc (idx.positions s.size).length p = p := by
    intro p i h
    unfold bc
    split
    · have := (List.getElem?_eq_some_iff.1 h).1; omega
    · rfl
  have hfit : fits (idx.positions s.size).length (idx.positions s.size).length = true := by simp [fits]
  cases s with
  | one n v =>
    obtain ⟨c', e⟩ := hset Cliques.none
    refine ⟨.two n (put2 (diagMat v) ((idx.positions n).zipIdx.flatMap fun x => (idx.positions n).zipIdx.map fun y =>
        (x.1, y.1, op ((diagMat v) x.1 y.1) (W (bc (idx.positions n).length x.2) (bc (idx.positions n).length y.2))))) c', ?_, rfl, ?_, ?_⟩
    · unfold Kern.write
      simp only [Kern.size] at hc e hfit ⊢
      rw [if_neg (by simp [hc]), e]
      simp [hfit]
    · intro p q i j hp hq
      simp only [Kern.mat, Kern.size] at hp hq hbc hn ⊢
      rw [(put2_block _ _ hn hn (diagMat v) _ i j).1 p q hp hq, hbc p i hp, hbc q j hq]
    · intro i j h
      exact (put2_block _ _ hn hn (diagMat v) _ i j).2 h
  | two n M cl =>
    obtain ⟨c', e⟩ := hset cl
    refine ⟨.two n (put2 M ((idx.positions n).zipIdx.flatMap fun x => (idx.positions n).zipIdx.map fun y =>
        (x.1, y.1, op (M x.1 y.1) (W (bc (idx.positions n).length x.2) (bc (idx.positions n).length y.2))))) c', ?_, rfl, ?_, ?_⟩
    · unfold Kern.write
      simp only [Kern.size] at hc e hfit ⊢
      rw [if_neg (by simp [hc]), e]
      simp [hfit]
    · intro p q i j hp hq
      simp only [Kern.mat, Kern.size] at hp hq hbc hn ⊢
      rw [(put2_block _ _ hn hn M _ i j).1 p q hp hq, hbc p i hp, hbc q j hq]
    · intro i j h
      exact (put2_block _ _ hn hn M _ i j).2 h

/-- Slices reach a vector only while the kernel is stored as a diagonal. -/
def VectorSafe (s : Kern K) : Idx → Prop
  | .ints _ => True
  | .slice _ _ => ∃ n v, s = .one n v

/-- The covariance after a write of a vector. -/
theorem write_one (op : K → K → K) (s : Kern K) (idx : Idx) (w : Nat → K)
    (hc : idx.check s.size = true) (hn : (idx.positions s.size).Nodup) (hs : VectorSafe s idx) :
    ∃ r, s.write op (.one (idx.positions s.size).length w) idx = .ok r ∧ r.size = s.size ∧
      (∀ p i, (idx.positions s.size)[p]? = some i → r.mat i i = op (s.mat i i) (w p)) ∧
      (∀ i j, i ∉ idx.positions s.size ∨ i ≠ j → r.mat i j = s.mat i j) := by
  have hbc : ∀ p i, (idx.positions s.size)[p]? = some i → bc (idx.positions s.size).length p = p := by
    intro p i h
    unfold bc
    split
    · have := (List.getElem?_eq_some_iff.1 h).1; omega
    · rfl
  have hfit : fits (idx.positions s.size).length (idx.positions s.size).length = true := by simp [fits]
  cases s with
  | one n v =>
    refine ⟨.one n (put1 v ((idx.positions n).zipIdx.map fun x =>
      (x.1, op (v x.1) (w (bc (idx.positions n).length x.2))))), ?_, rfl, ?_, ?_⟩
    · unfold Kern.write
      simp only [Kern.size] at hc hfit ⊢
      rw [if_neg (by simp [hc])]
      simp [hfit]
    · intro p i hp
      simp only [Kern.mat, diagMat, if_true, Kern.size] at hp hbc hn ⊢
      rw [put1_pos _ hn v _ i p hp, hbc p i hp]
    · intro i j h
      simp only [Kern.mat, diagMat]
      by_cases hij : i = j
      · rw [if_pos hij, if_pos hij]
        exact put1_notpos _ v _ i (h.resolve_right fun h => h hij)
      · rw [if_neg hij, if_neg hij]
  | two n M cl =>
    cases idx with
    | slice a b => obtain ⟨m, v, h⟩ := hs; cases h
    | ints l =>
      refine ⟨.two n (put2 M (((Idx.ints l).positions n).zipIdx.map fun x =>
        (x.1, x.1, op (M x.1 x.1) (w (bc ((Idx.ints l).positions n).length x.2))))) cl, ?_, rfl, ?_, ?_⟩
      · unfold Kern.write
        simp only [Kern.size] at hc hfit ⊢
        rw [if_neg (by simp [hc])]
        simp [hfit]
      · intro p i hp
        simp only [Kern.mat, Kern.size] at hp hbc hn ⊢
        rw [(put2_points _ hn M _ i i).1 p hp rfl, hbc p i hp]
      · intro i j h
        exact (put2_points _ hn M _ i j).2 h

/-- C47: `add` of a matrix adds it to the addressed block and changes nothing else, for both storage
forms and both kinds of index. -/
theorem C47_add_matrix (s : Kern K) (idx : Idx) (W : Nat → Nat → K) (hc : idx.check s.size = true)
    (hn : (idx.positions s.size).Nodup) (h0 : idx.positions s.size ≠ []) :
    ∃ r, s.add (.two (idx.positions s.size).length (idx.positions s.size).length W) idx = .ok r ∧
      r.size = s.size ∧
      (∀ p q i j, (idx.positions s.size)[p]? = some i → (idx.positions s.size)[q]? = some j →
        r.mat i j = s.mat i j + W p q) ∧
      (∀ i j, i ∉ idx.positions s.size ∨ j ∉ idx.positions s.size → r.mat i j = s.mat i j) :=
  write_two _ s idx W hc hn h0

/-- C47: `set` of a matrix assigns the addressed block and changes nothing else. -/
theorem C47_set_matrix (s : Kern K) (idx : Idx) (W : Nat → Nat → K) (hc : idx.check s.size = true)
    (hn : (idx.positions s.size).Nodup) (h0 : idx.positions s.size ≠ []) :
    ∃ r, s.set (.two (idx.positions s.size).length (idx.positions s.size).length W) idx = .ok r ∧
      r.size = s.size ∧
      (∀ p q i j, (idx.positions s.size)[p]? = some i → (idx.positions s.size)[q]? = some j → r.mat i j = W p q) ∧
      (∀ i j, i ∉ idx.positions s.size ∨ j ∉ idx.positions s.size → r.mat i j = s.mat i j) :=
  write_two _ s idx W hc hn h0

/-- C47 (partial): `add` of a vector adds it to the addressed diagonal entries and changes nothing else.
Missing: a slice into a kernel stored as a matrix (`C47_slice_false`). -/
theorem C47_add_vector_partial (s : Kern K) (idx : Idx) (w : Nat → K) (hc : idx.check s.size = true)
    (hn : (idx.positions s.size).Nodup) (hs : VectorSafe s idx) :
    ∃ r, s.add (.one (idx.positions s.size).length w) idx = .ok r ∧ r.size = s.size ∧
      (∀ p i, (idx.positions s.size)[p]? = some i → r.mat i i = s.mat i i + w p) ∧
      (∀ i j, i ∉ idx.positions s.size ∨ i ≠ j → r.mat i j = s.mat i j) :=
  write_one _ s idx w hc hn hs

/-- C47 (partial): `set` of a vector assigns the addressed diagonal entries and changes nothing else. -/
theorem C47_set_vector_partial (s : Kern K) (idx : Idx) (w : Nat → K) (hc : idx.check s.size = true)
    (hn : (idx.positions s.size).Nodup) (hs : VectorSafe s idx) :
    ∃ r, s.set (.one (idx.positions s.size).length w) idx = .ok r ∧ r.size = s.size ∧
      (∀ p i, (idx.positions s.size)[p]? = some i → r.mat i i = w p) ∧
      (∀ i j, i ∉ idx.positions s.size ∨ i ≠ j → r.mat i j = s.mat i j) :=
  write_one _ s idx w hc hn hs

/-- The positions of a slice are distinct. -/
theorem slice_nodup (a b n : Nat) : ((Idx.slice a b).positions n).Nodup := by
  simp only [Idx.positions]
  exact List.nodup_range' ..

/-- C47: a slice addresses the entries from its start up to its end or the end of the axis, in order. -/
theorem C47_slice_addresses (op : K → K → K) (n a b : Nat) (v w : Nat → K) :
    ∃ r, (Kern.one n v).write op (.one (min b n - a) w) (.slice a b) = .ok r ∧ r.size = n ∧
      ∀ i < n, r.mat i i = if a ≤ i ∧ i < b then op (v i) (w (i - a)) else v i := by
  have e : ((Idx.slice a b).positions n).length = min b n - a := by simp [Idx.positions]
  obtain ⟨r, h1, h2, h3, h4⟩ := write_one op (.one n v) (.slice a b) w rfl (slice_nodup a b n) ⟨n, v, rfl⟩
  simp only [Kern.size, e] at h1 h2
  refine ⟨r, h1, h2, fun i hi => ?_⟩
  split
  · rename_i h
    refine (h3 (i - a) i ?_).trans (by simp [Kern.mat, diagMat])
    simp only [Idx.positions, Kern.size]
    rw [List.getElem?_range' (by omega)]
    simp only [Option.some.injEq]
    omega
  · rename_i h
    refine (h4 i i (.inl ?_)).trans (by simp [Kern.mat, diagMat])
    simp only [Idx.positions, Kern.size, List.mem_range'_1]
    omega

/-- C47: an array with one entry is spread over the addressed ones. -/
theorem C47_number (op : K → K → K) (s : Kern K) (idx : Idx) (w : Nat → K) (W : Nat → Nat → K) :
    s.write op (.one 1 w) idx = s.write op (.one (idx.positions s.size).length fun _ => w 0) idx ∧
    s.write op (.two 1 1 W) idx =
      s.write op (.two (idx.positions s.size).length (idx.positions s.size).length fun _ _ => W 0 0) idx := by
  have h1 : ∀ k, fits 1 k = true := by simp [fits]
  have h2 : ∀ k, fits k k = true := by simp [fits]
  constructor <;> cases s <;> simp [Kern.write, Kern.size, h1, h2, bc]

example : ∃ r, (Kern.one 4 fun i => (i : ℚ)).set (.one 2 fun i => 10 + i) (.slice 2 9) = .ok r ∧ r.mat 1 1 = 1 ∧ r.mat 3 3 = 11 := by
  obtain ⟨r, h1, -, h2⟩ := C47_slice_addresses (fun _ b => b) 4 2 9 (fun i => (i : ℚ)) fun i => 10 + i
  exact ⟨r, h1, by simpa using h2 1 (by omega), by norm_num [h2 3 (by omega)]⟩

example : (Kern.one 4 fun i => (i : ℚ)).set (.one 1 fun _ => 7) (.ints [1, 3]) =
    (Kern.one 4 fun i => (i : ℚ)).set (.one 2 fun _ => 7) (.ints [1, 3]) :=
  (C47_number (fun _ b => b) _ _ _ fun _ _ => 0).1

/-- C47 is false for a vector written through a slice into a kernel stored as a matrix: every row of the
block gets the vector. -/
theorem C47_slice_false (op : K → K → K) (n a b : Nat) (M : Nat → Nat → K) (cl : Cliques) (w : Nat → K) :
    ∃ r, (Kern.two n M cl).write op (.one ((Idx.slice a b).positions n).length w) (.slice a b) = .ok r ∧
      ∀ p q i j : Nat, ((Idx.slice a b).positions n)[p]? = some i → ((Idx.slice a b).positions n)[q]? = some j →
        r.mat i j = op (M i j) (w q) := by
  have hfit : fits ((Idx.slice a b).positions n).length ((Idx.slice a b).positions n).length = true := by simp [fits]
  have hn := slice_nodup a b n
  refine ⟨.two n (put2 M (((Idx.slice a b).positions n).flatMap fun i => ((Idx.slice a b).positions n).zipIdx.map fun x =>
      (i, x.1, op (M i x.1) (w (bc ((Idx.slice a b).positions n).length x.2))))) cl, ?_, ?_⟩
  · unfold Kern.write
    simp only at hfit ⊢
    rw [if_neg (by simp [Idx.check]), if_neg (by simp [hfit])]
  · intro p q i j hp hq
    simp only [Kern.mat]
    have e : ∀ pos : List Nat, ∀ m, (pos.flatMap fun i => pos.zipIdx.map fun x => (i, x.1, op (M i x.1) (w (bc m x.2)))) =
        pos.zipIdx.flatMap fun x => pos.zipIdx.map fun y => (x.1, y.1, op (M x.1 y.1) (w (bc m y.2))) := by
      intro pos m
      conv_lhs => rw [← List.zipIdx_map_fst 0 pos]
      rw [List.flatMap_map]
      simp
    rw [e, (put2_block _ _ hn hn M (fun x y => op (M x.1 y.1) (w (bc _ y.2))) i j).1 p q hp hq]
    congr 2
    unfold bc
    split
    · have := (List.getElem?_eq_some_iff.1 hq).1; omega
    · rfl

/-- Adding the vector (1, 1) through a slice to a dense 2 x 2 zero matrix sets off-diagonal entries. -/
example : ∃ r : Kern ℚ, (Kern.two 2 (fun _ _ => 0) Cliques.none).add (.one 2 fun _ => 1) (.slice 0 2) = .ok r ∧
    r.mat 0 1 = 1 := by
  obtain ⟨r, e, h⟩ := C47_slice_false (K := ℚ) (fun a b => a + b) 2 0 2 (fun _ _ => 0) Cliques.none fun _ => 1
  exact ⟨r, e, (h 0 1 0 1 rfl rfl).trans (by norm_num)⟩

/-- Adding a 2 x 2 block at positions (2, 0) of a diagonal kernel of size three. -/
example : ∃ r : Kern ℚ, (Kern.one 3 fun i => (i : ℚ)).add (.two 2 2 fun p q => 10 * (p : ℚ) + q) (.ints [2, 0]) = .ok r ∧
    r.mat 2 2 = 2 ∧ r.mat 2 0 = 1 ∧ r.mat 0 2 = 10 ∧ r.mat 0 0 = 11 ∧ r.mat 1 1 = 1 ∧ r.mat 1 2 = 0 := by
  obtain ⟨r, e, -, h1, h2⟩ := C47_add_matrix (K := ℚ) (.one 3 fun i => (i : ℚ)) (.ints [2, 0])
    (fun p q => 10 * (p : ℚ) + q) rfl (by simp [Idx.positions]) (by simp [Idx.positions])
  refine ⟨r, e, ?_, ?_, ?_, ?_, ?_, ?_⟩
  · rw [h1 0 0 2 2 rfl rfl]; norm_num [Kern.mat, diagMat]
  · rw [h1 0 1 2 0 rfl rfl]; norm_num [Kern.mat, diagMat]
  · rw [h1 1 0 0 2 rfl rfl]; norm_num [Kern.mat, diagMat]
  · rw [h1 1 1 0 0 rfl rfl]; norm_num [Kern.mat, diagMat]
  · rw [h2 1 1 (by simp [Idx.positions])]; norm_num [Kern.mat, diagMat]
  · rw [h2 1 2 (by simp [Idx.positions])]; norm_num [Kern.mat, diagMat]

/-- C47: positions outside the matrix raise `IndexError`, a wrong length `ValueError`. -/
theorem C47_rejects (op : K → K → K) (s : Kern K) (l : List Nat) (m : Nat) (w : Nat → K) :
    ((∃ i ∈ l, s.size ≤ i) → s.write op (.one m w) (.ints l) = .error .indexError) ∧
    ((∀ i ∈ l, i < s.size) → m ≠ l.length → m ≠ 1 → s.write op (.one m w) (.ints l) = .error .valueError) := by
  constructor
  · rintro ⟨i, hi, h⟩
    have hc : (Idx.ints l).check s.size = false := by
      simp only [Idx.check, List.all_eq_false]
      exact ⟨i, hi, by simpa using h⟩
    cases s <;> (unfold Kern.write; simp only [Kern.size] at hc ⊢; rw [if_pos hc])
  · intro h h1 h2
    have hc : (Idx.ints l).check s.size = true := by
      simp only [Idx.check, List.all_eq_true]
      intro i hi
      simpa using h i hi
    have hf : fits m l.length = false := by simp [fits, h1, h2]
    cases s <;> (unfold Kern.write; simp only [Kern.size, Idx.positions] at hc hf ⊢; rw [if_neg (by simp [hc])]; simp [hf])

end Verif.Kernel
