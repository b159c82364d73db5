import Verif.Props.IeeeTm
import Verif.Lemmas.CholReal

/-!
# The Cholesky factorization in floating-point arithmetic

C149: the factor is that of a matrix close to `Sigma`, and the factorization does not fail for matrices that are far enough from singular, whatever the order of the operations.
-/

namespace Verif.Ieee

open Verif Matrix

variable (A : Arith)

/-! ## Numbers that are taken off -/

theorem round_eq {x y : ℝ} (h : A.round x = .fin y) : y = A.rnd x := by
  unfold Arith.round at h
  split at h
  · cases h
  · split at h
    · cases h
    · injection h with h
      exact h.symm

/-- Not a number above `C`. -/
def AtMost (C : ℝ) : Fl → Prop
  | .nan => True
  | .ninf => True
  | .pinf => False
  | .fin x => x ≤ C

theorem atMost_round {x C : ℝ} (h : x ≤ C) (hC : Rep C) (hb : C ≤ big) : AtMost C (A.round x) := by
  have hm := A.mono h
  rw [A.fix C hC] at hm
  unfold Arith.round
  split
  · next h1 => exact absurd h1 (not_lt.2 (hm.trans hb))
  · split
    · trivial
    · exact hm

theorem atMost_add {C D : ℝ} {a b : Fl} (h : AtMost C a) (g : AtMost D b) (hC : Rep (C + D)) (hb : C + D ≤ big) : AtMost (C + D) (add A a b) := by
  cases a <;> cases b <;> try trivial
  exact atMost_round A (add_le_add h g) hC hb

/-- A product that is at most `w * 2 ^ 890`. -/
def LeafAt (w : ℤ) : Fl × Fl → Prop
  | (.fin x, .fin y) => x * y ≤ w * (2 : ℝ) ^ (890 : ℤ)
  | (a, b) => ∀ C, AtMost C (mul A a b)

theorem unit_rep {k : ℤ} (h : |k| ≤ 2 ^ 50) : Rep ((k : ℝ) * (2 : ℝ) ^ (890 : ℤ)) ∧ (k : ℝ) * (2 : ℝ) ^ (890 : ℤ) ≤ big := by
  refine ⟨rep_zpow k 890 (by linarith) (by norm_num), le_trans ?_ (pow_le_big (j := 940) (by norm_num))⟩
  have h1 : (k : ℝ) ≤ (2 : ℝ) ^ (50 : ℤ) := by
    have : k ≤ 2 ^ 50 := (le_abs_self k).trans h
    exact_mod_cast this
  have e : (2 : ℝ) ^ (940 : ℤ) = (2 : ℝ) ^ (50 : ℤ) * (2 : ℝ) ^ (890 : ℤ) := by
    rw [← zpow_add₀ (by norm_num)]
    congr 1
  rw [e]
  exact mul_le_mul_of_nonneg_right h1 (by positivity)

theorem sum_abs_le (ws : List ℤ) (h : ∀ w ∈ ws, |w| ≤ 1) : |ws.sum| ≤ ws.length := by
  induction ws with
  | nil => simp
  | cons w ws ih =>
    have h1 := h w (by simp)
    have h2 := ih fun v hv => h v (by simp [hv])
    simp only [List.sum_cons, List.length_cons]
    push_cast
    linarith [abs_add_le w ws.sum]

theorem leafAt_mul {w : ℤ} (hw : |w| ≤ 1) {a b : Fl} (h : LeafAt A w (a, b)) : AtMost (w * (2 : ℝ) ^ (890 : ℤ)) (mul A a b) := by
  obtain ⟨r1, r2⟩ := unit_rep (k := w) (hw.trans (by norm_num))
  cases a <;> cases b <;> first | exact atMost_round A h r1 r2 | exact h _

theorem atMost_tree (t : DotTree) : ∀ ws : List ℤ, List.Forall₂ (LeafAt A) ws t.leaves → (∀ w ∈ ws, |w| ≤ 1) → ws.length ≤ 2 ^ 50 →
    AtMost (ws.sum * (2 : ℝ) ^ (890 : ℤ)) (t.eval A) := by
  have split : ∀ {ws : List ℤ} {l m : List (Fl × Fl)}, List.Forall₂ (LeafAt A) ws (l ++ m) →
      ∃ u v, ws = u ++ v ∧ List.Forall₂ (LeafAt A) u l ∧ List.Forall₂ (LeafAt A) v m := by
    intro ws l m h
    obtain ⟨u, v, e, hu, hv⟩ := forall₂_split h.flip
    exact ⟨u, v, e, hu.flip, hv.flip⟩
  induction t with
  | prod a b =>
    intro ws h h1 hn
    cases h with
    | cons h2 h3 =>
      cases h3
      have := leafAt_mul A (h1 _ (by simp)) h2
      rw [List.sum_singleton]
      exact this
  | fma t a b ih =>
    intro ws h h1 hn
    obtain ⟨u, v, rfl, hu, hv⟩ := split h
    cases hv with
    | cons h2 h3 =>
      cases h3
      rename_i w
      rw [List.length_append] at hn
      have hu1 := ih u hu (fun w hw => h1 w (by simp [hw])) (by omega)
      have hw := h1 w (by simp)
      have hs := sum_abs_le _ h1
      obtain ⟨r1, r2⟩ := unit_rep (k := (u ++ [w]).sum) (hs.trans (by
        rw [List.length_append]
        exact_mod_cast hn))
      have e : (((u ++ [w]).sum : ℤ) : ℝ) * (2 : ℝ) ^ (890 : ℤ) = (u.sum : ℝ) * (2 : ℝ) ^ (890 : ℤ) + (w : ℝ) * (2 : ℝ) ^ (890 : ℤ) := by
        rw [List.sum_append, List.sum_singleton]
        push_cast
        ring
      rw [e] at r1 r2 ⊢
      have key := atMost_add A hu1 (leafAt_mul A hw h2) r1 r2
      rw [DotTree.eval]
      cases he : t.eval A with
      | fin x =>
        rw [he] at hu1 key
        cases a with
        | fin y =>
          cases b with
          | fin z => exact atMost_round A (add_le_add hu1 h2) r1 r2
          | _ => exact key
        | _ => exact key
      | _ => rw [he] at key; exact key
  | node s t ihs iht =>
    intro ws h h1 hn
    obtain ⟨u, v, rfl, hu, hv⟩ := split h
    rw [List.length_append] at hn
    have hs := sum_abs_le _ h1
    obtain ⟨r1, r2⟩ := unit_rep (k := (u ++ v).sum) (hs.trans (by
      rw [List.length_append]
      exact_mod_cast hn))
    have e : (((u ++ v).sum : ℤ) : ℝ) * (2 : ℝ) ^ (890 : ℤ) = (u.sum : ℝ) * (2 : ℝ) ^ (890 : ℤ) + (v.sum : ℝ) * (2 : ℝ) ^ (890 : ℤ) := by
      rw [List.sum_append]
      push_cast
      ring
    rw [e] at r1 r2 ⊢
    exact atMost_add A (ihs u hu (fun w hw => h1 w (by simp [hw])) (by omega)) (iht v hv (fun w hw => h1 w (by simp [hw])) (by omega)) r1 r2

theorem sum_nonpos_int (l : List ℤ) (h : ∀ w ∈ l, w ≤ 0) : l.sum ≤ 0 := by
  induction l with
  | nil => simp
  | cons a l ih =>
    rw [List.sum_cons]
    linarith [h a (by simp), ih fun x hx => h x (by simp [hx])]

theorem sum_le_of_mem (l : List ℤ) (h : ∀ w ∈ l, w ≤ 0) {w : ℤ} (hw : w ∈ l) : l.sum ≤ w := by
  induction l with
  | nil => simp at hw
  | cons a l ih =>
    have ha := h a (by simp)
    have hl : l.sum ≤ 0 := sum_nonpos_int _ fun x hx => h x (by simp [hx])
    rw [List.sum_cons]
    rcases List.mem_cons.1 hw with rfl | hw
    · linarith
    · linarith [ih (fun x hx => h x (by simp [hx])) hw]

/-- The numbers left of a positive number on the diagonal are finite and not large. -/
theorem pivot_bound {x : ℝ} (hx : x ≤ (2 : ℝ) ^ (890 : ℤ)) {i : Nat} (hi : i ≤ 2 ^ 40) {f : Nat → Fl} {v : Fl}
    (h : IsMinus A (.fin x) ((List.range i).map fun k => (f k, f k)) v) (hv : lt (.fin 0) v = true) : ∀ k < i, ∃ y, f k = .fin y ∧ y * y < (2 : ℝ) ^ (890 : ℤ) := by
  classical
  intro k hk
  by_contra hc
  push Not at hc
  rcases h with ⟨h, -⟩ | ⟨t, ht, rfl⟩
  · cases h
  let w : Nat → ℤ := fun l => if l = k then -1 else 0
  have hf : List.Forall₂ (LeafAt A) (1 :: (List.range i).map w) ((.fin x, .fin 1) :: ((List.range i).map fun k => (f k, f k)).map fun p => (neg p.1, p.2)) := by
    refine .cons ?_ ?_
    · simp only [LeafAt, mul_one, Int.cast_one, one_mul]
      exact hx
    · rw [List.map_map, List.forall₂_map_left_iff, List.forall₂_map_right_iff, List.forall₂_same]
      intro l _
      simp only [Function.comp, w]
      cases hl : f l with
      | fin y =>
        simp only [neg, LeafAt]
        split
        · next e =>
          have := hc y (e ▸ hl)
          push_cast
          linarith
        · push_cast
          nlinarith [mul_self_nonneg y]
      | nan => intro C; trivial
      | pinf => intro C; trivial
      | ninf => intro C; trivial
  obtain ⟨ws, hp, hw⟩ := List.perm_comp_forall₂ ht.symm.symm (hf.flip) |> fun ⟨u, hu, hp⟩ => (⟨u, hp, hu.flip⟩ : ∃ ws : List ℤ, ws.Perm _ ∧ List.Forall₂ (LeafAt A) ws t.leaves)
  have hall : ∀ v ∈ (1 :: (List.range i).map w), |v| ≤ 1 := by
    intro v hv
    rcases List.mem_cons.1 hv with rfl | hv
    · simp
    · obtain ⟨l, -, rfl⟩ := List.mem_map.1 hv
      simp only [w]
      split <;> simp
  have key := atMost_tree A t ws hw (fun v hv => hall v (hp.subset hv)) (by
    rw [hp.length_eq]
    simp
    omega)
  rw [hp.sum_eq, List.sum_cons] at key
  have hs : ((List.range i).map w).sum ≤ -1 := by
    refine sum_le_of_mem _ (fun v hv => ?_) (List.mem_map.2 ⟨k, List.mem_range.2 hk, by simp [w]⟩)
    obtain ⟨l, -, rfl⟩ := List.mem_map.1 hv
    simp only [w]
    split <;> simp
  cases he : t.eval A with
  | fin y =>
    rw [he] at key hv
    have hy : 0 < y := by simpa [lt] using hv
    have h1 : y ≤ ((1 + ((List.range i).map w).sum : ℤ) : ℝ) * (2 : ℝ) ^ (890 : ℤ) := key
    have h2 : ((1 + ((List.range i).map w).sum : ℤ) : ℝ) ≤ 0 := by
      have : (1 + ((List.range i).map w).sum : ℤ) ≤ 0 := by linarith
      exact_mod_cast this
    exact absurd (h1.trans (mul_nonpos_of_nonpos_of_nonneg h2 (by positivity))) (not_le.2 hy)
  | pinf => rw [he] at key; exact key
  | nan => rw [he] at hv; cases hv
  | ninf => rw [he] at hv; cases hv

theorem dot_rep (t : DotTree) {w : ℝ} (h : t.eval A = .fin w) : Rep w := by
  have r : ∀ {x y : ℝ}, A.round x = .fin y → Rep y := fun h => by
    rw [round_eq A h]
    exact A.rep _
  have ha : ∀ {a b : Fl}, add A a b = .fin w → Rep w := by
    intro a b h
    cases a <;> cases b <;> first | exact r h | cases h
  cases t with
  | prod a b =>
    rw [DotTree.eval] at h
    cases a <;> cases b <;> simp only [mul, infSign] at h <;> first | exact r h | (split_ifs at h) | cases h
  | fma t a b =>
    rw [DotTree.eval] at h
    cases he : t.eval A <;> rw [he] at h <;> cases a <;> cases b <;> first | (simp only [addMul, if_true] at h; exact r h) | (simp only [addMul] at h; exact ha h)
  | node s t => exact ha h

theorem range_sum (f : Nat → ℝ) (n : Nat) : ((List.range n).map f).sum = ∑ k ∈ Finset.range n, f k := by
  induction n with
  | zero => simp
  | succ n ih => rw [List.range_succ, List.map_append, List.sum_append, ih, Finset.sum_range_succ]; simp

/-- Products taken off. -/
theorem minus_acc {x : ℝ} {j : Nat} (hj : j ≤ 2 ^ 40) {a b : Nat → ℝ} (hW : |x| + ∑ k ∈ Finset.range j, |a k * b k| ≤ (2 : ℝ) ^ (990 : ℤ)) {v : Fl}
    (h : IsMinus A (.fin x) ((List.range j).map fun k => (.fin (a k), .fin (b k))) v) :
    ∃ w, v = .fin w ∧ Rep w ∧ |w - (x - ∑ k ∈ Finset.range j, a k * b k)| ≤
      (j + 1) * eps * (|x| + ∑ k ∈ Finset.range j, |a k * b k|) + 4 * (j + 1) * tiny := by
  have hf : List.Forall₂ (Times 0 0) ((.fin x, .fin 1) :: ((List.range j).map fun k => (Fl.fin (a k), Fl.fin (b k))).map fun p => (neg p.1, p.2))
      ((x, |x|) :: (List.range j).map fun k => (-(a k * b k), |a k * b k|)) := by
    refine .cons ⟨x, 1, rfl, ?_, le_rfl⟩ ?_
    · simp
    · rw [List.map_map, List.forall₂_map_left_iff, List.forall₂_map_right_iff, List.forall₂_same]
      intro k _
      refine ⟨-a k, b k, rfl, ?_, ?_⟩
      · simp
      · simp
  have ht : total ((x, |x|) :: (List.range j).map fun k => (-(a k * b k), |a k * b k|)) =
      (x - ∑ k ∈ Finset.range j, a k * b k, |x| + ∑ k ∈ Finset.range j, |a k * b k|) := by
    simp only [total, List.map_cons, List.sum_cons, List.map_map, Function.comp_def, range_sum, Finset.sum_neg_distrib, sub_eq_add_neg]
  have hjR : (j : ℝ) ≤ 2 ^ 40 := by exact_mod_cast hj
  obtain ⟨w, hw, hacc⟩ := dot_acc A le_rfl le_rfl hf (by simp; linarith) (by simp; linarith) (by rw [ht]; exact hW) h
  refine ⟨w, hw, ?_, ?_⟩
  · rcases h with ⟨h, -⟩ | ⟨t, -, rfl⟩
    · cases h
    · exact dot_rep A t hw
  · have := hacc.err
    rw [ht] at this
    simp only [List.length_cons, List.length_map, List.length_range, Nat.cast_add, Nat.cast_one, zero_add] at this
    linarith

/-- Errors of one step: the column. -/
theorem col_err {x d y : ℝ} (hd : 0 < d) (hd1 : (2 : ℝ) ^ (-540 : ℤ) ≤ d) (hd2 : d ≤ (2 : ℝ) ^ (460 : ℤ)) (recip : Bool)
    (h : (if recip then mul A (.fin x) (div A (.fin 1) (.fin d)) else div A (.fin x) (.fin d)) = .fin y) :
    |y * d - x| ≤ 4 * eps * |y * d| + 4 * (tiny * d) := by
  have he := eps_pos
  have ht := tiny_pos
  have hs : 100 * eps ≤ 1 := eps_small (by norm_num)
  have htd : 0 < tiny * d := by positivity
  have key : |y * d - x| ≤ 2 * eps * |x| + tiny * d := by
    cases recip
    · simp only [Bool.false_eq_true, if_false, div, hd.ne'] at h
      have hy := round_eq A h
      have h1 := rnd_err A (x / d)
      rw [← hy] at h1
      have h2 := mul_le_mul_of_nonneg_right h1 hd.le
      have e1 : |y - x / d| * d = |y * d - x| := by
        nth_rw 2 [← abs_of_pos hd]
        rw [← abs_mul]
        congr 1
        field_simp
      have e2 : |x / d| * d = |x| := by
        rw [abs_div, abs_of_pos hd]
        field_simp
      have e3 : (eps / 2 * |x / d| + tiny) * d = eps / 2 * (|x / d| * d) + tiny * d := by ring
      rw [e1, e3, e2] at h2
      have := mul_nonneg he.le (abs_nonneg x)
      linarith
    · have hr1 : (2 : ℝ) ^ (-460 : ℤ) ≤ 1 / d := by
        rw [le_div_iff₀ hd]
        calc (2 : ℝ) ^ (-460 : ℤ) * d ≤ (2 : ℝ) ^ (-460 : ℤ) * (2 : ℝ) ^ (460 : ℤ) := mul_le_mul_of_nonneg_left hd2 (by positivity)
          _ = 1 := by rw [← zpow_add₀ (by norm_num)]; norm_num
      have hr2 : 1 / d ≤ (2 : ℝ) ^ (540 : ℤ) := by
        rw [div_le_iff₀ hd]
        calc (1 : ℝ) = (2 : ℝ) ^ (540 : ℤ) * (2 : ℝ) ^ (-540 : ℤ) := by rw [← zpow_add₀ (by norm_num)]; norm_num
          _ ≤ _ := mul_le_mul_of_nonneg_left hd1 (by positivity)
      have hf : A.round (1 / d) = .fin (A.rnd (1 / d)) := round_fin A (by
        rw [abs_of_pos (by positivity)]
        exact hr2.trans (zpow_le_zpow_right₀ (by norm_num) (by norm_num)))
      simp only [if_true, div, hd.ne', if_false, hf, mul] at h
      have hy := round_eq A h
      have g1 := rnd_rel A (hr1.trans' (zpow_le_zpow_right₀ (by norm_num) (by norm_num) : (2 : ℝ) ^ (-1000 : ℤ) ≤ (2 : ℝ) ^ (-460 : ℤ)))
      have e52 : (2 : ℝ) ^ (-52 : ℤ) = eps / 2 := by
        have : (2 : ℝ) ^ (-51 : ℤ) = (2 : ℝ) ^ ((1 : ℤ) + (-52 : ℤ)) := by norm_num
        rw [eps, this, zpow_add₀ (by norm_num), zpow_one]
        ring
      rw [e52] at g1
      obtain ⟨r, hr⟩ : ∃ r, r = A.rnd (1 / d) := ⟨_, rfl⟩
      rw [← hr] at g1 hy
      have h1 := rnd_err A (x * r)
      rw [← hy] at h1
      have g2 : |r * d - 1| ≤ eps / 2 := by
        have e : |r - 1 / d| * d = |r * d - 1| := by
          nth_rw 2 [← abs_of_pos hd]
          rw [← abs_mul]
          congr 1
          field_simp
        have := mul_le_mul_of_nonneg_right g1 hd.le
        rw [e] at this
        refine this.trans (le_of_eq ?_)
        field_simp
      have g3 : |r| * d ≤ 2 := by
        have e : |r| * d = |r * d| := by rw [abs_mul, abs_of_pos hd]
        rw [e]
        have : |r * d| ≤ |r * d - 1| + |(1 : ℝ)| := by simpa using abs_add_le (r * d - 1) 1
        rw [abs_one] at this
        linarith
      have h2 := mul_le_mul_of_nonneg_right h1 hd.le
      have e1 : |y - x * r| * d = |y * d - x * (r * d)| := by
        have : |y - x * r| * d = |y - x * r| * |d| := by rw [abs_of_pos hd]
        rw [this, ← abs_mul]
        congr 1
        ring
      have e3 : (eps / 2 * |x * r| + tiny) * d = eps / 2 * (|x| * (|r| * d)) + tiny * d := by
        rw [abs_mul]
        ring
      rw [e1, e3] at h2
      have e4 : y * d - x = (y * d - x * (r * d)) + x * (r * d - 1) := by ring
      rw [e4]
      refine (abs_add_le _ _).trans ?_
      rw [abs_mul]
      have g4 := mul_le_mul_of_nonneg_left g2 (abs_nonneg x)
      have g5 := mul_le_mul_of_nonneg_left g3 (abs_nonneg x)
      have g6 := mul_le_mul_of_nonneg_left g5 (by positivity : (0 : ℝ) ≤ eps / 2)
      have g7 := mul_nonneg he.le (abs_nonneg x)
      linarith
  have h2 : |x| ≤ |y * d - x| + |y * d| := by
    have := abs_sub_abs_le_abs_sub x (y * d)
    rw [abs_sub_comm] at this
    linarith
  have h3 : |x| ≤ 2 * |y * d| + 2 * (tiny * d) := by
    have h4 : 2 * eps * |x| ≤ 1 / 2 * |x| := mul_le_mul_of_nonneg_right (by linarith) (abs_nonneg x)
    linarith
  have h5 := mul_le_mul_of_nonneg_left h3 (by positivity : (0 : ℝ) ≤ 2 * eps)
  have h6 : 2 * eps * (2 * (tiny * d)) ≤ 1 * (tiny * d) := by
    have := mul_le_mul_of_nonneg_right (by linarith : 4 * eps ≤ 1) htd.le
    linarith
  linarith

theorem quot_err {x d y : ℝ} (hd1 : (2 : ℝ) ^ (-537 : ℤ) ≤ d) (hd2 : d ≤ (2 : ℝ) ^ (450 : ℤ)) (h : IsQuot A (.fin x) (.fin d) (.fin y)) :
    |y * d - x| ≤ 4 * eps * |y * d| + 4 * (tiny * d) := by
  have hd : 0 < d := lt_of_lt_of_le (by positivity) hd1
  have h1 := hd1.trans' (zpow_le_zpow_right₀ (by norm_num) (by norm_num) : (2 : ℝ) ^ (-540 : ℤ) ≤ (2 : ℝ) ^ (-537 : ℤ))
  have h2 := hd2.trans (zpow_le_zpow_right₀ (by norm_num) (by norm_num) : (2 : ℝ) ^ (450 : ℤ) ≤ (2 : ℝ) ^ (460 : ℤ))
  rcases h with h | h
  · exact col_err A hd h1 h2 false h.symm
  · exact col_err A hd h1 h2 true h.symm

/-- The number, or zero. -/
noncomputable def val : Fl → ℝ
  | .fin x => x
  | _ => 0

/-- The diagonal. -/
theorem sqrt_step {x : ℝ} (hr : Rep x) (h0 : 0 < x) (h1 : x ≤ (2 : ℝ) ^ (900 : ℤ)) :
    ∃ d, npSqrt A (.fin x) = .fin d ∧ (2 : ℝ) ^ (-537 : ℤ) ≤ d ∧ d ≤ (2 : ℝ) ^ (450 : ℤ) ∧ |d * d - x| ≤ 4 * eps * (d * d) := by
  have he := eps_pos
  have hs : 100 * eps ≤ 1 := eps_small (by norm_num)
  have hx : tiny ≤ x := by
    by_contra hc
    push Not at hc
    exact h0.ne' (rep_small_zero hr h0.le hc)
  have l1 : (2 : ℝ) ^ (-537 : ℤ) ≤ Real.sqrt x := by
    refine Real.le_sqrt_of_sq_le (le_trans (le_of_eq ?_) hx)
    rw [tiny_zpow, sq, ← zpow_add₀ (by norm_num)]
    congr 1
  have l2 : Real.sqrt x ≤ (2 : ℝ) ^ (450 : ℤ) := by
    refine Real.sqrt_le_iff.2 ⟨by positivity, h1.trans (le_of_eq ?_)⟩
    rw [sq, ← zpow_add₀ (by norm_num)]
    congr 1
  have p0 : (0 : ℝ) < (2 : ℝ) ^ (-537 : ℤ) := by positivity
  obtain ⟨d, hd, hd1, hd2, -⟩ := round_between A l1 l2 (rep_pow _ (by norm_num)) (rep_pow _ (by norm_num)) (by linarith [big_nonneg]) (pow_le_big (by norm_num))
  refine ⟨d, by simp only [npSqrt, not_lt.2 h0.le, if_false, hd], hd1, hd2, ?_⟩
  have hr := rnd_rel A (l1.trans' (zpow_le_zpow_right₀ (by norm_num) (by norm_num) : (2 : ℝ) ^ (-1000 : ℤ) ≤ (2 : ℝ) ^ (-537 : ℤ)))
  rw [← round_eq A hd] at hr
  have e52 : (2 : ℝ) ^ (-52 : ℤ) = eps / 2 := by
    have : (2 : ℝ) ^ (-51 : ℤ) = (2 : ℝ) ^ ((1 : ℤ) + (-52 : ℤ)) := by norm_num
    rw [eps, this, zpow_add₀ (by norm_num), zpow_one]
    ring
  rw [e52] at hr
  obtain ⟨q, hq⟩ : ∃ q, q = Real.sqrt x := ⟨_, rfl⟩
  have hqq : q * q = x := by rw [hq]; exact Real.mul_self_sqrt h0.le
  rw [← hq] at hr l1
  have hq0 : 0 < q := by linarith
  have hd0 : 0 < d := by linarith
  obtain ⟨g1, g2⟩ := abs_le.1 hr
  have k1 : q ≤ 21 / 20 * d := by nlinarith
  have k2 : d ≤ 21 / 20 * q := by nlinarith
  rw [← hqq]
  have e : d * d - q * q = (d - q) * (d + q) := by ring
  rw [e, abs_mul, abs_of_pos (by linarith : 0 < d + q)]
  have m1 : |d - q| * (d + q) ≤ q * (eps / 2) * (d + q) := mul_le_mul_of_nonneg_right hr (by linarith)
  have m2 : q * (d + q) ≤ 4 * (d * d) := by nlinarith
  have m3 := mul_le_mul_of_nonneg_left m2 (by positivity : (0 : ℝ) ≤ eps / 2)
  nlinarith [mul_pos he (mul_pos hd0 hd0)]

theorem shape {x P a c W r : ℝ} (hc0 : 0 ≤ c) (hc : 8 * c ≤ 1) (hW : 0 ≤ W) (hP : |P| ≤ a) (hr : r = |P - x|) (h : r ≤ c * (|x| + a) + W) : r ≤ 3 * c * a + 2 * W := by
  have ha : 0 ≤ a := (abs_nonneg _).trans hP
  have h1 : |x| ≤ |P| + r := by
    rw [hr, abs_sub_comm]
    have := abs_sub_abs_le_abs_sub x P
    linarith
  have h2 : c * |x| ≤ 1 / 8 * |x| := mul_le_mul_of_nonneg_right (by linarith) (abs_nonneg _)
  have h3 : c * a ≤ 1 / 8 * a := mul_le_mul_of_nonneg_right (by linarith) ha
  have h4 : |x| ≤ 3 / 2 * a + 2 * W := by linarith
  have h5 := mul_le_mul_of_nonneg_left h4 hc0
  have h6 : c * W ≤ 1 / 8 * W := mul_le_mul_of_nonneg_right (by linarith) hW
  have h7 : 0 ≤ c * a := mul_nonneg hc0 ha
  linarith

theorem small_terms {j n : Nat} (hj : j < n) (hn : n ≤ 2 ^ 30) {d : ℝ} (hd : d ≤ (2 : ℝ) ^ (450 : ℤ)) :
    4 * ((j : ℝ) + 1) * tiny + 4 * (tiny * d) ≤ (2 : ℝ) ^ (-600 : ℤ) := by
  have ht := tiny_pos
  have h1 : ((j : ℝ) + 1) ≤ (2 : ℝ) ^ (40 : ℤ) := by
    have : j + 1 ≤ 2 ^ 40 := by omega
    have : ((j + 1 : ℕ) : ℝ) ≤ ((2 ^ 40 : ℕ) : ℝ) := by exact_mod_cast this
    push_cast at this
    exact_mod_cast this
  have e1 : 4 * (2 : ℝ) ^ (40 : ℤ) * tiny = (2 : ℝ) ^ (-1032 : ℤ) := by
    rw [tiny_zpow, show (4 : ℝ) = (2 : ℝ) ^ (2 : ℤ) by norm_num, ← zpow_add₀ (by norm_num), ← zpow_add₀ (by norm_num)]
    congr 1
  have e2 : (4 : ℝ) * (tiny * (2 : ℝ) ^ (450 : ℤ)) = (2 : ℝ) ^ (-622 : ℤ) := by
    rw [tiny_zpow, show (4 : ℝ) = (2 : ℝ) ^ (2 : ℤ) by norm_num, ← zpow_add₀ (by norm_num), ← zpow_add₀ (by norm_num)]
    congr 1
  have e3 : (2 : ℝ) ^ (-600 : ℤ) = 2 * (2 : ℝ) ^ (-601 : ℤ) := by
    rw [show (-600 : ℤ) = 1 + (-601) by norm_num, zpow_add₀ (by norm_num), zpow_one]
  have h2 : (2 : ℝ) ^ (-1032 : ℤ) ≤ (2 : ℝ) ^ (-601 : ℤ) := zpow_le_zpow_right₀ (by norm_num) (by norm_num)
  have h3 : (2 : ℝ) ^ (-622 : ℤ) ≤ (2 : ℝ) ^ (-601 : ℤ) := zpow_le_zpow_right₀ (by norm_num) (by norm_num)
  have h4 : 4 * ((j : ℝ) + 1) * tiny ≤ 4 * (2 : ℝ) ^ (40 : ℤ) * tiny := mul_le_mul_of_nonneg_right (mul_le_mul_of_nonneg_left h1 (by norm_num)) ht.le
  have h5 : 4 * (tiny * d) ≤ 4 * (tiny * (2 : ℝ) ^ (450 : ℤ)) := mul_le_mul_of_nonneg_left (mul_le_mul_of_nonneg_left hd ht.le) (by norm_num)
  rw [e3, two_mul]
  exact add_le_add (h4.trans (e1.le.trans h2)) (h5.trans (e2.le.trans h3))

/-- The unit of errors for matrices with `n` rows. -/
noncomputable def unitErr (n : Nat) : ℝ := (n + 5) * eps

theorem unitErr_small {n : Nat} (hn : n ≤ 2 ^ 30) : 0 < unitErr n ∧ 1000 * unitErr n ≤ 1 := by
  have he := eps_pos
  have hnR : (n : ℝ) ≤ 2 ^ 30 := by exact_mod_cast hn
  refine ⟨by unfold unitErr; positivity, ?_⟩
  have := eps_small (r := 1000 * (n + 5)) (by linarith)
  unfold unitErr
  linarith

theorem sizes {j : Nat} (hj : j ≤ 2 ^ 40) {a b : Nat → ℝ} {x : ℝ} (hx : |x| ≤ (2 : ℝ) ^ (980 : ℤ)) (h : ∀ k < j, |a k * b k| ≤ (2 : ℝ) ^ (900 : ℤ)) :
    |x| + ∑ k ∈ Finset.range j, |a k * b k| ≤ (2 : ℝ) ^ (990 : ℤ) := by
  have h1 : ∑ k ∈ Finset.range j, |a k * b k| ≤ j * (2 : ℝ) ^ (900 : ℤ) := by
    have := Finset.sum_le_card_nsmul (Finset.range j) (fun k => |a k * b k|) ((2 : ℝ) ^ (900 : ℤ)) fun k hk => h k (Finset.mem_range.1 hk)
    simpa using this
  have h2 : (j : ℝ) ≤ (2 : ℝ) ^ (40 : ℤ) := by exact_mod_cast hj
  have h3 : (j : ℝ) * (2 : ℝ) ^ (900 : ℤ) ≤ (2 : ℝ) ^ (980 : ℤ) := by
    refine (mul_le_mul_of_nonneg_right h2 (by positivity)).trans ?_
    rw [← zpow_add₀ (by norm_num)]
    exact zpow_le_zpow_right₀ (by norm_num) (by norm_num)
  have h4 : (2 : ℝ) ^ (980 : ℤ) + (2 : ℝ) ^ (980 : ℤ) ≤ (2 : ℝ) ^ (990 : ℤ) := by
    rw [← two_mul]
    have : (2 : ℝ) * (2 : ℝ) ^ (980 : ℤ) = (2 : ℝ) ^ (981 : ℤ) := by
      rw [show (981 : ℤ) = 1 + 980 by norm_num, zpow_add₀ (by norm_num), zpow_one]
    rw [this]
    exact zpow_le_zpow_right₀ (by norm_num) (by norm_num)
  exact (add_le_add hx (h1.trans h3)).trans h4

/-- Products taken off, and a division. -/
theorem entry_err {n j : Nat} (hj : j < n) (hn : n ≤ 2 ^ 30) {a b : Nat → ℝ} (hs : ∀ k < j, |a k * b k| ≤ (2 : ℝ) ^ (900 : ℤ)) {x : ℝ} (hx : |x| ≤ (2 : ℝ) ^ (980 : ℤ)) {d q : ℝ}
    (hd1 : (2 : ℝ) ^ (-537 : ℤ) ≤ d) (hd2 : d ≤ (2 : ℝ) ^ (450 : ℤ)) {v : Fl} (hv : IsMinus A (.fin x) ((List.range j).map fun k => (.fin (a k), .fin (b k))) v)
    (hq : IsQuot A v (.fin d) (.fin q)) :
    |(∑ k ∈ Finset.range j, a k * b k) + q * d - x| ≤ 3 * unitErr n * ((∑ k ∈ Finset.range j, |a k * b k|) + |q * d|) + 2 * (2 : ℝ) ^ (-600 : ℤ) := by
  obtain ⟨w, rfl, -, hw⟩ := minus_acc A (by omega) (sizes (by omega) hx hs) hv
  have hq' := quot_err A hd1 hd2 hq
  have ht := small_terms hj hn hd2
  obtain ⟨u0, u1⟩ := unitErr_small hn
  have he := eps_pos
  have hjR : (j : ℝ) + 1 ≤ n := by exact_mod_cast hj
  obtain ⟨P, hP⟩ : ∃ P, P = ∑ k ∈ Finset.range j, a k * b k := ⟨_, rfl⟩
  obtain ⟨PA, hPA⟩ : ∃ P, P = ∑ k ∈ Finset.range j, |a k * b k| := ⟨_, rfl⟩
  have hPP : |P| ≤ PA := by rw [hP, hPA]; exact Finset.abs_sum_le_sum_abs _ _
  rw [← hP, ← hPA] at hw ⊢
  refine shape (P := P + q * d) (x := x) u0.le (by linarith) (by positivity) ((abs_add_le _ _).trans (add_le_add hPP le_rfl)) rfl ?_
  have e : P + q * d - x = (q * d - w) + (w - (x - P)) := by ring
  rw [e]
  refine (abs_add_le _ _).trans ?_
  have hPA0 : 0 ≤ PA := (abs_nonneg _).trans hPP
  have h1 : ((j : ℝ) + 1) * eps * (|x| + PA) ≤ n * eps * (|x| + PA) :=
    mul_le_mul_of_nonneg_right (mul_le_mul_of_nonneg_right hjR he.le) (by positivity)
  have h2 : 0 ≤ eps * |x| := by positivity
  have h3 : 0 ≤ eps * PA := by positivity
  have h4 : 0 ≤ n * eps * |q * d| := by positivity
  have h5 : 0 ≤ eps * |q * d| := by positivity
  unfold unitErr
  generalize (2 : ℝ) ^ (-600 : ℤ) = W at *
  linarith

/-- Row `j` of the factor has finite numbers of usual size. -/
structure GoodRow (F : Nat → Nat → Fl) (f : Nat → Nat → ℝ) (j : Nat) : Prop where
  fin : ∀ k ≤ j, F j k = .fin (f j k)
  size : ∀ k ≤ j, |f j k| ≤ (2 : ℝ) ^ (202 : ℤ)
  low : (2 : ℝ) ^ (-537 : ℤ) ≤ f j j

theorem GoodRow.pos {F : Nat → Nat → Fl} {f : Nat → Nat → ℝ} {j : Nat} (h : GoodRow F f j) : 0 < f j j := lt_of_lt_of_le (by positivity) h.low

theorem good_pivot {n i : Nat} (hi : i < n) (hn : n ≤ 2 ^ 30) {S F : Nat → Nat → Fl} {f : Nat → Nat → ℝ} (hf : ∀ j k, f j k = val (F j k)) {x : ℝ} (hS : S i i = .fin x)
    (hx1 : (2 : ℝ) ^ (-400 : ℤ) ≤ x) (hx2 : x ≤ (2 : ℝ) ^ (400 : ℤ)) {v : Fl} (hv : IsPivot A S F i v) (hlt : lt (.fin 0) v = true) (hF : F i i = npSqrt A v) :
    GoodRow F f i ∧ |(∑ k ∈ Finset.range (i + 1), f i k * f i k) - x| ≤
      3 * unitErr n * (∑ k ∈ Finset.range (i + 1), |f i k * f i k|) + 2 * (2 : ℝ) ^ (-600 : ℤ) := by
  have x0 : 0 < x := lt_of_lt_of_le (by positivity) hx1
  unfold IsPivot at hv
  rw [hS] at hv
  have hb := pivot_bound A (hx2.trans (zpow_le_zpow_right₀ (by norm_num) (by norm_num))) (by omega) hv hlt
  have hfin : ∀ k < i, F i k = .fin (f i k) ∧ |f i k| ≤ (2 : ℝ) ^ (450 : ℤ) ∧ |f i k * f i k| ≤ (2 : ℝ) ^ (900 : ℤ) := by
    intro k hk
    obtain ⟨y, hy, hyy⟩ := hb k hk
    have e : f i k = y := by rw [hf, hy]; rfl
    have e1 : (2 : ℝ) ^ (900 : ℤ) = ((2 : ℝ) ^ (450 : ℤ)) ^ 2 := by
      rw [sq, ← zpow_add₀ (by norm_num)]
      congr 1
    have h1 : y * y ≤ (2 : ℝ) ^ (900 : ℤ) := hyy.le.trans (zpow_le_zpow_right₀ (by norm_num) (by norm_num))
    rw [e]
    refine ⟨hy, ?_, ?_⟩
    · rw [e1, ← sq] at h1
      exact abs_le_of_sq_le_sq h1 (by positivity)
    · rw [abs_of_nonneg (mul_self_nonneg y)]
      exact h1
  have hl : (List.range i).map (fun k => (F i k, F i k)) = (List.range i).map fun k => (.fin (f i k), .fin (f i k)) :=
    List.map_congr_left fun k hk => by rw [(hfin k (List.mem_range.1 hk)).1]
  rw [hl] at hv
  obtain ⟨w, rfl, hwr, hw⟩ := minus_acc A (by omega) (sizes (by omega) (by rw [abs_of_pos x0]; exact hx2.trans (zpow_le_zpow_right₀ (by norm_num) (by norm_num)))
    fun k hk => (hfin k hk).2.2) hv
  have hw0 : 0 < w := by simpa [lt] using hlt
  obtain ⟨u0, u1⟩ := unitErr_small hn
  have he := eps_pos
  have hiR : (i : ℝ) + 1 ≤ n := by exact_mod_cast hi
  have ht := small_terms hi hn (d := 0) (by positivity)
  rw [mul_zero, mul_zero, add_zero] at ht
  have hW1 : (2 : ℝ) ^ (-600 : ℤ) ≤ (2 : ℝ) ^ (-400 : ℤ) := zpow_le_zpow_right₀ (by norm_num) (by norm_num)
  obtain ⟨P, hP⟩ : ∃ P, P = ∑ k ∈ Finset.range i, f i k * f i k := ⟨_, rfl⟩
  have hPA : ∑ k ∈ Finset.range i, |f i k * f i k| = P := by
    rw [hP]
    exact Finset.sum_congr rfl fun k _ => abs_of_nonneg (mul_self_nonneg _)
  have hP0 : 0 ≤ P := by rw [← hPA]; exact Finset.sum_nonneg fun _ _ => abs_nonneg _
  rw [← hP, hPA, abs_of_pos x0] at hw
  have h1 : ((i : ℝ) + 1) * eps * (x + P) ≤ n * eps * (x + P) :=
    mul_le_mul_of_nonneg_right (mul_le_mul_of_nonneg_right hiR he.le) (by positivity)
  have h2 : n * eps ≤ 1 / 1000 := by
    unfold unitErr at u1
    linarith
  have h3 : n * eps * (x + P) ≤ 1 / 1000 * (x + P) := mul_le_mul_of_nonneg_right h2 (by positivity)
  have h5 : w ≤ 4 * x ∧ P ≤ 4 * x := by
    have h4 := abs_le.1 hw
    generalize (2 : ℝ) ^ (-600 : ℤ) = W at *
    generalize (2 : ℝ) ^ (-400 : ℤ) = V at *
    constructor <;> linarith [h4.1, h4.2]
  have e402 : 4 * x ≤ (2 : ℝ) ^ (402 : ℤ) := by
    refine (mul_le_mul_of_nonneg_left hx2 (by norm_num)).trans (le_of_eq ?_)
    rw [show (4 : ℝ) = (2 : ℝ) ^ (2 : ℤ) by norm_num, ← zpow_add₀ (by norm_num)]
    congr 1
  have e404 : 4 * (2 : ℝ) ^ (402 : ℤ) = ((2 : ℝ) ^ (202 : ℤ)) ^ 2 := by
    rw [sq, ← zpow_add₀ (by norm_num), show (4 : ℝ) = (2 : ℝ) ^ (2 : ℤ) by norm_num, ← zpow_add₀ (by norm_num)]
    congr 1
  have hwle : w ≤ (2 : ℝ) ^ (900 : ℤ) := h5.1.trans (e402.trans (zpow_le_zpow_right₀ (by norm_num) (by norm_num)))
  obtain ⟨d, hd, hd1, hd2, hdd⟩ := sqrt_step A hwr hw0 hwle
  rw [hd] at hF
  have ed : f i i = d := by rw [hf, hF]; rfl
  have hd0 : 0 < d := lt_of_lt_of_le (by positivity) hd1
  constructor
  · refine ⟨fun k hk => ?_, fun k hk => ?_, by rw [ed]; exact hd1⟩
    · rcases Nat.lt_or_eq_of_le hk with hk | rfl
      · exact (hfin k hk).1
      · rw [ed]; exact hF
    · have p402 : (0 : ℝ) < (2 : ℝ) ^ (402 : ℤ) := by positivity
      refine abs_le_of_sq_le_sq ?_ (by positivity)
      rw [← e404]
      rcases Nat.lt_or_eq_of_le hk with hk | rfl
      · have : f i k ^ 2 ≤ P := by
          rw [hP, sq]
          exact Finset.single_le_sum (f := fun k => f i k * f i k) (fun k _ => mul_self_nonneg _) (Finset.mem_range.2 hk)
        generalize (2 : ℝ) ^ (402 : ℤ) = V at *
        linarith
      · rw [ed, sq]
        have h100 : 100 * eps ≤ 1 := eps_small (by norm_num)
        have h6 := (abs_le.1 hdd).2
        have h7 : eps * (d * d) ≤ 1 / 100 * (d * d) := mul_le_mul_of_nonneg_right (by linarith) (by positivity)
        generalize (2 : ℝ) ^ (402 : ℤ) = V at *
        linarith
  · rw [Finset.sum_range_succ, Finset.sum_range_succ, hPA, ← hP, ed, abs_of_pos (mul_pos hd0 hd0)]
    refine shape (P := P + d * d) (x := x) u0.le (by linarith) (by positivity) (by rw [abs_of_nonneg (by positivity)]) rfl ?_
    have e : P + d * d - x = (d * d - w) + (w - (x - P)) := by ring
    rw [e, abs_of_pos x0]
    refine (abs_add_le _ _).trans ?_
    have h2 : 0 ≤ eps * x := by positivity
    have h3 : 0 ≤ eps * P := by positivity
    have h4 : 0 ≤ n * eps * (d * d) := by positivity
    have h5 : 0 ≤ eps * (d * d) := by positivity
    unfold unitErr
    generalize (2 : ℝ) ^ (-600 : ℤ) = W at *
    linarith

/-! ## The matrix -/

/-- `S` holds the numbers of the symmetric matrix `X`, of usual size, in its lower triangle. -/
structure IsSigma (n : Nat) (S : Nat → Nat → Fl) (X : Matrix (Fin n) (Fin n) ℝ) : Prop where
  num : ∀ i j : Fin n, j ≤ i → S i j = .fin (X i j)
  symm : ∀ i j, X i j = X j i
  low : ∀ i, (2 : ℝ) ^ (-400 : ℤ) ≤ X i i
  high : ∀ i, X i i ≤ (2 : ℝ) ^ (400 : ℤ)
  off : ∀ i j, |X i j| ≤ (2 : ℝ) ^ (980 : ℤ)

/-- The lower triangle of numbers. -/
def lowMat (f : Nat → Nat → ℝ) (m : Nat) : Matrix (Fin m) (Fin m) ℝ := fun i k => if k ≤ i then f i k else 0

theorem fin_sum_le {m : Nat} (j : Fin m) (g : Nat → ℝ) : (∑ k : Fin m, if k ≤ j then g k else 0) = ∑ k ∈ Finset.range (j + 1), g k := by
  have e1 : (∑ k : Fin m, if k ≤ j then g k else 0) = ∑ k ∈ Finset.range m, if k ≤ j.val then g k else 0 := by
    rw [Finset.sum_range]
    exact Finset.sum_congr rfl fun k _ => by simp only [Fin.le_def]
  rw [e1, ← Finset.sum_filter]
  refine Finset.sum_congr ?_ fun _ _ => rfl
  ext k
  simp only [Finset.mem_filter, Finset.mem_range]
  omega

theorem low_prod {f : Nat → Nat → ℝ} {m : Nat} {i j : Fin m} (h : j ≤ i) (k : Fin m) : lowMat f m i k * lowMat f m j k = if k ≤ j then f i k * f j k else 0 := by
  unfold lowMat
  by_cases hk : k ≤ j
  · rw [if_pos hk, if_pos hk, if_pos (hk.trans h)]
  · rw [if_neg hk, if_neg hk, mul_zero]

theorem low_gram {f : Nat → Nat → ℝ} {m : Nat} {i j : Fin m} (h : j ≤ i) :
    (lowMat f m * (lowMat f m)ᵀ) i j = ∑ k ∈ Finset.range (j + 1), f i k * f j k ∧
      ∑ k, |lowMat f m i k * lowMat f m j k| = ∑ k ∈ Finset.range (j + 1), |f i k * f j k| := by
  constructor
  · rw [mul_apply, ← fin_sum_le]
    exact Finset.sum_congr rfl fun k _ => by rw [transpose_apply, low_prod h]
  · rw [← fin_sum_le j fun k => |f i k * f j k|]
    refine Finset.sum_congr rfl fun k _ => ?_
    rw [low_prod h]
    split <;> simp

theorem prod_size {a b : ℝ} (ha : |a| ≤ (2 : ℝ) ^ (202 : ℤ)) (hb : |b| ≤ (2 : ℝ) ^ (202 : ℤ)) : |a * b| ≤ (2 : ℝ) ^ (404 : ℤ) := by
  rw [abs_mul]
  refine (mul_le_mul ha hb (abs_nonneg _) (by positivity)).trans (le_of_eq ?_)
  rw [← zpow_add₀ (by norm_num)]
  congr 1

variable {n : Nat} {S F : Nat → Nat → Fl} {X : Matrix (Fin n) (Fin n) ℝ} {f : Nat → Nat → ℝ}

/-- One number left of the diagonal. -/
theorem row_entry (hn : n ≤ 2 ^ 30) (hS : IsSigma n S X) {i j : Nat} (hi : i < n) (hj : j < i) (hrow : IsRow A S F i) (hg : GoodRow F f j)
    (hfin : ∀ k ≤ j, F i k = .fin (f i k)) (hsize : ∀ k < j, |f i k| ≤ (2 : ℝ) ^ (202 : ℤ)) :
    |(∑ k ∈ Finset.range (j + 1), f i k * f j k) - X ⟨i, hi⟩ ⟨j, hj.trans hi⟩| ≤
      3 * unitErr n * (∑ k ∈ Finset.range (j + 1), |f i k * f j k|) + 2 * (2 : ℝ) ^ (-600 : ℤ) := by
  obtain ⟨v, hv, hq⟩ := hrow j hj
  have hx := hS.num ⟨i, hi⟩ ⟨j, hj.trans hi⟩ (by simp only [Fin.le_def]; omega)
  simp only at hx
  rw [hx] at hv
  rw [hg.fin j le_rfl, hfin j le_rfl] at hq
  have hl : (List.range j).map (fun k => (F i k, F j k)) = (List.range j).map fun k => (.fin (f i k), .fin (f j k)) :=
    List.map_congr_left fun k hk => by
      have := List.mem_range.1 hk
      rw [hfin k this.le, hg.fin k this.le]
  rw [hl] at hv
  rw [Finset.sum_range_succ, Finset.sum_range_succ]
  refine entry_err A (hj.trans hi) hn (fun k hk => (prod_size (hsize k hk) (hg.size k hk.le)).trans (zpow_le_zpow_right₀ (by norm_num) (by norm_num))) (hS.off _ _) hg.low ?_ hv hq
  have := hg.size j le_rfl
  rw [abs_of_pos hg.pos] at this
  exact this.trans (zpow_le_zpow_right₀ (by norm_num) (by norm_num))

/-- All rows of a factor. -/
theorem rows_good (hn : n ≤ 2 ^ 30) (hS : IsSigma n S X) {m : Nat} (hm : m ≤ n) (hF : IsFactor A m S F) (hf : ∀ j k, f j k = val (F j k)) :
    (∀ i < m, GoodRow F f i) ∧ ∀ (i j : Fin m), j ≤ i → |(lowMat f m * (lowMat f m)ᵀ) i j - X (i.castLE hm) (j.castLE hm)| ≤
      3 * unitErr n * (∑ k, |lowMat f m i k * lowMat f m j k|) + 2 * (2 : ℝ) ^ (-600 : ℤ) := by
  have hp : ∀ i (hi : i < m), GoodRow F f i ∧ |(∑ k ∈ Finset.range (i + 1), f i k * f i k) - X ⟨i, lt_of_lt_of_le hi hm⟩ ⟨i, lt_of_lt_of_le hi hm⟩| ≤
      3 * unitErr n * (∑ k ∈ Finset.range (i + 1), |f i k * f i k|) + 2 * (2 : ℝ) ^ (-600 : ℤ) := fun i hi => by
    obtain ⟨hrow, v, hv, hlt, hd⟩ := hF i hi
    exact good_pivot A (lt_of_lt_of_le hi hm) hn hf (hS.num ⟨i, lt_of_lt_of_le hi hm⟩ ⟨i, lt_of_lt_of_le hi hm⟩ le_rfl) (hS.low _) (hS.high _) hv hlt hd
  refine ⟨fun i hi => (hp i hi).1, fun i j hij => ?_⟩
  rw [(low_gram hij).1, (low_gram hij).2]
  rcases lt_or_eq_of_le hij with h | rfl
  · have hi := i.isLt
    exact row_entry A hn hS (lt_of_lt_of_le hi hm) h (hF i hi).1 (hp j j.isLt).1 (fun k hk => (hp i hi).1.fin k (hk.trans (Nat.le_of_lt h)))
      fun k hk => (hp i hi).1.size k (hk.le.trans (Nat.le_of_lt h))
  · exact (hp j j.isLt).2

theorem n_err {n : Nat} (h : 0 < n) : unitErr n ≤ 6 * (n * eps) := by
  have : (1 : ℝ) ≤ n := by exact_mod_cast h
  have he := eps_pos
  unfold unitErr
  nlinarith

theorem eps_le_err (n : Nat) : eps ≤ unitErr n := by
  have he := eps_pos
  unfold unitErr
  have : 0 ≤ n * eps := by positivity
  linarith

theorem root_low {x : ℝ} (h : (2 : ℝ) ^ (-400 : ℤ) ≤ x) : (2 : ℝ) ^ (-200 : ℤ) ≤ Real.sqrt x := by
  refine Real.le_sqrt_of_sq_le (le_trans (le_of_eq ?_) h)
  rw [sq, ← zpow_add₀ (by norm_num)]
  congr 1

/-- The factor as a matrix: errors against the diagonal. -/
theorem block (hn : n ≤ 2 ^ 30) (hS : IsSigma n S X) {m : Nat} (hm : m ≤ n) (hF : IsFactor A m S F) (hf : ∀ j k, f j k = val (F j k)) :
    CholReal.Low (lowMat f m) ∧ (∀ i : Fin m, ∑ k, lowMat f m i k ^ 2 ≤ 2 * Real.sqrt (X (i.castLE hm) (i.castLE hm)) ^ 2) ∧
    ∀ i j : Fin m, |(lowMat f m * (lowMat f m)ᵀ) i j - X (i.castLE hm) (j.castLE hm)| ≤
      7 * unitErr n * (Real.sqrt (X (i.castLE hm) (i.castLE hm)) * Real.sqrt (X (j.castLE hm) (j.castLE hm))) := by
  obtain ⟨hg, he⟩ := rows_good A hn hS hm hF hf
  obtain ⟨u0, u1⟩ := unitErr_small hn
  have hlow : CholReal.Low (lowMat f m) := by
    refine ⟨fun i j hij => if_neg (not_le.2 hij), fun i => ?_⟩
    simp only [lowMat, le_refl, if_true]
    exact (hg i i.isLt).pos
  have hpos : ∀ i, 0 < X i i := fun i => lt_of_lt_of_le (by positivity) (hS.low i)
  refine ⟨hlow, ?_⟩
  refine CholReal.scaled (L := lowMat f m) (X := X.submatrix (Fin.castLE hm) (Fin.castLE hm)) (s := fun i => Real.sqrt (X (i.castLE hm) (i.castLE hm)))
    (w := (2 : ℝ) ^ (-600 : ℤ)) (fun i => Real.sqrt_pos.2 (hpos _)) (fun i => (Real.sq_sqrt (hpos _).le).symm) u0.le (by linarith) (by positivity) ?_ ?_
  · intro i j
    have h1 := root_low (hS.low (i.castLE hm))
    have h2 := root_low (hS.low (j.castLE hm))
    have h3 := mul_le_mul h1 h2 (by positivity) (Real.sqrt_nonneg _)
    have h4 := mul_le_mul (eps_le_err n) h3 (by positivity) u0.le
    refine le_trans ?_ h4
    rw [eps, ← zpow_add₀ (by norm_num), ← zpow_add₀ (by norm_num), show (2 : ℝ) * (2 : ℝ) ^ (-600 : ℤ) = (2 : ℝ) ^ (-599 : ℤ) by
      rw [show (-599 : ℤ) = 1 + (-600) by norm_num, zpow_add₀ (by norm_num), zpow_one]]
    exact zpow_le_zpow_right₀ (by norm_num) (by norm_num)
  · intro i j
    rcases le_total j i with h | h
    · exact he i j h
    · have h1 := he j i h
      have e1 : (lowMat f m * (lowMat f m)ᵀ) i j = (lowMat f m * (lowMat f m)ᵀ) j i := by
        simp only [mul_apply, transpose_apply]
        exact Finset.sum_congr rfl fun k _ => mul_comm _ _
      have e2 : ∑ k, |lowMat f m i k * lowMat f m j k| = ∑ k, |lowMat f m j k * lowMat f m i k| := Finset.sum_congr rfl fun k _ => by rw [mul_comm]
      rw [e1, e2]
      simp only [submatrix_apply]
      rw [hS.symm (i.castLE hm)]
      exact h1

/-- The margin for some of the rows and columns. -/
theorem margin_sub {μ : ℝ} (hX : (X - μ • diagonal X.diag).PosSemidef) {m : Nat} {e : Fin m → Fin n} (he : Function.Injective e) (z : Fin m → ℝ) :
    μ * ∑ a, X (e a) (e a) * z a ^ 2 ≤ ∑ a, ∑ b, X (e a) (e b) * (z a * z b) := by
  have h := (hX.submatrix e).dotProduct_mulVec_nonneg z
  have e1 : (X - μ • diagonal X.diag).submatrix e e = X.submatrix e e - μ • diagonal (X.diag ∘ e) := by
    rw [← submatrix_diagonal _ _ he]
    rfl
  rw [e1, star_trivial, sub_mulVec, dotProduct_sub, smul_mulVec, dotProduct_smul, CholReal.form_eq] at h
  have e2 : z ⬝ᵥ (diagonal (X.diag ∘ e) *ᵥ z) = ∑ a, X (e a) (e a) * z a ^ 2 := by
    simp only [dotProduct, mulVec_diagonal, Function.comp, diag]
    exact Finset.sum_congr rfl fun a _ => by ring
  rw [e2, smul_eq_mul] at h
  simp only [submatrix_apply] at h
  linarith

theorem quot_fin {w d : ℝ} (hw : |w| ≤ (2 : ℝ) ^ (440 : ℤ)) (hd : (2 : ℝ) ^ (-537 : ℤ) ≤ d) {r : Fl} (h : IsQuot A (.fin w) (.fin d) r) : ∃ q, r = .fin q := by
  have hd0 : 0 < d := lt_of_lt_of_le (by positivity) hd
  have h1 : 1 / d ≤ (2 : ℝ) ^ (537 : ℤ) := by
    rw [div_le_iff₀ hd0]
    calc (1 : ℝ) = (2 : ℝ) ^ (537 : ℤ) * (2 : ℝ) ^ (-537 : ℤ) := by rw [← zpow_add₀ (by norm_num)]; norm_num
      _ ≤ _ := mul_le_mul_of_nonneg_left hd (by positivity)
  have h0 : 0 ≤ 1 / d := by positivity
  have key : ∀ c : ℝ, 0 ≤ c → c ≤ (2 : ℝ) ^ (537 : ℤ) → |w * c| ≤ (2 : ℝ) ^ (1000 : ℤ) := by
    intro c hc0 hc
    rw [abs_mul, abs_of_nonneg hc0]
    refine (mul_le_mul hw hc hc0 (by positivity)).trans ?_
    rw [← zpow_add₀ (by norm_num)]
    exact zpow_le_zpow_right₀ (by norm_num) (by norm_num)
  rcases h with rfl | rfl
  · refine ⟨A.rnd (w * (1 / d)), ?_⟩
    simp only [div, hd0.ne', if_false]
    rw [← round_fin A (key _ h0 h1), mul_one_div]
  · obtain ⟨c, hc, hc0, hc1, -⟩ := round_between A h0 h1 rep_zero (rep_pow 537 (by norm_num)) (by linarith [big_nonneg]) (pow_le_big (by norm_num))
    refine ⟨A.rnd (w * c), ?_⟩
    simp only [div, hd0.ne', if_false, hc, mul]
    exact round_fin A (key c hc0 hc1)

/-- The sizes of the constants. -/
theorem consts (hn : n ≤ 2 ^ 30) (h0 : 0 < n) {μ t : ℝ} (hμ : 256 * n ^ 2 * eps ≤ μ) {m : Nat} (hm : m ≤ n) (ht : (2 : ℝ) ^ (-400 : ℤ) ≤ t) :
    0 < μ ∧ 14 * unitErr n * m ≤ μ ∧ 800 * m * unitErr n ^ 2 ≤ μ ^ 2 ∧ 32 * m * ((2 : ℝ) ^ (-399 : ℤ)) ^ 2 ≤ μ ^ 2 * t := by
  have he := eps_pos
  have hu := n_err h0
  have hu0 := (unitErr_small hn).1
  have n1 : (1 : ℝ) ≤ n := by exact_mod_cast h0
  have hmR : (m : ℝ) ≤ n := by exact_mod_cast hm
  have hm0 : (0 : ℝ) ≤ m := Nat.cast_nonneg _
  have hμ0 : 0 < μ := lt_of_lt_of_le (by positivity) hμ
  refine ⟨hμ0, ?_, ?_, ?_⟩
  · have h1 : unitErr n * m ≤ 6 * (n * eps) * n := mul_le_mul hu hmR hm0 (by positivity)
    have h2 : 0 ≤ n ^ 2 * eps := by positivity
    nlinarith
  · have h1 : unitErr n ^ 2 ≤ (6 * (n * eps)) ^ 2 := pow_le_pow_left₀ hu0.le hu 2
    have h2 : m * unitErr n ^ 2 ≤ n * (6 * (n * eps)) ^ 2 := mul_le_mul hmR h1 (by positivity) (by positivity)
    have h3 : (256 * n ^ 2 * eps) ^ 2 ≤ μ ^ 2 := pow_le_pow_left₀ (by positivity) hμ 2
    have h4 : (n : ℝ) ^ 3 * eps ^ 2 ≤ n ^ 4 * eps ^ 2 := mul_le_mul_of_nonneg_right (pow_le_pow_right₀ n1 (by norm_num)) (by positivity)
    have h5 : 0 ≤ (n : ℝ) ^ 4 * eps ^ 2 := by positivity
    nlinarith
  · have h1 : (m : ℝ) ≤ (2 : ℝ) ^ (30 : ℤ) := by
      have : (n : ℝ) ≤ 2 ^ 30 := by exact_mod_cast hn
      have e : (2 : ℝ) ^ (30 : ℤ) = 2 ^ 30 := by norm_num
      rw [e]
      linarith
    have h2 : (2 : ℝ) ^ (-43 : ℤ) ≤ μ := by
      have h3 : eps ≤ n ^ 2 * eps := by nlinarith
      have e : (2 : ℝ) ^ (-43 : ℤ) = 256 * eps := by
        rw [eps, show (256 : ℝ) = (2 : ℝ) ^ (8 : ℤ) by norm_num, ← zpow_add₀ (by norm_num)]
        congr 1
      rw [e]
      linarith
    calc 32 * m * ((2 : ℝ) ^ (-399 : ℤ)) ^ 2 ≤ 32 * (2 : ℝ) ^ (30 : ℤ) * ((2 : ℝ) ^ (-399 : ℤ)) ^ 2 :=
          mul_le_mul_of_nonneg_right (mul_le_mul_of_nonneg_left h1 (by norm_num)) (by positivity)
      _ = (2 : ℝ) ^ (-763 : ℤ) := by
          rw [sq, ← zpow_add₀ (by norm_num), show (32 : ℝ) = (2 : ℝ) ^ (5 : ℤ) by norm_num, ← zpow_add₀ (by norm_num), ← zpow_add₀ (by norm_num)]
          congr 1
      _ ≤ ((2 : ℝ) ^ (-43 : ℤ)) ^ 2 * (2 : ℝ) ^ (-400 : ℤ) := by
          rw [sq, ← zpow_add₀ (by norm_num), ← zpow_add₀ (by norm_num)]
          exact zpow_le_zpow_right₀ (by norm_num) (by norm_num)
      _ ≤ μ ^ 2 * t := mul_le_mul (pow_le_pow_left₀ (by positivity) h2 2) ht (by positivity) (by positivity)

theorem margin_le_one (hS : IsSigma n S X) {μ : ℝ} (hX : (X - μ • diagonal X.diag).PosSemidef) (i : Fin n) : μ ≤ 1 := by
  have h := margin_sub hX (m := 1) (e := fun _ => i) (fun a b _ => Subsingleton.elim a b) fun _ => 1
  simp only [Finset.univ_unique, Finset.sum_singleton, one_pow, mul_one] at h
  have h0 : 0 < X i i := lt_of_lt_of_le (by positivity) (hS.low i)
  nlinarith

/-- The entries beside the diagonal. -/
theorem entry_le (hS : IsSigma n S X) {μ : ℝ} (hμ : 0 ≤ μ) (hX : (X - μ • diagonal X.diag).PosSemidef) (i j : Fin n) : |X i j| ≤ (2 : ℝ) ^ (400 : ℤ) := by
  rcases eq_or_ne i j with rfl | hij
  · rw [abs_of_nonneg (le_trans (by positivity) (hS.low i))]
    exact hS.high i
  · have key : ∀ c : ℝ, c * c = 1 → 0 ≤ X i i + X j j + 2 * (c * X i j) := by
      intro c hc
      have h := margin_sub hX (m := 2) (e := ![i, j]) (by
        intro a b hab
        fin_cases a <;> fin_cases b <;> simp at hab ⊢
        · exact hij hab
        · exact hij hab.symm) ![1, c]
      simp only [Fin.sum_univ_two, Matrix.cons_val_zero, Matrix.cons_val_one, one_pow, mul_one, one_mul] at h
      have h1 : 0 ≤ μ * (X i i + X j j * c ^ 2) :=
        mul_nonneg hμ (add_nonneg (le_trans (by positivity) (hS.low i)) (mul_nonneg (le_trans (by positivity) (hS.low j)) (sq_nonneg c)))
      rw [hS.symm j i, hc, mul_one] at h
      linarith
    have h1 := key 1 (by norm_num)
    have h2 := key (-1) (by norm_num)
    have h3 := hS.high i
    have h4 := hS.high j
    generalize (2 : ℝ) ^ (400 : ℤ) = V at *
    rw [abs_le]
    constructor <;> linarith

/-- A row after rows without a failure: finite numbers, and a positive number is left for the diagonal. -/
theorem row_ok (hn : n ≤ 2 ^ 30) (hS : IsSigma n S X) {μ : ℝ} (hμ : 256 * n ^ 2 * eps ≤ μ) (hX : (X - μ • diagonal X.diag).PosSemidef) {i : Nat} (hi : i < n)
    (hF : IsFactor A i S F) (hrow : IsRow A S F i) (hf : ∀ j k, f j k = val (F j k)) :
    ∀ j ≤ i, (∀ k < j, F i k = .fin (f i k)) ∧ ∑ k ∈ Finset.range j, f i k ^ 2 ≤ (1 - μ / 2) * X ⟨i, hi⟩ ⟨i, hi⟩ := by
  have hμ1 := margin_le_one hS hX ⟨i, hi⟩
  have ht := hS.low ⟨i, hi⟩
  have ht0 : 0 < X ⟨i, hi⟩ ⟨i, hi⟩ := lt_of_lt_of_le (by positivity) ht
  have hμ0 := (consts hn (by omega) hμ le_rfl ht).1
  intro j
  induction j with
  | zero =>
    intro _
    refine ⟨fun k hk => absurd hk (by omega), ?_⟩
    simp only [Finset.range_zero, Finset.sum_empty]
    exact mul_nonneg (by linarith) ht0.le
  | succ j ih =>
    intro hj
    obtain ⟨ih1, ih2⟩ := ih (by omega)
    have hgood := (rows_good A hn hS hi.le hF hf).1
    have hgj := hgood j hj
    have hsize : ∀ k < j, |f i k| ≤ (2 : ℝ) ^ (202 : ℤ) := by
      intro k hk
      refine abs_le_of_sq_le_sq ?_ (by positivity)
      have h1 : f i k ^ 2 ≤ ∑ k ∈ Finset.range j, f i k ^ 2 := Finset.single_le_sum (f := fun k => f i k ^ 2) (fun k _ => sq_nonneg _) (Finset.mem_range.2 hk)
      have h2 : (1 - μ / 2) * X ⟨i, hi⟩ ⟨i, hi⟩ ≤ 1 * X ⟨i, hi⟩ ⟨i, hi⟩ := mul_le_mul_of_nonneg_right (by linarith) ht0.le
      have h3 : (2 : ℝ) ^ (400 : ℤ) ≤ ((2 : ℝ) ^ (202 : ℤ)) ^ 2 := by
        rw [sq, ← zpow_add₀ (by norm_num)]
        exact zpow_le_zpow_right₀ (by norm_num) (by norm_num)
      rw [one_mul] at h2
      exact h1.trans (ih2.trans (h2.trans ((hS.high _).trans h3)))
    -- The next number is finite.
    have hfin : ∃ q, F i j = .fin q := by
      obtain ⟨v, hv, hq⟩ := hrow j hj
      have hx := hS.num ⟨i, hi⟩ ⟨j, by omega⟩ (by simp only [Fin.le_def]; omega)
      simp only at hx
      rw [hx] at hv
      rw [hgj.fin j le_rfl] at hq
      have hl : (List.range j).map (fun k => (F i k, F j k)) = (List.range j).map fun k => (.fin (f i k), .fin (f j k)) :=
        List.map_congr_left fun k hk => by
          have := List.mem_range.1 hk
          rw [ih1 k this, hgj.fin k this.le]
      rw [hl] at hv
      have hps : ∀ k < j, |f i k * f j k| ≤ (2 : ℝ) ^ (404 : ℤ) := fun k hk => prod_size (hsize k hk) (hgj.size k hk.le)
      obtain ⟨w, rfl, -, hw⟩ := minus_acc A (by omega) (sizes (by omega) (hS.off _ _) fun k hk => (hps k hk).trans (zpow_le_zpow_right₀ (by norm_num) (by norm_num))) hv
      refine quot_fin A ?_ hgj.low hq
      have hx2 := entry_le hS hμ0.le hX ⟨i, hi⟩ ⟨j, by omega⟩
      have h1 : ∑ k ∈ Finset.range j, |f i k * f j k| ≤ (2 : ℝ) ^ (434 : ℤ) := by
        have := Finset.sum_le_card_nsmul (Finset.range j) (fun k => |f i k * f j k|) ((2 : ℝ) ^ (404 : ℤ)) fun k hk => hps k (Finset.mem_range.1 hk)
        rw [Finset.card_range, nsmul_eq_mul] at this
        have h2 : (j : ℝ) ≤ (2 : ℝ) ^ (30 : ℤ) := by
          have : j ≤ 2 ^ 30 := by omega
          exact_mod_cast this
        refine this.trans ((mul_le_mul_of_nonneg_right h2 (by positivity)).trans (le_of_eq ?_))
        rw [← zpow_add₀ (by norm_num)]
        congr 1
      have h2 : |∑ k ∈ Finset.range j, f i k * f j k| ≤ (2 : ℝ) ^ (434 : ℤ) := (Finset.abs_sum_le_sum_abs _ _).trans h1
      have h3 : (2 : ℝ) ^ (400 : ℤ) ≤ (2 : ℝ) ^ (434 : ℤ) := zpow_le_zpow_right₀ (by norm_num) (by norm_num)
      have h4 : (2 : ℝ) ^ (440 : ℤ) = 64 * (2 : ℝ) ^ (434 : ℤ) := by
        rw [show (64 : ℝ) = (2 : ℝ) ^ (6 : ℤ) by norm_num, ← zpow_add₀ (by norm_num)]
        congr 1
      have h5 : (1 : ℝ) ≤ (2 : ℝ) ^ (434 : ℤ) := one_le_zpow₀ (by norm_num) (by norm_num)
      have h6 : ((j : ℝ) + 1) * eps ≤ 1 := by
        refine eps_small ?_
        have : j + 1 ≤ 2 ^ 45 := by omega
        exact_mod_cast this
      have h7 : 4 * ((j : ℝ) + 1) * tiny ≤ 4 := by
        have := small_terms (j := j) (n := n) (by omega) hn (d := 0) (by positivity)
        rw [mul_zero, mul_zero, add_zero] at this
        refine this.trans ?_
        have := zpow_le_zpow_right₀ (a := (2 : ℝ)) (by norm_num) (by norm_num : (-600 : ℤ) ≤ 0)
        rw [zpow_zero] at this
        linarith
      obtain ⟨x, hxe⟩ : ∃ x, x = X ⟨i, hi⟩ ⟨j, by omega⟩ := ⟨_, rfl⟩
      obtain ⟨P, hP⟩ : ∃ P, P = ∑ k ∈ Finset.range j, f i k * f j k := ⟨_, rfl⟩
      obtain ⟨PA, hPA⟩ : ∃ P, P = ∑ k ∈ Finset.range j, |f i k * f j k| := ⟨_, rfl⟩
      rw [← hxe, ← hP, ← hPA] at hw
      rw [← hxe] at hx2
      rw [← hP] at h2
      rw [← hPA] at h1
      rw [h4]
      have hPA0 : 0 ≤ PA := by rw [hPA]; exact Finset.sum_nonneg fun _ _ => abs_nonneg _
      have h8 : ((j : ℝ) + 1) * eps * (|x| + PA) ≤ 1 * (|x| + PA) := mul_le_mul_of_nonneg_right h6 (by positivity)
      have h9 : |w| ≤ |w - (x - P)| + (|x| + |P|) := by
        have := abs_add_le (w - (x - P)) (x - P)
        rw [sub_add_cancel] at this
        exact this.trans (add_le_add le_rfl (abs_sub _ _))
      generalize (2 : ℝ) ^ (434 : ℤ) = V at *
      generalize (2 : ℝ) ^ (400 : ℤ) = U at *
      clear h4
      linarith
    have hall : ∀ k < j + 1, F i k = .fin (f i k) := by
      intro k hk
      rcases Nat.lt_or_eq_of_le (Nat.lt_succ_iff.1 hk) with h | rfl
      · exact ih1 k h
      · obtain ⟨q, hq⟩ := hfin
        rw [hf, hq]
        rfl
    refine ⟨hall, ?_⟩
    -- Its square is bounded.
    have hm : j + 1 ≤ n := by omega
    have hFj : IsFactor A (j + 1) S F := fun l hl => hF l (by omega)
    obtain ⟨b1, b2, b3⟩ := block A hn hS hm hFj hf
    obtain ⟨-, c1, c2, c3⟩ := consts hn (by omega) hμ hm ht
    have hpos : ∀ i, 0 < X i i := fun i => lt_of_lt_of_le (by positivity) (hS.low i)
    have key := CholReal.energy (X := X.submatrix (Fin.castLE hm) (Fin.castLE hm)) b1 (s := fun i => Real.sqrt (X (i.castLE hm) (i.castLE hm))) (w := (2 : ℝ) ^ (-600 : ℤ))
      (w' := (2 : ℝ) ^ (-399 : ℤ)) (μ := μ) (t := X ⟨i, hi⟩ ⟨i, hi⟩) (fun l => Real.sqrt_pos.2 (hpos _)) (unitErr_small hn).1.le (by positivity) (fun l => ?_) b2 b3
      (x := fun l => X ⟨i, hi⟩ (l.castLE hm)) (y := fun k => f i k) (fun l => ?_) hμ0 hμ1 c1 c2 c3 (fun z => ?_)
    · rw [Finset.sum_range]
      exact key
    · refine le_trans ?_ (mul_le_mul_of_nonneg_left (root_low (hS.low (l.castLE hm))) (by positivity))
      rw [← zpow_add₀ (by norm_num), show (2 : ℝ) * (2 : ℝ) ^ (-600 : ℤ) = (2 : ℝ) ^ (-599 : ℤ) by
        rw [show (-599 : ℤ) = 1 + (-600) by norm_num, zpow_add₀ (by norm_num), zpow_one]]
      exact zpow_le_zpow_right₀ (by norm_num) (by norm_num)
    · have hl := l.isLt
      have h1 := row_entry A hn hS hi (j := l) (by omega) hrow (hgood l (by omega)) (fun k hk => hall k (by omega)) (fun k hk => hsize k (by omega))
      have e1 : ∑ k, lowMat f (j + 1) l k * f i k = ∑ k ∈ Finset.range (l + 1), f i k * f l k := by
        rw [← fin_sum_le]
        refine Finset.sum_congr rfl fun k _ => ?_
        unfold lowMat
        split <;> ring
      have e2 : ∑ k, |lowMat f (j + 1) l k * f i k| = ∑ k ∈ Finset.range (l + 1), |f i k * f l k| := by
        rw [← fin_sum_le l fun k => |f i k * f l k|]
        refine Finset.sum_congr rfl fun k _ => ?_
        unfold lowMat
        split
        · rw [mul_comm]
        · simp
      rw [e1, e2]
      exact h1
    · have hinj : Function.Injective (Fin.snoc (α := fun _ => Fin n) (Fin.castLE hm) ⟨i, hi⟩ : Fin (j + 1 + 1) → Fin n) := by
        rw [Fin.snoc_injective_iff]
        refine ⟨Fin.castLE_injective hm, ?_⟩
        rintro ⟨l, hl⟩
        have := congrArg Fin.val hl
        have h2 := l.isLt
        simp only [Fin.val_castLE] at this
        omega
      have h1 := margin_sub hX hinj (Fin.snoc (α := fun _ => ℝ) z 1)
      simp only [Fin.sum_univ_castSucc (n := j + 1), Fin.snoc_castSucc, Fin.snoc_last, one_pow, mul_one, one_mul, Finset.sum_add_distrib] at h1
      have e1 : ∀ l, Real.sqrt (X (Fin.castLE hm l) (Fin.castLE hm l)) ^ 2 = X (Fin.castLE hm l) (Fin.castLE hm l) := fun l => Real.sq_sqrt (hpos _).le
      simp only [e1]
      rw [CholReal.form_eq]
      simp only [submatrix_apply, dotProduct]
      have e2 : ∑ l, X (Fin.castLE hm l) ⟨i, hi⟩ * z l = ∑ l, X ⟨i, hi⟩ (Fin.castLE hm l) * z l := Finset.sum_congr rfl fun l _ => by rw [hS.symm]
      rw [e2] at h1
      linarith

/-- C149: the factorization does not fail. -/
theorem no_failure (hn : n ≤ 2 ^ 30) (hS : IsSigma n S X) {μ : ℝ} (hμ : 256 * n ^ 2 * eps ≤ μ) (hX : (X - μ • diagonal X.diag).PosSemidef) : ¬ IsChol A n S none := by
  rintro ⟨i, hi, F, hF, hrow, v, hv, hlt⟩
  obtain ⟨f, hf⟩ : ∃ f : Nat → Nat → ℝ, ∀ j k, f j k = val (F j k) := ⟨fun j k => val (F j k), fun _ _ => rfl⟩
  obtain ⟨h1, h2⟩ := row_ok A hn hS hμ hX hi hF hrow hf i le_rfl
  have ht := hS.low ⟨i, hi⟩
  have ht0 : 0 < X ⟨i, hi⟩ ⟨i, hi⟩ := lt_of_lt_of_le (by positivity) ht
  have hμ0 := (consts hn (by omega) hμ le_rfl ht).1
  have hμ1 := margin_le_one hS hX ⟨i, hi⟩
  unfold IsPivot at hv
  have hx := hS.num ⟨i, hi⟩ ⟨i, hi⟩ le_rfl
  simp only at hx
  rw [hx] at hv
  have hl : (List.range i).map (fun k => (F i k, F i k)) = (List.range i).map fun k => (.fin (f i k), .fin (f i k)) :=
    List.map_congr_left fun k hk => by rw [h1 k (List.mem_range.1 hk)]
  rw [hl] at hv
  obtain ⟨t, hte⟩ : ∃ t, t = X ⟨i, hi⟩ ⟨i, hi⟩ := ⟨_, rfl⟩
  rw [← hte] at hv ht ht0 h2
  have hthi : t ≤ (2 : ℝ) ^ (400 : ℤ) := by rw [hte]; exact hS.high _
  obtain ⟨G, hG⟩ : ∃ G, G = ∑ k ∈ Finset.range i, f i k ^ 2 := ⟨_, rfl⟩
  have hG1 : ∑ k ∈ Finset.range i, f i k * f i k = G := by
    rw [hG]
    exact Finset.sum_congr rfl fun k _ => (sq _).symm
  have hG2 : ∑ k ∈ Finset.range i, |f i k * f i k| = G := by
    rw [← hG1]
    exact Finset.sum_congr rfl fun k _ => abs_of_nonneg (mul_self_nonneg _)
  have hG0 : 0 ≤ G := by rw [hG]; exact Finset.sum_nonneg fun _ _ => sq_nonneg _
  rw [← hG] at h2
  have hGt : G ≤ t := by
    have : (1 - μ / 2) * t ≤ 1 * t := mul_le_mul_of_nonneg_right (by linarith) ht0.le
    linarith
  obtain ⟨w, rfl, -, hw⟩ := minus_acc A (by omega) (by
    rw [hG2, abs_of_pos ht0]
    refine (add_le_add hthi (hGt.trans hthi)).trans ?_
    rw [← two_mul, show (2 : ℝ) * (2 : ℝ) ^ (400 : ℤ) = (2 : ℝ) ^ (401 : ℤ) by
      rw [show (401 : ℤ) = 1 + 400 by norm_num, zpow_add₀ (by norm_num), zpow_one]]
    exact zpow_le_zpow_right₀ (by norm_num) (by norm_num)) hv
  rw [hG1, hG2, abs_of_pos ht0] at hw
  have hw0 : ¬ 0 < w := by simpa [lt] using hlt
  apply hw0
  have he := eps_pos
  have hiR : (i : ℝ) + 1 ≤ n := by exact_mod_cast hi
  have n1 : (1 : ℝ) ≤ n := by
    have : (0 : ℝ) ≤ i := Nat.cast_nonneg _
    linarith
  have h3 : ((i : ℝ) + 1) * eps * (t + G) ≤ n ^ 2 * eps * (2 * t) := by
    refine mul_le_mul (mul_le_mul_of_nonneg_right (by nlinarith) he.le) (by linarith) (by positivity) (by positivity)
  have h4 := small_terms hi hn (d := 0) (by positivity)
  rw [mul_zero, mul_zero, add_zero] at h4
  have h5 : 256 * n ^ 2 * eps * t ≤ μ * t := mul_le_mul_of_nonneg_right hμ ht0.le
  have h6 : (2 : ℝ) ^ (-600 : ℤ) ≤ n ^ 2 * eps * t := by
    have h7 : eps * (2 : ℝ) ^ (-400 : ℤ) ≤ n ^ 2 * eps * t := mul_le_mul (le_mul_of_one_le_left he.le (one_le_pow₀ n1)) ht (by positivity) (by positivity)
    refine le_trans ?_ h7
    rw [eps, ← zpow_add₀ (by norm_num)]
    exact zpow_le_zpow_right₀ (by norm_num) (by norm_num)
  have h7 := (abs_le.1 hw).1
  have h8 : 0 < n ^ 2 * eps * t := by positivity
  generalize (2 : ℝ) ^ (-600 : ℤ) = W at *
  linarith

end Verif.Ieee
