import Mathlib.Tactic.Linarith
import Mathlib.Tactic.FieldSimp
import Mathlib.Tactic.Ring
import Mathlib.Algebra.Order.Floor.Ring
import Mathlib.Algebra.Order.BigOperators.Group.List
import Verif.Model.Interp
import Verif.Props.Bases

/-!
# Linear interpolation basis: C67
-/

namespace Verif.Interp

open Verif Verif.Bases

/-! ## Specification -/

/-- The hat function of width `dt` around the node `x`: one at the node, zero at the neighbouring nodes and
beyond, linear in between. -/
noncomputable def hat (dt x t : ℝ) : ℝ := max 0 (1 - |t - x| / dt)

theorem hat_nonneg (dt x t : ℝ) : 0 ≤ hat dt x t := le_max_left _ _

theorem hat_left {dt x t : ℝ} (hdt : 0 < dt) (h1 : x - dt ≤ t) (h2 : t ≤ x) : hat dt x t = (t - (x - dt)) / dt := by
  have e : 1 - |t - x| / dt = (t - (x - dt)) / dt := by
    rw [abs_of_nonpos (by linarith)]; field_simp; ring
  unfold hat
  rw [e, max_eq_right (div_nonneg (by linarith) hdt.le)]

theorem hat_right {dt x t : ℝ} (hdt : 0 < dt) (h1 : x ≤ t) (h2 : t ≤ x + dt) : hat dt x t = (x + dt - t) / dt := by
  have e : 1 - |t - x| / dt = (x + dt - t) / dt := by
    rw [abs_of_nonneg (by linarith)]; field_simp; ring
  unfold hat
  rw [e, max_eq_right (div_nonneg (by linarith) hdt.le)]

theorem hat_zero {dt x t : ℝ} (hdt : 0 < dt) (h : dt ≤ |t - x|) : hat dt x t = 0 := by
  unfold hat
  have : 1 ≤ |t - x| / dt := (one_le_div hdt).2 h
  exact max_eq_left (by linarith)

/-! ## The loop -/

/-- `r` is the row of the hat functions of the nodes up to `m`, if `t` is not beyond node `m`, else zero. -/
def Upto (lo dt t : ℝ) (n m : Nat) (r : List ℝ) : Prop :=
  r.length = n ∧ ∀ j < n, r[j]? = some (if j ≤ m ∧ t ≤ lo + m * dt then hat dt (lo + j * dt) t else 0)

variable {lo dt t : ℝ} {n : Nat}

theorem nodes_get (x : List ℝ) (hx : x = (List.range n).map fun i : Nat => lo + i * dt) (j : Nat) (hj : j < n) :
    x.getD j 0 = lo + j * dt := by
  subst hx
  simp [hj]

theorem pass_in {x r : List ℝ} {m : Nat} (hm : m + 1 < n) (hl : r.length = n) (hdt : 0 < dt)
    (hx : x = (List.range n).map fun i : Nat => lo + i * dt) (h1 : lo + m * dt ≤ t) (h2 : t ≤ lo + (m + 1 : ℕ) * dt)
    (h0 : ∀ j < n, j ≠ m → j ≠ m + 1 → r[j]? = some 0) : Upto lo dt t n (m + 1) (pass x t r m) := by
  have ea := nodes_get (lo := lo) (dt := dt) x hx m (by omega)
  have eb := nodes_get (lo := lo) (dt := dt) x hx (m + 1) hm
  have hab : lo + (m + 1 : ℕ) * dt = lo + m * dt + dt := by push_cast; ring
  unfold pass
  simp only [ea, eb]
  rw [if_pos ⟨h1, h2⟩]
  refine ⟨by simp [hl], fun j hj => ?_⟩
  rw [List.getElem?_set, List.getElem?_set, List.length_set, hl]
  by_cases e1 : m + 1 = j
  · subst e1
    rw [if_pos rfl, if_pos hm, if_pos ⟨le_rfl, h2⟩, hat_left hdt (by linarith) h2]
    congr 1
    rw [hab, show lo + m * dt + dt - dt = lo + m * dt by ring, show lo + m * dt + dt - (lo + m * dt) = dt by ring]
  · rw [if_neg e1]
    by_cases e2 : m = j
    · subst e2
      rw [if_pos rfl, if_pos (by omega), if_pos ⟨by omega, h2⟩, hat_right hdt h1 (by linarith)]
      congr 1
      rw [hab, show lo + m * dt - (lo + m * dt + dt) = -dt by ring, div_neg, ← neg_div]
      congr 1
      ring
    · rw [if_neg e2, h0 j hj (Ne.symm e2) (Ne.symm e1)]
      by_cases e3 : j ≤ m + 1
      · have hjm : j + 1 ≤ m := by omega
        have : ((j : ℝ) + 1) ≤ m := by exact_mod_cast hjm
        have hjd : (j : ℝ) * dt + dt ≤ m * dt := by nlinarith
        rw [if_pos ⟨e3, h2⟩, hat_zero hdt]
        rw [abs_of_nonneg (by linarith)]
        linarith
      · rw [if_neg (by rintro ⟨h, _⟩; exact e3 h)]

/-- One pass keeps the invariant. -/
theorem pass_step {x r : List ℝ} {m : Nat} (hm : m + 1 < n) (hm0 : 0 < m) (hdt : 0 < dt)
    (hx : x = (List.range n).map fun i : Nat => lo + i * dt) (h : Upto lo dt t n m r) :
    Upto lo dt t n (m + 1) (pass x t r m) := by
  obtain ⟨hl, hv⟩ := h
  have ea := nodes_get (lo := lo) (dt := dt) x hx m (by omega)
  have eb := nodes_get (lo := lo) (dt := dt) x hx (m + 1) hm
  have hab : lo + (m + 1 : ℕ) * dt = lo + m * dt + dt := by push_cast; ring
  by_cases hin : lo + m * dt ≤ t ∧ t ≤ lo + (m + 1 : ℕ) * dt
  · apply pass_in hm hl hdt hx hin.1 hin.2
    intro j hj hjm hjm1
    rw [hv j hj]
    by_cases hc : j ≤ m ∧ t ≤ lo + m * dt
    · have hjm' : j + 1 ≤ m := by omega
      have : ((j : ℝ) + 1) ≤ m := by exact_mod_cast hjm'
      have hjd : (j : ℝ) * dt + dt ≤ m * dt := by nlinarith
      rw [if_pos hc, hat_zero hdt]
      rw [abs_of_nonneg (by linarith [hin.1])]
      linarith [hin.1]
    · rw [if_neg hc]
  · have hp : pass x t r m = r := by
      unfold pass
      simp only [ea, eb]
      rw [if_neg hin]
    rw [hp]
    refine ⟨hl, fun j hj => ?_⟩
    rw [hv j hj]
    congr 1
    by_cases h1 : t ≤ lo + m * dt
    · have h2 : t ≤ lo + (m + 1 : ℕ) * dt := by linarith
      have h3 : t < lo + m * dt := by
        rcases lt_or_eq_of_le h1 with h | h
        · exact h
        · exact absurd ⟨h.ge, h2⟩ hin
      by_cases hj1 : j ≤ m
      · rw [if_pos ⟨hj1, h1⟩, if_pos ⟨by omega, h2⟩]
      · rw [if_neg (by rintro ⟨h, _⟩; exact hj1 h)]
        by_cases hj2 : j ≤ m + 1
        · have : j = m + 1 := by omega
          subst this
          rw [if_pos ⟨le_rfl, h2⟩, hat_zero hdt]
          rw [abs_of_nonpos (by linarith)]
          linarith
        · rw [if_neg (by rintro ⟨h, _⟩; exact hj2 h)]
    · have h2 : ¬ t ≤ lo + (m + 1 : ℕ) * dt := fun h => hin ⟨(not_le.1 h1).le, h⟩
      rw [if_neg (by rintro ⟨_, h⟩; exact h1 h), if_neg (by rintro ⟨_, h⟩; exact h2 h)]

theorem loop (x : List ℝ) (hdt : 0 < dt) (hx : x = (List.range n).map fun i : Nat => lo + i * dt) (hlo : lo ≤ t) (m : Nat)
    (hm : m + 1 < n) :
    Upto lo dt t n (m + 1) ((List.range (m + 1)).foldl (pass x t) (List.replicate n 0)) := by
  induction m with
  | zero =>
    rw [List.range_one, List.foldl_cons, List.foldl_nil]
    by_cases h2 : t ≤ lo + (0 + 1 : ℕ) * dt
    · apply pass_in hm (by simp) hdt hx (by simpa using hlo) h2
      intro j hj _ _
      simp [hj]
    · have ea := nodes_get (lo := lo) (dt := dt) x hx 0 (by omega)
      have eb := nodes_get (lo := lo) (dt := dt) x hx (0 + 1) hm
      have hp : pass x t (List.replicate n 0) 0 = List.replicate n 0 := by
        unfold pass
        simp only [ea, eb]
        rw [if_neg (by rintro ⟨_, h⟩; exact h2 h)]
      rw [hp]
      refine ⟨by simp, fun j hj => ?_⟩
      rw [if_neg (by rintro ⟨_, h⟩; exact h2 h)]
      simp [hj]
  | succ m ih =>
    rw [List.range_succ, List.foldl_append, List.foldl_cons, List.foldl_nil]
    exact pass_step hm (by omega) hdt hx (ih (by omega))

/-- The finished row: the hat functions of all nodes. -/
theorem interpRow_hat (x : List ℝ) (hdt : 0 < dt) (hx : x = (List.range n).map fun i : Nat => lo + i * dt) (hn : 2 ≤ n)
    (hlo : lo ≤ t) (hhi : t ≤ lo + (n - 1 : ℕ) * dt) :
    (interpRow x t).length = n ∧ ∀ j < n, (interpRow x t)[j]? = some (hat dt (lo + j * dt) t) := by
  have hl : x.length = n := by rw [hx]; simp
  obtain ⟨k, rfl⟩ : ∃ k, n = k + 2 := ⟨n - 2, by omega⟩
  have := loop x hdt hx hlo k (by omega)
  have e : interpRow x t = (List.range (k + 1)).foldl (pass x t) (List.replicate (k + 2) 0) := by
    unfold interpRow; rw [hl]; rfl
  rw [e]
  refine ⟨this.1, fun j hj => ?_⟩
  rw [this.2 j hj, if_pos ⟨by omega, by simpa using hhi⟩]

/-! ## Sums against values at the nodes -/

/-- The combination of the values `y` at the nodes with the weights in a row. -/
def dot (r : List ℝ) (nodes : List ℝ) (y : ℝ → ℝ) : ℝ := (List.zipWith (fun w x => w * y x) r nodes).sum

theorem list_sum_range (n : Nat) (f : Nat → ℝ) : ((List.range n).map f).sum = ∑ j ∈ Finset.range n, f j := by
  induction n with
  | zero => simp
  | succ n ih => rw [List.range_succ, List.map_append, List.sum_append, ih, Finset.sum_range_succ]; simp

theorem sum_hat (hdt : 0 < dt) (y : ℝ → ℝ) (k : Nat) (hk : k + 1 < n) (h1 : lo + k * dt ≤ t) (h2 : t ≤ lo + k * dt + dt) :
    ((List.range n).map fun j : Nat => hat dt (lo + j * dt) t * y (lo + j * dt)).sum =
      y (lo + k * dt) * ((lo + k * dt + dt - t) / dt) + y (lo + k * dt + dt) * ((t - (lo + k * dt)) / dt) := by
  have hz : ∀ j : Nat, j ≠ k → j ≠ k + 1 → hat dt (lo + j * dt) t = 0 := by
    intro j hj hj'
    apply hat_zero hdt
    rcases Nat.lt_or_ge j k with h | h
    · have : ((j : ℝ) + 1) ≤ k := by exact_mod_cast h
      have : (j : ℝ) * dt + dt ≤ k * dt := by nlinarith
      rw [abs_of_nonneg (by linarith)]; linarith
    · have h3 : k + 2 ≤ j := by omega
      have : ((k : ℝ) + 2) ≤ j := by exact_mod_cast h3
      have : (k : ℝ) * dt + 2 * dt ≤ j * dt := by nlinarith
      rw [abs_of_nonpos (by linarith)]; linarith
  rw [list_sum_range, ← Finset.sum_subset (s₁ := {k, k + 1})]
  · rw [Finset.sum_pair (by omega), hat_right hdt h1 h2]
    have e : lo + ((k + 1 : ℕ) : ℝ) * dt = lo + k * dt + dt := by push_cast; ring
    rw [e, hat_left hdt (by linarith) h2]
    rw [show lo + k * dt + dt - dt = lo + k * dt by ring]
    ring
  · intro j hj
    simp only [Finset.mem_insert, Finset.mem_singleton] at hj
    rw [Finset.mem_range]; omega
  · intro j _ hj
    simp only [Finset.mem_insert, Finset.mem_singleton, not_or] at hj
    rw [hz j hj.1 hj.2, zero_mul]

/-- Linear interpolation between the values of `y` at the points `lo + k dt`. -/
noncomputable def lerp (lo dt : ℝ) (y : ℝ → ℝ) (t : ℝ) : ℝ :=
  y (lo + ⌊(t - lo) / dt⌋ * dt) * (1 - Int.fract ((t - lo) / dt)) +
    y (lo + (⌊(t - lo) / dt⌋ + 1) * dt) * Int.fract ((t - lo) / dt)

/-- At the points, the interpolation is the value. -/
theorem lerp_node (lo dt : ℝ) (hdt : dt ≠ 0) (y : ℝ → ℝ) (k : ℤ) : lerp lo dt y (lo + k * dt) = y (lo + k * dt) := by
  have e : (lo + k * dt - lo) / dt = k := by field_simp; ring
  unfold lerp
  rw [e]; simp

/-- An affine function is its own interpolation. -/
theorem lerp_affine (lo dt : ℝ) (hdt : dt ≠ 0) (a b t : ℝ) : lerp lo dt (fun x => a + b * x) t = a + b * t := by
  unfold lerp
  have h := Int.floor_add_fract ((t - lo) / dt)
  have h2 : t = lo + (⌊(t - lo) / dt⌋ + Int.fract ((t - lo) / dt)) * dt := by rw [h]; field_simp; ring
  generalize Int.fract ((t - lo) / dt) = φ at *
  generalize (⌊(t - lo) / dt⌋ : ℝ) = k at *
  rw [h2]; ring

theorem sum_hat_lerp (hdt : 0 < dt) (y : ℝ → ℝ) (h1 : lo ≤ t) (h2 : t ≤ lo + (n - 1 : ℕ) * dt) (hn : 0 < n) :
    ((List.range n).map fun j : Nat => hat dt (lo + j * dt) t * y (lo + j * dt)).sum = lerp lo dt y t := by
  have hq : 0 ≤ (t - lo) / dt := div_nonneg (by linarith) hdt.le
  obtain ⟨k, hk⟩ : ∃ k : ℕ, ⌊(t - lo) / dt⌋ = (k : ℤ) := ⟨_, (Int.toNat_of_nonneg (Int.floor_nonneg.2 hq)).symm⟩
  have hkr : ((⌊(t - lo) / dt⌋ : ℤ) : ℝ) = k := by rw [hk]; rfl
  have hf := Int.floor_add_fract ((t - lo) / dt)
  have hf0 := Int.fract_nonneg ((t - lo) / dt)
  have hf1 := (Int.fract_lt_one ((t - lo) / dt)).le
  rw [hkr] at hf
  have ht : t = lo + (k + Int.fract ((t - lo) / dt)) * dt := by rw [hf]; field_simp; ring
  have hlast : hat dt (lo + n * dt) t = 0 := by
    apply hat_zero hdt
    have : ((n - 1 : ℕ) : ℝ) = n - 1 := by rw [Nat.cast_sub hn]; simp
    rw [this] at h2
    rw [abs_of_nonpos (by nlinarith)]; nlinarith
  have hext : ((List.range n).map fun j : Nat => hat dt (lo + j * dt) t * y (lo + j * dt)).sum =
      ((List.range (n + 1)).map fun j : Nat => hat dt (lo + j * dt) t * y (lo + j * dt)).sum := by
    rw [List.range_succ, List.map_append, List.sum_append]
    simp [hlast]
  have hkn : k + 1 < n + 1 := by
    have : (k : ℝ) ≤ (n - 1 : ℕ) := by
      have h3 : (t - lo) / dt ≤ (n - 1 : ℕ) := by rw [div_le_iff₀ hdt]; linarith
      linarith
    have : k ≤ n - 1 := by exact_mod_cast this
    omega
  unfold lerp
  rw [hkr, hext]
  generalize hφ : Int.fract ((t - lo) / dt) = φ at *
  rw [sum_hat hdt y k hkn (by rw [ht]; nlinarith) (by rw [ht]; nlinarith)]
  rw [show lo + k * dt + dt = lo + (k + 1) * dt by ring, show (lo + (k + 1) * dt - t) / dt = 1 - φ by rw [ht]; field_simp; ring,
    show (t - (lo + k * dt)) / dt = φ by rw [ht]; field_simp; ring]

/-! ## Kept columns -/

theorem sum_filter_map {β : Type} (l : List β) (p : β → Bool) (f : β → ℝ) (h : ∀ a ∈ l, p a = false → f a = 0) :
    ((l.filter p).map f).sum = (l.map f).sum := by
  induction l with
  | nil => rfl
  | cons a l ih =>
    have ih' := ih fun b hb => h b (List.mem_cons_of_mem _ hb)
    rw [List.filter_cons]
    by_cases hp : p a = true
    · rw [if_pos hp, List.map_cons, List.sum_cons, ih', List.map_cons, List.sum_cons]
    · rw [if_neg hp, ih', List.map_cons, List.sum_cons, h a List.mem_cons_self (by simpa using hp), zero_add]

theorem zero_of_sum_zero (l : List ℝ) (h0 : ∀ a ∈ l, 0 ≤ a) (hs : l.sum = 0) : ∀ a ∈ l, a = 0 := by
  induction l with
  | nil => simp
  | cons b l ih =>
    have hl : 0 ≤ l.sum := List.sum_nonneg fun a ha => h0 a (List.mem_cons_of_mem _ ha)
    have hb := h0 b List.mem_cons_self
    rw [List.sum_cons] at hs
    intro a ha
    rcases List.mem_cons.1 ha with rfl | ha
    · linarith
    · exact ih (fun a ha => h0 a (List.mem_cons_of_mem _ ha)) (by linarith) a ha

theorem dot_map (l : List Nat) (f g : Nat → ℝ) (y : ℝ → ℝ) : dot (l.map f) (l.map g) y = (l.map fun j => f j * y (g j)).sum := by
  unfold dot
  induction l with
  | nil => rfl
  | cons a l ih => simp only [List.map_cons, List.zipWith_cons_cons, List.sum_cons, ih]

/-- The nodes from the first TOA to at least the last one. -/
theorem nodes (lo hi dt : ℝ) (hdt : 0 < dt) (h : lo < hi) :
    ∃ n : Nat, 2 ≤ n ∧ arange lo (hi + dt) dt = (List.range n).map (fun i : Nat => lo + i * dt) ∧
      hi ≤ lo + (n - 1 : ℕ) * dt := by
  have hq : 0 < (hi - lo) / dt := div_pos (by linarith) hdt
  have e : (hi + dt - lo) / dt = (hi - lo) / dt + 1 := by field_simp; ring
  have hc : (0 : ℤ) < ⌈(hi - lo) / dt⌉ := Int.ceil_pos.2 hq
  refine ⟨⌈(hi + dt - lo) / dt⌉.toNat, ?_, rfl, ?_⟩
  · rw [e, Int.ceil_add_one]; omega
  · have e2 : ((⌈(hi + dt - lo) / dt⌉.toNat - 1 : ℕ) : ℝ) = ⌈(hi - lo) / dt⌉ := by
      rw [e, Int.ceil_add_one]
      obtain ⟨k, hk⟩ := Int.eq_ofNat_of_zero_le hc.le
      rw [hk]
      have : ((k : ℤ) + 1).toNat - 1 = k := by omega
      rw [this]; simp
    rw [e2]
    have := Int.le_ceil ((hi - lo) / dt)
    rw [div_le_iff₀ hdt] at this
    linarith

/-- **C67.**  If the TOAs are not all the same, then for every TOA the row of the basis gives, for all values `y` at
the nodes, the piecewise linear interpolation of `y`; it has at most two entries that are not zero, sums to one and
gives back the TOA from the nodes.  The nodes are distinct points of the grid that starts at the first TOA, in order,
and every column is used by a TOA. -/
theorem C67 (t₀ : ℝ) (ts : List ℝ) (dt : ℝ) (hdt : 0 < dt) (hne : ∃ s ∈ ts, s ≠ t₀) :
    ∃ rows xs lo, linearInterp (t₀ :: ts) dt = .ok (rows, xs) ∧ rows.length = ts.length + 1 ∧
      (∀ s ∈ t₀ :: ts, lo ≤ s) ∧ lo ∈ t₀ :: ts ∧ xs.Pairwise (· < ·) ∧ (∀ x ∈ xs, ∃ k : ℕ, x = lo + k * dt) ∧
      (∀ (j : ℕ), j < xs.length → ∃ r ∈ rows, ∃ w : ℝ, (r : List ℝ)[j]? = some w ∧ w ≠ 0) ∧
      ∀ (i : ℕ) (t : ℝ), (t₀ :: ts)[i]? = some t → ∃ r : List ℝ, rows[i]? = some r ∧ r.length = xs.length ∧
        (∀ y, dot r xs y = lerp lo dt y t) ∧ (r.filter (· ≠ 0)).length ≤ 2 ∧ r.sum = 1 ∧ dot r xs id = t := by
  obtain ⟨hmem, hmin⟩ := foldl_min t₀ ts
  obtain ⟨hmem', hmax⟩ := foldl_max t₀ ts
  generalize hlo : ts.foldl min t₀ = lo at hmem hmin
  generalize hhi : ts.foldl max t₀ = hi at hmem' hmax
  have hmin' : ∀ s ∈ t₀ :: ts, lo ≤ s := fun s hs => hmin (List.mem_cons.1 hs)
  have hmax' : ∀ s ∈ t₀ :: ts, s ≤ hi := fun s hs => hmax (List.mem_cons.1 hs)
  have hlt : lo < hi := by
    obtain ⟨s, hs, hst⟩ := hne
    have h1 := hmin' s (List.mem_cons_of_mem _ hs)
    have h2 := hmax' s (List.mem_cons_of_mem _ hs)
    have h3 := hmin' t₀ List.mem_cons_self
    have h4 := hmax' t₀ List.mem_cons_self
    rcases lt_or_gt_of_ne hst with h | h <;> linarith
  obtain ⟨n, hn, hx, hend⟩ := nodes lo hi dt hdt hlt
  have hrow : ∀ s ∈ t₀ :: ts, ∀ j < n, (interpRow (arange lo (hi + dt) dt) s).getD j 0 = hat dt (lo + j * dt) s := by
    intro s hs j hj
    rw [List.getD_eq_getElem?_getD, (interpRow_hat _ hdt hx hn (hmin' s hs) ((hmax' s hs).trans hend)).2 j hj]
    rfl
  have hxl : (arange lo (hi + dt) dt).length = n := by rw [hx]; simp
  generalize hidx : usedCols ((t₀ :: ts).map (interpRow (arange lo (hi + dt) dt))) n = idx
  have hidx_lt : ∀ j ∈ idx, j < n := by
    intro j hj
    rw [← hidx, usedCols, List.mem_filter, List.mem_range] at hj
    exact hj.1
  have hxs : idx.map (fun j => (arange lo (hi + dt) dt).getD j 0) = idx.map fun j : ℕ => lo + j * dt :=
    List.map_congr_left fun j hj => nodes_get _ hx j (hidx_lt j hj)
  have hcol : ∀ j, ((t₀ :: ts).map (interpRow (arange lo (hi + dt) dt))).map (fun r => r.getD j 0) =
      (t₀ :: ts).map fun s => (interpRow (arange lo (hi + dt) dt) s).getD j 0 := by
    intro j; rw [List.map_map]; rfl
  have hdrop : ∀ s ∈ t₀ :: ts, ∀ j < n, decide ((((t₀ :: ts).map (interpRow (arange lo (hi + dt) dt))).map
      (fun r => r.getD j 0)).sum ≠ 0) = false → hat dt (lo + j * dt) s = 0 := by
    intro s hs j hj hd
    have hd' : ((t₀ :: ts).map fun s => (interpRow (arange lo (hi + dt) dt) s).getD j 0).sum = 0 := by
      rw [← hcol]; simpa using hd
    have := zero_of_sum_zero _ (by
      intro a ha
      obtain ⟨s', hs', rfl⟩ := List.mem_map.1 ha
      rw [hrow s' hs' j hj]; exact hat_nonneg _ _ _) hd' _ (List.mem_map.2 ⟨s, hs, rfl⟩)
    rwa [hrow s hs j hj] at this
  refine ⟨(t₀ :: ts).map fun s => idx.map fun j : ℕ => hat dt (lo + j * dt) s, idx.map fun j : ℕ => lo + j * dt, lo, ?_,
    by simp, hmin', List.mem_cons.2 hmem, ?_, ?_, ?_, ?_⟩
  · unfold linearInterp
    simp only [hlo, hhi, hxl, hidx, hxs, List.map_map]
    congr 2
    refine List.map_congr_left fun s hs => ?_
    exact List.map_congr_left fun j hj => hrow s hs j (hidx_lt j hj)
  · rw [List.pairwise_map, ← hidx, usedCols]
    refine List.Pairwise.filter _ (List.pairwise_lt_range.imp ?_)
    intro a b hab
    have : (a : ℝ) < b := by exact_mod_cast hab
    nlinarith
  · intro x hx'
    obtain ⟨j, _, rfl⟩ := List.mem_map.1 hx'
    exact ⟨j, rfl⟩
  · intro j hj
    rw [List.length_map] at hj
    have hm : idx[j] ∈ idx := List.getElem_mem hj
    have hm' : ∀ q ∈ idx, ((t₀ :: ts).map fun s => (interpRow (arange lo (hi + dt) dt) s).getD q 0).sum ≠ 0 := by
      intro q hq
      rw [← hidx, usedCols, List.mem_filter] at hq
      have h := hq.2
      rw [hcol] at h
      exact of_decide_eq_true h
    have hsum : ((t₀ :: ts).map fun s => (interpRow (arange lo (hi + dt) dt) s).getD (idx[j]) 0).sum ≠ 0 := hm' _ hm
    by_contra hcon
    push Not at hcon
    apply hsum
    apply List.sum_eq_zero
    intro a ha
    obtain ⟨s, hs, rfl⟩ := List.mem_map.1 ha
    rw [hrow s hs _ (hidx_lt _ hm)]
    refine hcon _ (List.mem_map.2 ⟨s, hs, rfl⟩) _ ?_
    rw [List.getElem?_map, List.getElem?_eq_getElem hj]; rfl
  · intro i t hi'
    have ht : t ∈ t₀ :: ts := List.mem_of_getElem? hi'
    have hy : ∀ y, dot (idx.map fun j : ℕ => hat dt (lo + j * dt) t) (idx.map fun j : ℕ => lo + j * dt) y =
        lerp lo dt y t := by
      intro y
      rw [dot_map, ← sum_hat_lerp (n := n) hdt y (hmin' t ht) ((hmax' t ht).trans hend) (by omega), ← hidx, usedCols]
      refine sum_filter_map _ _ _ fun j hj hd => ?_
      rw [hdrop t ht j (List.mem_range.1 hj) hd, zero_mul]
    have haff := fun a b => (hy fun x => a + b * x).trans (lerp_affine lo dt hdt.ne' a b t)
    refine ⟨_, by rw [List.getElem?_map, hi']; rfl, by simp, hy, ?_, ?_, ?_⟩
    · rw [List.filter_map, List.length_map]
      have hnd : idx.Nodup := by
        rw [← hidx, usedCols]; exact List.nodup_range.filter _
      have hq : 0 ≤ (t - lo) / dt := div_nonneg (by linarith [hmin' t ht]) hdt.le
      obtain ⟨k, hk⟩ : ∃ k : ℕ, ⌊(t - lo) / dt⌋ = (k : ℤ) := ⟨_, (Int.toNat_of_nonneg (Int.floor_nonneg.2 hq)).symm⟩
      have hk1 : (k : ℝ) * dt ≤ t - lo := by
        have := Int.floor_le ((t - lo) / dt)
        rw [hk, le_div_iff₀ hdt] at this; exact_mod_cast this
      have hk2 : t - lo < (k + 1) * dt := by
        have := Int.lt_floor_add_one ((t - lo) / dt)
        rw [hk, div_lt_iff₀ hdt] at this; exact_mod_cast this
      refine ((hnd.filter _).subperm (l₂ := [k, k + 1]) ?_).length_le
      intro j hj
      have hj' := (List.mem_filter.1 hj).2
      simp only [Function.comp_apply, ne_eq, decide_not, Bool.not_eq_eq_eq_not, Bool.not_true,
        decide_eq_false_iff_not] at hj'
      by_contra hc
      simp only [List.mem_cons, List.not_mem_nil, or_false, not_or] at hc
      apply hj'
      apply hat_zero hdt
      rcases Nat.lt_or_ge j k with h | h
      · have : ((j : ℝ) + 1) ≤ k := by exact_mod_cast h
        have : (j : ℝ) * dt + dt ≤ k * dt := by nlinarith
        rw [abs_of_nonneg (by linarith)]; linarith
      · have h3 : k + 2 ≤ j := by omega
        have : ((k : ℝ) + 2) ≤ j := by exact_mod_cast h3
        have : (k : ℝ) * dt + 2 * dt ≤ j * dt := by nlinarith
        rw [abs_of_nonpos (by linarith)]; linarith
    · have := haff 1 0
      rw [dot_map] at this
      simpa using this
    · have := haff 0 1
      simpa [dot_map] using this

/-- With all TOAs equal there is only one node, the loop does not run and the basis has no columns: no row sums to
one. -/
theorem C67_false (t dt : ℝ) (hdt : 0 < dt) (k : Nat) :
    linearInterp (List.replicate (k + 1) t) dt = .ok (List.replicate (k + 1) [], []) := by
  have e1 : ∀ k, (List.replicate k t).foldl min t = t := by
    intro k
    induction k with
    | zero => rfl
    | succ k ih => rw [List.replicate_succ, List.foldl_cons, min_self, ih]
  have e2 : ∀ k, (List.replicate k t).foldl max t = t := by
    intro k
    induction k with
    | zero => rfl
    | succ k ih => rw [List.replicate_succ, List.foldl_cons, max_self, ih]
  have e3 : arange t (t + dt) dt = [t] := by
    unfold arange
    rw [show (t + dt - t) / dt = 1 by field_simp; ring]
    simp
  have e4 : usedCols (List.replicate (k + 1) [(0 : ℝ)]) 1 = [] := by
    unfold usedCols
    simp
  rw [List.replicate_succ]
  unfold linearInterp
  simp only [e1, e2, e3]
  rw [← List.replicate_succ, List.map_replicate]
  have e5 : interpRow [t] t = [0] := by simp [interpRow]
  rw [e5, List.length_singleton, e4]
  simp

/-- Three TOAs, of which one lies between two nodes: its row interpolates and `C67` applies. -/
example : ∃ rows xs lo, linearInterp [0, 3, 1] 2 = .ok (rows, xs) ∧ rows.length = 3 ∧ lo ∈ [(0 : ℝ), 3, 1] := by
  obtain ⟨rows, xs, lo, h, hl, _, hm, _⟩ := C67 0 [3, 1] 2 (by norm_num) ⟨3, by simp, by norm_num⟩
  exact ⟨rows, xs, lo, h, hl, hm⟩

end Verif.Interp
