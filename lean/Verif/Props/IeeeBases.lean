import Verif.Model.IeeeBases
import Verif.Props.IeeePhi
import Verif.Props.IeeeToas

/-!
# Fourier design matrices in floating-point arithmetic

C142: processes over the same time span share the columns of the same frequencies bit by bit, and the columns are accurate.
-/

namespace Verif.Ieee

open Verif

variable (A : Arith) (P : Powers) (S : Trig)

theorem harmonicsF_take {n m : ℕ} (h : n ≤ m) (T : Fl) : (harmonicsF A m T).take n = harmonicsF A n T := by
  rw [harmonicsF, harmonicsF, ← List.map_take, List.take_range, min_eq_left h]

theorem flatten_take {α : Type} (l : List (List α)) (h : ∀ x ∈ l, x.length = 2) (n : ℕ) : l.flatten.take (2 * n) = (l.take n).flatten := by
  induction l generalizing n with
  | nil => simp
  | cons x l ih =>
    cases n with
    | zero => simp
    | succ n =>
      have hx := h x (by simp)
      have e : 2 * (n + 1) = x.length + 2 * n := by omega
      rw [List.flatten_cons, e, List.take_length_add_append, ih (fun y hy => h y (by simp [hy])), List.take_succ_cons, List.flatten_cons]

theorem flatten_get {α : Type} (l : List (List α)) (h : ∀ x ∈ l, x.length = 2) (j : ℕ) {k : ℕ} (hk : k < 2) :
    l.flatten[2 * j + k]? = l[j]?.bind (·[k]?) := by
  induction l generalizing j with
  | nil => simp
  | cons x l ih =>
    have hx := h x (by simp)
    rw [List.flatten_cons]
    cases j with
    | zero =>
      rw [List.getElem?_append_left (by omega)]
      simp
    | succ j =>
      rw [List.getElem?_append_right (by omega), hx]
      have : 2 * (j + 1) + k - 2 = 2 * j + k := by omega
      rw [this, ih (fun y hy => h y (by simp [hy])), List.getElem?_cons_succ]

theorem pairs (fs shifts : List Fl) (t : Fl) :
    ∀ x ∈ List.zipWith (fun f p => [npSin S (phaseF A P t f p), npCos S (phaseF A P t f p)]) fs shifts, x.length = 2 := by
  intro x hx
  rw [List.mem_iff_getElem?] at hx
  obtain ⟨i, hi⟩ := hx
  rw [List.getElem?_zipWith] at hi
  split at hi
  · simp only [Option.some.injEq] at hi
    rw [← hi]
    rfl
  · cases hi

/-- C142: over the same time span the columns of the first modes do not depend on how many modes follow, bit by bit, for all rounding rules. -/
theorem C142_shared {n m : ℕ} (h : n ≤ m) (toas : List Fl) (T : Fl) (shifts : List Fl) :
    freqsF A n T none none = (freqsF A m T none none).take n ∧
    designF A P S toas n T none none (shifts.take n) = (designF A P S toas m T none none shifts).map (List.take (2 * n)) := by
  have e : freqsF A n T none none = (freqsF A m T none none).take n := by
    simp only [freqsF, and_self, if_true, harmonicsF_take A h]
  refine ⟨e, ?_⟩
  rw [designF, designF, List.map_map, e]
  refine List.map_congr_left fun t _ => ?_
  rw [Function.comp_apply, rowF, rowF, flatten_take _ (pairs A P S _ _ _), List.take_zipWith]

/-- C142: the bounds of the frequencies have no influence unless they are given; if they are, and equal to the defaults, the frequencies of the same
modes differ. -/
theorem C142_bounds (hA : Nearest A) : ∃ T : ℝ, 0 < T ∧ (freqsF A 2 (.fin T) (some (div A (.fin 1) (.fin T))) none)[1]? ≠
    (freqsF A 6 (.fin T) (some (div A (.fin 1) (.fin T))) none)[1]? := by
  have big1 : (1 : ℝ) ≤ big := by simpa using nat_le_big (n := 1) (by norm_num)
  have key : ∀ {z : ℝ} (m : ℤ) (j : ℤ), A.rnd z = m * (2 : ℝ) ^ j → |m * (2 : ℝ) ^ j| ≤ 1 → A.round z = .fin (m * (2 : ℝ) ^ j) := by
    intro z m j h1 h2
    have := abs_le.1 h2
    rw [Arith.round, h1, if_neg (by linarith), if_neg (by linarith)]
  have r1 : A.round (1 / 297) = .fin ((7763781175803683 : ℤ) * (2 : ℝ) ^ (-61 : ℤ)) :=
    key _ _ (hA.eq _ (by norm_num) (by norm_num) (by norm_num) (by norm_num [abs_lt])) (by norm_num [abs_le])
  have r2 : A.round (2 / 297) = .fin ((7763781175803683 : ℤ) * (2 : ℝ) ^ (-60 : ℤ)) :=
    key _ _ (hA.eq _ (by norm_num) (by norm_num) (by norm_num) (by norm_num [abs_lt])) (by norm_num [abs_le])
  have r6 : A.round (6 / 297) = .fin ((5822835881852763 : ℤ) * (2 : ℝ) ^ (-58 : ℤ)) :=
    key _ _ (hA.eq _ (by norm_num) (by norm_num) (by norm_num) (by norm_num [abs_lt])) (by norm_num [abs_le])
  have rd : A.round ((5822835881852763 : ℤ) * (2 : ℝ) ^ (-58 : ℤ) + -((7763781175803683 : ℤ) * (2 : ℝ) ^ (-61 : ℤ))) = .fin ((4852363234877303 : ℤ) * (2 : ℝ) ^ (-58 : ℤ)) :=
    key _ _ (hA.eq _ (by norm_num) (by norm_num) (by norm_num) (by norm_num [abs_lt])) (by norm_num [abs_le])
  have rs : A.round ((4852363234877303 : ℤ) * (2 : ℝ) ^ (-58 : ℤ) / 5) = .fin ((7763781175803685 : ℤ) * (2 : ℝ) ^ (-61 : ℤ)) :=
    key _ _ (hA.eq _ (by norm_num) (by norm_num) (by norm_num) (by norm_num [abs_lt])) (by norm_num [abs_le])
  have rm : A.round (1 * ((7763781175803685 : ℤ) * (2 : ℝ) ^ (-61 : ℤ))) = .fin ((7763781175803685 : ℤ) * (2 : ℝ) ^ (-61 : ℤ)) :=
    key _ _ (hA.eq _ (by norm_num) (by norm_num) (by norm_num) (by norm_num [abs_lt])) (by norm_num [abs_le])
  have ry : A.round ((7763781175803685 : ℤ) * (2 : ℝ) ^ (-61 : ℤ) + (7763781175803683 : ℤ) * (2 : ℝ) ^ (-61 : ℤ)) = .fin ((7763781175803684 : ℤ) * (2 : ℝ) ^ (-60 : ℤ)) :=
    key _ _ (hA.eq _ (by norm_num) (by norm_num) (by norm_num) (by norm_num [abs_lt])) (by norm_num [abs_le])
  refine ⟨297, by norm_num, ?_⟩
  have d1 : div A (.fin 1) (.fin 297) = .fin ((7763781175803683 : ℤ) * (2 : ℝ) ^ (-61 : ℤ)) := by
    simp only [div, OfNat.ofNat_ne_zero, if_false, r1]
  have d2 : div A (.fin ((2 : ℕ) : ℝ)) (.fin 297) = .fin ((7763781175803683 : ℤ) * (2 : ℝ) ^ (-60 : ℤ)) := by
    simp only [div, OfNat.ofNat_ne_zero, if_false, Nat.cast_ofNat, r2]
  have d6 : div A (.fin ((6 : ℕ) : ℝ)) (.fin 297) = .fin ((5822835881852763 : ℤ) * (2 : ℝ) ^ (-58 : ℤ)) := by
    simp only [div, OfNat.ofNat_ne_zero, if_false, Nat.cast_ofNat, r6]
  have l2 : (freqsF A 2 (.fin 297) (some (div A (.fin 1) (.fin 297))) none)[1]? = some (.fin ((7763781175803683 : ℤ) * (2 : ℝ) ^ (-60 : ℤ))) := by
    rw [freqsF, if_neg (by simp), linspaceF, List.getElem?_map, List.getElem?_range (by norm_num), Option.map_some, if_pos (by norm_num), Option.getD_none, d2]
  have l6 : (freqsF A 6 (.fin 297) (some (div A (.fin 1) (.fin 297))) none)[1]? = some (.fin ((7763781175803684 : ℤ) * (2 : ℝ) ^ (-60 : ℤ))) := by
    rw [freqsF, if_neg (by simp), linspaceF, List.getElem?_map, List.getElem?_range (by norm_num), Option.map_some, if_neg (by norm_num), Option.getD_none, d6,
      Option.getD_some, d1]
    have e5 : ((6 - 1 : ℕ) : ℝ) = 5 := by norm_num
    simp only [sub, neg, add, rd, e5, div, OfNat.ofNat_ne_zero, if_false, rs, mul, Nat.cast_one, rm, ry]
  rw [l2, l6]
  intro h
  have := Fl.fin.inj (Option.some.inj h)
  norm_num at this

/-- C142: each element is the sine or cosine of the exact phase, up to the rounding errors of the phase. -/
theorem C142_accurate {n : ℕ} (hn : n ≤ 2 ^ 40) {T : ℝ} (h1 : 1 ≤ T) (h2 : T ≤ 2 ^ 50) (toas : List Fl) (shifts : List Fl) {i j : ℕ} {t p : ℝ} (hj : j < n)
    (ht : toas[i]? = some (.fin t)) (ht1 : 1 ≤ t) (ht2 : t ≤ 2 ^ 50) (hp : shifts[j]? = some (.fin p)) (hp0 : 0 ≤ p) (hp7 : p ≤ 7) :
    ∃ row s c, (designF A P S toas n (.fin T) none none shifts)[i]? = some row ∧ row[2 * j]? = some (.fin s) ∧ row[2 * j + 1]? = some (.fin c) ∧
      |s - Real.sin (2 * Real.pi * ((j + 1) / T) * t + p)| ≤ (14 * (2 * Real.pi * ((j + 1) / T) * t) + 2 * p + 1) * (2 : ℝ) ^ (-51 : ℤ) ∧
      |c - Real.cos (2 * Real.pi * ((j + 1) / T) * t + p)| ≤ (14 * (2 * Real.pi * ((j + 1) / T) * t) + 2 * p + 1) * (2 : ℝ) ^ (-51 : ℤ) := by
  obtain ⟨f, hf, of⟩ := harmonic_off A h1 h2 (j := j) (lt_of_lt_of_le hj hn)
  have o2 : Off 0 2 2 2 := .exact (by norm_num) (by exact_mod_cast log_nat (n := 2) (j := 2) (by norm_num) (by norm_num))
  obtain ⟨z1, e1, q1⟩ := o2.mul A (off_pi P) (by norm_num) (by norm_num)
  have ot : Off 0 50 t t := .exact (by linarith) (by exact_mod_cast log_nat (j := 50) ht1 (by exact_mod_cast ht2))
  obtain ⟨z2, e2, q2⟩ := q1.mul A ot (by norm_num) (by norm_num)
  obtain ⟨z3, e3, q3⟩ := q2.mul A of (by norm_num) (by norm_num)
  obtain ⟨X, hX⟩ : ∃ X, X = 2 * Real.pi * (((j : ℝ) + 1) / T) * t := ⟨_, rfl⟩
  have eX : 2 * Real.pi * t * (((j : ℝ) + 1) / T) = X := by rw [hX]; ring
  rw [eX] at q3
  have n3 := q3.near (by norm_num)
  have heps := eps_pos
  have hX0 := q3.pos'
  have hsm : 2 * ((0 + 1 + 1 + 0 + 1 + 1 + 1) * eps) ≤ 1 := by
    have := eps_small (r := 10) (by norm_num)
    linarith
  have hz3 : z3 ≤ 2 * X := by
    have := (abs_le.1 n3).2
    nlinarith
  have hX1 : X ≤ 2 ^ 93 := by
    have hj1 : (j : ℝ) + 1 ≤ 2 ^ 40 := by
      have : j + 1 ≤ 2 ^ 40 := by omega
      exact_mod_cast this
    have hd : ((j : ℝ) + 1) / T ≤ 2 ^ 40 := (div_le_self (by positivity) h1).trans hj1
    have hd0 : 0 ≤ ((j : ℝ) + 1) / T := by positivity
    have h4 : 2 * Real.pi * (((j : ℝ) + 1) / T) ≤ 8 * 2 ^ 40 := mul_le_mul (by linarith [Real.pi_lt_four]) hd hd0 (by norm_num)
    have h5 := mul_le_mul h4 ht2 (by linarith) (by norm_num)
    rw [← hX] at h5
    exact h5.trans (by norm_num)
  have hz0 : 0 < z3 + p := by linarith [q3.pos]
  have hup : z3 + p ≤ 2 ^ 94 + 7 := by linarith
  have hlog : |Real.log (z3 + p)| ≤ 660 := by
    rw [abs_le]
    constructor
    · have g1 := Real.log_le_log q3.pos (by linarith : z3 ≤ z3 + p)
      have g2 := (abs_le.1 q3.err).1
      have g3 := (abs_le.1 q3.size).1
      have g4 : (0 + 1 + 1 + 0 + 1 + 1 + 1) * eps ≤ 1 := by linarith
      linarith
    · have g1 := Real.log_le_log hz0 (hup.trans (by norm_num : (2 : ℝ) ^ 94 + 7 ≤ 2 ^ 95))
      rw [Real.log_pow] at g1
      push_cast at g1
      linarith [Real.log_two_lt_d9]
  obtain ⟨z, ez, z0, zl⟩ := round_log A hz0 hlog
  have oz : Off 1 660 z (z3 + p) := ⟨z0, hz0, by simpa using zl, hlog⟩
  have nz := oz.near (by norm_num)
  have hd : |z - (X + p)| ≤ (14 * X + 2 * p) * eps := by
    have e : z - (X + p) = (z - (z3 + p)) + (z3 - X) := by ring
    rw [e]
    refine (abs_add_le _ _).trans ?_
    have : 2 * (1 * eps) * (z3 + p) ≤ 2 * (1 * eps) * (2 * X + p) := mul_le_mul_of_nonneg_left (by linarith) (by positivity)
    linarith
  have hz100 : |z| ≤ 2 ^ 100 := by
    rw [abs_of_pos z0]
    have h3 := (abs_le.1 nz).2
    have h4 : 2 * (1 * eps) * (z3 + p) ≤ 1 * (z3 + p) := mul_le_mul_of_nonneg_right (by linarith) hz0.le
    have h5 : (2 : ℝ) * (2 ^ 94 + 7) ≤ 2 ^ 100 := by norm_num
    linarith
  have hph : phaseF A P (.fin t) (div A (mul A (.fin 1) (.fin ((j : ℝ) + 1))) (.fin T)) (.fin p) = .fin z := by
    rw [hf]
    simp only [phaseF, e1, e2, e3, add, ez]
  have hfs : (freqsF A n (.fin T) none none)[j]? = some (div A (mul A (.fin 1) (.fin ((j : ℝ) + 1))) (.fin T)) := by
    rw [freqsF, if_pos ⟨rfl, rfl⟩, harmonicsF, List.getElem?_map, List.getElem?_range hj]
    rfl
  have hget : ∀ {k : ℕ}, k < 2 → (rowF A P S (freqsF A n (.fin T) none none) shifts (.fin t))[2 * j + k]? = [npSin S (.fin z), npCos S (.fin z)][k]? := by
    intro k hk
    rw [rowF, flatten_get _ (pairs A P S _ _ _) j hk, List.getElem?_zipWith, hfs, hp]
    simp only [Option.bind_some, hph]
  refine ⟨_, S.sin z, S.cos z, by rw [designF, List.getElem?_map, ht]; rfl, ?_, ?_, ?_, ?_⟩
  · exact hget (k := 0) (by norm_num)
  · exact hget (k := 1) (by norm_num)
  · rw [← hX]
    have g1 := S.sin_acc z hz100
    have g2 := Real.abs_sin_sub_sin_le z (X + p)
    have e : S.sin z - Real.sin (X + p) = (S.sin z - Real.sin z) + (Real.sin z - Real.sin (X + p)) := by ring
    rw [e]
    refine (abs_add_le _ _).trans ?_
    rw [show (2 : ℝ) ^ (-51 : ℤ) = eps from rfl]
    linarith
  · rw [← hX]
    have g1 := S.cos_acc z hz100
    have g2 := Real.abs_cos_sub_cos_le z (X + p)
    have e : S.cos z - Real.cos (X + p) = (S.cos z - Real.cos z) + (Real.cos z - Real.cos (X + p)) := by ring
    rw [e]
    refine (abs_add_le _ _).trans ?_
    rw [show (2 : ℝ) ^ (-51 : ℤ) = eps from rfl]
    linarith

/-- Exact sines and cosines, for the examples. -/
noncomputable def exactTrig : Trig where
  sin := Real.sin
  cos := Real.cos
  sin_acc x _ := by simpa using eps_pos.le
  cos_acc x _ := by simpa using eps_pos.le

/-- The last of thirty modes of ten years, at the MJD 55000. -/
example : ∃ row s, (designF near floorPowers exactTrig [.fin 0, .fin 4752000000] 30 (.fin 315576000) none none (List.replicate 30 (.fin 0)))[1]? = some row ∧
    row[2 * 29]? = some (.fin s) ∧ |s - Real.sin (2 * Real.pi * (((29 : ℕ) + 1) / 315576000) * 4752000000 + 0)| ≤
      (14 * (2 * Real.pi * (((29 : ℕ) + 1) / 315576000) * 4752000000) + 2 * 0 + 1) * (2 : ℝ) ^ (-51 : ℤ) := by
  obtain ⟨row, s, c, h1, h2, h3, h4, h5⟩ := C142_accurate near floorPowers exactTrig (n := 30) (by norm_num) (T := 315576000) (by norm_num) (by norm_num)
    [.fin 0, .fin 4752000000] (List.replicate 30 (.fin 0)) (i := 1) (j := 29) (t := 4752000000) (p := 0) (by norm_num) rfl (by norm_num) (by norm_num) rfl le_rfl
    (by norm_num)
  exact ⟨row, s, h1, h2, h4⟩

end Verif.Ieee
