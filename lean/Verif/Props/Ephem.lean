import Mathlib.LinearAlgebra.Matrix.Determinant.Basic
import Mathlib.Analysis.SpecialFunctions.Trigonometric.Bounds
import Mathlib.Tactic.LinearCombination
import Verif.Model.Ephem
import Verif.Props.Orf

/-!
# Frame rotations and ephemeris perturbations: C73, C95
-/

namespace Verif.Ephem

open Verif Verif.Orf Matrix

/-! ## C73 -/

/-- The vectors of a matrix with orthonormal columns: products of vectors are kept. -/
theorem dot_of_orth {A : Matrix (Fin 3) (Fin 3) ℝ} (h : Aᵀ * A = 1) (v w : Pos) :
    dot (A *ᵥ v) (A *ᵥ w) = dot v w := by
  have : dot (A *ᵥ v) (A *ᵥ w) = (A *ᵥ v) ⬝ᵥ (A *ᵥ w) := rfl
  rw [this, dotProduct_mulVec, vecMul_mulVec, h, vecMul_one]
  rfl

theorem ecl2eq_eq (v : Pos) : ecl2eq v = mEcl *ᵥ v := rfl

theorem eq2ecl_eq (v : Pos) : eq2ecl v = mEclᵀ *ᵥ v := rfl

theorem trig_mat (A : Matrix (Fin 3) (Fin 3) ℝ) (h : ∀ i j, ∑ k, A k i * A k j = if i = j then 1 else 0) : Aᵀ * A = 1 := by
  ext i j
  rw [Matrix.mul_apply, Matrix.one_apply, ← h i j]
  rfl

theorem mEcl_orth : mEclᵀ * mEcl = 1 := by
  refine trig_mat _ fun i j => ?_
  have h := Real.sin_sq_add_cos_sq eEcl
  fin_cases i <;> fin_cases j <;> simp [mEcl, Fin.sum_univ_three] <;> linarith

/-- **C73.**  The two conversions undo each other, and keep products of vectors. -/
theorem C73_ecliptic (v w : Pos) : ecl2eq (eq2ecl v) = v ∧ eq2ecl (ecl2eq v) = v ∧
    dot (ecl2eq v) (ecl2eq w) = dot v w ∧ dot (eq2ecl v) (eq2ecl w) = dot v w := by
  have h2 : mEcl * mEclᵀ = 1 := mul_eq_one_comm.1 mEcl_orth
  refine ⟨?_, ?_, dot_of_orth mEcl_orth v w, dot_of_orth (A := mEclᵀ) (by rw [transpose_transpose]; exact h2) v w⟩
  · rw [ecl2eq_eq, eq2ecl_eq, mulVec_mulVec, h2, one_mulVec]
  · rw [ecl2eq_eq, eq2ecl_eq, mulVec_mulVec, mEcl_orth, one_mulVec]

/-- The equator turns by the obliquity, 23.43704 degrees, around the first axis. -/
theorem C73_ecliptic_axis : ecl2eq ![1, 0, 0] = ![1, 0, 0] ∧
    ecl2eq ![0, 1, 0] = ![0, Real.cos (23.43704 * Real.pi / 180), Real.sin (23.43704 * Real.pi / 180)] := by
  constructor <;> ext c <;> fin_cases c <;> simp [ecl2eq, mEcl, eEcl, Fin.sum_univ_three]

/-- The three factors of a rotation. -/
noncomputable def rotX (x : ℝ) : Matrix (Fin 3) (Fin 3) ℝ := !![1, 0, 0; 0, Real.cos x, -Real.sin x; 0, Real.sin x, Real.cos x]
noncomputable def rotY (y : ℝ) : Matrix (Fin 3) (Fin 3) ℝ := !![Real.cos y, 0, Real.sin y; 0, 1, 0; -Real.sin y, 0, Real.cos y]
noncomputable def rotZ (z : ℝ) : Matrix (Fin 3) (Fin 3) ℝ := !![Real.cos z, -Real.sin z, 0; Real.sin z, Real.cos z, 0; 0, 0, 1]

theorem euler_eq (z y x : ℝ) : euler z y x = rotX x * rotY y * rotZ z := rfl

theorem rotX_orth (x : ℝ) : (rotX x)ᵀ * rotX x = 1 := by
  refine trig_mat _ fun i j => ?_
  have h := Real.sin_sq_add_cos_sq x
  fin_cases i <;> fin_cases j <;> simp [rotX, Fin.sum_univ_three] <;> linarith

theorem rotY_orth (y : ℝ) : (rotY y)ᵀ * rotY y = 1 := by
  refine trig_mat _ fun i j => ?_
  have h := Real.sin_sq_add_cos_sq y
  fin_cases i <;> fin_cases j <;> simp [rotY, Fin.sum_univ_three] <;> linarith

theorem rotZ_orth (z : ℝ) : (rotZ z)ᵀ * rotZ z = 1 := by
  refine trig_mat _ fun i j => ?_
  have h := Real.sin_sq_add_cos_sq z
  fin_cases i <;> fin_cases j <;> simp [rotZ, Fin.sum_univ_three] <;> linarith

/-- **C73.**  `euler_vec` gives rotations: orthogonal matrices with determinant one, for all angles. -/
theorem C73_euler (z y x : ℝ) : (euler z y x)ᵀ * euler z y x = 1 ∧ euler z y x * (euler z y x)ᵀ = 1 ∧ (euler z y x).det = 1 := by
  have h1 : (euler z y x)ᵀ * euler z y x = 1 := by
    rw [euler_eq, transpose_mul, transpose_mul]
    calc (rotZ z)ᵀ * ((rotY y)ᵀ * (rotX x)ᵀ) * (rotX x * rotY y * rotZ z)
        = (rotZ z)ᵀ * ((rotY y)ᵀ * ((rotX x)ᵀ * rotX x) * rotY y) * rotZ z := by simp only [Matrix.mul_assoc]
      _ = 1 := by rw [rotX_orth, Matrix.mul_one, rotY_orth, Matrix.mul_one, rotZ_orth]
  refine ⟨h1, mul_eq_one_comm.1 h1, ?_⟩
  rw [euler_eq, det_mul, det_mul]
  have e1 : (rotX x).det = 1 := by
    simp [rotX, det_fin_three]; linarith [Real.sin_sq_add_cos_sq x]
  have e2 : (rotY y).det = 1 := by
    simp [rotY, det_fin_three]; linarith [Real.sin_sq_add_cos_sq y]
  have e3 : (rotZ z).det = 1 := by
    simp [rotZ, det_fin_three]; linarith [Real.sin_sq_add_cos_sq z]
  rw [e1, e2, e3]; norm_num

/-- The angles turn about the axes they are named after: `x` first axis, `y` second, `z` third, in the positive sense. -/
theorem C73_euler_axes (θ : ℝ) : euler θ 0 0 *ᵥ ![1, 0, 0] = ![Real.cos θ, Real.sin θ, 0] ∧ euler θ 0 0 *ᵥ ![0, 0, 1] = ![0, 0, 1] ∧
    euler 0 θ 0 *ᵥ ![0, 0, 1] = ![Real.sin θ, 0, Real.cos θ] ∧ euler 0 θ 0 *ᵥ ![0, 1, 0] = ![0, 1, 0] ∧
    euler 0 0 θ *ᵥ ![0, 1, 0] = ![0, Real.cos θ, Real.sin θ] ∧ euler 0 0 θ *ᵥ ![1, 0, 0] = ![1, 0, 0] := by
  refine ⟨?_, ?_, ?_, ?_, ?_, ?_⟩ <;> rw [euler_eq] <;> ext c <;> fin_cases c <;>
    simp [rotX, rotY, rotZ, Matrix.mul_apply, mulVec, dotProduct, Fin.sum_univ_three]

theorem framerotate_none (mjd : ℝ) (planet : Pos) (x y z dz : ℝ) (equatorial : Bool) :
    framerotate mjd planet x y z dz none equatorial =
      if equatorial then ecl2eq (euler (z + dz * (mjd - 55197) / 365.25) y x *ᵥ eq2ecl planet)
      else euler (z + dz * (mjd - 55197) / 365.25) y x *ᵥ planet := by
  cases equatorial <;> rfl

theorem euler_zero : euler 0 0 0 = 1 := by
  rw [euler_eq]
  ext i j
  fin_cases i <;> fin_cases j <;> simp [rotX, rotY, rotZ, Matrix.mul_apply, Fin.sum_univ_three]

/-- **C73.**  Without angles, rate and offset nothing changes. -/
theorem C73_identity (mjd : ℝ) (planet : Pos) (equatorial : Bool) : framerotate mjd planet 0 0 0 0 none equatorial = planet := by
  rw [framerotate_none, zero_mul, zero_div, add_zero, euler_zero, one_mulVec, one_mulVec, (C73_ecliptic planet planet).1]
  cases equatorial <;> rfl

/-- **C73.**  Without an offset, products of vectors are kept, lengths among them. -/
theorem C73_lengths (mjd : ℝ) (v w : Pos) (x y z dz : ℝ) (equatorial : Bool) :
    dot (framerotate mjd v x y z dz none equatorial) (framerotate mjd w x y z dz none equatorial) = dot v w := by
  have h := (C73_euler (z + dz * (mjd - 55197) / 365.25) y x).1
  rw [framerotate_none, framerotate_none]
  cases equatorial
  · exact dot_of_orth h v w
  · simp only [if_true]
    rw [(C73_ecliptic _ _).2.2.1, dot_of_orth h, (C73_ecliptic _ _).2.2.2]

/-- The rate is referred to MJD 55197: at this date it has no effect, a Julian year later it is one more angle. -/
theorem C73_epoch (v : Pos) (x y z dz : ℝ) (offset : Option Pos) (equatorial : Bool) :
    framerotate 55197 v x y z dz offset equatorial = framerotate 55197 v x y z 0 offset equatorial ∧
    framerotate (55197 + 365.25) v x y z dz offset equatorial = framerotate 55197 v x y (z + dz) 0 offset equatorial := by
  constructor
  · simp only [framerotate, sub_self, mul_zero, zero_div]
  · have e1 : z + dz * (55197 + 365.25 - 55197) / 365.25 = z + dz + 0 * (55197 - 55197) / 365.25 := by ring
    simp only [framerotate, e1]

/-- The offset is added in the ecliptic frame, after the rotation. -/
theorem C73_offset (mjd : ℝ) (v o : Pos) (x y z dz : ℝ) (equatorial : Bool) :
    framerotate mjd v x y z dz (some o) equatorial =
      (if equatorial then ecl2eq o else o) + framerotate mjd v x y z dz none equatorial := by
  rw [framerotate_none]
  cases equatorial
  · rfl
  · simp only [if_true, ecl2eq_eq, ← mulVec_add]
    rfl

/-- Rates about the pole of the ecliptic add up. -/
theorem C73_rates (mjd : ℝ) (v : Pos) (a b : ℝ) (equatorial : Bool) :
    framerotate mjd (framerotate mjd v 0 0 0 a none equatorial) 0 0 0 b none equatorial =
      framerotate mjd v 0 0 0 (a + b) none equatorial := by
  have hz : ∀ s t, euler s 0 0 * euler t 0 0 = euler (s + t) 0 0 := by
    intro s t
    have h : ∀ z, euler z 0 0 = rotZ z := by
      intro z
      have hx : rotX 0 = 1 := by ext i j; fin_cases i <;> fin_cases j <;> simp [rotX]
      have hy : rotY 0 = 1 := by ext i j; fin_cases i <;> fin_cases j <;> simp [rotY]
      rw [euler_eq, hx, hy, Matrix.one_mul, Matrix.one_mul]
    rw [h, h, h]
    ext i j
    fin_cases i <;> fin_cases j <;> simp [rotZ, Matrix.mul_apply, Fin.sum_univ_three, Real.cos_add, Real.sin_add] <;> ring
  have e : 0 + b * (mjd - 55197) / 365.25 + (0 + a * (mjd - 55197) / 365.25) = 0 + (a + b) * (mjd - 55197) / 365.25 := by ring
  simp only [framerotate_none]
  cases equatorial
  · simp only [Bool.false_eq_true, if_false, mulVec_mulVec, hz, e]
  · simp only [if_true, (C73_ecliptic _ 0).2.1, mulVec_mulVec, hz, e]

/-! ## Interpolation -/

variable {n : Nat}

/-- `np.interp` for at least one point. -/
noncomputable def ival (x : ℝ) (times f : Fin (n + 1) → ℝ) : ℝ :=
  if x < times 0 then f 0
  else interpFrom x (times 0, f 0) ((List.finRange n).map fun j => (times j.succ, f j.succ))

theorem interp_eq (x : ℝ) (times f : Fin (n + 1) → ℝ) : interp x (List.ofFn times) (List.ofFn f) = .ok (ival x times f) := by
  have hz : (List.ofFn times).zip (List.ofFn f) =
      (times 0, f 0) :: (List.finRange n).map fun j => (times j.succ, f j.succ) := by
    rw [List.ofFn_succ, List.ofFn_succ, List.zip_cons_cons, List.ofFn_eq_map, List.ofFn_eq_map, List.zip_map_left, List.zip_map_right,
      List.map_map]
    congr 1
    rw [show (List.finRange n).zip (List.finRange n) = (List.finRange n).map fun j => (j, j) by
      rw [List.zip_eq_zipWith, List.zipWith_self], List.map_map]
    rfl
  unfold interp ival
  rw [hz]

theorem interpFrom_linear {τ : Type} (x : ℝ) (xp f g : τ → ℝ) (c : ℝ) (t0 : τ) (t : List τ) :
    interpFrom x (xp t0, c * f t0 + g t0) (t.map fun j => (xp j, c * f j + g j)) =
      c * interpFrom x (xp t0, f t0) (t.map fun j => (xp j, f j)) + interpFrom x (xp t0, g t0) (t.map fun j => (xp j, g j)) := by
  induction t generalizing t0 with
  | nil => rfl
  | cons b t ih =>
    simp only [List.map_cons, interpFrom]
    by_cases h : x < xp b
    · simp only [if_pos h]; ring
    · simp only [if_neg h]; exact ih b

theorem ival_linear (x : ℝ) (times f g : Fin (n + 1) → ℝ) (c : ℝ) :
    ival x times (fun j => c * f j + g j) = c * ival x times f + ival x times g := by
  unfold ival
  by_cases h : x < times 0
  · simp only [if_pos h]
  · simp only [if_neg h]
    have := interpFrom_linear x times f g c 0 ((List.finRange n).map Fin.succ)
    simp only [List.map_map, Function.comp_def] at this
    exact this

theorem ival_zero (x : ℝ) (times : Fin (n + 1) → ℝ) : ival x times (fun _ => 0) = 0 := by
  have := ival_linear x times (fun _ => 0) (fun _ => 0) 1
  simp only [mul_zero, add_zero, one_mul] at this
  linarith

theorem ival_sum {m : Nat} (x : ℝ) (times : Fin (n + 1) → ℝ) (c : Fin m → ℝ) (f : Fin m → Fin (n + 1) → ℝ) :
    ival x times (fun j => ∑ i, c i * f i j) = ∑ i, c i * ival x times (f i) := by
  induction m with
  | zero => simp [ival_zero]
  | succ m ih =>
    simp only [Fin.sum_univ_succ]
    rw [ival_linear, ih]

/-- `np.interp` returns the given values at the given points. -/
theorem interp_node (times f : Fin (n + 1) → ℝ) (ht : StrictMono times) (i : Fin (n + 1)) : ival (times i) times f = f i := by
  have key : ∀ (t : List (Fin (n + 1))) (t0 : Fin (n + 1)), (t0 :: t).Pairwise (· < ·) → i ∈ t0 :: t →
      interpFrom (times i) (times t0, f t0) (t.map fun j => (times j, f j)) = f i := by
    intro t
    induction t with
    | nil => intro t0 _ hi; simp at hi; subst hi; rfl
    | cons b t ih =>
      intro t0 hp hi
      simp only [List.map_cons, interpFrom]
      rcases List.mem_cons.1 hi with rfl | hi
      · have hb : i < b := (List.pairwise_cons.1 hp).1 b List.mem_cons_self
        rw [if_pos (ht hb)]; ring
      · have hp' := (List.pairwise_cons.1 hp).2
        have hb : b ≤ i := by
          rcases List.mem_cons.1 hi with rfl | hi'
          · exact le_rfl
          · exact ((List.pairwise_cons.1 hp').1 i hi').le
        rw [if_neg (not_lt.2 (ht.monotone hb))]
        exact ih b hp' hi
  unfold ival
  rw [if_neg (not_lt.2 (ht.monotone (Fin.zero_le i)))]
  have h := key ((List.finRange n).map Fin.succ) 0 (by
    rw [← List.finRange_succ]; exact List.pairwise_lt_finRange _) (by rw [← List.finRange_succ]; exact List.mem_finRange i)
  simpa only [List.map_map, Function.comp_def] using h

/-! ## C95 -/

/-- The displacement of the Earth for one orbital element. -/
noncomputable def unitOrbit (mjd mass : ℝ) (times : Fin (n + 1) → ℝ) (orb : Fin 6 → Fin (n + 1) → Pos) (i : Fin 6) : Pos :=
  fun c => ival mjd times fun j => mass * orb i j c

theorem orbit_eq (mjd mass : ℝ) (el : Fin 6 → ℝ) (times : Fin (n + 1) → ℝ) (orb : Fin 6 → Fin (n + 1) → Pos) :
    orbit mjd mass el (some (times, orb)) = .ok fun c => ∑ i, el i * unitOrbit mjd mass times orb i c := by
  unfold orbit
  by_cases h : ∀ i, el i = 0
  · rw [if_pos h]
    congr 1
    funext c
    simp [h]
  · rw [if_neg h]
    have e : ∀ c : Fin 3, interp mjd (List.ofFn times) (List.ofFn fun j => mass * ∑ i, el i * orb i j c) =
        .ok (∑ i, el i * unitOrbit mjd mass times orb i c) := by
      intro c
      rw [interp_eq]
      congr 1
      rw [show (fun j => mass * ∑ i, el i * orb i j c) = fun j => ∑ i, el i * (mass * orb i j c) by
        funext j; rw [Finset.mul_sum]; exact Finset.sum_congr rfl fun i _ => by ring, ival_sum]
      rfl
    simp only [e, bind, Except.bind]
    congr 1
    funext c
    fin_cases c <;> rfl

theorem dot_add (v w p : Pos) : dot (v + w) p = dot v p + dot w p := by
  unfold dot; rw [← Finset.sum_add_distrib]; exact Finset.sum_congr rfl fun c _ => by simp only [Pi.add_apply]; ring

theorem dot_smul (t : ℝ) (v p : Pos) : dot (fun c => t * v c) p = t * dot v p := by
  unfold dot; rw [Finset.mul_sum]; exact Finset.sum_congr rfl fun c _ => by ring

theorem dot_dmass (v p : Pos) (t : ℝ) : dot (dmass v t) p = t * dot v p := dot_smul t v p

theorem dot_comb (el : Fin 6 → ℝ) (u : Fin 6 → Pos) (p : Pos) : dot (fun c => ∑ i, el i * u i c) p = ∑ i, el i * dot (u i) p := by
  simp only [dot, Finset.mul_sum, Finset.sum_mul]
  rw [Finset.sum_comm]
  exact Finset.sum_congr rfl fun i _ => Finset.sum_congr rfl fun c _ => by ring

/-- The part of the delay from the rotation of the frame. -/
noncomputable def framePart (mjd : ℝ) (earth pos : Pos) (rate : ℝ) (equatorial : Bool) : ℝ :=
  dot earth pos - dot (framerotate mjd earth 0 0 0 rate none equatorial) pos

/-- The masses of Jupiter and Saturn in the code. -/
noncomputable def mJ : ℝ := 0.0009547918983127075
noncomputable def mS : ℝ := 0.00028588567008942334

/-- **C95.**  The delay is the sum of the parts of its parameters: linear in the masses and in the orbital elements. -/
theorem C95 (toa : ℝ) (planets : Fin 9 → Pos) (pos : Pos) (par : Params) (files : Orbits (n + 1)) (equatorial : Bool) :
    delay toa planets pos par (some files) equatorial = .ok (framePart (toa / 86400) (planets 2) pos par.frame_drift_rate equatorial
      - par.d_jupiter_mass * dot (planets 4) pos - par.d_saturn_mass * dot (planets 5) pos
      - par.d_uranus_mass * dot (planets 6) pos - par.d_neptune_mass * dot (planets 7) pos
      - ∑ i, par.jup_orb_elements i * dot (unitOrbit (toa / 86400) mJ files.times files.jupiter i) pos
      - ∑ i, par.sat_orb_elements i * dot (unitOrbit (toa / 86400) mS files.times files.saturn i) pos) := by
  unfold delay
  simp only [Option.map_some, orbit_eq, bind, Except.bind]
  congr 1
  simp only [dot_add, dot_comb, dot_dmass, framePart, mJ, mS]
  ring

theorem framePart_zero (mjd : ℝ) (earth pos : Pos) (equatorial : Bool) : framePart mjd earth pos 0 equatorial = 0 := by
  unfold framePart; rw [C73_identity, sub_self]

/-- Without orbital elements the files are not needed. -/
theorem C95_without_files (toa : ℝ) (planets : Fin 9 → Pos) (pos : Pos) (par : Params) (hj : par.jup_orb_elements = 0)
    (hs : par.sat_orb_elements = 0) (equatorial : Bool) :
    delay (n := n) toa planets pos par none equatorial = .ok (framePart (toa / 86400) (planets 2) pos par.frame_drift_rate equatorial
      - par.d_jupiter_mass * dot (planets 4) pos - par.d_saturn_mass * dot (planets 5) pos
      - par.d_uranus_mass * dot (planets 6) pos - par.d_neptune_mass * dot (planets 7) pos) := by
  unfold delay orbit
  rw [hj, hs]
  simp only [Pi.zero_apply, implies_true, if_true, bind, Except.bind]
  congr 1
  simp only [dot_add, dot_dmass, framePart]
  simp only [dot, Pi.zero_apply, zero_mul, Finset.sum_const_zero]
  ring

/-- With them they are. -/
theorem C95_needs_files (toa : ℝ) (planets : Fin 9 → Pos) (pos : Pos) (par : Params)
    (h : par.jup_orb_elements ≠ 0 ∨ par.sat_orb_elements ≠ 0) (equatorial : Bool) :
    ∃ e, delay (n := n) toa planets pos par none equatorial = .error e := by
  unfold delay orbit
  by_cases hj : ∀ i, par.jup_orb_elements i = 0
  · have hs : ¬ ∀ i, par.sat_orb_elements i = 0 := by
      rcases h with h | h
      · exact absurd (funext hj) h
      · exact fun hc => h (funext hc)
    exact ⟨.valueError, by simp only [if_pos hj, if_neg hs, bind, Except.bind, Option.map_none]⟩
  · exact ⟨.valueError, by simp only [if_neg hj, bind, Except.bind, Option.map_none]⟩

/-- With all parameters at their defaults there is no delay. -/
theorem C95_zero (toa : ℝ) (planets : Fin 9 → Pos) (pos : Pos) (equatorial : Bool) :
    delay (n := n) toa planets pos {} none equatorial = .ok 0 := by
  rw [C95_without_files toa planets pos {} rfl rfl]
  congr 1
  simp [framePart_zero]

/-! ## The design matrix -/

/-- The columns the matrix can have: for each argument the prior width, the derivatives of the delay (for the frame, a
quotient of differences), and the parameters they belong to. -/
noncomputable def blocks (toa : ℝ) (planets : Fin 9 → Pos) (pos : Pos) (s : Sigmas) (files : Orbits (n + 1)) (par : Params) :
    List (Option ℝ × List ℝ × List ℝ) :=
  [(s.frame_drift_rate, [framePart (toa / 86400) (planets 2) pos 1e-5 true / 1e-5], [par.frame_drift_rate]),
    (s.d_jupiter_mass, [-dot (planets 4) pos], [par.d_jupiter_mass]),
    (s.d_saturn_mass, [-dot (planets 5) pos], [par.d_saturn_mass]),
    (s.d_uranus_mass, [-dot (planets 6) pos], [par.d_uranus_mass]),
    (s.d_neptune_mass, [-dot (planets 7) pos], [par.d_neptune_mass]),
    (s.jup_orb_elements, (List.finRange 6).map fun i => -dot (unitOrbit (toa / 86400) mJ files.times files.jupiter i) pos,
      (List.finRange 6).map par.jup_orb_elements),
    (s.sat_orb_elements, (List.finRange 6).map fun i => -dot (unitOrbit (toa / 86400) mS files.times files.saturn i) pos,
      (List.finRange 6).map par.sat_orb_elements)]

/-- The parts of the blocks whose parameters are included. -/
noncomputable def included {α : Type} (l : List (Option ℝ × List ℝ × List ℝ)) (f : ℝ → List ℝ → List ℝ → List α) : List α :=
  l.flatMap fun b => (truthy b.1).elim [] fun x => f x b.2.1 b.2.2

theorem mapM_append_ok {α β : Type} {f : α → Except PyErr β} {l m : List α} {a b : List β} (h1 : l.mapM f = .ok a)
    (h2 : m.mapM f = .ok b) : (l ++ m).mapM f = .ok (a ++ b) := by
  rw [List.mapM_append, h1]
  simp [bind, Except.bind, h2, pure, Except.pure]

theorem mapM_map_ok {ι α β : Type} {f : α → Except PyErr β} (g : ι → α) (h : ι → β) (l : List ι) (hf : ∀ i, f (g i) = .ok (h i)) :
    (l.map g).mapM f = .ok (l.map h) := by
  induction l with
  | nil => rfl
  | cons i l ih =>
    rw [List.map_cons, List.mapM_cons, hf, ih]
    rfl

/-- **C95, design matrix.**  The rows hold the derivatives of the delay, for the included parameters in order, with one prior
width for each column. -/
theorem C95_design (toa : ℝ) (planets : Fin 9 → Pos) (pos : Pos) (s : Sigmas) (files : Orbits (n + 1)) (par : Params) :
    designRow toa planets pos s files = .ok (included (blocks toa planets pos s files par) fun _ v _ => v,
      included (blocks toa planets pos s files par) fun x v _ => v.map fun _ => x) := by
  have hd : (1e-5 : ℝ) ≠ 0 := by norm_num
  set g : ℝ × Bool × Params → Except PyErr ℝ := fun c => do
    let x ← delay toa planets pos c.2.2 (if c.2.1 then some files else none) true
    return x / 1e-5 with hg
  have g1 : ∀ x (q : Params), q.jup_orb_elements = 0 → q.sat_orb_elements = 0 → g (x, false, q) =
      .ok ((framePart (toa / 86400) (planets 2) pos q.frame_drift_rate true
      - q.d_jupiter_mass * dot (planets 4) pos - q.d_saturn_mass * dot (planets 5) pos
      - q.d_uranus_mass * dot (planets 6) pos - q.d_neptune_mass * dot (planets 7) pos) / 1e-5) := by
    intro x q h1 h2
    simp only [hg, Bool.false_eq_true, if_false]
    rw [C95_without_files toa planets pos q h1 h2]
    rfl
  have key : (columns s 1e-5).mapM g = .ok (included (blocks toa planets pos s files par) fun _ v _ => v) ∧
      (columns s 1e-5).map (fun c => c.1) = included (blocks toa planets pos s files par) fun x v _ => v.map fun _ => x := by
    have one : ∀ (p : Option ℝ) (q : Params) (v : ℝ), q.jup_orb_elements = 0 → q.sat_orb_elements = 0 →
        (framePart (toa / 86400) (planets 2) pos q.frame_drift_rate true
          - q.d_jupiter_mass * dot (planets 4) pos - q.d_saturn_mass * dot (planets 5) pos
          - q.d_uranus_mass * dot (planets 6) pos - q.d_neptune_mass * dot (planets 7) pos) / 1e-5 = v →
        (oneColumn p q).mapM g = .ok ((truthy p).elim [] fun _ => [v]) := by
      intro p q v h1 h2 h3
      unfold oneColumn
      cases truthy p with
      | none => rfl
      | some x =>
        simp only [Option.elim, List.mapM_cons, List.mapM_nil, g1 x q h1 h2, h3]
        rfl
    have six : ∀ (p : Option ℝ) (q : Fin 6 → Params) (v : Fin 6 → ℝ),
        (∀ x i, g (x, true, q i) = .ok (v i)) →
        (sixColumns p q).mapM g = .ok ((truthy p).elim [] fun _ => (List.finRange 6).map v) := by
      intro p q v h
      unfold sixColumns
      cases truthy p with
      | none => rfl
      | some x => exact mapM_map_ok _ _ _ (h x)
    constructor
    · unfold columns
      rw [mapM_append_ok (mapM_append_ok (mapM_append_ok (mapM_append_ok (mapM_append_ok (mapM_append_ok
        (one _ { frame_drift_rate := 1e-5 } (framePart (toa / 86400) (planets 2) pos 1e-5 true / 1e-5) rfl rfl (by simp))
        (one _ { d_jupiter_mass := 1e-5 } (-dot (planets 4) pos) rfl rfl (by simp only [framePart_zero]; field_simp; ring)))
        (one _ { d_saturn_mass := 1e-5 } (-dot (planets 5) pos) rfl rfl (by simp only [framePart_zero]; field_simp; ring)))
        (one _ { d_uranus_mass := 1e-5 } (-dot (planets 6) pos) rfl rfl (by simp only [framePart_zero]; field_simp; ring)))
        (one _ { d_neptune_mass := 1e-5 } (-dot (planets 7) pos) rfl rfl (by simp only [framePart_zero]; field_simp; ring)))
        (six _ (fun i => { jup_orb_elements := Pi.single i 1e-5 }) (fun i => -dot (unitOrbit (toa / 86400) mJ files.times files.jupiter i) pos) ?_))
        (six _ (fun i => { sat_orb_elements := Pi.single i 1e-5 }) (fun i => -dot (unitOrbit (toa / 86400) mS files.times files.saturn i) pos) ?_)]
      · simp [included, blocks, List.append_assoc]
      · intro x i
        simp only [hg, if_true, C95, bind, Except.bind, pure, Except.pure]
        congr 1
        simp [framePart_zero, Pi.single_apply]
        field_simp
      · intro x i
        simp only [hg, if_true, C95, bind, Except.bind, pure, Except.pure]
        congr 1
        simp [framePart_zero, Pi.single_apply]
        field_simp
    · unfold columns included blocks oneColumn sixColumns
      simp only [List.flatMap_cons, List.flatMap_nil, List.append_nil, List.map_append, List.append_assoc]
      cases truthy s.frame_drift_rate <;> cases truthy s.d_jupiter_mass <;> cases truthy s.d_saturn_mass <;>
        cases truthy s.d_uranus_mass <;> cases truthy s.d_neptune_mass <;> cases truthy s.jup_orb_elements <;>
        cases truthy s.sat_orb_elements <;> simp [Function.comp_def]
  unfold designRow
  simp only
  rw [show ((columns s 1e-5).mapM fun c => do
    let x ← delay toa planets pos c.2.2 (if c.2.1 then some files else none) true
    return x / 1e-5) = (columns s 1e-5).mapM g from rfl, key.1, key.2]
  rfl

theorem truthy_ne {p : Option ℝ} {x : ℝ} (h : truthy p = some x) : x ≠ 0 := by
  unfold truthy at h
  cases p with
  | none => simp at h
  | some y =>
    simp only [Option.bind_some] at h
    split_ifs at h with h0
    simpa using (Option.some.inj h) ▸ h0

/-- C95: a parameter whose width is zero is left out, so that all prior variances are positive and the prior has an inverse. -/
theorem C95_positive (toa : ℝ) (planets : Fin 9 → Pos) (pos : Pos) (s : Sigmas) (files : Orbits (n + 1)) :
    ∃ row widths, designRow toa planets pos s files = .ok (row, widths) ∧ ∀ v ∈ spectrum widths, 0 < v := by
  refine ⟨_, _, C95_design toa planets pos s files {}, fun v hv => ?_⟩
  simp only [spectrum, included, List.mem_map, List.mem_flatMap] at hv
  obtain ⟨x, ⟨b, _, hx⟩, rfl⟩ := hv
  cases hb : truthy b.1 with
  | none => simp [hb] at hx
  | some y =>
    simp only [hb, Option.elim_some, List.mem_map] at hx
    obtain ⟨_, _, rfl⟩ := hx
    have := truthy_ne hb
    positivity

/-- The sum of a row times the parameters it belongs to. -/
theorem included_sum (l : List (Option ℝ × List ℝ × List ℝ)) (hl : ∀ b ∈ l, b.2.1.length = b.2.2.length)
    (hz : ∀ b ∈ l, truthy b.1 = none → ∀ c ∈ b.2.2, c = 0) :
    (List.zipWith (· * ·) (included l fun _ v _ => v) (included l fun _ _ c => c)).sum =
      (l.map fun b => (List.zipWith (· * ·) b.2.1 b.2.2).sum).sum := by
  induction l with
  | nil => rfl
  | cons b l ih =>
    have ih := ih (fun b hb => hl b (List.mem_cons_of_mem _ hb)) (fun b hb => hz b (List.mem_cons_of_mem _ hb))
    have hb := hl b List.mem_cons_self
    simp only [included, List.flatMap_cons, List.map_cons, List.sum_cons] at ih ⊢
    cases h : truthy b.1 with
    | none =>
      have hc := hz b List.mem_cons_self h
      have : (List.zipWith (· * ·) b.2.1 b.2.2).sum = 0 := by
        refine List.sum_eq_zero fun x hx => ?_
        obtain ⟨i, hi, rfl⟩ := List.mem_iff_getElem.1 hx
        simp only [List.getElem_zipWith]
        rw [hc _ (List.getElem_mem _), mul_zero]
      simp only [Option.elim_none, List.nil_append, this, zero_add]
      exact ih
    | some x =>
      simp only [Option.elim_some]
      rw [List.zipWith_append hb, List.sum_append, ih]

theorem sum_finRange {m : Nat} (f : Fin m → ℝ) : ((List.finRange m).map f).sum = ∑ i, f i := by
  rw [← List.ofFn_eq_map, List.sum_ofFn]

/-- **C95.**  The signal with this basis and the parameters as coefficients is the delay of these parameters, apart from the
rotation of the frame, of which the basis has the quotient of differences. -/
theorem C95_signal (toa : ℝ) (planets : Fin 9 → Pos) (pos : Pos) (s : Sigmas) (files : Orbits (n + 1)) (par : Params)
    (hz : ∀ b ∈ blocks toa planets pos s files par, truthy b.1 = none → ∀ c ∈ b.2.2, c = 0) :
    ∃ row widths d, designRow toa planets pos s files = .ok (row, widths) ∧
      delay toa planets pos par (some files) true = .ok d ∧
      d - (List.zipWith (· * ·) row (included (blocks toa planets pos s files par) fun _ _ c => c)).sum =
        framePart (toa / 86400) (planets 2) pos par.frame_drift_rate true -
          par.frame_drift_rate * (framePart (toa / 86400) (planets 2) pos 1e-5 true / 1e-5) := by
  refine ⟨_, _, _, C95_design toa planets pos s files par, C95 toa planets pos par files true, ?_⟩
  rw [included_sum _ (by
    intro b hb
    simp only [blocks, List.mem_cons, List.not_mem_nil, or_false] at hb
    rcases hb with rfl | rfl | rfl | rfl | rfl | rfl | rfl <;> simp) hz]
  simp only [blocks, List.map_cons, List.map_nil, List.sum_cons, List.sum_nil, List.zipWith_cons_cons, List.zipWith_nil_left, add_zero,
    List.zipWith_map, List.zipWith_self, sum_finRange]
  have e : ∀ (a b : Fin 6 → ℝ), ∑ i, -a i * b i = -∑ i, b i * a i := by
    intro a b
    rw [← Finset.sum_neg_distrib]
    exact Finset.sum_congr rfl fun i _ => by ring
  rw [e, e]
  ring

/-! ## The rotation of the frame -/

theorem framePart_eq (mjd : ℝ) (earth pos : Pos) (rate : ℝ) : framePart mjd earth pos rate true =
    (1 - Real.cos (rate * (mjd - 55197) / 365.25)) * (eq2ecl earth 0 * eq2ecl pos 0 + eq2ecl earth 1 * eq2ecl pos 1) +
      Real.sin (rate * (mjd - 55197) / 365.25) * (eq2ecl earth 1 * eq2ecl pos 0 - eq2ecl earth 0 * eq2ecl pos 1) := by
  unfold framePart
  rw [framerotate_none, if_pos rfl, ← (C73_ecliptic earth pos).2.2.2]
  have h : ∀ X, dot (ecl2eq X) pos = dot X (eq2ecl pos) := by
    intro X
    conv_lhs => rw [← (C73_ecliptic pos pos).1]
    exact (C73_ecliptic X (eq2ecl pos)).2.2.1
  rw [h, zero_add, euler_eq]
  have hx : rotX 0 = 1 := by ext i j; fin_cases i <;> fin_cases j <;> simp [rotX]
  have hy : rotY 0 = 1 := by ext i j; fin_cases i <;> fin_cases j <;> simp [rotY]
  rw [hx, hy, Matrix.one_mul, Matrix.one_mul]
  simp only [dot, Fin.sum_univ_three, mulVec, dotProduct, rotZ]
  simp
  ring

theorem sin_dev (x : ℝ) : |Real.sin x - x| ≤ x ^ 2 / 2 := by
  rw [abs_sub_comm]
  by_cases h : |x| ≤ 3
  · refine (Real.abs_sub_sin_le x).trans ?_
    have h0 := abs_nonneg x
    rw [← sq_abs x]
    nlinarith [mul_nonneg (sq_nonneg |x|) (sub_nonneg.2 h)]
  · push Not at h
    refine (abs_sub _ _).trans ?_
    have := Real.abs_sin_le_one x
    rw [← sq_abs x]
    nlinarith

theorem cos_dev (x : ℝ) : |1 - Real.cos x| ≤ x ^ 2 / 2 := by
  rw [abs_of_nonneg (sub_nonneg.2 (Real.cos_le_one x))]
  linarith [Real.one_sub_sq_div_two_le_cos (x := x)]

/-- **C95, frame.**  The rotation of the frame is not linear in its rate.  The signal with the basis column differs from the
delay by at most `|earth| |pos| τ² |rate| (|rate| + 1e-5)`, with `τ` the years since 2010. -/
theorem C95_frame (mjd : ℝ) (earth pos : Pos) (rate : ℝ) :
    |framePart mjd earth pos rate true - rate * (framePart mjd earth pos 1e-5 true / 1e-5)| ≤
      Real.sqrt (dot earth earth * dot pos pos) * ((mjd - 55197) / 365.25) ^ 2 * |rate| * (|rate| + 1e-5) := by
  rw [framePart_eq, framePart_eq, ← (C73_ecliptic earth earth).2.2.2, ← (C73_ecliptic pos pos).2.2.2]
  set e := eq2ecl earth
  set q := eq2ecl pos
  set τ := (mjd - 55197) / 365.25 with hτ
  set A := e 0 * q 0 + e 1 * q 1 with hA
  set B := e 1 * q 0 - e 0 * q 1 with hB
  set R := Real.sqrt (dot e e * dot q q) with hR
  have e1 : ∀ r : ℝ, r * (mjd - 55197) / 365.25 = r * τ := fun r => by rw [hτ]; ring
  rw [e1, e1]
  have hAB : A ^ 2 + B ^ 2 ≤ dot e e * dot q q := by
    simp only [dot, Fin.sum_univ_three, hA, hB]
    nlinarith [mul_nonneg (sq_nonneg (e 2)) (sq_nonneg (q 0)), mul_nonneg (sq_nonneg (e 2)) (sq_nonneg (q 1)),
      mul_nonneg (sq_nonneg (e 2)) (sq_nonneg (q 2)), mul_nonneg (sq_nonneg (e 0)) (sq_nonneg (q 2)),
      mul_nonneg (sq_nonneg (e 1)) (sq_nonneg (q 2))]
  have hA' : |A| ≤ R := Real.abs_le_sqrt (by nlinarith [sq_nonneg B])
  have hB' : |B| ≤ R := Real.abs_le_sqrt (by nlinarith [sq_nonneg A])
  have dev : ∀ x : ℝ, |(1 - Real.cos x) * A + Real.sin x * B - x * B| ≤ R * x ^ 2 := by
    intro x
    have h1 : (1 - Real.cos x) * A + Real.sin x * B - x * B = (1 - Real.cos x) * A + (Real.sin x - x) * B := by ring
    rw [h1]
    refine (abs_add_le _ _).trans ?_
    rw [abs_mul, abs_mul]
    have := mul_le_mul (cos_dev x) hA' (abs_nonneg _) (by positivity)
    have := mul_le_mul (sin_dev x) hB' (abs_nonneg _) (by positivity)
    linarith
  have h2 := dev (rate * τ)
  have h3 := dev (1e-5 * τ)
  have h4 : (1 - Real.cos (rate * τ)) * A + Real.sin (rate * τ) * B -
      rate * (((1 - Real.cos (1e-5 * τ)) * A + Real.sin (1e-5 * τ) * B) / 1e-5) =
      ((1 - Real.cos (rate * τ)) * A + Real.sin (rate * τ) * B - rate * τ * B) -
      rate / 1e-5 * ((1 - Real.cos (1e-5 * τ)) * A + Real.sin (1e-5 * τ) * B - 1e-5 * τ * B) := by
    field_simp
    ring
  rw [h4]
  refine (abs_sub _ _).trans ?_
  rw [abs_mul, abs_div, abs_of_pos (show (0 : ℝ) < 1e-5 by norm_num)]
  have h5 : |rate| / 1e-5 * |(1 - Real.cos (1e-5 * τ)) * A + Real.sin (1e-5 * τ) * B - 1e-5 * τ * B| ≤
      |rate| / 1e-5 * (R * (1e-5 * τ) ^ 2) := mul_le_mul_of_nonneg_left h3 (by positivity)
  have h6 : |rate| / 1e-5 * (R * (1e-5 * τ) ^ 2) = R * τ ^ 2 * |rate| * 1e-5 := by
    field_simp
  have h7 : R * (rate * τ) ^ 2 = R * τ ^ 2 * |rate| * |rate| := by
    rw [mul_pow, ← sq_abs rate]; ring
  rw [h6] at h5
  rw [h7] at h2
  calc _ ≤ _ := add_le_add h2 h5
    _ = _ := by ring

/-- Default widths include everything, and there are files with two dates. -/
example : (∀ b ∈ blocks 0 (fun _ => ![1, 2, 3]) ![0, 0, 1] {} (⟨![0, 1], fun _ _ => ![1, 0, 0], fun _ _ => ![0, 1, 0]⟩ : Orbits (1 + 1))
    { d_jupiter_mass := 3 }, truthy b.1 = none → ∀ c ∈ b.2.2, c = 0) ∧
    ∃ d, delay 0 (fun _ => ![1, 2, 3]) ![0, 0, 1] { d_jupiter_mass := 3 }
      (some (⟨![0, 1], fun _ _ => ![1, 0, 0], fun _ _ => ![0, 1, 0]⟩ : Orbits (1 + 1))) true = .ok d ∧ d = -9 := by
  constructor
  · intro b hb h
    simp only [blocks, List.mem_cons, List.not_mem_nil, or_false] at hb
    rcases hb with rfl | rfl | rfl | rfl | rfl | rfl | rfl <;> simp [truthy] at h <;> norm_num at h
  · refine ⟨_, C95 _ _ _ _ _ _, ?_⟩
    simp [framePart_zero, dot, Fin.sum_univ_three]
    norm_num

end Verif.Ephem
