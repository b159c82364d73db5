import Verif.Model.SkyMap
import Verif.Props.Anis

/-!
# Sky maps and their coefficients: C118
-/

namespace Verif.SkyMap

open Verif Verif.Anis

variable {N : Nat} {Y : Int → Nat → Fin N → ℂ}

/-- What is used of the spherical harmonics: the one with `-m` is the conjugate up to a sign, and the first is constant. -/
structure Harmonics (Y : Int → Nat → Fin N → ℂ) : Prop where
  conj : ∀ (m l : Nat) k, Y (-m) l k = (-1) ^ m * (starRingEnd ℂ) (Y m l k)
  first : ∀ k, Y 0 0 k = ((1 / Real.sqrt (4 * Real.pi) : ℝ) : ℂ)

/-! ## The real harmonics -/

theorem neg_one_sq (m : Nat) : ((-1 : ℂ) ^ m) * (-1) ^ m = 1 := by rw [← mul_pow]; simp

/-- **C118, real harmonics.**  With positive `m`, the root of two times the real part of the complex harmonic. -/
theorem C118_real_pos (hY : Harmonics Y) (m l : Nat) (hm : 0 < m) (k : Fin N) :
    realSphHarm Y m l k = Real.sqrt 2 * (Y m l k).re := by
  unfold realSphHarm
  rw [if_pos (by omega), hY.conj, zpow_natCast, ← mul_assoc, neg_one_sq, one_mul]
  have h2 : Real.sqrt 2 ≠ 0 := by positivity
  rw [show (1 / (Real.sqrt 2 : ℂ)) * (Y m l k + (starRingEnd ℂ) (Y m l k)) = ((1 / Real.sqrt 2 * (2 * (Y m l k).re) : ℝ) : ℂ) by
    rw [Complex.add_conj]; push_cast; ring, Complex.ofReal_re]
  field_simp
  rw [Real.sq_sqrt (by norm_num)]

/-- With `m = 0`, its real part. -/
theorem C118_real_zero (l : Nat) (k : Fin N) : realSphHarm Y 0 l k = (Y 0 l k).re := by
  simp [realSphHarm]

/-- With negative `m`, the root of two times the imaginary part. -/
theorem C118_real_neg (hY : Harmonics Y) (m l : Nat) (hm : 0 < m) (k : Fin N) :
    realSphHarm Y (-m) l k = Real.sqrt 2 * (Y m l k).im := by
  unfold realSphHarm
  rw [if_neg (by omega), if_neg (by omega), neg_neg, hY.conj, zpow_neg, zpow_natCast]
  have h2 : Real.sqrt 2 ≠ 0 := by positivity
  have h3 : ((-1 : ℂ) ^ m)⁻¹ * ((-1) ^ m * (starRingEnd ℂ) (Y m l k)) = (starRingEnd ℂ) (Y m l k) := by
    rw [← mul_assoc, inv_mul_cancel₀ (pow_ne_zero _ (by norm_num)), one_mul]
  rw [h3, Complex.sub_conj, show (1 / ((Real.sqrt 2 : ℂ) * Complex.I)) * (((2 * (Y m l k).im : ℝ) : ℂ) * Complex.I) =
    ((1 / Real.sqrt 2 * (2 * (Y m l k).im) : ℝ) : ℂ) by
      have : (Real.sqrt 2 : ℂ) ≠ 0 := by exact_mod_cast h2
      push_cast; field_simp, Complex.ofReal_re]
  field_simp
  rw [Real.sq_sqrt (by norm_num)]

/-! ## Sums -/

theorem sum_turns (n : Nat) (g : (Nat × Int) × Nat → ℝ) :
    ((turns n).map g).sum = ∑ l ∈ Finset.range n, ∑ k ∈ Finset.range (2 * l + 1), g ((l, (k : Int) - l), l ^ 2 + k) := by
  unfold turns
  rw [List.map_flatMap]
  induction n with
  | zero => rfl
  | succ n ih =>
    rw [List.range_succ, List.flatMap_append, List.sum_append, ih, Finset.sum_range_succ]
    congr 1
    simp only [List.flatMap_cons, List.flatMap_nil, List.append_nil, List.map_map]
    rw [list_sum_range]
    rfl

/-- From `-l` to `l`: the middle, and the others in pairs. -/
theorem sum_pairs (l : Nat) (g : Int → ℝ) :
    ∑ k ∈ Finset.range (2 * l + 1), g ((k : Int) - l) = g 0 + ∑ m ∈ Finset.range l, (g (m + 1 : Nat) + g (-(m + 1 : Nat))) := by
  induction l with
  | zero => simp
  | succ l ih =>
    rw [Finset.sum_range_succ _ l, ← add_assoc, ← ih, show 2 * (l + 1) + 1 = (2 * l + 1) + 1 + 1 by ring, Finset.sum_range_succ,
      Finset.sum_range_succ']
    have e1 : ∀ k : Nat, ((k + 1 : Nat) : Int) - (l + 1 : Nat) = k - l := fun k => by push_cast; ring
    have e2 : ((2 * l + 1 + 1 : Nat) : Int) - (l + 1 : Nat) = (l + 1 : Nat) := by push_cast; ring
    have e3 : ((0 : Nat) : Int) - (l + 1 : Nat) = -(l + 1 : Nat) := by push_cast; ring
    rw [e2, e3, Finset.sum_congr rfl fun (k : Nat) (_ : k ∈ Finset.range (2 * l + 1)) => by rw [e1]]
    ring

/-- The place of the coefficient `l`, `m`. -/
def place (l : Nat) (m : Int) : Nat := ((l : Int) ^ 2 + l + m).toNat

/-- The map of the coefficients `c`. -/
noncomputable def mapOf (Y : Int → Nat → Fin N → ℂ) (n : Nat) (c : Nat → ℝ) (k : Fin N) : ℝ :=
  ((turns n).map fun x => c x.2 * realSphHarm Y x.1.2 x.1.1 k).sum

theorem mapOf_eq (n : Nat) (c : Nat → ℝ) (k : Fin N) : mapOf Y n c k = ∑ l ∈ Finset.range n,
    (c (l ^ 2 + l) * realSphHarm Y 0 l k + ∑ m ∈ Finset.range l,
      (c (l ^ 2 + l + (m + 1)) * realSphHarm Y (m + 1 : Nat) l k + c (l ^ 2 + l - (m + 1)) * realSphHarm Y (-(m + 1 : Nat)) l k)) := by
  unfold mapOf
  rw [sum_turns]
  refine Finset.sum_congr rfl fun l _ => ?_
  have h0 : (0 : Int) ≤ (l : Int) ^ 2 := by positivity
  have hc : (((l ^ 2 : Nat)) : Int) = (l : Int) ^ 2 := by push_cast; rfl
  have h := sum_pairs l fun m => c (place l m) * realSphHarm Y m l k
  rw [Finset.sum_congr rfl fun (j : Nat) (_ : j ∈ Finset.range (2 * l + 1)) =>
    show c (l ^ 2 + j) * realSphHarm Y ((j : Int) - l) l k = c (place l ((j : Int) - l)) * realSphHarm Y ((j : Int) - l) l k by
      rw [show place l ((j : Int) - l) = l ^ 2 + j by unfold place; omega], h]
  congr 1
  refine Finset.sum_congr rfl fun m hm => ?_
  have hm := Finset.mem_range.1 hm
  rw [show place l (m + 1 : Nat) = l ^ 2 + l + (m + 1) by unfold place; omega,
    show place l (-(m + 1 : Nat)) = l ^ 2 + l - (m + 1) by unfold place; omega]

/-! ## Maps -/

theorem fold_map (clm : List ℝ) (xs : List ((Nat × Int) × Nat)) (h : Fin N → ℝ) (hx : ∀ x ∈ xs, x.2 < clm.length) :
    xs.foldlM (fun h x => do
      let c ← item clm x.2
      return fun k => h k + c * realSphHarm Y x.1.2 x.1.1 k) h =
    (.ok fun k => h k + (xs.map fun x => clm.getD x.2 0 * realSphHarm Y x.1.2 x.1.1 k).sum : Except PyErr (Fin N → ℝ)) := by
  induction xs generalizing h with
  | nil => simp [pure, Except.pure]
  | cons x xs ih =>
    have hx0 := hx x List.mem_cons_self
    rw [List.foldlM_cons, item_ok hx0]
    simp only [bind, Except.bind, pure, Except.pure]
    have := ih (fun k => h k + clm[x.2] * realSphHarm Y x.1.2 x.1.1 k) fun y hy => hx y (List.mem_cons_of_mem _ hy)
    simp only [bind, Except.bind, pure, Except.pure] at this
    rw [this]
    congr 1
    funext k
    simp [List.getElem?_eq_getElem hx0, add_assoc]

theorem mapFromClm_eq (clm : List ℝ) : mapFromClm Y clm = .ok (mapOf Y (Nat.sqrt clm.length) fun k => clm.getD k 0) := by
  unfold mapFromClm
  rw [loops_eq, fold_map]
  · congr 1
    funext k
    simp [mapOf]
  · intro x hx
    have : Nat.sqrt clm.length ^ 2 ≤ clm.length := by rw [sq]; exact Nat.sqrt_le _
    exact (mem_turns hx).2.2.2.trans_le this

theorem almList_get (n : Nat) (c : Nat → ℝ) (l m : Nat) (hm : m ≤ l) (hl : l < n) :
    (almList n c).getD (almIdx ((n : Int) - 1) l m).toNat 0 = almValue c l m := by
  set clm := (List.range (n ^ 2)).map c with hclm
  have hlen : clm.length = n ^ 2 := by simp [hclm]
  have hs : Nat.sqrt clm.length = n := by rw [hlen, sq]; exact Nat.sqrt_eq n
  obtain ⟨alm, h1, -, h3⟩ := almFromClm_spec clm n hs
  have h4 := almFromClm_eq clm
  rw [hs, h1] at h4
  have hcl : ∀ k < n ^ 2, clm.getD k 0 = c k := fun k hk => by simp [hclm, List.getElem?_range hk]
  rw [almList_congr hcl] at h4
  rw [List.getD_eq_getElem?_getD, ← Except.ok.inj h4, h3 l m hm hl, Option.getD_some]
  exact almValue_congr hcl hm hl

theorem almValue_map (c : Nat → ℝ) (hY : Harmonics Y) (l m : Nat) (k : Fin N) : 2 * (almValue c l (m + 1) * Y (m + 1 : Nat) l k).re =
    c (l ^ 2 + l + (m + 1)) * realSphHarm Y (m + 1 : Nat) l k + c (l ^ 2 + l - (m + 1)) * realSphHarm Y (-(m + 1 : Nat)) l k := by
  rw [C118_real_pos hY _ _ (by omega), C118_real_neg hY _ _ (by omega)]
  have h1 := almValue_re c l (m + 1) (by omega)
  have h2 := almValue_im c l (m + 1) (by omega)
  rw [Complex.mul_re, ← h1, ← h2]
  have h3 := sqrt2
  linear_combination (-(almValue c l (m + 1)).re * (Y (m + 1 : Nat) l k).re + (almValue c l (m + 1)).im * (Y (m + 1 : Nat) l k).im) * h3

theorem alm2map_eq (hY : Harmonics Y) (n : Nat) (c : Nat → ℝ) : alm2map Y ((n : Int) - 1) (almList n c) = mapOf Y n c := by
  funext k
  rw [mapOf_eq]
  unfold alm2map
  rw [show ((n : Int) - 1 + 1).toNat = n by omega, list_sum_range]
  refine Finset.sum_congr rfl fun l hl => ?_
  have hl := Finset.mem_range.1 hl
  congr 1
  · have := almList_get n c l 0 (Nat.zero_le _) hl
    rw [Nat.cast_zero] at this
    rw [this, C118_real_zero]
    simp [almValue]
  · rw [list_sum_range, Finset.mul_sum]
    refine Finset.sum_congr rfl fun m hm => ?_
    have hm := Finset.mem_range.1 hm
    rw [almList_get n c l (m + 1) (by omega) hl]
    exact almValue_map c hY l m k

/-- **C118, maps.**  The map made by healpy from the complex coefficients is the sum over the real harmonics, for every list of
coefficients, of whatever length. -/
theorem C118_maps (hY : Harmonics Y) (clm : List ℝ) :
    ∃ h, mapFromClm Y clm = .ok h ∧ mapFromClmFast Y clm = .ok h ∧ ∀ k, h k = ∑ l ∈ Finset.range (Nat.sqrt clm.length),
      (clm.getD (l ^ 2 + l) 0 * (Y 0 l k).re + ∑ m ∈ Finset.range l, Real.sqrt 2 *
        (clm.getD (l ^ 2 + l + (m + 1)) 0 * (Y (m + 1 : Nat) l k).re + clm.getD (l ^ 2 + l - (m + 1)) 0 * (Y (m + 1 : Nat) l k).im)) := by
  refine ⟨_, mapFromClm_eq clm, ?_, fun k => ?_⟩
  · unfold mapFromClmFast
    rw [almFromClm_eq]
    simp only [bind, Except.bind]
    rw [alm2map_eq hY]
  · rw [mapOf_eq]
    refine Finset.sum_congr rfl fun l _ => ?_
    rw [C118_real_zero]
    congr 1
    refine Finset.sum_congr rfl fun m _ => ?_
    rw [C118_real_pos hY _ _ (by omega), C118_real_neg hY _ _ (by omega)]
    ring

/-- **C118, correlations.**  The correlations of the pulsars that `getCov` gives are those of the map of the real harmonics. -/
theorem C118_correlations {P : Nat} (hY : Harmonics Y) (clm : List ℝ) (F : Matrix (Fin P) (Fin (N * 2)) ℝ) :
    getCov (alm2map Y) clm F = (mapFromClm Y clm).map (orfFromMap F) := by
  rw [mapFromClm_eq]
  unfold getCov
  rw [almFromClm_eq]
  simp only [bind, Except.bind, Except.map]
  rw [alm2map_eq hY]

/-- **C118, linearity.**  healpy's transform, as defined, has the linearity that C94 asks for. -/
theorem C118_linear (Y : Int → Nat → Fin N → ℂ) : RealLinear (alm2map Y) := by
  have hadd : ∀ (a b : List ℂ) (i : Nat), a.length = b.length →
      (List.zipWith (· + ·) a b).getD i 0 = a.getD i 0 + b.getD i 0 := by
    intro a b i hab
    by_cases hi : i < a.length
    · simp [List.getElem?_zipWith, List.getElem?_eq_getElem hi, List.getElem?_eq_getElem (hab ▸ hi)]
    · simp [List.getElem?_zipWith, List.getElem?_eq_none (not_lt.1 hi), List.getElem?_eq_none (hab ▸ not_lt.1 hi)]
  have hmul : ∀ (c : ℝ) (a : List ℂ) (i : Nat), (a.map ((c : ℂ) * ·)).getD i 0 = c * a.getD i 0 := by
    intro c a i
    by_cases hi : i < a.length
    · simp [List.getElem?_eq_getElem hi]
    · simp [List.getElem?_eq_none (not_lt.1 hi)]
  refine ⟨fun L a b hab => ?_, fun L c a => ?_⟩
  · funext k
    simp only [alm2map, Pi.add_apply, list_sum_range, ← Finset.sum_add_distrib, hadd a b _ hab]
    refine Finset.sum_congr rfl fun l _ => ?_
    simp only [add_mul, Complex.add_re, Finset.sum_add_distrib]
    ring
  · funext k
    simp only [alm2map, Pi.smul_apply, smul_eq_mul, list_sum_range, hmul, Finset.mul_sum, mul_add]
    refine Finset.sum_congr rfl fun l _ => ?_
    simp only [mul_assoc, Complex.re_ofReal_mul]
    congr 1
    refine Finset.sum_congr rfl fun m _ => ?_
    ring

/-! ## Coefficients -/

/-- The sums over the pixels for the harmonic `l`, `m`. -/
noncomputable def coef (Y : Int → Nat → Fin N → ℂ) (h : Fin N → ℝ) (l : Nat) (m : Int) : ℝ :=
  (∑ k, h k * realSphHarm Y m l k) * 4 * Real.pi / N

theorem clmFromMap_turns (h : Fin N → ℝ) (lmax : Nat) :
    clmFromMap Y h lmax = (turns (lmax + 1)).map fun x => coef Y h x.1.1 x.1.2 := by
  unfold clmFromMap
  rw [show (lmax : Int) = ((lmax + 1 : Nat) : Int) - 1 by push_cast; ring, loops_eq]
  rfl

theorem clmFromMap_length (h : Fin N → ℝ) (lmax : Nat) : (clmFromMap Y h lmax).length = (lmax + 1) ^ 2 := by
  rw [clmFromMap_turns, List.length_map, turns_length]

theorem clmFromMap_at (h : Fin N → ℝ) (lmax l : Nat) (m : Int) (hm : m.natAbs ≤ l) (hl : l < lmax + 1) (i : Nat)
    (hi : (i : Int) = l ^ 2 + l + m) : (clmFromMap Y h lmax).getD i 0 = coef Y h l m := by
  rw [clmFromMap_turns, List.getD_eq_getElem?_getD, List.getElem?_map, turns_at (lmax + 1) l m hm hl i hi]
  rfl

/-- The blocks of a list. -/
theorem flat_get {α : Type} (f : Nat → Nat → α) (len : Nat → Nat) (M m i : Nat) (hm : m < M) (hi : i < len m) :
    ((List.range M).flatMap fun m => (List.range (len m)).map (f m))[(∑ j ∈ Finset.range m, len j) + i]? = some (f m i) := by
  have hlen : ∀ M, ((List.range M).flatMap fun m => (List.range (len m)).map (f m)).length = ∑ j ∈ Finset.range M, len j := by
    intro M
    induction M with
    | zero => rfl
    | succ M ih => rw [List.range_succ, List.flatMap_append, List.length_append, ih, Finset.sum_range_succ]; simp
  induction M with
  | zero => omega
  | succ M ih =>
    rw [List.range_succ, List.flatMap_append]
    rcases Nat.lt_succ_iff_lt_or_eq.1 hm with h | h
    · have := ih h
      rw [List.getElem?_append_left (List.getElem?_eq_some_iff.1 this).1]
      exact this
    · subst h
      rw [List.getElem?_append_right (by rw [hlen]; omega), hlen]
      simp [hi]

theorem flat_length {α : Type} (f : Nat → Nat → α) (len : Nat → Nat) (M : Nat) :
    ((List.range M).flatMap fun m => (List.range (len m)).map (f m)).length = ∑ j ∈ Finset.range M, len j := by
  induction M with
  | zero => rfl
  | succ M ih => rw [List.range_succ, List.flatMap_append, List.length_append, ih, Finset.sum_range_succ]; simp

theorem two_blocks (n m : Nat) (hm : m ≤ n) : 2 * ((∑ j ∈ Finset.range m, (n - j) : Nat) : Int) = m * (2 * n + 1 - m) := by
  induction m with
  | zero => simp
  | succ m ih =>
    rw [Finset.sum_range_succ, Nat.cast_add, mul_add, ih (by omega), Nat.cast_sub (by omega)]
    push_cast
    ring

theorem quadrature_length (n : Nat) (h : Fin N → ℝ) :
    ((quadrature Y ((n : Int) - 1) h).length : Int) = almSize ((n : Int) - 1) := by
  unfold quadrature
  rw [show ((n : Int) - 1 + 1).toNat = n by omega,
    flat_length (fun m i => (4 * Real.pi / N : ℂ) * ∑ k, (h k : ℂ) * (starRingEnd ℂ) (Y m (m + i) k)) (fun m => n - m)]
  have h1 := two_blocks n n le_rfl
  have h2 := two_almSize n
  have : (n : Int) * (2 * n + 1 - n) = n * (n + 1) := by ring
  omega

theorem quadrature_get (n : Nat) (h : Fin N → ℝ) (l m : Nat) (hm : m ≤ l) (hl : l < n) :
    (quadrature Y ((n : Int) - 1) h)[(almIdx ((n : Int) - 1) l m).toNat]? =
      some ((4 * Real.pi / N : ℂ) * ∑ k, (h k : ℂ) * (starRingEnd ℂ) (Y m l k)) := by
  unfold quadrature
  rw [show ((n : Int) - 1 + 1).toNat = n by omega]
  have h1 := two_blocks n m (by omega)
  have h2 := two_almIdx n l m
  have h3 : (m : Int) * (2 * n + 1 - m) = m * (2 * n - 1 - m) + 2 * m := by ring
  have h4 := flat_get (fun m i => (4 * Real.pi / N : ℂ) * ∑ k, (h k : ℂ) * (starRingEnd ℂ) (Y m (m + i) k)) (fun m => n - m)
    n m (l - m) (by omega) (by omega)
  rw [show (almIdx ((n : Int) - 1) l m).toNat = (∑ j ∈ Finset.range m, (n - j)) + (l - m) by omega, h4]
  rw [show m + (l - m) = l by omega]

/-- The complex sums over the pixels come from the real ones. -/
theorem coef_alm (hY : Harmonics Y) (h : Fin N → ℝ) (l m : Nat) (c : Nat → ℝ) (h1 : c (l ^ 2 + l + m) = coef Y h l m)
    (h2 : c (l ^ 2 + l - m) = coef Y h l (-m)) :
    almValue c l m = (4 * Real.pi / N : ℂ) * ∑ k, (h k : ℂ) * (starRingEnd ℂ) (Y m l k) := by
  have hs : Real.sqrt 2 ≠ 0 := by positivity
  have hre : (∑ k, (h k : ℂ) * (starRingEnd ℂ) (Y m l k)).re = ∑ k, h k * (Y m l k).re := by
    rw [Complex.re_sum]; simp
  have him : (∑ k, (h k : ℂ) * (starRingEnd ℂ) (Y m l k)).im = -∑ k, h k * (Y m l k).im := by
    rw [Complex.im_sum, ← Finset.sum_neg_distrib]; simp
  have hco : (4 * Real.pi / N : ℂ) = ((4 * Real.pi / N : ℝ) : ℂ) := by push_cast; rfl
  rw [hco]
  by_cases hm : m = 0
  · subst hm
    have hreal : ∀ k, (Y 0 l k).im = 0 := by
      intro k
      have := congrArg Complex.im (hY.conj 0 l k)
      simp at this
      linarith
    simp only [almValue, if_true]
    simp only [add_zero] at h1
    rw [h1]
    apply Complex.ext
    · rw [Complex.re_ofReal_mul, hre, Complex.ofReal_re]
      simp only [coef, Nat.cast_zero, C118_real_zero]
      ring
    · rw [Complex.im_ofReal_mul, him, Complex.ofReal_im]
      simp [hreal]
  · have e1 := almValue_re c l m hm
    have e2 := almValue_im c l m hm
    rw [h1] at e1
    rw [h2] at e2
    unfold coef at e1 e2
    simp only [C118_real_pos hY m l (by omega)] at e1
    simp only [C118_real_neg hY m l (by omega)] at e2
    have s1 : ∑ k, h k * (Real.sqrt 2 * (Y m l k).re) = Real.sqrt 2 * ∑ k, h k * (Y m l k).re := by
      rw [Finset.mul_sum]; exact Finset.sum_congr rfl fun k _ => by ring
    have s2 : ∑ k, h k * (Real.sqrt 2 * (Y m l k).im) = Real.sqrt 2 * ∑ k, h k * (Y m l k).im := by
      rw [Finset.mul_sum]; exact Finset.sum_congr rfl fun k _ => by ring
    rw [s1] at e1
    rw [s2] at e2
    apply Complex.ext
    · rw [Complex.re_ofReal_mul, hre]
      apply mul_right_cancel₀ hs
      rw [e1]; ring
    · rw [Complex.im_ofReal_mul, him]
      apply mul_right_cancel₀ hs
      linear_combination -e2

theorem almList_length (n : Nat) (c : Nat → ℝ) : (almList n c).length = (almSize ((n : Int) - 1)).toNat := by simp [almList]

/-- A list is that of the coefficients `c` when it has the right entries. -/
theorem almList_ext {n : Nat} {c : Nat → ℝ} {alm : List ℂ} (hlen : (alm.length : Int) = almSize ((n : Int) - 1))
    (h : ∀ l m : Nat, m ≤ l → l < n → alm.getD (almIdx ((n : Int) - 1) l m).toNat 0 = almValue c l m) : alm = almList n c := by
  refine List.ext_getElem (by rw [almList_length]; omega) fun j h1 h2 => ?_
  obtain ⟨l, m, hm, hl, hidx⟩ := almIdx_surj n j (by omega)
  have hj : (almIdx ((n : Int) - 1) l m).toNat = j := by omega
  have e1 := h l m hm hl
  have e2 := almList_get n c l m hm hl
  rw [hj] at e1 e2
  simp only [List.getD_eq_getElem?_getD, List.getElem?_eq_getElem h1, List.getElem?_eq_getElem h2, Option.getD_some] at e1 e2
  rw [e1, e2]

theorem quadrature_eq (hY : Harmonics Y) (h : Fin N → ℝ) (lmax : Nat) :
    quadrature Y lmax h = almList (lmax + 1) fun i => (clmFromMap Y h lmax).getD i 0 := by
  have hn : (lmax : Int) = ((lmax + 1 : Nat) : Int) - 1 := by push_cast; ring
  rw [hn]
  refine almList_ext (quadrature_length _ h) fun l m hm hl => ?_
  rw [List.getD_eq_getElem?_getD, quadrature_get _ h l m hm hl, Option.getD_some]
  refine (coef_alm hY h l m _ ?_ ?_).symm
  · exact clmFromMap_at h lmax l m (by omega) hl _ (by push_cast; ring)
  · refine clmFromMap_at h lmax l (-m) (by omega) hl _ ?_
    have hc : (((l ^ 2 : Nat)) : Int) = (l : Int) ^ 2 := by push_cast; rfl
    omega

/-- The map `mapFromClm` makes. -/
noncomputable def sky (Y : Int → Nat → Fin N → ℂ) (clm : List ℝ) (k : Fin N) : ℝ :=
  match mapFromClm Y clm with
  | .ok h => h k
  | .error _ => 0

theorem sky_ok (clm : List ℝ) : mapFromClm Y clm = .ok (sky Y clm) := by
  unfold sky
  rw [mapFromClm_eq]

/-- The coefficients `clmFromMap` gives, improved by adding those of what their map leaves over, again and again. -/
noncomputable def rounds (Y : Int → Nat → Fin N → ℂ) (h : Fin N → ℝ) (lmax : Nat) : Nat → List ℝ
  | 0 => clmFromMap Y h lmax
  | j + 1 => List.zipWith (· + ·) (rounds Y h lmax j) (clmFromMap Y (fun k => h k - sky Y (rounds Y h lmax j) k) lmax)

theorem rounds_length (h : Fin N → ℝ) (lmax j : Nat) : (rounds Y h lmax j).length = (lmax + 1) ^ 2 := by
  induction j with
  | zero => exact clmFromMap_length h lmax
  | succ j ih => simp only [rounds, List.length_zipWith, ih, clmFromMap_length, min_self]

theorem sqrt_len {clm : List ℝ} {n : Nat} (h : clm.length = n ^ 2) : Nat.sqrt clm.length = n := by
  rw [h, sq]; exact Nat.sqrt_eq n

theorem sky_eq {clm : List ℝ} {n : Nat} (h : clm.length = n ^ 2) : sky Y clm = mapOf Y n fun i => clm.getD i 0 := by
  have h1 := mapFromClm_eq (Y := Y) clm
  rw [sky_ok, sqrt_len h] at h1
  exact Except.ok.inj h1

theorem map2alm_eq (hY : Harmonics Y) (h : Fin N → ℝ) (lmax j : Nat) :
    map2alm Y lmax h j = almList (lmax + 1) fun i => (rounds Y h lmax j).getD i 0 := by
  have hn : (lmax : Int) = ((lmax + 1 : Nat) : Int) - 1 := by push_cast; ring
  induction j with
  | zero => exact quadrature_eq hY h lmax
  | succ j ih =>
    have hmap : alm2map Y lmax (almList (lmax + 1) fun i => (rounds Y h lmax j).getD i 0) = sky Y (rounds Y h lmax j) := by
      rw [hn, alm2map_eq hY, sky_eq (rounds_length h lmax j)]
    simp only [map2alm, rounds]
    rw [ih, hmap, quadrature_eq hY, ← almList_add]
    refine almList_congr fun i hi => ?_
    have l1 : i < (rounds Y h lmax j).length := by rw [rounds_length]; exact hi
    have l2 : i < (clmFromMap Y (fun k => h k - sky Y (rounds Y h lmax j) k) lmax).length := by rw [clmFromMap_length]; exact hi
    simp [List.getElem?_zipWith, List.getElem?_eq_getElem l1, List.getElem?_eq_getElem l2]

theorem almList_set (n : Nat) (c : List ℝ) (hc : c.length = n ^ 2) (v : ℝ) :
    (almList n fun i => c.getD i 0).set 0 (v : ℂ) = almList n fun i => (c.set 0 v).getD i 0 := by
  have hsz := two_almSize n
  have hpos : (0 : Int) ≤ n * (n + 1) := by positivity
  refine almList_ext (by rw [List.length_set, almList_length]; omega) fun l m hm hl => ?_
  have hlt := almIdx_lt hm hl
  have h0 := almIdx_nonneg hm hl
  rw [List.getD_eq_getElem?_getD, List.getElem?_set, almList_length]
  by_cases hz : l = 0
  · subst hz
    obtain rfl : m = 0 := by omega
    have e : almIdx ((n : Int) - 1) (0 : Nat) (0 : Nat) = 0 := by simp [almIdx]
    have hn : 0 < c.length := by rw [hc]; positivity
    rw [e] at hlt ⊢
    rw [if_pos (show 0 = Int.toNat 0 from rfl), if_pos (by omega)]
    simp [almValue, hn]
  · have hne : ¬(0 = (almIdx ((n : Int) - 1) l m).toNat) := by
      intro h
      exact hz (almIdx_inj hm hl (Nat.zero_le 0) (by omega) (by
        rw [show almIdx ((n : Int) - 1) (0 : Nat) (0 : Nat) = 0 by simp [almIdx]]; omega)).1
    rw [if_neg hne, ← List.getD_eq_getElem?_getD, almList_get n _ l m hm hl]
    have hsq : 1 ≤ l ^ 2 := Nat.one_le_pow _ _ (by omega)
    have e1 : ∀ i, 0 < i → c.getD i 0 = (c.set 0 v).getD i 0 := by
      intro i hi
      rw [List.getD_eq_getElem?_getD, List.getD_eq_getElem?_getD, List.getElem?_set, if_neg (by omega)]
    unfold almValue
    simp only
    rw [e1 (l ^ 2 + l) (by omega), e1 (l ^ 2 + l + m) (by omega), e1 (l ^ 2 + l - m) (by omega)]

/-- The first coefficient is the same sum in both functions. -/
theorem first_coef (hY : Harmonics Y) (h : Fin N → ℝ) (lmax : Nat) :
    (∑ k, h k) * Real.sqrt (4 * Real.pi) / N = (clmFromMap Y h lmax).getD 0 0 := by
  rw [clmFromMap_at h lmax 0 0 (by simp) (by omega) 0 (by simp)]
  have hp : Real.sqrt (4 * Real.pi) ≠ 0 := by positivity
  have hq : Real.sqrt (4 * Real.pi) * Real.sqrt (4 * Real.pi) = 4 * Real.pi := Real.mul_self_sqrt (by positivity)
  unfold coef
  simp only [C118_real_zero, hY.first, Complex.ofReal_re]
  rw [← Finset.sum_mul]
  generalize Real.sqrt (4 * Real.pi) = r at hp hq
  rw [mul_assoc _ 4 Real.pi, ← hq]
  field_simp

/-- **C118, coefficients.**  The fast function gives the coefficients of the slow one after three rounds of improvement, but for
the first, which is that of the slow function. -/
theorem C118_coefficients (hY : Harmonics Y) (h : Fin N → ℝ) (lmax : Nat) :
    clmFromMapFast Y h lmax = .ok ((rounds Y h lmax 3).set 0 ((clmFromMap Y h lmax).getD 0 0)) := by
  have hlen : ((rounds Y h lmax 3).set 0 ((clmFromMap Y h lmax).getD 0 0)).length = (lmax + 1) ^ 2 := by
    rw [List.length_set, rounds_length]
  unfold clmFromMapFast
  simp only
  rw [map2alm_eq hY, first_coef hY h lmax, almList_set _ _ (rounds_length h lmax 3)]
  obtain ⟨alm, h1, -, h3⟩ := C72 (lmax + 1) _ hlen
  rw [almFromClm_eq, sqrt_len hlen] at h1
  rw [Except.ok.inj h1, h3]

/-! ## When the pixels are enough -/

/-- The sums over the pixels are those of orthonormal functions, up to `lmax`. -/
def Exact (Y : Int → Nat → Fin N → ℂ) (lmax : Nat) : Prop :=
  ∀ (l l' : Nat) (m m' : Int), l ≤ lmax → l' ≤ lmax → m.natAbs ≤ l → m'.natAbs ≤ l' →
    (∑ k, realSphHarm Y m l k * realSphHarm Y m' l' k) * 4 * Real.pi / N = if l = l' ∧ m = m' then 1 else 0

theorem list_sum_comm {α : Type} (xs : List α) (f : α → Fin N → ℝ) : ∑ k, (xs.map fun x => f x k).sum = (xs.map fun x => ∑ k, f x k).sum := by
  induction xs with
  | nil => simp
  | cons x xs ih => simp only [List.map_cons, List.sum_cons, Finset.sum_add_distrib, ih]

/-- What comes back: each coefficient is mixed with the others by the sums of products of harmonics. -/
theorem coef_sky (clm : List ℝ) (n : Nat) (hlen : clm.length = n ^ 2) (l : Nat) (m : Int) : coef Y (sky Y clm) l m =
    ((turns n).map fun x => clm.getD x.2 0 * ((∑ k, realSphHarm Y x.1.2 x.1.1 k * realSphHarm Y m l k) * 4 * Real.pi / N)).sum := by
  rw [sky_eq hlen]
  unfold coef mapOf
  simp only [← List.sum_map_mul_right]
  rw [list_sum_comm, mul_assoc, mul_div_assoc, ← List.sum_map_mul_right]
  congr 1
  refine List.map_congr_left fun x _ => ?_
  simp only [mul_assoc, ← Finset.mul_sum]
  ring

theorem turns_nodup (n : Nat) : (turns n).Nodup := by
  have h : ((turns n).map Prod.snd).Nodup := by rw [turns_snd]; exact List.nodup_range
  exact List.Nodup.of_map _ h

theorem sum_single {α : Type} (xs : List α) (hn : xs.Nodup) (a : α) (ha : a ∈ xs) (f : α → ℝ) (hf : ∀ x ∈ xs, x ≠ a → f x = 0) :
    (xs.map f).sum = f a := by
  induction xs with
  | nil => simp at ha
  | cons x xs ih =>
    rw [List.map_cons, List.sum_cons]
    have hx := List.nodup_cons.1 hn
    rcases List.mem_cons.1 ha with h | h
    · subst h
      have : (xs.map f).sum = 0 := by
        refine List.sum_eq_zero fun y hy => ?_
        obtain ⟨z, hz, rfl⟩ := List.mem_map.1 hy
        exact hf z (List.mem_cons_of_mem _ hz) fun e => hx.1 (e ▸ hz)
      rw [this, add_zero]
    · rw [ih hx.2 h fun y hy => hf y (List.mem_cons_of_mem _ hy), hf x List.mem_cons_self fun e => hx.1 (e ▸ h), zero_add]

/-- **C118, there and back.**  The coefficients of the map of any coefficients are these coefficients exactly when the sums over
the pixels are those of orthonormal functions. -/
theorem C118_inverse (Y : Int → Nat → Fin N → ℂ) (lmax : Nat) :
    (∀ clm : List ℝ, clm.length = (lmax + 1) ^ 2 → clmFromMap Y (sky Y clm) lmax = clm) ↔ Exact Y lmax := by
  constructor
  · intro H l l' m m' hl hl' hm hm'
    have hc : (((l ^ 2 : Nat)) : Int) = (l : Int) ^ 2 := by push_cast; rfl
    have hc' : (((l' ^ 2 : Nat)) : Int) = (l' : Int) ^ 2 := by push_cast; rfl
    have hp : (0 : Int) ≤ (l : Int) ^ 2 := by positivity
    have hp' : (0 : Int) ≤ (l' : Int) ^ 2 := by positivity
    have hi : (place l m : Int) = l ^ 2 + l + m := by unfold place; omega
    have hi' : (place l' m' : Int) = l' ^ 2 + l' + m' := by unfold place; omega
    have ht := turns_at (lmax + 1) l m hm (by omega) _ hi
    have ht' := turns_at (lmax + 1) l' m' hm' (by omega) _ hi'
    have hmem := List.mem_of_getElem? ht
    have hmem' := List.mem_of_getElem? ht'
    have hlt := (mem_turns hmem).2.2.2
    have hlt' := (mem_turns hmem').2.2.2
    simp only at hlt hlt'
    set clm := (List.replicate ((lmax + 1) ^ 2) (0 : ℝ)).set (place l m) 1 with hclm
    have hlen : clm.length = (lmax + 1) ^ 2 := by simp [hclm]
    have h1 := clmFromMap_at (sky Y clm) lmax l' m' hm' (by omega) _ hi' (Y := Y)
    rw [H clm hlen, coef_sky clm _ hlen] at h1
    have hget : ∀ i < (lmax + 1) ^ 2, clm.getD i 0 = if i = place l m then 1 else 0 := by
      intro i hi
      rw [hclm, List.getD_eq_getElem?_getD, List.getElem?_set]
      by_cases h : place l m = i
      · subst h; simp [hlt]
      · rw [if_neg h, if_neg (Ne.symm h)]; simp [hi]
    rw [sum_single _ (turns_nodup _) ((l, m), place l m) hmem, hget _ hlt', hget _ hlt, if_pos rfl, one_mul] at h1
    · rw [← h1]
      refine if_congr ?_ rfl rfl
      constructor
      · intro e
        rw [e, ht] at ht'
        have := Option.some.inj ht'
        exact ⟨congrArg (fun x => x.1.1) this, congrArg (fun x => x.1.2) this⟩
      · rintro ⟨rfl, rfl⟩; rfl
    · intro x hx hne
      have hx2 := mem_turns hx
      rw [hget _ hx2.2.2.2, if_neg, zero_mul]
      intro e
      have h3 := turns_at (lmax + 1) x.1.1 x.1.2 hx2.2.1 hx2.1 x.2 hx2.2.2.1
      rw [e, ht] at h3
      refine hne ?_
      have h4 := Option.some.inj h3
      rw [h4]
      exact Prod.ext rfl e
  · intro E clm hlen
    conv_rhs => rw [← turns_read (lmax + 1) clm hlen]
    rw [clmFromMap_turns]
    refine List.map_congr_left fun y hy => ?_
    obtain ⟨a1, a2, a3, a4⟩ := mem_turns hy
    rw [coef_sky clm _ hlen, sum_single _ (turns_nodup _) y hy]
    · rw [E _ _ _ _ (by omega) (by omega) a2 a2, if_pos ⟨rfl, rfl⟩, mul_one]
    · intro x hx hne
      obtain ⟨b1, b2, b3, b4⟩ := mem_turns hx
      rw [E _ _ _ _ (by omega) (by omega) b2 a2, if_neg, mul_zero]
      rintro ⟨e1, e2⟩
      refine hne (Prod.ext (Prod.ext e1 e2) ?_)
      zify
      rw [a3, b3, e1, e2]

theorem clmFromMap_sub (h g : Fin N → ℝ) (lmax : Nat) : clmFromMap Y (fun k => h k - g k) lmax =
    List.zipWith (· - ·) (clmFromMap Y h lmax) (clmFromMap Y g lmax) := by
  simp only [clmFromMap_turns, List.zipWith_map, List.zipWith_self]
  refine List.map_congr_left fun x _ => ?_
  simp only [coef, sub_mul, Finset.sum_sub_distrib]
  ring

/-- **C118, exact pixels.**  When the sums over the pixels are those of orthonormal functions, the two functions give the same
coefficients of every map. -/
theorem C118_partial (hY : Harmonics Y) (h : Fin N → ℝ) (lmax : Nat) (E : Exact Y lmax) :
    clmFromMapFast Y h lmax = .ok (clmFromMap Y h lmax) := by
  have hr : ∀ j, rounds Y h lmax j = clmFromMap Y h lmax := by
    intro j
    induction j with
    | zero => rfl
    | succ j ih =>
      simp only [rounds]
      rw [ih, clmFromMap_sub, (C118_inverse Y lmax).2 E _ (clmFromMap_length h lmax)]
      refine List.ext_getElem (by simp) fun i h1 h2 => by simp
  rw [C118_coefficients hY, hr]
  congr 1
  refine List.ext_getElem (by simp) fun i h1 h2 => ?_
  by_cases hi : i = 0
  · subst hi; simp [List.getElem?_eq_getElem h2]
  · rw [List.getElem_set_ne (by omega)]

/-! ## The pixels of a map -/

/-- `1/√(4π)`. -/
noncomputable def norm0 : ℝ := 1 / Real.sqrt (4 * Real.pi)

/-- `√(3/(4π))`. -/
noncomputable def norm1 : ℝ := Real.sqrt (3 / (4 * Real.pi))

theorem norm0_sq : norm0 * norm0 * 4 * Real.pi = 1 := by
  unfold norm0
  have := Real.pi_pos.ne'
  rw [div_mul_div_comm, Real.mul_self_sqrt (by positivity)]
  field_simp

theorem norm1_sq : norm1 * norm1 * 4 * Real.pi = 3 := by
  unfold norm1
  rw [Real.mul_self_sqrt (by positivity)]
  have := Real.pi_pos.ne'
  field_simp

/-- The harmonics up to `l = 1` in given directions, by the formulas of scipy; zero above. -/
noncomputable def low (theta phi : Fin N → ℝ) (m : Int) (l : Nat) (k : Fin N) : ℂ :=
  if l = 0 then (if m = 0 then ⟨norm0, 0⟩ else 0)
  else if l = 1 then
    (if m = 0 then ⟨norm1 * Real.cos (theta k), 0⟩
    else if m = 1 then ⟨-(norm1 / Real.sqrt 2 * (Real.sin (theta k) * Real.cos (phi k))), -(norm1 / Real.sqrt 2 * (Real.sin (theta k) * Real.sin (phi k)))⟩
    else if m = -1 then ⟨norm1 / Real.sqrt 2 * (Real.sin (theta k) * Real.cos (phi k)), -(norm1 / Real.sqrt 2 * (Real.sin (theta k) * Real.sin (phi k)))⟩
    else 0)
  else 0

theorem low_harmonics (theta phi : Fin N → ℝ) : Harmonics (low theta phi) := by
  refine ⟨fun m l k => ?_, fun k => by
    unfold low
    rw [if_pos rfl, if_pos rfl]
    rfl⟩
  unfold low
  by_cases h0 : l = 0
  · subst h0
    by_cases hm : m = 0
    · subst hm
      apply Complex.ext <;> simp
    · have e1 : ¬(-(m : Int) = 0) := by omega
      have e2 : ¬((m : Int) = 0) := by omega
      rw [if_pos rfl, if_neg e1, if_pos rfl, if_neg e2]
      simp
  · by_cases h1 : l = 1
    · subst h1
      rcases Nat.lt_trichotomy m 1 with hm | hm | hm
      · obtain rfl : m = 0 := by omega
        apply Complex.ext <;> simp
      · subst hm
        apply Complex.ext <;> simp
      · have e1 : ¬((m : Int) = 0) := by omega
        have e2 : ¬((m : Int) = 1) := by omega
        have e3 : ¬((m : Int) = -1) := by omega
        have e4 : ¬(-(m : Int) = 0) := by omega
        have e5 : ¬(-(m : Int) = 1) := by omega
        have e6 : ¬(-(m : Int) = -1) := by omega
        rw [if_neg (by norm_num), if_pos rfl, if_neg e4, if_neg e5, if_neg e6, if_neg (by norm_num), if_pos rfl, if_neg e1, if_neg e2,
          if_neg e3]
        simp
    · simp [h0, h1]

theorem low_real_zero (theta phi : Fin N → ℝ) (k : Fin N) : realSphHarm (low theta phi) 0 0 k = norm0 := by
  rw [C118_real_zero]; simp [low]

theorem low_real_z (theta phi : Fin N → ℝ) (k : Fin N) :
    realSphHarm (low theta phi) 0 1 k = norm1 * Real.cos (theta k) := by
  rw [C118_real_zero]; simp [low]

theorem root_two (x : ℝ) : Real.sqrt 2 * -(norm1 / Real.sqrt 2 * x) = -(norm1 * x) := by
  have : Real.sqrt 2 ≠ 0 := by positivity
  field_simp

theorem low_real_x (theta phi : Fin N → ℝ) (k : Fin N) :
    realSphHarm (low theta phi) 1 1 k = -(norm1 * (Real.sin (theta k) * Real.cos (phi k))) := by
  have := C118_real_pos (low_harmonics theta phi) 1 1 (by norm_num) k
  rw [Nat.cast_one] at this
  rw [this, ← root_two]
  simp [low]

theorem low_real_y (theta phi : Fin N → ℝ) (k : Fin N) :
    realSphHarm (low theta phi) (-1) 1 k = -(norm1 * (Real.sin (theta k) * Real.sin (phi k))) := by
  have := C118_real_neg (low_harmonics theta phi) 1 1 (by norm_num) k
  rw [Nat.cast_one] at this
  rw [this, ← root_two]
  simp [low]

/-- The directions of the twelve pixels of a healpix map with `nside = 1`. -/
noncomputable def theta12 : Fin 12 → ℝ := fun k => Real.arccos (![2 / 3, 2 / 3, 2 / 3, 2 / 3, 0, 0, 0, 0, -2 / 3, -2 / 3, -2 / 3, -2 / 3] k)

noncomputable def phi12 : Fin 12 → ℝ := ![Real.pi / 4, 3 * Real.pi / 4, 5 * Real.pi / 4, 7 * Real.pi / 4, 0, Real.pi / 2, Real.pi,
  3 * Real.pi / 2, Real.pi / 4, 3 * Real.pi / 4, 5 * Real.pi / 4, 7 * Real.pi / 4]

theorem turns_two : turns 2 = [((0, 0), 0), ((1, -1), 1), ((1, 0), 2), ((1, 1), 3)] := by decide

theorem cos12 (k : Fin 12) : Real.cos (theta12 k) = ![2 / 3, 2 / 3, 2 / 3, 2 / 3, 0, 0, 0, 0, -2 / 3, -2 / 3, -2 / 3, -2 / 3] k := by
  unfold theta12
  apply Real.cos_arccos <;> fin_cases k <;> norm_num

theorem sin12 : Real.sin (theta12 8) = Real.sin (theta12 0) ∧ Real.sin (theta12 9) = Real.sin (theta12 1) ∧
    Real.sin (theta12 10) = Real.sin (theta12 2) ∧ Real.sin (theta12 11) = Real.sin (theta12 3) := by
  unfold theta12
  simp only [Real.sin_arccos]
  refine ⟨?_, ?_, ?_, ?_⟩ <;> congr 1 <;> simp [Matrix.vecHead, Matrix.vecTail] <;> norm_num

/-- The coefficients of `s` times the harmonic `l = 1`, `m = 0`, from twelve pixels. -/
theorem twelve (s : ℝ) : clmFromMap (low theta12 phi12) (fun k => s * realSphHarm (low theta12 phi12) 0 1 k) 1 = [0, 0, 8 / 9 * s, 0] := by
  obtain ⟨s0, s1, s2, s3⟩ := sin12
  rw [clmFromMap_turns, turns_two]
  have hx : ∀ f : Fin 12 → ℝ, (∑ k, s * (norm1 * Real.cos (theta12 k)) * f k) =
      s * norm1 * (2 / 3) * (f 0 + f 1 + f 2 + f 3 - f 8 - f 9 - f 10 - f 11) := by
    intro f
    simp only [Fin.sum_univ_succ, cos12]
    simp [Matrix.vecHead, Matrix.vecTail, Fin.succ]
    ring
  have z := norm1_sq
  have p8 : phi12 8 = phi12 0 := rfl
  have p9 : phi12 9 = phi12 1 := rfl
  have p10 : phi12 10 = phi12 2 := rfl
  have p11 : phi12 11 = phi12 3 := rfl
  have c : ∀ i : Fin 4, Real.cos (theta12 (i.castLE (by norm_num))) = 2 / 3 ∧ Real.cos (theta12 (i.natAdd 8)) = -2 / 3 := by
    intro i
    rw [cos12, cos12]
    fin_cases i <;> exact ⟨rfl, rfl⟩
  have c0 : Real.cos (theta12 0) = 2 / 3 := (c 0).1
  have c1 : Real.cos (theta12 1) = 2 / 3 := (c 1).1
  have c2 : Real.cos (theta12 2) = 2 / 3 := (c 2).1
  have c3 : Real.cos (theta12 3) = 2 / 3 := (c 3).1
  have c8 : Real.cos (theta12 8) = -2 / 3 := (c 0).2
  have c9 : Real.cos (theta12 9) = -2 / 3 := (c 1).2
  have c10 : Real.cos (theta12 10) = -2 / 3 := (c 2).2
  have c11 : Real.cos (theta12 11) = -2 / 3 := (c 3).2
  simp only [List.map_cons, List.map_nil, coef, low_real_zero, low_real_z, low_real_x, low_real_y, hx, s0, s1, s2, s3, p8, p9, p10, p11,
    c0, c1, c2, c3, c8, c9, c10, c11]
  congr 1
  · ring
  congr 1
  · ring
  congr 1
  · push_cast
    linear_combination (8 / 27 * s) * z
  congr 1
  ring

theorem sky_one (t : ℝ) : sky (low theta12 phi12) [0, 0, t, 0] = fun k => t * realSphHarm (low theta12 phi12) 0 1 k := by
  rw [sky_eq (n := 2) (by simp)]
  funext k
  simp [mapOf, turns_two]

/-- **C118, the twelve pixels.**  From the map of the coefficients `[0, 0, 1, 0]` on the coarsest healpix map the slow function
gives back `8/9` and the fast one `6560/6561`: the two differ from each other and from the coefficient the map was made of. -/
theorem C118_false : clmFromMap (low theta12 phi12) (sky (low theta12 phi12) [0, 0, 1, 0]) 1 = [0, 0, 8 / 9, 0] ∧
    clmFromMapFast (low theta12 phi12) (sky (low theta12 phi12) [0, 0, 1, 0]) 1 = .ok [0, 0, 6560 / 6561, 0] := by
  have hstep : ∀ t : ℝ, clmFromMap (low theta12 phi12) (fun k => sky (low theta12 phi12) [0, 0, 1, 0] k - sky (low theta12 phi12) [0, 0, t, 0] k) 1 =
      [0, 0, 8 / 9 * (1 - t), 0] := by
    intro t
    rw [← twelve (1 - t)]
    congr 1
    funext k
    rw [sky_one, sky_one]
    ring
  have h0 : clmFromMap (low theta12 phi12) (sky (low theta12 phi12) [0, 0, 1, 0]) 1 = [0, 0, 8 / 9, 0] := by
    rw [sky_one, twelve, mul_one]
  refine ⟨h0, ?_⟩
  have r : ∀ j, rounds (low theta12 phi12) (sky (low theta12 phi12) [0, 0, 1, 0]) 1 j = [0, 0, 1 - (1 / 9) ^ (j + 1), 0] := by
    intro j
    induction j with
    | zero => rw [rounds, h0]; norm_num
    | succ j ih =>
      rw [rounds, ih, hstep]
      simp only [List.zipWith_cons_cons, List.zipWith_nil_left, add_zero]
      congr 3
      ring
  rw [C118_coefficients (low_harmonics _ _), r, h0]
  norm_num

/-! ## Enough pixels -/

/-- Six pixels at the ends of the axes. -/
noncomputable def theta6 : Fin 6 → ℝ := ![0, Real.pi / 2, Real.pi / 2, Real.pi / 2, Real.pi / 2, Real.pi]

noncomputable def phi6 : Fin 6 → ℝ := ![0, 0, Real.pi / 2, Real.pi, 3 * Real.pi / 2, 0]

/-- Six directions are enough for the harmonics up to `l = 1`. -/
theorem six : Exact (low theta6 phi6) 1 := by
  have z := norm1_sq
  have w := norm0_sq
  have c3 : Real.cos (3 * Real.pi / 2) = 0 := by
    rw [show 3 * Real.pi / 2 = Real.pi + Real.pi / 2 by ring, Real.cos_add]; simp
  have s3 : Real.sin (3 * Real.pi / 2) = -1 := by
    rw [show 3 * Real.pi / 2 = Real.pi + Real.pi / 2 by ring, Real.sin_add]; simp
  intro l l' m m' hl hl' hm hm'
  have cases : ∀ (l : Nat) (m : Int), l ≤ 1 → m.natAbs ≤ l → (l = 0 ∧ m = 0) ∨ (l = 1 ∧ m = -1) ∨ (l = 1 ∧ m = 0) ∨ (l = 1 ∧ m = 1) := by
    intro l m h1 h2; omega
  rcases cases l m hl hm with ⟨rfl, rfl⟩ | ⟨rfl, rfl⟩ | ⟨rfl, rfl⟩ | ⟨rfl, rfl⟩ <;>
  rcases cases l' m' hl' hm' with ⟨rfl, rfl⟩ | ⟨rfl, rfl⟩ | ⟨rfl, rfl⟩ | ⟨rfl, rfl⟩ <;>
  simp only [low_real_zero, low_real_z, low_real_x, low_real_y, Fin.sum_univ_succ] <;>
  simp [theta6, phi6, c3, s3] <;> first | linear_combination w | linear_combination (1 / 3 : ℝ) * z | ring

/-- On six pixels both functions give every coefficient back, and each other's coefficients of any map. -/
example (a b c d : ℝ) : clmFromMap (low theta6 phi6) (sky (low theta6 phi6) [a, b, c, d]) 1 = [a, b, c, d] :=
  (C118_inverse _ 1).2 six _ (by simp)

example (h : Fin 6 → ℝ) : clmFromMapFast (low theta6 phi6) h 1 = .ok (clmFromMap (low theta6 phi6) h 1) :=
  C118_partial (low_harmonics _ _) h 1 six

/-- Five numbers on twelve pixels: the fifth is not used. -/
example : ∃ h, mapFromClm (low theta12 phi12) [1, 2, 3, 4, 5] = .ok h ∧ mapFromClmFast (low theta12 phi12) [1, 2, 3, 4, 5] = .ok h := by
  obtain ⟨h, h1, h2, -⟩ := C118_maps (low_harmonics theta12 phi12) [1, 2, 3, 4, 5]
  exact ⟨h, h1, h2⟩

/-- Twelve pixels are not enough. -/
example : ¬Exact (low theta12 phi12) 1 := by
  intro E
  have h := (C118_inverse _ 1).2 E [0, 0, 1, 0] (by simp)
  rw [C118_false.1] at h
  norm_num at h

end Verif.SkyMap
