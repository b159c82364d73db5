import Mathlib.LinearAlgebra.Matrix.PosDef
import Mathlib.Analysis.Complex.ExponentialBounds
import Verif.Model.Orf
import Verif.Lemmas.HdSeries

/-!
# Overlap reduction functions and bursts with memory: C71, C75
-/

namespace Verif.Orf

open Verif Verif.Sphere Matrix

variable {n : Nat}

/-- The correlation matrix of pulsars at the positions `p`. -/
noncomputable def orfMatrix (f : Pos → Pos → ℝ) (p : Fin n → Pos) : Matrix (Fin n) (Fin n) ℝ := of fun i j => f (p i) (p j)

theorem dot_comm (p q : Pos) : dot p q = dot q p := by
  unfold dot; exact Finset.sum_congr rfl fun c _ => mul_comm _ _

/-- **C71, symmetry.** -/
theorem C71_symmetric (p q : Pos) : hdOrf p q = hdOrf q p ∧ dipoleOrf p q = dipoleOrf q p ∧ monopoleOrf p q = monopoleOrf q p := by
  by_cases h : p = q
  · subst h; exact ⟨rfl, rfl, rfl⟩
  · have h' : ¬ q = p := fun e => h e.symm
    simp only [hdOrf, dipoleOrf, monopoleOrf, if_neg h, if_neg h', dot_comm p q, true_and]

/-- The quadratic form of a matrix. -/
theorem quad (A : Matrix (Fin n) (Fin n) ℝ) (a : Fin n → ℝ) : a ⬝ᵥ (A *ᵥ a) = ∑ i, ∑ j, a i * a j * A i j := by
  simp only [dotProduct, mulVec, Finset.mul_sum]
  exact Finset.sum_congr rfl fun i _ => Finset.sum_congr rfl fun j _ => by ring

open Classical in
/-- Weights at equal positions, squared. -/
theorem same_form (p : Fin n → Pos) (a : Fin n → ℝ) :
    ∑ i, ∑ j, a i * a j * (if p i = p j then 1 else 0) = ∑ v ∈ Finset.univ.image p, (∑ i, if p i = v then a i else 0) ^ 2 := by
  have h : ∀ v, (∑ i, if p i = v then a i else 0) ^ 2 = ∑ i, ∑ j, a i * a j * (if p i = v then if p j = v then 1 else 0 else 0) := by
    intro v
    rw [sq, Finset.sum_mul_sum]
    refine Finset.sum_congr rfl fun i _ => Finset.sum_congr rfl fun j _ => ?_
    by_cases h1 : p i = v <;> by_cases h2 : p j = v <;> simp [h1, h2]
  simp only [h]
  symm
  rw [Finset.sum_comm]
  refine Finset.sum_congr rfl fun i _ => ?_
  rw [Finset.sum_comm]
  refine Finset.sum_congr rfl fun j _ => ?_
  rw [← Finset.mul_sum]
  congr 1
  rw [Finset.sum_eq_single (p i)]
  · simp [eq_comm]
  · intro v _ hv
    rw [if_neg (Ne.symm hv)]
  · intro hc
    exact absurd (Finset.mem_image_of_mem p (Finset.mem_univ i)) hc

theorem same_form_nonneg (p : Fin n → Pos) (a : Fin n → ℝ) :
    0 ≤ ∑ i, ∑ j, a i * a j * (open Classical in if p i = p j then 1 else 0) := by
  rw [same_form]
  exact Finset.sum_nonneg fun v _ => sq_nonneg _

theorem same_form_distinct (p : Fin n → Pos) (hp : Function.Injective p) (a : Fin n → ℝ) :
    ∑ i, ∑ j, a i * a j * (open Classical in if p i = p j then 1 else 0) = ∑ i, a i ^ 2 := by
  refine Finset.sum_congr rfl fun i _ => ?_
  rw [Finset.sum_eq_single i]
  · simp [sq]
  · intro j _ hj
    rw [if_neg fun e => hj (hp e).symm, mul_zero]
  · intro hc; exact absurd (Finset.mem_univ i) hc

theorem sum_sq_pos {a : Fin n → ℝ} (ha : a ≠ 0) : 0 < ∑ i, a i ^ 2 := by
  obtain ⟨i, hi⟩ := Function.ne_iff.1 ha
  exact Finset.sum_pos' (fun i _ => sq_nonneg _) ⟨i, Finset.mem_univ _, by have : a i ≠ 0 := hi; positivity⟩

/-- A unit vector. -/
def IsUnit3 (p : Pos) : Prop := dot p p = 1

theorem hdOrf_eq {p q : Pos} (hp : IsUnit3 p) : hdOrf p q = hd (∑ c, p c * q c) + 1 / 2 * (open Classical in if p = q then 1 else 0) := by
  unfold hdOrf
  by_cases h : p = q
  · subst h
    rw [if_pos rfl, if_pos rfl, show ∑ c, p c * p c = 1 from hp]
    norm_num [hd]
  · rw [if_neg h, if_neg h]
    simp only [hd, dot]
    norm_num

theorem hd_quad (p : Fin n → Pos) (hu : ∀ i, IsUnit3 (p i)) (a : Fin n → ℝ) : a ⬝ᵥ (orfMatrix hdOrf p *ᵥ a) =
    ∑ i, ∑ j, a i * a j * hd (∑ c, p i c * p j c) +
      1 / 2 * ∑ i, ∑ j, a i * a j * (open Classical in if p i = p j then 1 else 0) := by
  rw [quad]
  simp only [orfMatrix, of_apply, hdOrf_eq (hu _), mul_add, Finset.sum_add_distrib, Finset.mul_sum]
  congr 1
  exact Finset.sum_congr rfl fun i _ => Finset.sum_congr rfl fun j _ => by ring

theorem orf_hermitian (f : Pos → Pos → ℝ) (hf : ∀ p q, f p q = f q p) (p : Fin n → Pos) : (orfMatrix f p).IsHermitian := by
  ext i j
  simp only [conjTranspose_apply, orfMatrix, of_apply, star_trivial]
  exact hf _ _

/-- **C71, Hellings-Downs.**  For pulsars at any unit vectors the matrix of Hellings-Downs correlations is positive
semidefinite. -/
theorem C71_hd (p : Fin n → Pos) (hu : ∀ i, IsUnit3 (p i)) : (orfMatrix hdOrf p).PosSemidef := by
  refine PosSemidef.of_dotProduct_mulVec_nonneg (orf_hermitian _ (fun p q => (C71_symmetric p q).1) p) fun a => ?_
  rw [star_trivial, hd_quad p hu]
  have h1 := hd_form_nonneg p a hu
  have h2 := same_form_nonneg p a
  linarith

/-- **C71, Hellings-Downs.**  At distinct unit vectors it is positive definite; its eigenvalues are at least 1/2. -/
theorem C71_hd_distinct (p : Fin n → Pos) (hu : ∀ i, IsUnit3 (p i)) (hp : Function.Injective p) :
    (orfMatrix hdOrf p).PosDef ∧ ∀ a, 1 / 2 * ∑ i, a i ^ 2 ≤ a ⬝ᵥ (orfMatrix hdOrf p *ᵥ a) := by
  have key : ∀ a, 1 / 2 * ∑ i, a i ^ 2 ≤ a ⬝ᵥ (orfMatrix hdOrf p *ᵥ a) := by
    intro a
    rw [hd_quad p hu, same_form_distinct p hp]
    have h1 := hd_form_nonneg p a hu
    linarith
  refine ⟨PosDef.of_dotProduct_mulVec_pos (orf_hermitian _ (fun p q => (C71_symmetric p q).1) p) fun a ha => ?_, key⟩
  rw [star_trivial]
  have := sum_sq_pos ha
  linarith [key a]

/-- **C71, dipole.**  At distinct positions of length at most one, the matrix of dipole correlations is positive
definite. -/
theorem C71_dipole (p : Fin n → Pos) (hu : ∀ i, dot (p i) (p i) ≤ 1) (hp : Function.Injective p) :
    (orfMatrix dipoleOrf p).PosDef := by
  refine PosDef.of_dotProduct_mulVec_pos (orf_hermitian _ (fun p q => (C71_symmetric p q).2.1) p) fun a ha => ?_
  rw [star_trivial, quad]
  have h1 : ∀ i j, orfMatrix dipoleOrf p i j = dot (p i) (p j) + if i = j then 1 + 1e-5 - dot (p i) (p i) else 0 := by
    intro i j
    simp only [orfMatrix, of_apply, dipoleOrf]
    by_cases h : i = j
    · subst h; simp
    · rw [if_neg fun e => h (hp e), if_neg h, add_zero]
  simp only [h1, mul_add, Finset.sum_add_distrib]
  have h2 : ∑ i, ∑ j, a i * a j * dot (p i) (p j) = ∑ d, (∑ i, a i * p i d) ^ 2 := by
    have h : ∀ d, (∑ i, a i * p i d) ^ 2 = ∑ i, ∑ j, a i * a j * (p i d * p j d) := by
      intro d
      rw [sq, Finset.sum_mul_sum]
      exact Finset.sum_congr rfl fun i _ => Finset.sum_congr rfl fun j _ => by ring
    simp only [h, dot, Fin.sum_univ_three, mul_add, Finset.sum_add_distrib]
  have h3 : ∑ i, ∑ j, a i * a j * (if i = j then 1 + 1e-5 - dot (p i) (p i) else 0) =
      ∑ i, a i ^ 2 * (1 + 1e-5 - dot (p i) (p i)) := by
    refine Finset.sum_congr rfl fun i _ => ?_
    simp [sq]
  rw [h2, h3]
  have h4 : (0 : ℝ) ≤ ∑ d, (∑ i, a i * p i d) ^ 2 := Finset.sum_nonneg fun d _ => sq_nonneg _
  have h5 : 1e-5 * ∑ i, a i ^ 2 ≤ ∑ i, a i ^ 2 * (1 + 1e-5 - dot (p i) (p i)) := by
    rw [Finset.mul_sum]
    refine Finset.sum_le_sum fun i _ => ?_
    rw [mul_comm]
    exact mul_le_mul_of_nonneg_left (by linarith [hu i]) (sq_nonneg _)
  have h6 := sum_sq_pos ha
  have : (0 : ℝ) < 1e-5 * ∑ i, a i ^ 2 := by positivity
  linarith

/-- **C71, monopole.**  At distinct positions the matrix of monopole correlations is positive definite. -/
theorem C71_monopole (p : Fin n → Pos) (hp : Function.Injective p) : (orfMatrix monopoleOrf p).PosDef := by
  refine PosDef.of_dotProduct_mulVec_pos (orf_hermitian _ (fun p q => (C71_symmetric p q).2.2) p) fun a ha => ?_
  rw [star_trivial, quad]
  have h1 : ∀ i j, orfMatrix monopoleOrf p i j = 1 + if i = j then 1e-5 else 0 := by
    intro i j
    simp only [orfMatrix, of_apply, monopoleOrf]
    by_cases h : i = j
    · subst h; simp
    · rw [if_neg fun e => h (hp e), if_neg h, add_zero]
  simp only [h1, mul_add, Finset.sum_add_distrib, mul_one]
  have h2 : ∑ i, ∑ j, a i * a j = (∑ i, a i) ^ 2 := by rw [sq, Finset.sum_mul_sum]
  have h3 : ∑ i, ∑ j, a i * a j * (if i = j then (1e-5 : ℝ) else 0) = 1e-5 * ∑ i, a i ^ 2 := by
    rw [Finset.mul_sum]
    refine Finset.sum_congr rfl fun i _ => ?_
    simp [sq]; ring
  rw [h2, h3]
  have h6 := sum_sq_pos ha
  have h7 := sq_nonneg (∑ i, a i)
  positivity

/-- Two pulsars at the same position make every correlation matrix singular: distinct positions are needed. -/
theorem C71_same (f : Pos → Pos → ℝ) (p : Fin n → Pos) {i j : Fin n} (hij : i ≠ j) (h : p i = p j) :
    ¬ (orfMatrix f p).PosDef := by
  intro hp
  have ha : (Pi.single i 1 - Pi.single j 1 : Fin n → ℝ) ≠ 0 := by
    intro e
    have := congrFun e i
    simp [hij] at this
  have hd := hp.dotProduct_mulVec_pos ha
  have hz : orfMatrix f p *ᵥ (Pi.single i 1 - Pi.single j 1 : Fin n → ℝ) =
      fun k => f (p k) (p i) - f (p k) (p j) := by
    funext k
    simp [mulVec_sub, orfMatrix]
  rw [hz] at hd
  simp [h] at hd

/-- Apart from the pulsar term, correlations of pulsars at different unit vectors are below 1/2. -/
theorem C71_hd_half {p q : Pos} (hp : IsUnit3 p) (hq : IsUnit3 q) (h : p ≠ q) : hdOrf p q < 1 / 2 := by
  rw [hdOrf_eq hp, if_neg h, mul_zero, add_zero]
  have h1 := abs_le.1 (dot_le hp hq)
  have h2 : ∑ c, p c * q c ≠ 1 := fun e => h ((dot_eq_one hp hq).1 e)
  have hy0 : 0 < (1 - ∑ c, p c * q c) / 2 := by have := lt_of_le_of_ne h1.2 h2; linarith
  have hy1 : (1 - ∑ c, p c * q c) / 2 ≤ 1 := by linarith [h1.1]
  unfold hd
  have := Real.log_nonpos hy0.le hy1
  nlinarith

/-- The axes and a vector between them, for which all of the above hold. -/
example : ∃ p : Fin 4 → Pos, (∀ i, IsUnit3 (p i)) ∧ Function.Injective p := by
  refine ⟨![![1, 0, 0], ![0, 1, 0], ![0, 0, 1], ![0.6, 0.8, 0]], ?_, ?_⟩
  · intro i; fin_cases i <;> simp [IsUnit3, dot, Fin.sum_univ_three] <;> norm_num
  · intro i j h
    fin_cases i <;> fin_cases j <;> first | rfl | (exfalso; have h0 := congrFun h 0; norm_num at h0; done) | (exfalso; have h1 := congrFun h 1; norm_num at h1; done)

/-! ## Antenna pattern -/

/-- The three vectors of the wave frame are orthonormal: the components of a unit vector along them have squares adding
up to one. -/
theorem frame (p : Pos) (θ φ : ℝ) :
    dot ![Real.sin φ, -Real.cos φ, 0] p ^ 2 +
      dot ![-Real.cos θ * Real.cos φ, -Real.cos θ * Real.sin φ, Real.sin θ] p ^ 2 +
      dot ![-Real.sin θ * Real.cos φ, -Real.sin θ * Real.sin φ, -Real.cos θ] p ^ 2 = dot p p := by
  simp only [dot, Fin.sum_univ_three, cons_val_zero, cons_val_one, cons_val_two, vecHead, vecTail, Function.comp,
    Fin.succ_zero_eq_one, cons_val_fin_one]
  have h1 : Real.sin φ ^ 2 = 1 - Real.cos φ ^ 2 := by linarith [Real.sin_sq_add_cos_sq φ]
  have h2 : Real.sin θ ^ 2 = 1 - Real.cos θ ^ 2 := by linarith [Real.sin_sq_add_cos_sq θ]
  ring_nf
  simp only [h1, h2]
  ring

/-- **Antenna pattern.**  For a unit vector not opposite to the propagation direction, the two patterns have
`F₊² + Fₓ² = ((1 + cos μ) / 2)²`, and `cos μ` is between -1 and 1. -/
theorem C75_pattern (p : Pos) (hp : IsUnit3 p) (θ φ : ℝ) (h : (antenna p θ φ).2.2 ≠ 1) :
    (antenna p θ φ).1 ^ 2 + (antenna p θ φ).2.1 ^ 2 = ((1 + (antenna p θ φ).2.2) / 2) ^ 2 ∧
      |(antenna p θ φ).2.2| ≤ 1 := by
  have hf := frame p θ φ
  rw [show dot p p = 1 from hp] at hf
  simp only [antenna] at h ⊢
  set x := dot ![Real.sin φ, -Real.cos φ, 0] p
  set y := dot ![-Real.cos θ * Real.cos φ, -Real.cos θ * Real.sin φ, Real.sin θ] p
  set z := dot ![-Real.sin θ * Real.cos φ, -Real.sin θ * Real.sin φ, -Real.cos θ] p
  have hz : 1 + z ≠ 0 := fun e => h (by linarith)
  have hxy : x ^ 2 + y ^ 2 = (1 - z) * (1 + z) := by linarith
  constructor
  · rw [div_pow, div_pow, ← add_div, div_eq_iff (pow_ne_zero 2 hz)]
    norm_num
    have : (x ^ 2 + y ^ 2) ^ 2 = ((1 - z) * (1 + z)) ^ 2 := by rw [hxy]
    linear_combination (1 / 4) * this
  · rw [abs_neg, abs_le]
    constructor <;> nlinarith [sq_nonneg x, sq_nonneg y]

/-! ## Bursts with memory -/

/-- The amplitude of the ramp. -/
noncomputable def ramp (pattern : Option (Pos → ℝ → ℝ → ℝ × ℝ)) (pos : Pos) (log10_h cosθ φ ψ : ℝ) : ℝ :=
  let F := match pattern with
    | none => ((antenna pos (Real.arccos cosθ) φ).1, (antenna pos (Real.arccos cosθ) φ).2.1)
    | some f => f pos (Real.arccos cosθ) φ
  (10 : ℝ) ^ log10_h * (Real.cos (2 * ψ) * F.1 + Real.sin (2 * ψ) * F.2)

/-- **C75.**  The delay is zero up to the epoch of the burst and grows linearly after it, with one slope for all TOAs of
the pulsar. -/
theorem C75 (pattern : Option (Pos → ℝ → ℝ → ℝ × ℝ)) (pos : Pos) (log10_h cosθ φ ψ t0 : ℝ) :
    (∀ t, t ≤ t0 * 86400 → bwmDelay pattern t pos log10_h cosθ φ ψ t0 = 0) ∧
    ∀ t, t0 * 86400 ≤ t → bwmDelay pattern t pos log10_h cosθ φ ψ t0 = ramp pattern pos log10_h cosθ φ ψ * (t - t0 * 86400) := by
  constructor
  · intro t ht
    unfold bwmDelay heaviside
    rcases lt_or_eq_of_le ht with h | h
    · simp [sub_neg.2 h]
    · simp [h]
  · intro t ht
    unfold bwmDelay ramp heaviside
    rcases lt_or_eq_of_le ht with h | h
    · simp only [if_neg (not_lt.2 (sub_nonneg.2 ht)), if_neg (sub_pos.2 h).ne']
      cases pattern <;> simp only <;> ring
    · simp [h]

/-- With the standard pattern the slope is at most the strain. -/
theorem C75_bound (pos : Pos) (hp : IsUnit3 pos) (log10_h cosθ φ ψ : ℝ) (h : (antenna pos (Real.arccos cosθ) φ).2.2 ≠ 1) :
    |ramp none pos log10_h cosθ φ ψ| ≤ (10 : ℝ) ^ log10_h := by
  obtain ⟨h1, h2⟩ := C75_pattern pos hp _ φ h
  unfold ramp
  have h10 : (0 : ℝ) < 10 ^ log10_h := Real.rpow_pos_of_pos (by norm_num) _
  rw [abs_mul, abs_of_pos h10]
  refine mul_le_of_le_one_right h10.le ?_
  simp only
  set F := (antenna pos (Real.arccos cosθ) φ).1
  set E := (antenna pos (Real.arccos cosθ) φ).2.1
  set μ := (antenna pos (Real.arccos cosθ) φ).2.2
  have h3 : F ^ 2 + E ^ 2 ≤ 1 := by
    rw [h1]
    have := abs_le.1 h2
    nlinarith
  have h4 := Real.sin_sq_add_cos_sq (2 * ψ)
  rw [← sq_le_one_iff_abs_le_one]
  nlinarith [sq_nonneg (Real.cos (2 * ψ) * E - Real.sin (2 * ψ) * F), sq_nonneg F, sq_nonneg E]

/-- A polarisation angle larger by a quarter turn changes the sign, one larger by half a turn nothing. -/
theorem C75_polarisation (pattern : Option (Pos → ℝ → ℝ → ℝ × ℝ)) (t : ℝ) (pos : Pos) (log10_h cosθ φ ψ t0 : ℝ) :
    bwmDelay pattern t pos log10_h cosθ φ (ψ + Real.pi / 2) t0 = -bwmDelay pattern t pos log10_h cosθ φ ψ t0 ∧
    bwmDelay pattern t pos log10_h cosθ φ (ψ + Real.pi) t0 = bwmDelay pattern t pos log10_h cosθ φ ψ t0 := by
  have e1 : 2 * (ψ + Real.pi / 2) = 2 * ψ + Real.pi := by ring
  have e2 : 2 * (ψ + Real.pi) = 2 * ψ + 2 * Real.pi := by ring
  simp only [bwmDelay, e1, e2, Real.cos_add_pi, Real.sin_add_pi, Real.cos_add_two_pi, Real.sin_add_two_pi]
  exact ⟨by ring, trivial⟩

/-- A pulsar on the x axis and a wave from the z axis: the slope is not zero. -/
example : IsUnit3 ![1, 0, 0] ∧ (antenna ![1, 0, 0] (Real.arccos 1) 0).2.2 ≠ 1 ∧ ramp none ![1, 0, 0] 0 1 0 0 = -(1 / 2) := by
  refine ⟨by simp [IsUnit3, dot, Fin.sum_univ_three], ?_, ?_⟩
  · simp [antenna, dot, Fin.sum_univ_three]
  · simp [ramp, antenna, dot, Fin.sum_univ_three]; norm_num

end Verif.Orf
