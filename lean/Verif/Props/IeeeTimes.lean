import Verif.Props.IeeeBases
import Verif.Props.IeeeParams
import Verif.Props.IeeeTm

/-!
# The likelihood, from the times of arrival on

C154: bases with errors, as those of Fourier processes and timing models, and the computed likelihood.
-/

namespace Verif.Ieee

open Verif Matrix

variable (A : Arith) (L : Lib) (P : Powers) (S : Trig) {N K : Nat} {μ δ κ : ℝ} {o : GpPsr}

/-! ## Specification -/

/-- The pulsar with another basis. -/
def GpPsr.onBasis (o : GpPsr) (T' : Matrix (Fin o.M) (Fin o.n) ℝ) : GpPsr := ⟨o.n, o.M, T', o.ν, o.r, o.φ⟩

/-- The errors of each column of `T'`, weighted like the residuals, are small beside the inverse of the standard deviation of its coefficient. -/
def NearBasis (κ : ℝ) (o : GpPsr) (T' : Matrix (Fin o.M) (Fin o.n) ℝ) : Prop :=
  (∀ k i, |T' k i - o.T k i| ≤ 1) ∧ ∀ i, ∑ k, (T' k i - o.T k i) ^ 2 / o.ν k ≤ κ ^ 2 * o.prec i i

/-- Like `InnerPsr`, with a little less room. -/
structure CorePsr (N K : Nat) (μ : ℝ) (o : GpPsr) : Prop where
  le : o.n ≤ N
  toas : o.M ≤ K
  νlow : ∀ k, (2 : ℝ) ^ (-199 : ℤ) ≤ o.ν k
  νhigh : ∀ k, o.ν k ≤ (2 : ℝ) ^ (199 : ℤ)
  φlow : ∀ i, (2 : ℝ) ^ (-298 : ℤ) ≤ o.φ i
  φhigh : ∀ i, o.φ i ≤ (2 : ℝ) ^ (799 : ℤ)
  T : ∀ k i, |o.T k i| ≤ (2 : ℝ) ^ (199 : ℤ)
  r : ∀ k, |o.r k| ≤ (2 : ℝ) ^ (200 : ℤ)
  low : ∀ i, (2 : ℝ) ^ (-297 : ℤ) ≤ o.prec i i
  high : ∀ i, o.prec i i ≤ (2 : ℝ) ^ (297 : ℤ)
  ρ : o.ρ ≤ (2 : ℝ) ^ (189 : ℤ)
  margin : (o.prec - μ • diagonal o.prec.diag).PosSemidef

/-! ## Changed bases -/

namespace CorePsr

theorem νpos (I : CorePsr N K μ o) (k : Fin o.M) : 0 < o.ν k := lt_of_lt_of_le (by positivity) (I.νlow k)

theorem φpos (I : CorePsr N K μ o) (i : Fin o.n) : 0 < o.φ i := lt_of_lt_of_le (by positivity) (I.φlow i)

theorem precpos (I : CorePsr N K μ o) (i : Fin o.n) : 0 < o.prec i i := lt_of_lt_of_le (by positivity) (I.low i)

end CorePsr

theorem weight_le (hφ : ∀ i, 0 < o.φ i) (i : Fin o.n) : ∑ k, o.T k i * o.T k i / o.ν k ≤ o.prec i i := by
  rw [prec_apply, if_pos rfl]
  linarith [inv_pos.2 (hφ i)]

theorem err_root (hκ : 0 ≤ κ) {T' : Matrix (Fin o.M) (Fin o.n) ℝ} (h : NearBasis κ o T') (i : Fin o.n) :
    Real.sqrt (∑ k, (T' k i - o.T k i) * (T' k i - o.T k i) / o.ν k) ≤ κ * Real.sqrt (o.prec i i) := by
  have e : ∑ k, (T' k i - o.T k i) * (T' k i - o.T k i) / o.ν k = ∑ k, (T' k i - o.T k i) ^ 2 / o.ν k := Finset.sum_congr rfl fun k _ => by rw [sq]
  rw [e]
  refine (Real.sqrt_le_sqrt (h.2 i)).trans_eq ?_
  rw [Real.sqrt_mul (sq_nonneg _), Real.sqrt_sq hκ]

theorem prec_basis (hν : ∀ k, 0 < o.ν k) (hφ : ∀ i, 0 < o.φ i) (hκ : 0 ≤ κ) (hκ1 : κ ≤ 1) {T' : Matrix (Fin o.M) (Fin o.n) ℝ} (h : NearBasis κ o T') (i j : Fin o.n) :
    |(o.onBasis T').prec i j - o.prec i j| ≤ 3 * κ * (Real.sqrt (o.prec i i) * Real.sqrt (o.prec j j)) := by
  have e1 : (o.onBasis T').prec i j = (∑ k, T' k i * T' k j / o.ν k) + if i = j then (o.φ i)⁻¹ else 0 := prec_apply (o := o.onBasis T') i j
  rw [e1, prec_apply, add_sub_add_right_eq_sub]
  have c1 := Obs.cauchy hν (fun k => o.T k i) fun k => T' k j - o.T k j
  have c2 := Obs.cauchy hν (fun k => T' k i - o.T k i) fun k => o.T k j
  have c3 := Obs.cauchy hν (fun k => T' k i - o.T k i) fun k => T' k j - o.T k j
  have w1 := Real.sqrt_le_sqrt (weight_le hφ i)
  have w2 := Real.sqrt_le_sqrt (weight_le hφ j)
  have r1 := err_root hκ h i
  have r2 := err_root hκ h j
  have hs : |∑ k, T' k i * T' k j / o.ν k - ∑ k, o.T k i * o.T k j / o.ν k| ≤
      ∑ k, |o.T k i * (T' k j - o.T k j) / o.ν k| + ∑ k, |(T' k i - o.T k i) * o.T k j / o.ν k| + ∑ k, |(T' k i - o.T k i) * (T' k j - o.T k j) / o.ν k| := by
    rw [← Finset.sum_sub_distrib, ← Finset.sum_add_distrib, ← Finset.sum_add_distrib]
    refine (Finset.abs_sum_le_sum_abs _ _).trans (Finset.sum_le_sum fun k _ => ?_)
    obtain ⟨x, hx⟩ : ∃ x : ℝ, x = o.T k i := ⟨_, rfl⟩
    obtain ⟨y, hy⟩ : ∃ y : ℝ, y = o.T k j := ⟨_, rfl⟩
    have g : |T' k i * T' k j / o.ν k - x * y / o.ν k| ≤ |x * (T' k j - y) / o.ν k| + |(T' k i - x) * y / o.ν k| + |(T' k i - x) * (T' k j - y) / o.ν k| := by
      have e : T' k i * T' k j / o.ν k - x * y / o.ν k = x * (T' k j - y) / o.ν k + (T' k i - x) * y / o.ν k + (T' k i - x) * (T' k j - y) / o.ν k := by ring
      rw [e]
      exact abs_add_three _ _ _
    rw [hx, hy] at g
    exact g
  have s0 := Real.sqrt_nonneg (o.prec i i)
  have s1 := Real.sqrt_nonneg (o.prec j j)
  have m1 := mul_le_mul w1 r2 (Real.sqrt_nonneg _) s0
  have m2 := mul_le_mul r1 w2 (Real.sqrt_nonneg _) (mul_nonneg hκ s0)
  have m3 := mul_le_mul r1 r2 (Real.sqrt_nonneg _) (mul_nonneg hκ s0)
  have m4 : κ * Real.sqrt (o.prec i i) * (κ * Real.sqrt (o.prec j j)) ≤ κ * (Real.sqrt (o.prec i i) * Real.sqrt (o.prec j j)) := by
    have := mul_le_mul_of_nonneg_right hκ1 (mul_nonneg hκ (mul_nonneg s0 s1))
    linarith
  linarith

theorem beta_apply (l : ℝ) (i : Fin o.n) : (o.obs l).β i = ∑ k, o.T k i * o.r k / o.ν k := by
  show (o.Tᵀ *ᵥ (diagonal (fun k => (o.ν k)⁻¹) *ᵥ o.r)) i = _
  rw [mulVec, dotProduct]
  refine Finset.sum_congr rfl fun k _ => ?_
  rw [mulVec_diagonal, transpose_apply]
  ring

theorem beta_basis (hν : ∀ k, 0 < o.ν k) (hκ : 0 ≤ κ) {T' : Matrix (Fin o.M) (Fin o.n) ℝ} (h : NearBasis κ o T') (l : ℝ) (i : Fin o.n) :
    |((o.onBasis T').obs l).β i - (o.obs l).β i| ≤ κ * Real.sqrt (o.prec i i) * Real.sqrt o.ρ := by
  have e1 : ((o.onBasis T').obs l).β i = ∑ k, T' k i * o.r k / o.ν k := beta_apply (o := o.onBasis T') l i
  rw [e1, beta_apply, ← Finset.sum_sub_distrib]
  have c := Obs.cauchy hν (fun k => T' k i - o.T k i) o.r
  have e2 : ∑ k, o.r k * o.r k / o.ν k = o.ρ := Finset.sum_congr rfl fun k _ => by rw [sq]
  rw [e2] at c
  refine (Finset.abs_sum_le_sum_abs _ _).trans (le_trans (le_of_eq ?_) (c.trans (mul_le_mul_of_nonneg_right (err_root hκ h i) (Real.sqrt_nonneg _))))
  refine Finset.sum_congr rfl fun k _ => ?_
  rw [← sub_div, ← sub_mul]

/-- The likelihood with another basis, and the room it has. -/
theorem like_basis (I : CorePsr N K μ o) (hμ : 0 < μ) (hμ1 : μ ≤ 1) (hκ : 0 < κ) (hκN : 300 * (κ * N) ≤ μ) (hN : 1 ≤ N) {T' : Matrix (Fin o.M) (Fin o.n) ℝ} (h : NearBasis κ o T') :
    |(o.onBasis T').like - o.like| ≤ 9 * κ * N / μ * o.size ∧ InnerPsr N K (μ / 2) (o.onBasis T') := by
  have N1 : (1 : ℝ) ≤ N := by exact_mod_cast hN
  have nN : (o.n : ℝ) ≤ N := by exact_mod_cast I.le
  have hκ1 : 300 * κ ≤ 1 := by
    have := mul_le_mul_of_nonneg_left N1 hκ.le
    linarith
  have hent := prec_basis I.νpos I.φpos hκ.le (by linarith) h
  obtain ⟨X, hX⟩ : ∃ X : Matrix (Fin o.n) (Fin o.n) ℝ, X = (o.onBasis T').prec := ⟨_, rfl⟩
  have hent' : ∀ i j, |X i j - o.prec i j| ≤ 3 * κ * (Real.sqrt (o.prec i i) * Real.sqrt (o.prec j j)) := fun i j => by
    rw [hX]
    exact hent i j
  have sX : ∀ i j, X i j = X j i := by
    intro i j
    rw [hX]
    refine (prec_apply (o := o.onBasis T') i j).trans (Eq.trans ?_ (prec_apply (o := o.onBasis T') j i).symm)
    congr 1
    · exact Finset.sum_congr rfl fun k _ => by ring
    · show (if i = j then (o.φ i)⁻¹ else 0) = if j = i then (o.φ j)⁻¹ else 0
      by_cases h : i = j
      · subst h
        rfl
      · rw [if_neg h, if_neg (Ne.symm h)]
  have hκn : 100 * (3 * κ * o.n) ≤ μ := by
    have := mul_le_mul_of_nonneg_left nN hκ.le
    linarith
  have mX := margin_near I.margin I.precpos hμ sX (by linarith : 0 ≤ 3 * κ) hκn (by linarith) hent'
  have eii : ∀ i, |X i i - o.prec i i| ≤ 1 / 2 * o.prec i i := by
    intro i
    have := hent' i i
    rw [Real.mul_self_sqrt (I.precpos i).le] at this
    exact this.trans (mul_le_mul_of_nonneg_right (by linarith) (I.precpos i).le)
  have h3 : 0 ≤ o.ρ := Finset.sum_nonneg fun k _ => div_nonneg (sq_nonneg _) (I.νpos k).le
  constructor
  · have w1 := GpPsr.woodbury I.νpos I.φpos 0
    have w2 : (o.onBasis T').like = -(1 / 2) * (o.ρ + ∑ k, Real.log (o.ν k)) + ((o.onBasis T').obs 0).term + 1 / 2 * (0 - ∑ i, Real.log (o.φ i)) :=
      GpPsr.woodbury (o := o.onBasis T') I.νpos I.φpos 0
    have h4 : 376 * (o.n : ℝ) ≤ ∑ i, (376 + |Real.log (o.φ i)|) := by
      have : ∑ _i : Fin o.n, (376 : ℝ) ≤ ∑ i, (376 + |Real.log (o.φ i)|) := Finset.sum_le_sum fun i _ => by linarith [abs_nonneg (Real.log (o.φ i))]
      rwa [Finset.sum_const, Finset.card_univ, Fintype.card_fin, nsmul_eq_mul, mul_comm] at this
    have h5 : 0 ≤ ∑ k, (1 + |Real.log (o.ν k)|) := Finset.sum_nonneg fun i _ => by positivity
    have hsz : o.ρ + 2 + 376 * o.n ≤ o.size := by
      unfold GpPsr.size
      linarith
    have n0 : (0 : ℝ) ≤ o.n := Nat.cast_nonneg _
    have hc : 0 ≤ 9 * κ * N / μ := by positivity
    rcases Nat.eq_zero_or_pos o.n with hn | hn
    · have e : (o.onBasis T').like = o.like := by
        have : T' = o.T := by
          ext k i
          exact absurd i.2 (by omega)
        rw [this]
        rfl
      rw [e, sub_self, abs_zero]
      exact mul_nonneg hc (by linarith)
    · obtain ⟨b, hb⟩ : ∃ b : Fin o.n → ℝ, b = ((o.onBasis T').obs 0).β := ⟨_, rfl⟩
      obtain ⟨β, hβ⟩ : ∃ β : Fin o.n → ℝ, β = (o.obs 0).β := ⟨_, rfl⟩
      have zX : X.PosDef := margin_def mX.2 (fun i => by
        have := (abs_le.1 (eii i)).1
        have := I.precpos i
        linarith) (by linarith)
      have zZ : o.prec.PosDef := margin_def I.margin I.precpos hμ
      have hq := Obs.quad_le (o := o.obs 0) I.νpos (fun i => (inv_pos.2 (I.φpos i)).le) zZ
      have q := quad_shift (R := Real.sqrt o.ρ) (P := o.ρ) (b := b) (β := β) hn zX zZ hμ hμ1 (by linarith : 0 < 3 * κ) hκn I.precpos (margin_form I.margin I.precpos) mX.1 (fun i => by
        rw [hb, hβ]
        refine (beta_basis I.νpos hκ.le h 0 i).trans ?_
        refine mul_le_mul_of_nonneg_right (mul_le_mul_of_nonneg_right (by linarith) (Real.sqrt_nonneg _)) (Real.sqrt_nonneg _)) (by rw [hβ]; exact hq) (by rw [Real.sq_sqrt h3]; linarith)
        (by rw [Real.sq_sqrt h3])
      have t1 : ((o.onBasis T').obs 0).term = 1 / 2 * (b ⬝ᵥ (X⁻¹ *ᵥ b) - Real.log X.det - 0) := by
        rw [hb, hX]
        rfl
      have t2 : (o.obs 0).term = 1 / 2 * (β ⬝ᵥ (o.prec⁻¹ *ᵥ β) - Real.log o.prec.det - 0) := by
        rw [hβ]
        rfl
      have e : (o.onBasis T').like - o.like = 1 / 2 * (b ⬝ᵥ (X⁻¹ *ᵥ b) - β ⬝ᵥ (o.prec⁻¹ *ᵥ β)) - 1 / 2 * (Real.log X.det - Real.log o.prec.det) := by
        rw [w1, w2, t1, t2]
        ring
      obtain ⟨q1, -, q3⟩ := q
      have ht : 3 * κ * o.n / μ ≤ 3 * κ * N / μ := div_le_div_of_nonneg_right (mul_le_mul_of_nonneg_left nN (by linarith)) hμ.le
      have ht0 : 0 ≤ 3 * κ * o.n / μ := by positivity
      have e9 : 9 * κ * N / μ = 3 * (3 * κ * N / μ) := by ring
      rw [e, e9]
      obtain ⟨t, htt⟩ : ∃ t, t = 3 * κ * o.n / μ := ⟨_, rfl⟩
      obtain ⟨u, huu⟩ : ∃ u, u = 3 * κ * N / μ := ⟨_, rfl⟩
      rw [← htt] at ht ht0 q1 q3
      rw [← huu] at ht ⊢
      have f1 : t * (3 * (o.ρ + 1) + o.n) ≤ u * (3 * o.size) := mul_le_mul ht (by linarith) (by linarith) (by linarith)
      rw [abs_le] at q1 q3 ⊢
      constructor <;> linarith
  · refine ⟨I.le, I.toas, I.νlow, I.νhigh, I.φlow, I.φhigh, fun k i => ?_, I.r, fun i => ?_, fun i => ?_, I.ρ, hX ▸ mX.2⟩
    · have h1 := I.T k i
      have h2 := h.1 k i
      have h6 : |T' k i| ≤ |T' k i - o.T k i| + |o.T k i| := by simpa using abs_add_le (T' k i - o.T k i) (o.T k i)
      have h7 : (1 : ℝ) ≤ (2 : ℝ) ^ (199 : ℤ) := one_le_zpow₀ (by norm_num) (by norm_num)
      show |T' k i| ≤ _
      rw [show (200 : ℤ) = 199 + 1 by norm_num, two_step]
      generalize (2 : ℝ) ^ (199 : ℤ) = Q at *
      linarith
    · rw [← hX]
      have h1 := I.low i
      have h2 := (abs_le.1 (eii i)).1
      rw [show (-297 : ℤ) = -298 + 1 by norm_num, two_step] at h1
      generalize (2 : ℝ) ^ (-298 : ℤ) = Q at *
      linarith
    · rw [← hX]
      have h1 := I.high i
      have h2 := (abs_le.1 (eii i)).2
      rw [show (298 : ℤ) = 297 + 1 by norm_num, two_step]
      have : 0 < (2 : ℝ) ^ (297 : ℤ) := by positivity
      generalize (2 : ℝ) ^ (297 : ℤ) = Q at *
      linarith

/-- The numbers of the pulsar `o`, with errors of the basis and of the variances. -/
def FullNear (δ κ : ℝ) (p : PsrF) (o : GpPsr) : Prop := ∃ T', NearBasis κ o T' ∧ NearPsr δ p (o.onBasis T')

theorem basis_all (hμ : 0 < μ) (hμ1 : μ ≤ 1) (hκ : 0 < κ) (hκN : 300 * (κ * N) ≤ μ) (hN : 1 ≤ N) {ps : List PsrF} {os : List GpPsr}
    (h : List.Forall₂ (fun p o => FullNear δ κ p o ∧ CorePsr N K μ o) ps os) :
    ∃ os' : List GpPsr, List.Forall₂ (fun p o => NearPsr δ p o ∧ InnerPsr N K (μ / 2) o) ps os' ∧ |(os'.map GpPsr.like).sum - (os.map GpPsr.like).sum| ≤ 9 * κ * N / μ * (os.map GpPsr.size).sum ∧
      (os'.map GpPsr.size).sum = (os.map GpPsr.size).sum ∧ os'.length = os.length := by
  induction h with
  | nil => exact ⟨[], .nil, by simp, rfl, rfl⟩
  | @cons p o ps os h1 h2 ih =>
    obtain ⟨os', i1, i2, i3, i4⟩ := ih
    obtain ⟨⟨T', g1, g2⟩, I⟩ := h1
    obtain ⟨b1, b2⟩ := like_basis I hμ hμ1 hκ hκN hN g1
    refine ⟨o.onBasis T' :: os', .cons ⟨g2, b2⟩ i1, ?_, ?_, by simp [i4]⟩
    · rw [List.map_cons, List.map_cons, List.map_cons, List.sum_cons, List.sum_cons, List.sum_cons, add_sub_add_comm, mul_add]
      exact (abs_add_le _ _).trans (add_le_add b1 i2)
    · rw [List.map_cons, List.map_cons, List.sum_cons, List.sum_cons, i3]
      rfl

/-- C154: bases and variances with errors, and the computed likelihood. -/
theorem C154_bases (hL : GoodLog L) (hN0 : 1 ≤ N) (hN : N ≤ 2 ^ 30) (hK : K ≤ 2 ^ 22) (hμ1 : μ ≤ 1) (hK2 : 800 * ((K + 3) * (2 : ℝ) ^ (-51 : ℤ) * N) ≤ μ)
    (hμ : 2 ^ 21 * N ^ 2 * (2 : ℝ) ^ (-51 : ℤ) ≤ μ) (hδ0 : 0 ≤ δ) (hδ : δ ≤ 1 / 1048576) (hδN : 400 * (δ * N) ≤ μ) (hκ : 0 < κ) (hκN : 300 * (κ * N) ≤ μ) {ps : List PsrF} {os : List GpPsr}
    (hs : List.Forall₂ (fun p o => FullNear δ κ p o ∧ CorePsr N K μ o) ps os) (h0 : os ≠ []) (hP : os.length ≤ 2 ^ 15) {r : Except PyErr Fl} (h : IsLikelihood A L ps r) :
    ∃ v, r = .ok (.fin v) ∧ |v - (os.map GpPsr.like).sum| ≤
      (((42200 * N ^ 2 + 54 * (K + 3) * N) / μ + 4 * os.length) * (2 : ℝ) ^ (-51 : ℤ) + δ + 9 * κ * N / μ) * (os.map GpPsr.size).sum + (2 : ℝ) ^ (-999 : ℤ) := by
  have N1 : (1 : ℝ) ≤ N := by exact_mod_cast hN0
  have K0 : (0 : ℝ) ≤ K := Nat.cast_nonneg K
  have μ0 : 0 < μ := lt_of_lt_of_le (by positivity) hK2
  obtain ⟨os', u1, u2, u3, u4⟩ := basis_all μ0 hμ1 hκ hκN hN0 hs
  have hk : 400 * ((K + 3) * (2 : ℝ) ^ (-51 : ℤ) * N) ≤ μ / 2 := by
    clear hμ
    generalize (2 : ℝ) ^ (-51 : ℤ) = ε at *
    linarith
  have hm : 2 ^ 20 * (N : ℝ) ^ 2 * (2 : ℝ) ^ (-51 : ℤ) ≤ μ / 2 := by
    clear hK2 hk
    generalize (2 : ℝ) ^ (-51 : ℤ) = ε at *
    linarith
  obtain ⟨v, e, hv⟩ := C153_variances A L hL hN0 hN hK (μ := μ / 2) (by linarith) hk hm hδ0 hδ (by linarith) u1 (by
    rintro rfl
    exact h0 (List.eq_nil_of_length_eq_zero u4.symm)) (by rw [u4]; exact hP) h
  refine ⟨v, e, ?_⟩
  rw [u3, u4] at hv
  have e1 : (21100 * (N : ℝ) ^ 2 + 27 * (K + 3) * N) / (μ / 2) = (42200 * N ^ 2 + 54 * (K + 3) * N) / μ := by
    rw [div_div_eq_mul_div]
    congr 1
    ring
  rw [e1] at hv
  have h5 : |v - (os.map GpPsr.like).sum| ≤ |v - (os'.map GpPsr.like).sum| + |(os'.map GpPsr.like).sum - (os.map GpPsr.like).sum| := by
    have := abs_add_le (v - (os'.map GpPsr.like).sum) ((os'.map GpPsr.like).sum - (os.map GpPsr.like).sum)
    rwa [sub_add_sub_cancel] at this
  rw [add_mul _ (9 * κ * N / μ)]
  clear hk hm hK2 hμ e1
  generalize (2 : ℝ) ^ (-51 : ℤ) = ε at *
  generalize (2 : ℝ) ^ (-999 : ℤ) = V at *
  linarith

/-! ## From the times of arrival on -/

/-- A pulsar with TOAs `t`, columns `D` of the design matrix, residuals, errors of the TOAs and noise parameters. -/
structure TimesPsr where
  n : Nat
  p : Nat
  M : Nat
  t : Fin M → ℝ
  D : Fin p → Fin M → ℝ
  r : Fin M → ℝ
  s : Fin M → ℝ
  efac : Fin M → ℝ
  equad : Fin M → ℝ
  span : ℝ
  a : ℝ
  g : ℝ

namespace TimesPsr

variable (w : TimesPsr)

/-- Sines, cosines and columns of length one. -/
noncomputable def basis : Matrix (Fin w.M) (Fin (2 * w.n + w.p)) ℝ := Matrix.of fun k i =>
  if h : (i : Nat) < 2 * w.n then
    if (i : Nat) % 2 = 0 then Real.sin (2 * Real.pi * (((i : Nat) / 2 : ℕ) + 1) / w.span * w.t k) else Real.cos (2 * Real.pi * (((i : Nat) / 2 : ℕ) + 1) / w.span * w.t k)
  else w.D ⟨i - 2 * w.n, by omega⟩ k / Real.sqrt (∑ l, w.D ⟨i - 2 * w.n, by omega⟩ l ^ 2)

/-- The pulsar with this basis and its noise parameters. -/
noncomputable def noise (T : Matrix (Fin w.M) (Fin (2 * w.n + w.p)) ℝ) : NoisePsr := ⟨w.n, w.p, w.M, T, w.r, w.s, w.efac, w.equad, w.span, w.a, w.g⟩

/-- The pulsar in exact arithmetic. -/
noncomputable def exact : GpPsr := (w.noise w.basis).exact

/-- `p` holds computed numbers of the pulsar. -/
def Code (p : PsrF) : Prop :=
  IsPulsarF A P S w.n (List.ofFn fun k => .fin (w.t k)) (List.ofFn fun j => (List.ofFn (w.D j)).map .fin) (List.ofFn fun k => (.fin (w.s k), .fin (w.efac k), .fin (w.equad k)))
    (List.ofFn fun k => .fin (w.r k)) (.fin w.span) (.fin w.a) (.fin w.g) p

/-- Parameters as in the usual priors and more, TOAs after the origin of time and columns of the design matrix of usual size. -/
structure Ranges : Prop where
  s : ∀ k, 0 < w.s k ∧ |Real.log (w.s k)| ≤ 100
  efac : ∀ k, 0 < w.efac k ∧ |Real.log (w.efac k)| ≤ 100
  equad : ∀ k, Rep (w.equad k) ∧ |w.equad k| ≤ 30
  span : 1 ≤ w.span ∧ w.span ≤ 2 ^ 50
  law : Usual w.a w.g
  t : ∀ k, 1 ≤ w.t k ∧ w.t k ≤ 2 ^ 50
  D : ∀ j, (2 : ℝ) ^ (-900 : ℤ) ≤ ∑ k, w.D j k ^ 2 ∧ ∑ k, w.D j k ^ 2 ≤ (2 : ℝ) ^ (980 : ℤ)

/-- `H` bounds the rounding errors of the phases, and `l` says that no column of the Fourier basis is small at all TOAs. -/
structure Phases (H l : ℝ) : Prop where
  one : 1 ≤ l
  pos : 1 ≤ H
  phase : ∀ k, 14 * (2 * Real.pi * w.n / w.span * w.t k) + 1 ≤ H
  weight : ∀ i : Fin (2 * w.n + w.p), (i : Nat) < 2 * w.n → ∑ k, 1 / w.exact.ν k ≤ l ^ 2 * w.exact.prec i i

end TimesPsr

theorem forall_ofFn {R : ℝ → ℝ → Prop} {m : Nat} {x : Fin m → ℝ} {ys : List ℝ} (h : List.Forall₂ R (List.ofFn x) ys) : ∃ y : Fin m → ℝ, ys = List.ofFn y ∧ ∀ k, R (x k) (y k) := by
  have hl := h.length_eq
  rw [List.length_ofFn] at hl
  subst hl
  refine ⟨fun k => ys[k], by simp, fun k => ?_⟩
  have := (List.forall₂_iff_get.1 h).2 k (by simp) k.2
  simpa using this

/-- The columns of the timing model. -/
theorem tm_cols {w : TimesPsr} (R : w.Ranges) (hM : w.M ≤ 2 ^ 40) {outs : List (List Fl)} (h : List.Forall₂ (IsNormedCol A none) (List.ofFn fun j => (List.ofFn (w.D j)).map .fin) outs) :
    outs.length = w.p ∧ ∀ j : Fin w.p, ∃ y : Fin w.M → ℝ, outs.getD j [] = List.ofFn (fun k => .fin (y k)) ∧
      ∀ k, |y k - w.D j k / Real.sqrt (∑ l, w.D j l ^ 2)| ≤ (2 * w.M + 7) * eps * |w.D j k / Real.sqrt (∑ l, w.D j l ^ 2)| + tiny := by
  have hl := h.length_eq
  rw [List.length_ofFn] at hl
  refine ⟨hl.symm, fun j => ?_⟩
  have h1 := (List.forall₂_iff_get.1 h).2 j (by simp) (by omega)
  simp only [List.get_eq_getElem, List.getElem_ofFn] at h1
  have e : ((List.ofFn (w.D j)).map fun x => x ^ 2).sum = ∑ k, w.D j k ^ 2 := by
    rw [List.map_ofFn, List.sum_ofFn]
    rfl
  obtain ⟨ys, h2, h3⟩ := C147_accurate_partial A (xs := List.ofFn (w.D j)) (by simpa using hM) (by rw [e]; exact (R.D j).1) (by rw [e]; exact (R.D j).2) h1
  obtain ⟨y, rfl, h4⟩ := forall_ofFn h3
  refine ⟨y, ?_, fun k => ?_⟩
  · rw [List.getD_eq_getElem?_getD, List.getElem?_eq_getElem (by omega), Option.getD_some, h2, List.map_ofFn]
    rfl
  · have := h4 k
    rw [len, e, List.length_ofFn] at this
    exact this

/-- The columns of the Fourier basis. -/
theorem fourier_cols {w : TimesPsr} (R : w.Ranges) (hn : w.n ≤ 2 ^ 40) {H l : ℝ} (F : w.Phases H l) (i : Fin (2 * w.n + w.p)) (hi : (i : Nat) < 2 * w.n) :
    ∃ y : Fin w.M → ℝ, fourierCols A P S (List.ofFn fun k => .fin (w.t k)) w.n (.fin w.span) i = List.ofFn (fun k => .fin (y k)) ∧ ∀ k, |y k - w.basis k i| ≤ H * eps := by
  have h : ∀ k : Fin w.M, ∃ row y, (designF A P S (List.ofFn fun k => .fin (w.t k)) w.n (.fin w.span) none none (List.replicate w.n (.fin 0)))[(k : Nat)]? = some row ∧ row[(i : Nat)]? = some (.fin y) ∧
      |y - w.basis k i| ≤ H * eps := by
    intro k
    obtain ⟨row, s, c, h1, h2, h3, h4, h5⟩ := C142_accurate A P S hn R.span.1 R.span.2 (List.ofFn fun k => .fin (w.t k)) (List.replicate w.n (.fin 0)) (i := k) (j := (i : Nat) / 2) (t := w.t k) (p := 0) (by omega)
      (by simp) (R.t k).1 (R.t k).2 (by rw [List.getElem?_replicate, if_pos (by omega)]) le_rfl (by norm_num)
    have hp := F.phase k
    have hb : (14 * (2 * Real.pi * ((((i : Nat) / 2 : ℕ) + 1) / w.span) * w.t k) + 2 * 0 + 1) * (2 : ℝ) ^ (-51 : ℤ) ≤ H * eps := by
      refine mul_le_mul_of_nonneg_right (le_trans ?_ hp) eps_pos.le
      have hj : (((i : Nat) / 2 : ℕ) : ℝ) + 1 ≤ w.n := by exact_mod_cast (by omega : (i : Nat) / 2 + 1 ≤ w.n)
      have hs : 0 < w.span := by linarith [R.span.1]
      have ht : 0 ≤ w.t k := by linarith [(R.t k).1]
      have : 2 * Real.pi * ((((i : Nat) / 2 : ℕ) + 1) / w.span) * w.t k ≤ 2 * Real.pi * w.n / w.span * w.t k := by
        refine mul_le_mul_of_nonneg_right ?_ ht
        rw [mul_div_assoc (2 * Real.pi)]
        exact mul_le_mul_of_nonneg_left (div_le_div_of_nonneg_right hj hs.le) (by positivity)
      linarith
    have e : 2 * Real.pi * ((((i : Nat) / 2 : ℕ) + 1) / w.span) * w.t k + 0 = 2 * Real.pi * (((i : Nat) / 2 : ℕ) + 1) / w.span * w.t k := by ring
    rw [e] at h4 h5
    by_cases h2i : (i : Nat) % 2 = 0
    · refine ⟨row, s, h1, by rw [← h2]; congr 1; omega, ?_⟩
      have : w.basis k i = Real.sin (2 * Real.pi * (((i : Nat) / 2 : ℕ) + 1) / w.span * w.t k) := by
        rw [TimesPsr.basis, Matrix.of_apply, dif_pos hi, if_pos h2i]
      rw [this]
      exact h4.trans hb
    · refine ⟨row, c, h1, by rw [← h3]; congr 1; omega, ?_⟩
      have : w.basis k i = Real.cos (2 * Real.pi * (((i : Nat) / 2 : ℕ) + 1) / w.span * w.t k) := by
        rw [TimesPsr.basis, Matrix.of_apply, dif_pos hi, if_neg h2i]
      rw [this]
      exact h5.trans hb
  choose row y h1 h2 h3 using h
  refine ⟨y, ?_, h3⟩
  refine List.ext_getElem? fun k => ?_
  rw [fourierCols, List.getElem?_map]
  by_cases hk : k < w.M
  · rw [h1 ⟨k, hk⟩, Option.map_some, List.getD_eq_getElem?_getD, h2 ⟨k, hk⟩, List.getElem?_ofFn, dif_pos hk]
    rfl
  · rw [List.getElem?_ofFn, dif_neg hk, List.getElem?_eq_none, Option.map_none]
    simp only [designF, List.length_map, List.length_ofFn]
    omega

/-- The columns of the timing model are of length one. -/
theorem unit_le {m : Nat} {x : Fin m → ℝ} (k : Fin m) : |x k / Real.sqrt (∑ l, x l ^ 2)| ≤ 1 := by
  rw [abs_div, abs_of_nonneg (Real.sqrt_nonneg _)]
  refine div_le_one_of_le₀ ?_ (Real.sqrt_nonneg _)
  rw [← Real.sqrt_sq_eq_abs]
  exact Real.sqrt_le_sqrt (Finset.single_le_sum (f := fun l => x l ^ 2) (fun l _ => sq_nonneg _) (Finset.mem_univ k))

theorem tiny_weight (hK : K ≤ 2 ^ 22) : 2 * tiny ^ 2 * (K * (2 : ℝ) ^ (199 : ℤ)) ≤ eps ^ 2 * (2 : ℝ) ^ (-297 : ℤ) := by
  have K1 : (K : ℝ) ≤ 2 ^ 22 := by exact_mod_cast hK
  have e1 : tiny = (2 : ℝ) ^ (-1074 : ℤ) := tiny_zpow
  have h1 : 2 * tiny ^ 2 * (K * (2 : ℝ) ^ (199 : ℤ)) ≤ 2 * tiny ^ 2 * (2 ^ 22 * (2 : ℝ) ^ (199 : ℤ)) := by
    refine mul_le_mul_of_nonneg_left (mul_le_mul_of_nonneg_right K1 (by positivity)) (by positivity)
  refine h1.trans ?_
  rw [e1, eps]
  have a1 : 2 * ((2 : ℝ) ^ (-1074 : ℤ)) ^ 2 * (2 ^ 22 * (2 : ℝ) ^ (199 : ℤ)) = (2 : ℝ) ^ (-1926 : ℤ) := by
    rw [← zpow_natCast ((2 : ℝ) ^ (-1074 : ℤ)), ← _root_.zpow_mul, show (2 : ℝ) ^ 22 = (2 : ℝ) ^ (22 : ℤ) by norm_cast, ← zpow_add₀ (by norm_num)]
    nth_rewrite 1 [← zpow_one (2 : ℝ)]
    rw [← zpow_add₀ (by norm_num), ← zpow_add₀ (by norm_num)]
    norm_num only
  have a2 : ((2 : ℝ) ^ (-51 : ℤ)) ^ 2 * (2 : ℝ) ^ (-297 : ℤ) = (2 : ℝ) ^ (-399 : ℤ) := by
    rw [← zpow_natCast ((2 : ℝ) ^ (-51 : ℤ)), ← _root_.zpow_mul, ← zpow_add₀ (by norm_num)]
    norm_num only
  rw [a1, a2]
  exact zpow_le_zpow_right₀ (by norm_num) (by norm_num)

/-- The computed numbers have small errors. -/
theorem times_near {w : TimesPsr} (R : w.Ranges) {H l : ℝ} (F : w.Phases H l) (I : CorePsr N K μ w.exact) (hN : N ≤ 2 ^ 16) (hK : K ≤ 2 ^ 22) (hκ : (H * l + 3 * K + 11) * eps ≤ 1) {p : PsrF}
    (h : w.Code A P S p) : FullNear ((8 * w.n + 100) * (2 : ℝ) ^ (-50 : ℤ)) ((H * l + 3 * K + 11) * eps) p w.exact := by
  obtain ⟨outs, h1, h2⟩ := h
  have hnN : 2 * w.n + w.p ≤ N := I.le
  have hMK : w.M ≤ K := I.toas
  have MK : (w.M : ℝ) ≤ K := by exact_mod_cast hMK
  have K1 : (K : ℝ) ≤ 2 ^ 22 := by exact_mod_cast hK
  have K0 : (0 : ℝ) ≤ K := Nat.cast_nonneg K
  have M0 : (0 : ℝ) ≤ w.M := Nat.cast_nonneg _
  have he := eps_pos
  have l1 := F.one
  obtain ⟨hout, t1⟩ := tm_cols A R (by omega) h1
  have hcol : ∀ i : Fin (2 * w.n + w.p), ∃ y : Fin w.M → ℝ, (if (i : Nat) < 2 * w.n then fourierCols A P S (List.ofFn fun k => .fin (w.t k)) w.n (.fin w.span) i else outs.getD (i - 2 * w.n) []) =
      List.ofFn (fun k => .fin (y k)) ∧ (∀ k, |y k - w.basis k i| ≤ 1) ∧ ∑ k, (y k - w.basis k i) ^ 2 / w.exact.ν k ≤ ((H * l + 3 * K + 11) * eps) ^ 2 * w.exact.prec i i := by
    intro i
    have pp := I.precpos i
    by_cases hi : (i : Nat) < 2 * w.n
    · obtain ⟨y, y1, y2⟩ := fourier_cols A P S R (by omega) F i hi
      have H0 : 0 ≤ H := by linarith [F.pos]
      have Hl : H ≤ H * l := le_mul_of_one_le_right H0 l1
      refine ⟨y, by rw [if_pos hi, y1], fun k => (y2 k).trans (le_trans (mul_le_mul_of_nonneg_right (by linarith) he.le) hκ), ?_⟩
      have b1 : ∑ k, (y k - w.basis k i) ^ 2 / w.exact.ν k ≤ (H * eps) ^ 2 * ∑ k, 1 / w.exact.ν k := by
        rw [Finset.mul_sum]
        refine Finset.sum_le_sum fun k _ => ?_
        rw [mul_one_div]
        refine div_le_div_of_nonneg_right ?_ (I.νpos k).le
        rw [← sq_abs (y k - w.basis k i)]
        exact pow_le_pow_left₀ (abs_nonneg _) (y2 k) 2
      have b2 := mul_le_mul_of_nonneg_left (F.weight i hi) (sq_nonneg (H * eps))
      refine b1.trans (b2.trans ?_)
      rw [← mul_assoc, ← mul_pow]
      refine mul_le_mul_of_nonneg_right (pow_le_pow_left₀ (by positivity) ?_ 2) pp.le
      have : 0 ≤ (3 * K + 11) * eps := by positivity
      linarith
    · obtain ⟨y, y1, y2⟩ := t1 ⟨i - 2 * w.n, by omega⟩
      have eb : ∀ k, w.basis k i = w.D ⟨i - 2 * w.n, by omega⟩ k / Real.sqrt (∑ l, w.D ⟨i - 2 * w.n, by omega⟩ l ^ 2) := fun k => by
        rw [TimesPsr.basis, Matrix.of_apply, dif_neg hi]
      have y3 : ∀ k, |y k - w.basis k i| ≤ (2 * K + 7) * eps * |w.basis k i| + tiny := by
        intro k
        rw [eb]
        refine (y2 k).trans (add_le_add (mul_le_mul_of_nonneg_right (mul_le_mul_of_nonneg_right (by linarith) he.le) (abs_nonneg _)) le_rfl)
      have u1 : ∀ k, |w.basis k i| ≤ 1 := fun k => by
        rw [eb]
        exact unit_le k
      have ht := tiny_pos
      have ht1 : tiny ≤ 1 / 2 := by
        rw [tiny_zpow]
        exact (zpow_le_zpow_right₀ (by norm_num) (by norm_num : (-1074 : ℤ) ≤ -1)).trans (by norm_num)
      have hs : (2 * (K : ℝ) + 7) * eps ≤ 1 / 2 := by
        have := eps_small (r := 2 * (2 * (K : ℝ) + 7)) (by linarith)
        linarith
      refine ⟨y, by rw [if_neg hi]; exact y1, fun k => (y3 k).trans ?_, ?_⟩
      · have := mul_le_mul hs (u1 k) (abs_nonneg _) (by norm_num)
        linarith
      · have b1 : ∀ k, (y k - w.basis k i) ^ 2 ≤ 2 * ((2 * K + 7) * eps) ^ 2 * (w.basis k i * w.basis k i) + 2 * tiny ^ 2 := by
          intro k
          have c1 := pow_le_pow_left₀ (abs_nonneg _) (y3 k) 2
          rw [sq_abs] at c1
          have c2 : ((2 * K + 7) * eps * |w.basis k i| + tiny) ^ 2 ≤ 2 * ((2 * K + 7) * eps * |w.basis k i|) ^ 2 + 2 * tiny ^ 2 := by
            nlinarith [sq_nonneg ((2 * K + 7) * eps * |w.basis k i| - tiny)]
          rw [mul_pow, sq_abs] at c2
          nlinarith
        have b2 : ∑ k, (y k - w.basis k i) ^ 2 / w.exact.ν k ≤
            2 * ((2 * K + 7) * eps) ^ 2 * (∑ k, w.exact.T k i * w.exact.T k i / w.exact.ν k) + 2 * tiny ^ 2 * ∑ k, 1 / w.exact.ν k := by
          rw [Finset.mul_sum, Finset.mul_sum, ← Finset.sum_add_distrib]
          refine Finset.sum_le_sum fun k _ => ?_
          rw [mul_one_div, ← mul_div_assoc, ← add_div]
          exact div_le_div_of_nonneg_right (b1 k) (I.νpos k).le
        have b3 := mul_le_mul_of_nonneg_left (weight_le I.φpos i) (by positivity : 0 ≤ 2 * ((2 * K + 7) * eps) ^ 2)
        have b4 : ∑ k, 1 / w.exact.ν k ≤ K * (2 : ℝ) ^ (199 : ℤ) := by
          have : ∑ k, 1 / w.exact.ν k ≤ ∑ _k : Fin w.M, (2 : ℝ) ^ (199 : ℤ) := Finset.sum_le_sum fun k _ => by
            have := one_div_le_one_div_of_le (by positivity) (I.νlow k)
            rwa [one_div ((2 : ℝ) ^ (-199 : ℤ)), ← _root_.zpow_neg, neg_neg] at this
          rw [Finset.sum_const, Finset.card_univ, Fintype.card_fin, nsmul_eq_mul] at this
          exact this.trans (mul_le_mul_of_nonneg_right MK (by positivity))
        have b5 := (mul_le_mul_of_nonneg_left b4 (by positivity : 0 ≤ 2 * tiny ^ 2)).trans ((tiny_weight hK).trans (mul_le_mul_of_nonneg_left (I.low i) (by positivity)))
        refine b2.trans ((add_le_add b3 b5).trans ?_)
        rw [← add_mul]
        refine mul_le_mul_of_nonneg_right ?_ pp.le
        have Hl0 : 0 ≤ H * l := mul_nonneg (by linarith [F.pos]) (by linarith)
        have e1 : 2 * ((2 * K + 7) * eps) ^ 2 + eps ^ 2 = (8 * K ^ 2 + 56 * K + 99) * eps ^ 2 := by ring
        rw [e1, mul_pow]
        refine mul_le_mul_of_nonneg_right ?_ (sq_nonneg _)
        nlinarith
  choose T' c1 c2 c3 using hcol
  refine ⟨Matrix.of fun k i => T' i k, ⟨fun k i => c2 i k, c3⟩, ?_⟩
  obtain ⟨q, q1, q2⟩ := noise_near A P (w := w.noise (Matrix.of fun k i => T' i k)) ⟨R.s, R.efac, R.equad, R.span, R.law⟩ (by show w.n ≤ 2 ^ 40; omega)
  have e : (w.noise (Matrix.of fun k i => T' i k)).code A P = .ok p := by
    rw [← h2, NoisePsr.code, List.length_ofFn]
    have : (fun i => if i < 2 * w.n then fourierCols A P S (List.ofFn fun k => .fin (w.t k)) w.n (.fin w.span) i else outs.getD (i - 2 * w.n) []) =
        fun i => if h : i < 2 * w.n + w.p then List.ofFn fun k => .fin (T' ⟨i, h⟩ k) else [] := by
      funext i
      by_cases hi : i < 2 * w.n + w.p
      · rw [dif_pos hi]
        exact c1 ⟨i, hi⟩
      · rw [dif_neg hi, if_neg (by omega), List.getD_eq_getElem?_getD, List.getElem?_eq_none (by omega), Option.getD_none]
    rw [this]
    rfl
  rw [e] at q1
  cases q1
  exact q2

theorem FullNear.mono {δ' : ℝ} {p : PsrF} (h : FullNear δ κ p o) (hν : ∀ k, 0 ≤ o.ν k) (hφ : ∀ i, 0 ≤ o.φ i) (hd : δ ≤ δ') : FullNear δ' κ p o := by
  obtain ⟨T', h1, h2⟩ := h
  exact ⟨T', h1, h2.mono hν hφ hd⟩

theorem times_all {H l : ℝ} (hN : N ≤ 2 ^ 16) (hK : K ≤ 2 ^ 22) (hκ : (H * l + 3 * K + 11) * eps ≤ 1) {ws : List TimesPsr} {ps : List PsrF} (h : List.Forall₂ (TimesPsr.Code A P S) ws ps)
    (hw : ∀ w ∈ ws, w.Ranges ∧ w.Phases H l ∧ CorePsr N K μ w.exact) :
    List.Forall₂ (fun p o => FullNear ((4 * N + 100) * (2 : ℝ) ^ (-50 : ℤ)) ((H * l + 3 * K + 11) * eps) p o ∧ CorePsr N K μ o) ps (ws.map TimesPsr.exact) := by
  induction h with
  | nil => exact .nil
  | @cons w p ws ps h1 h2 ih =>
    obtain ⟨R, F, I⟩ := hw w List.mem_cons_self
    refine .cons ⟨?_, I⟩ (ih fun x hx => hw x (List.mem_cons_of_mem _ hx))
    refine (times_near A P S R F I hN hK hκ h1).mono (fun k => (I.νpos k).le) (fun i => (I.φpos i).le) (mul_le_mul_of_nonneg_right ?_ (by positivity))
    have hn : 2 * w.n + w.p ≤ N := I.le
    have : (2 * w.n : ℝ) ≤ N := by exact_mod_cast (by omega : 2 * w.n ≤ N)
    linarith

/-- Errors as they arise from times of arrival, and the computed likelihood. -/
theorem near_likelihood (hL : GoodLog L) {H l : ℝ} (hN0 : 1 ≤ N) (hK : K ≤ 2 ^ 22) (hμ1 : μ ≤ 1) (hK2 : 800 * ((K + 3) * (2 : ℝ) ^ (-51 : ℤ) * N) ≤ μ)
    (hμ : 2 ^ 21 * N ^ 2 * (2 : ℝ) ^ (-51 : ℤ) ≤ μ) (hH : 300 * ((H * l + 3 * K + 11) * (2 : ℝ) ^ (-51 : ℤ) * N) ≤ μ) (Hl : 0 ≤ H * l) {os : List GpPsr}
    (h0 : os ≠ []) (hP : os.length ≤ 2 ^ 15) {ps : List PsrF}
    (h2 : N ≤ 2 ^ 16 → (H * l + 3 * K + 11) * eps ≤ 1 → List.Forall₂ (fun p o => FullNear ((4 * N + 100) * (2 : ℝ) ^ (-50 : ℤ)) ((H * l + 3 * K + 11) * eps) p o ∧ CorePsr N K μ o) ps os)
    {r : Except PyErr Fl} (hr : IsLikelihood A L ps r) :
    ∃ v, r = .ok (.fin v) ∧ |v - (os.map GpPsr.like).sum| ≤
      ((42600 * N ^ 2 + 87 * (K + 3) * N + 9 * H * l * N) / μ + 4 * os.length) * (2 : ℝ) ^ (-51 : ℤ) * (os.map GpPsr.size).sum + (2 : ℝ) ^ (-999 : ℤ) := by
  have N1 : (1 : ℝ) ≤ N := by exact_mod_cast hN0
  have K0 : (0 : ℝ) ≤ K := Nat.cast_nonneg K
  have μ0 : 0 < μ := lt_of_lt_of_le (by positivity) hK2
  have N2 : (N : ℝ) ≤ 2 ^ 16 := by
    by_contra hc
    have h1 : (2 : ℝ) ^ 16 * 2 ^ 16 ≤ N ^ 2 := by nlinarith
    have h2 : (2 : ℝ) ^ 21 * (2 ^ 16 * 2 ^ 16) * (2 : ℝ) ^ (-51 : ℤ) ≤ 1 := by
      refine le_trans ?_ (hμ.trans hμ1)
      exact mul_le_mul_of_nonneg_right (mul_le_mul_of_nonneg_left h1 (by norm_num)) (by positivity)
    norm_num at h2
  have N3 : N ≤ 2 ^ 16 := by exact_mod_cast N2
  have N4 : (N : ℝ) ≤ N ^ 2 := by nlinarith
  have he : (0 : ℝ) < (2 : ℝ) ^ (-51 : ℤ) := by positivity
  have hκ0 : 0 < (H * l + 3 * K + 11) * (2 : ℝ) ^ (-51 : ℤ) := by positivity
  have hκ1 : (H * l + 3 * K + 11) * (2 : ℝ) ^ (-51 : ℤ) ≤ 1 := by
    have := mul_le_mul_of_nonneg_left N1 hκ0.le
    linarith
  replace h2 := h2 N3 hκ1
  have hδ : ((4 * N + 100) * (2 : ℝ) ^ (-50 : ℤ)) ≤ 1 / 1048576 := by
    refine (mul_le_mul_of_nonneg_right (by linarith : (4 * (N : ℝ) + 100) ≤ 2 ^ 19) (by positivity)).trans ?_
    norm_num
  have e50 : (2 : ℝ) ^ (-50 : ℤ) = 2 * (2 : ℝ) ^ (-51 : ℤ) := two_eps
  have hδN : 400 * (((4 * N + 100) * (2 : ℝ) ^ (-50 : ℤ)) * N) ≤ μ := by
    rw [e50]
    refine le_trans ?_ hμ
    clear hδ hK2 hμ hH e50 hκ0 hκ1 h2
    generalize (2 : ℝ) ^ (-51 : ℤ) = ε at *
    have h3 := mul_le_mul_of_nonneg_right N4 he.le
    have h4 : 0 ≤ (N : ℝ) ^ 2 * ε := by positivity
    linarith
  obtain ⟨v, e, hv⟩ := C154_bases A L hL hN0 (N3.trans (by norm_num)) hK hμ1 hK2 hμ (by positivity) hδ hδN hκ0 (by rw [mul_assoc] at hH ⊢; exact hH) h2 h0 hP hr
  refine ⟨v, e, ?_⟩
  have hS : 0 ≤ (os.map GpPsr.size).sum := by
    obtain ⟨os', u1, -, u3, -⟩ := basis_all μ0 hμ1 hκ0 (by rw [mul_assoc] at hH ⊢; exact hH) hN0 h2
    rw [← u3]
    exact size_nonneg u1
  refine hv.trans (add_le_add ?_ le_rfl)
  refine mul_le_mul_of_nonneg_right ?_ hS
  have h5 : (4 * (N : ℝ) + 100) * (2 : ℝ) ^ (-50 : ℤ) ≤ 400 * N ^ 2 / μ * (2 : ℝ) ^ (-51 : ℤ) := by
    have h6 : 8 * (N : ℝ) + 200 ≤ 400 * N ^ 2 / μ := by
      rw [le_div_iff₀ μ0]
      have := mul_le_mul_of_nonneg_left hμ1 (by linarith : 0 ≤ 8 * (N : ℝ) + 200)
      nlinarith
    have := mul_le_mul_of_nonneg_right h6 he.le
    rw [e50]
    linarith
  have h7 : (42200 * (N : ℝ) ^ 2 + 54 * (K + 3) * N) / μ + 400 * N ^ 2 / μ + 9 * (H * l + 3 * K + 11) * N / μ ≤ (42600 * N ^ 2 + 87 * (K + 3) * N + 9 * H * l * N) / μ := by
    rw [← add_div, ← add_div]
    refine div_le_div_of_nonneg_right ?_ μ0.le
    nlinarith [mul_nonneg K0 (by linarith : (0 : ℝ) ≤ N)]
  have h8 := mul_le_mul_of_nonneg_right h7 he.le
  have e9 : 9 * ((H * l + 3 * K + 11) * (2 : ℝ) ^ (-51 : ℤ)) * N / μ = 9 * (H * l + 3 * K + 11) * N / μ * (2 : ℝ) ^ (-51 : ℤ) := by ring
  rw [e9]
  clear hδ hK2 hμ hH e50 hκ0 hκ1 h2 hδN h7 e9
  generalize (2 : ℝ) ^ (-51 : ℤ) = ε at *
  linarith

/-- C154: the computed likelihood, from the times of arrival, the design matrix and the noise parameters of the pulsars on. -/
theorem C154_times (hL : GoodLog L) {H l : ℝ} (hN0 : 1 ≤ N) (hK : K ≤ 2 ^ 22) (hμ1 : μ ≤ 1) (hK2 : 800 * ((K + 3) * (2 : ℝ) ^ (-51 : ℤ) * N) ≤ μ)
    (hμ : 2 ^ 21 * N ^ 2 * (2 : ℝ) ^ (-51 : ℤ) ≤ μ) (hH : 300 * ((H * l + 3 * K + 11) * (2 : ℝ) ^ (-51 : ℤ) * N) ≤ μ) {ws : List TimesPsr} (hw : ∀ w ∈ ws, w.Ranges ∧ w.Phases H l ∧ CorePsr N K μ w.exact)
    (h0 : ws ≠ []) (hP : ws.length ≤ 2 ^ 15) {ps : List PsrF} (h : List.Forall₂ (TimesPsr.Code A P S) ws ps) {r : Except PyErr Fl} (hr : IsLikelihood A L ps r) :
    ∃ v, r = .ok (.fin v) ∧ |v - (ws.map fun w => w.exact.like).sum| ≤
      ((42600 * N ^ 2 + 87 * (K + 3) * N + 9 * H * l * N) / μ + 4 * ws.length) * (2 : ℝ) ^ (-51 : ℤ) * (ws.map fun w => w.exact.size).sum + (2 : ℝ) ^ (-999 : ℤ) := by
  have Hl : 0 ≤ H * l := by
    obtain ⟨w, hw'⟩ := List.exists_mem_of_ne_nil ws h0
    have F := (hw w hw').2.1
    exact mul_nonneg (by linarith [F.pos]) (by linarith [F.one])
  have := near_likelihood A L hL hN0 hK hμ1 hK2 hμ hH Hl (os := ws.map TimesPsr.exact) (by simpa using h0) (by simpa using hP) (fun N3 hκ1 => times_all A P S N3 hK hκ1 h hw) hr
  rwa [List.map_map, List.map_map, List.length_map] at this

theorem exists_cols (cs : List (List Fl)) : ∃ outs, List.Forall₂ (IsNormedCol A none) cs outs := by
  induction cs with
  | nil => exact ⟨[], .nil⟩
  | cons c cs ih =>
    obtain ⟨outs, h⟩ := ih
    obtain ⟨s, hs⟩ := exists_sum A (c.map fun x => mul A x x)
    exact ⟨_ :: outs, .cons ⟨_, ⟨s, hs, rfl⟩, rfl⟩ h⟩

/-- The numbers exist. -/
theorem exists_code {w : TimesPsr} (R : w.Ranges) (hn : w.n ≤ 2 ^ 40) : ∃ p, w.Code A P S p := by
  obtain ⟨outs, h⟩ := exists_cols A (List.ofFn fun j => (List.ofFn (w.D j)).map .fin)
  obtain ⟨l, e, -⟩ := powerlaw_off A P hn R.span.1 R.span.2 R.law (c := 2) (by norm_num)
  have hp : ∀ d cols errs res, ∃ p, noiseF A P w.n d cols errs res (.fin w.span) (.fin w.a) (.fin w.g) = .ok p := fun d cols errs res => by
    rw [noiseF, e]
    exact ⟨_, rfl⟩
  obtain ⟨p, hp⟩ := hp _ _ _ _
  exact ⟨p, outs, h, hp⟩

/-! ## An example -/

/-- Four TOAs with errors 1, EFAC 1, EQUAD `10^0`; a power law with one frequency over a span of 4 and a timing model with an offset. -/
noncomputable def exTimes : TimesPsr := ⟨1, 1, 4, ![1, 2, 3, 4], fun _ _ => 1, ![3, 1, 2, 1], fun _ => 1, fun _ => 1, fun _ => 0, 4, 0, 3⟩

theorem exTimes_ranges : exTimes.Ranges := by
  refine ⟨fun k => ?_, fun k => ?_, fun k => ⟨rep_zero, ?_⟩, ?_, ?_, fun k => ?_, fun j => ?_⟩
  · show (0 : ℝ) < 1 ∧ |Real.log 1| ≤ 100
    norm_num
  · show (0 : ℝ) < 1 ∧ |Real.log 1| ≤ 100
    norm_num
  · show |(0 : ℝ)| ≤ 30
    norm_num
  · show (1 : ℝ) ≤ 4 ∧ (4 : ℝ) ≤ 2 ^ 50
    norm_num
  · show |(0 : ℝ)| ≤ 30 ∧ (0 : ℝ) ≤ 3 ∧ (3 : ℝ) ≤ 7
    norm_num
  · have h : ∀ k : Fin 4, 1 ≤ (![1, 2, 3, 4] : Fin 4 → ℝ) k ∧ (![1, 2, 3, 4] : Fin 4 → ℝ) k ≤ 2 ^ 50 := by
      intro k
      fin_cases k <;> norm_num
    exact h k
  · show (2 : ℝ) ^ (-900 : ℤ) ≤ ∑ _k : Fin 4, (1 : ℝ) ^ 2 ∧ ∑ _k : Fin 4, (1 : ℝ) ^ 2 ≤ (2 : ℝ) ^ (980 : ℤ)
    have e : ∑ _k : Fin 4, (1 : ℝ) ^ 2 = 4 := by norm_num
    rw [e]
    refine ⟨(zpow_le_one_of_nonpos₀ (by norm_num) (by norm_num)).trans (by norm_num), ?_⟩
    exact (by norm_num : (4 : ℝ) ≤ (2 : ℝ) ^ (2 : ℤ)).trans (zpow_le_zpow_right₀ (by norm_num) (by norm_num))

/-- The basis of the example. -/
noncomputable def exT : Matrix (Fin 4) (Fin 3) ℝ := !![1, 0, 1 / 2; 0, -1, 1 / 2; -1, 0, 1 / 2; 0, 1, 1 / 2]

theorem exTimes_basis : exTimes.basis = exT := by
  have e : ∀ (k : Fin 4) (i : Fin 3), exTimes.basis k i = if (i : Nat) < 2 then if (i : Nat) % 2 = 0 then Real.sin (Real.pi / 2 * (![1, 2, 3, 4] : Fin 4 → ℝ) k) else
      Real.cos (Real.pi / 2 * (![1, 2, 3, 4] : Fin 4 → ℝ) k) else 1 / 2 := by
    intro k i
    show (if h : (i : Nat) < 2 * 1 then if (i : Nat) % 2 = 0 then Real.sin (2 * Real.pi * (((i : Nat) / 2 : ℕ) + 1) / 4 * (![1, 2, 3, 4] : Fin 4 → ℝ) k) else
      Real.cos (2 * Real.pi * (((i : Nat) / 2 : ℕ) + 1) / 4 * (![1, 2, 3, 4] : Fin 4 → ℝ) k) else (1 : ℝ) / Real.sqrt (∑ _l : Fin 4, (1 : ℝ) ^ 2)) = _
    by_cases h : (i : Nat) < 2
    · rw [dif_pos (by omega), if_pos h, show (i : Nat) / 2 = 0 by omega]
      have : 2 * Real.pi * (((0 : ℕ) : ℝ) + 1) / 4 = Real.pi / 2 := by
        push_cast
        ring
      rw [this]
    · rw [dif_neg (by omega), if_neg h]
      have : ∑ _l : Fin 4, (1 : ℝ) ^ 2 = 2 ^ 2 := by norm_num
      rw [this, Real.sqrt_sq (by norm_num)]
  have s1 : Real.sin (Real.pi / 2 * 1) = 1 := by rw [mul_one, Real.sin_pi_div_two]
  have s2 : Real.sin (Real.pi / 2 * 2) = 0 := by rw [div_mul_cancel₀ _ (by norm_num), Real.sin_pi]
  have s3 : Real.sin (Real.pi / 2 * 3) = -1 := by
    rw [show Real.pi / 2 * 3 = Real.pi / 2 + Real.pi by ring, Real.sin_add_pi, Real.sin_pi_div_two]
  have s4 : Real.sin (Real.pi / 2 * 4) = 0 := by rw [show Real.pi / 2 * 4 = 2 * Real.pi by ring, Real.sin_two_pi]
  have c1 : Real.cos (Real.pi / 2 * 1) = 0 := by rw [mul_one, Real.cos_pi_div_two]
  have c2 : Real.cos (Real.pi / 2 * 2) = -1 := by rw [div_mul_cancel₀ _ (by norm_num), Real.cos_pi]
  have c3 : Real.cos (Real.pi / 2 * 3) = 0 := by
    rw [show Real.pi / 2 * 3 = Real.pi / 2 + Real.pi by ring, Real.cos_add_pi, Real.cos_pi_div_two, neg_zero]
  have c4 : Real.cos (Real.pi / 2 * 4) = 1 := by rw [show Real.pi / 2 * 4 = 2 * Real.pi by ring, Real.cos_two_pi]
  refine Matrix.ext fun (k : Fin 4) (i : Fin 3) => (e k i).trans ?_
  fin_cases i <;> fin_cases k <;> first | exact s1 | exact s2 | exact s3 | exact s4 | exact c1 | exact c2 | exact c3 | exact c4 | rfl

theorem exTimes_ν (k : Fin 4) : exTimes.exact.ν k = 2 := by
  show (1 : ℝ) ^ 2 * (1 ^ 2 + (10 : ℝ) ^ (2 * (0 : ℝ))) = 2
  norm_num

theorem exTimes_φ (i : Fin 3) : 1 / 192 ≤ exTimes.exact.φ i ∧ exTimes.exact.φ i ≤ 10 ^ 40 := by
  have e : law 4 0 3 0 = 16 / (12 * Real.pi ^ 2) := by
    unfold law
    have : (((0 : ℕ) + 1) / 4 : ℝ) ^ (-3 : ℝ) = 64 := by
      rw [show (-3 : ℝ) = ((-3 : ℤ) : ℝ) by norm_num, Real.rpow_intCast]
      norm_num
    rw [this]
    norm_num
    ring
  have h : (1 : ℝ) / 192 ≤ law 4 0 3 0 ∧ law 4 0 3 0 ≤ 10 ^ 40 := by
    rw [e]
    have h3 := Real.pi_gt_three
    have h4 := Real.pi_lt_four
    constructor
    · rw [div_le_div_iff₀ (by norm_num) (by positivity)]
      nlinarith
    · rw [div_le_iff₀ (by positivity)]
      nlinarith
  show 1 / 192 ≤ (if (i : Nat) < 2 * 1 then law 4 0 3 ((i : Nat) / 2) else (10 : ℝ) ^ 40) ∧ (if (i : Nat) < 2 * 1 then law 4 0 3 ((i : Nat) / 2) else (10 : ℝ) ^ 40) ≤ 10 ^ 40
  fin_cases i
  · simpa using h
  · simpa using h
  · norm_num

theorem exTimes_dot (i j : Fin 3) : ∑ k : Fin 4, exT k i * exT k j / 2 = if i = j then if i = 2 then 1 / 2 else 1 else 0 := by
  rw [Fin.sum_univ_four]
  have r0 : ∀ i, exT 0 i = ![1, 0, 1 / 2] i := fun _ => rfl
  have r1 : ∀ i, exT 1 i = ![0, -1, 1 / 2] i := fun _ => rfl
  have r2 : ∀ i, exT 2 i = ![-1, 0, 1 / 2] i := fun _ => rfl
  have r3 : ∀ i, exT 3 i = ![0, 1, 1 / 2] i := fun _ => rfl
  rw [r0, r1, r2, r3, r0, r1, r2, r3]
  fin_cases i <;> fin_cases j <;> simp <;> norm_num

theorem exTimes_prec (i j : Fin 3) : exTimes.exact.prec i j = if i = j then (if i = 2 then 1 / 2 else 1) + (exTimes.exact.φ i)⁻¹ else 0 := by
  refine (prec_apply (o := exTimes.exact) i j).trans ?_
  have e : ∑ k, exTimes.exact.T k i * exTimes.exact.T k j / exTimes.exact.ν k = if i = j then if i = 2 then 1 / 2 else 1 else 0 := by
    show ∑ k : Fin 4, exTimes.basis k i * exTimes.basis k j / exTimes.exact.ν k = _
    simp only [exTimes_ν, exTimes_basis]
    exact exTimes_dot i j
  rw [e]
  by_cases h : i = j
  · rw [if_pos h, if_pos h]
    exact congrArg _ (if_pos h)
  · rw [if_neg h, if_neg h]
    exact (zero_add _).trans (if_neg h)

theorem ex_res4 : ∑ k : Fin 4, (![3, 1, 2, 1] : Fin 4 → ℝ) k ^ 2 / 2 = 15 / 2 := by
  rw [Fin.sum_univ_four]
  show (3 : ℝ) ^ 2 / 2 + 1 ^ 2 / 2 + 2 ^ 2 / 2 + 1 ^ 2 / 2 = 15 / 2
  norm_num

theorem exTimes_core : CorePsr 3 4 1 exTimes.exact := by
  have b : ∀ {e : ℤ} {x : ℝ}, 8 ≤ e → x ≤ 256 → x ≤ (2 : ℝ) ^ e := fun h hx =>
    hx.trans ((by norm_num : (256 : ℝ) ≤ (2 : ℝ) ^ (8 : ℤ)).trans (zpow_le_zpow_right₀ (by norm_num) h))
  have c : ∀ {e : ℤ} {x : ℝ}, e ≤ -8 → 1 / 256 ≤ x → (2 : ℝ) ^ e ≤ x := fun h hx =>
    ((zpow_le_zpow_right₀ (by norm_num) h).trans (by norm_num : (2 : ℝ) ^ (-8 : ℤ) ≤ 1 / 256)).trans hx
  have hφ0 : ∀ i : Fin 3, 0 < exTimes.exact.φ i := fun i => lt_of_lt_of_le (by norm_num) (exTimes_φ i).1
  have hp : ∀ i : Fin 3, exTimes.exact.prec i i = (if i = 2 then 1 / 2 else 1) + (exTimes.exact.φ i)⁻¹ := fun i => (exTimes_prec i i).trans (if_pos rfl)
  have hd : ∀ i : Fin 3, (1 : ℝ) / 2 ≤ (if i = 2 then 1 / 2 else 1) ∧ (if i = 2 then 1 / 2 else 1) ≤ (1 : ℝ) := fun i => by split_ifs <;> norm_num
  refine ⟨le_rfl, le_rfl, fun k => c (by norm_num) ?_, fun k => b (by norm_num) ?_, fun i => c (by norm_num) ?_, fun i => ?_, fun k i => b (by norm_num) ?_, fun k => b (by norm_num) ?_,
    fun i => c (by norm_num) ?_, fun i => b (by norm_num) ?_, b (by norm_num) ?_, ?_⟩
  · exact (by norm_num : (1 : ℝ) / 256 ≤ 2).trans_eq (exTimes_ν k).symm
  · exact (exTimes_ν k).trans_le (by norm_num)
  · exact le_trans (by norm_num) (exTimes_φ i).1
  · refine (exTimes_φ i).2.trans ?_
    exact (by norm_num : (10 : ℝ) ^ 40 ≤ (2 : ℝ) ^ (133 : ℤ)).trans (zpow_le_zpow_right₀ (by norm_num) (by norm_num))
  · have h : ∀ (k : Fin 4) (i : Fin 3), |exTimes.basis k i| ≤ 256 := fun k i => by
      rw [exTimes_basis]
      fin_cases k <;> fin_cases i <;> norm_num [exT]
    exact h k i
  · have h : ∀ k : Fin 4, |(![3, 1, 2, 1] : Fin 4 → ℝ) k| ≤ 256 := fun k => by fin_cases k <;> norm_num
    exact h k
  · refine le_trans ?_ (hp i).ge
    have := inv_pos.2 (hφ0 i)
    have := (hd i).1
    linarith
  · refine (hp i).trans_le ?_
    have : (exTimes.exact.φ i)⁻¹ ≤ 192 := by
      have := inv_anti₀ (by norm_num) (exTimes_φ i).1
      linarith
    have := (hd i).2
    linarith
  · have e : exTimes.exact.ρ = ∑ k : Fin 4, (![3, 1, 2, 1] : Fin 4 → ℝ) k ^ 2 / 2 := Finset.sum_congr rfl fun k _ => congrArg _ (exTimes_ν k)
    rw [e, ex_res4]
    norm_num
  · have e : exTimes.exact.prec - (1 : ℝ) • diagonal exTimes.exact.prec.diag = 0 := by
      ext i j
      rw [one_smul, Matrix.sub_apply, Matrix.zero_apply]
      by_cases h : i = j
      · subst h
        rw [diagonal_apply_eq, diag_apply, sub_self]
      · rw [diagonal_apply_ne _ h, sub_zero]
        exact (exTimes_prec i j).trans (if_neg h)
    rw [e]
    exact PosSemidef.zero

theorem exTimes_phases : exTimes.Phases 100 2 := by
  refine ⟨by norm_num, by norm_num, fun k => ?_, fun i hi => ?_⟩
  · have h : ∀ k : Fin 4, 14 * (2 * Real.pi * (1 : ℕ) / 4 * (![1, 2, 3, 4] : Fin 4 → ℝ) k) + 1 ≤ 100 := by
      intro k
      have hk : (![1, 2, 3, 4] : Fin 4 → ℝ) k ≤ 4 := by fin_cases k <;> norm_num
      have := Real.pi_lt_d2
      have := mul_le_mul_of_nonneg_left hk Real.pi_pos.le
      push_cast
      linarith
    exact h k
  · have e : ∑ k, 1 / exTimes.exact.ν k = 2 := by
      have : ∑ k : Fin 4, 1 / exTimes.exact.ν k = ∑ _k : Fin 4, (1 : ℝ) / 2 := Finset.sum_congr rfl fun k _ => congrArg _ (exTimes_ν k)
      refine this.trans ?_
      norm_num
    rw [e]
    have h : ∀ i : Fin 3, (1 : ℝ) / 2 ≤ exTimes.exact.prec i i := fun i => by
      refine le_trans ?_ ((exTimes_prec i i).trans (if_pos rfl)).ge
      have h1 : 0 < (exTimes.exact.φ i)⁻¹ := inv_pos.2 (lt_of_lt_of_le (by norm_num) (exTimes_φ i).1)
      split_ifs <;> linarith
    have := h i
    linarith

/-- C154 for such a pulsar: numbers and an outcome exist, and each outcome is within `2^-20` of the Gaussian log-likelihood. -/
example (hL : GoodLog L) : (∃ p r, exTimes.Code A P S p ∧ IsLikelihood A L [p] r) ∧ ∀ p r, exTimes.Code A P S p → IsLikelihood A L [p] r → ∃ v, r = .ok (.fin v) ∧
    |v - exTimes.exact.like| ≤ (2 : ℝ) ^ (-20 : ℤ) := by
  constructor
  · obtain ⟨p, hp⟩ := exists_code A P S exTimes_ranges (by show 1 ≤ 2 ^ 40; norm_num)
    obtain ⟨r, hr⟩ := exists_likelihood A L [p]
    exact ⟨p, r, hp, hr⟩
  intro p r hp hr
  obtain ⟨v, e, hv⟩ := C154_times A L P S hL (N := 3) (K := 4) (μ := 1) (H := 100) (l := 2) (ws := [exTimes]) (by norm_num) (by norm_num) le_rfl (by norm_num) (by norm_num) (by norm_num) (by
    intro w hw
    rw [List.mem_singleton] at hw
    subst hw
    exact ⟨exTimes_ranges, exTimes_phases, exTimes_core⟩) (by simp) (by norm_num) (.cons hp .nil) hr
  refine ⟨v, e, ?_⟩
  have hlog : |Real.log 2| ≤ 1 := by
    rw [abs_of_pos (Real.log_pos (by norm_num))]
    linarith [Real.log_two_lt_d9]
  have hφ : ∀ i : Fin 3, |Real.log (exTimes.exact.φ i)| ≤ 133 := by
    intro i
    obtain ⟨a, b⟩ := exTimes_φ i
    have l1 := Real.log_le_log (by norm_num) a
    have l2 := Real.log_le_log (lt_of_lt_of_le (by norm_num) a) b
    have l3 := abs_le.1 (log_nat (j := 133) (by norm_num) (by norm_num) : |Real.log ((10 : ℝ) ^ 40)| ≤ (133 : ℕ))
    have l4 := abs_le.1 (log_nat (j := 8) (by norm_num) (by norm_num) : |Real.log (192 : ℝ)| ≤ (8 : ℕ))
    rw [one_div, Real.log_inv] at l1
    push_cast at l3 l4
    exact abs_le.2 ⟨by linarith, by linarith⟩
  have e2 : exTimes.exact.size ≤ 2000 := by
    show (∑ k : Fin 4, (![3, 1, 2, 1] : Fin 4 → ℝ) k ^ 2 / exTimes.exact.ν k) + 2 + (∑ k : Fin 4, (1 + |Real.log (exTimes.exact.ν k)|)) + ∑ i : Fin 3, (376 + |Real.log (exTimes.exact.φ i)|) ≤ 2000
    have h1 : ∑ k : Fin 4, (![3, 1, 2, 1] : Fin 4 → ℝ) k ^ 2 / exTimes.exact.ν k = 15 / 2 := by
      simp only [exTimes_ν]
      exact ex_res4
    have h2 : ∑ k : Fin 4, (1 + |Real.log (exTimes.exact.ν k)|) ≤ 8 := by
      simp only [exTimes_ν, Fin.sum_univ_four]
      linarith
    have h3 : ∑ i : Fin 3, (376 + |Real.log (exTimes.exact.φ i)|) ≤ 1527 := by
      rw [Fin.sum_univ_three]
      have := hφ 0
      have := hφ 1
      have := hφ 2
      linarith
    linarith
  simp only [List.map_cons, List.map_nil, List.sum_cons, List.sum_nil, add_zero, List.length_cons, List.length_nil] at hv
  refine hv.trans ?_
  have h3 : (2 : ℝ) ^ (-999 : ℤ) ≤ (2 : ℝ) ^ (-30 : ℤ) := zpow_le_zpow_right₀ (by norm_num) (by norm_num)
  refine (add_le_add (mul_le_mul_of_nonneg_left e2 (by positivity)) h3).trans ?_
  norm_num

end Verif.Ieee
