import Mathlib.Analysis.ODE.ExistUnique
import Mathlib.Analysis.Calculus.ContDiff.Operations
import Mathlib.Analysis.SpecialFunctions.Pow.Deriv
import Mathlib.Analysis.Calculus.Deriv.MeanValue
import Verif.Model.Inspiral
import Verif.Props.Binary

/-!
# The orbit of a binary until it merges: C99, C121
-/

namespace Verif.Inspiral

open Verif Verif.Binary Set

/-- A solution of `y' = rhs y` between the times `a` and `b` that stays where the right-hand side is defined. -/
def Solves {E : Type} [NormedAddCommGroup E] [NormedSpace ℝ E] (rhs : E → E) (dom : E → Prop) (a b : ℝ) (y : ℝ → E) : Prop :=
  ∀ t ∈ Icc a b, dom (y t) ∧ HasDerivWithinAt y (rhs (y t)) (Icc a b) t

/-- An integrator without numerical errors: when it reports success, the rows are the values at the given times of a solution that
starts at the first one. -/
def Exact {E : Type} [NormedAddCommGroup E] [NormedSpace ℝ E] (odeint : Odeint E) (dom : E → Prop) : Prop :=
  ∀ rhs y0 t0 ts, (odeint rhs y0 (t0 :: ts)).2 = true →
    ∃ y : ℝ → E, (odeint rhs y0 (t0 :: ts)).1 = (t0 :: ts).map y ∧ y t0 = y0 ∧ ∀ b ∈ t0 :: ts, Solves rhs dom (min t0 b) (max t0 b) y

/-- Frequencies are positive; numpy has no powers of negative ones. -/
def ConstDom (y : ℝ × ℝ) : Prop := 0 < y.1

/-- A bound orbit. -/
def EccDom (y : ℝ × ℝ × ℝ × ℝ) : Prop := 0 < y.1 ∧ 0 ≤ y.2.1 ∧ y.2.1 < 1

/-- The time to the merger of a binary of chirp mass `M` (in seconds) from orbital frequency `F` at constant eccentricity (Peters). -/
noncomputable def mergerTime (F M e : ℝ) : ℝ :=
  5 / 256 * M * (2 * Real.pi * M * F) ^ (-(8 / 3) : ℝ) * ((1 - e ^ 2) ^ (7 / 2 : ℝ) / (1 + 73 / 24 * e ^ 2 + 37 / 96 * e ^ 4))

/-! ## Calculus -/

theorem merger_pos {F M e : ℝ} (hF : 0 < F) (hM : 0 < M) (he : 0 ≤ e) (he1 : e < 1) : 0 < mergerTime F M e := by
  have := Real.pi_pos
  have h1 : 0 < 1 - e ^ 2 := by nlinarith
  unfold mergerTime
  positivity

/-- The equation of the frequency: `F^(-8/3)` falls at a constant rate. -/
theorem fdot_merger {F M e : ℝ} (hF : 0 < F) (hM : 0 < M) (he : 0 ≤ e) (he1 : e < 1) :
    fdot F M e * (-(8 / 3) : ℝ) * F ^ (-(8 / 3) - 1 : ℝ) = -(F ^ (-(8 / 3) : ℝ) / mergerTime F M e) := by
  have hpi := Real.pi_pos
  have h1 : 0 < 1 - e ^ 2 := by nlinarith
  have h2 : 0 < (1 - e ^ 2) ^ (7 / 2 : ℝ) := by positivity
  have hx : 0 < 2 * Real.pi * M * F := by positivity
  unfold mergerTime fdot
  rw [Real.rpow_sub_one hF.ne', Real.rpow_neg hx.le, show (11 / 3 : ℝ) = 8 / 3 + 1 by norm_num, Real.rpow_add hx, Real.rpow_one]
  have h3 : 0 < (2 * Real.pi * M * F) ^ (8 / 3 : ℝ) := by positivity
  generalize (2 * Real.pi * M * F) ^ (8 / 3 : ℝ) = X at h3
  have h4 : 0 < 1 + 73 / 24 * e ^ 2 + 37 / 96 * e ^ 4 := by positivity
  generalize 1 + 73 / 24 * e ^ 2 + 37 / 96 * e ^ 4 = Y at h4
  field_simp
  ring

/-- The merger time scales as `F^(-8/3)`. -/
theorem merger_scale {F G M e : ℝ} (hF : 0 < F) (hG : 0 < G) (hM : 0 < M) :
    F ^ (-(8 / 3) : ℝ) * mergerTime G M e = G ^ (-(8 / 3) : ℝ) * mergerTime F M e := by
  have hpi := Real.pi_pos
  unfold mergerTime
  rw [Real.mul_rpow (by positivity) hF.le, Real.mul_rpow (by positivity) hG.le]
  ring

theorem fst_deriv {E : Type} [NormedAddCommGroup E] [NormedSpace ℝ E] {y : ℝ → ℝ × E} {y' : ℝ × E} {s : Set ℝ} {t : ℝ}
    (h : HasDerivWithinAt y y' s t) : HasDerivWithinAt (fun t => (y t).1) y'.1 s t :=
  (ContinuousLinearMap.fst ℝ ℝ E).hasFDerivAt.comp_hasDerivWithinAt t h

theorem snd_deriv {E : Type} [NormedAddCommGroup E] [NormedSpace ℝ E] {y : ℝ → ℝ × E} {y' : ℝ × E} {s : Set ℝ} {t : ℝ}
    (h : HasDerivWithinAt y y' s t) : HasDerivWithinAt (fun t => (y t).2) y'.2 s t :=
  (ContinuousLinearMap.snd ℝ ℝ E).hasFDerivAt.comp_hasDerivWithinAt t h

/-! ## Constant eccentricity -/

/-- The frequency at time `t` after the start. -/
noncomputable def chirpF (F0 τ t : ℝ) : ℝ := F0 * (1 - t / τ) ^ (-(3 / 8) : ℝ)

/-- The phase at time `t` after the start. -/
noncomputable def chirpPhase (F0 phase0 τ t : ℝ) : ℝ := phase0 + 16 * Real.pi / 5 * F0 * τ * (1 - (1 - t / τ) ^ (5 / 8 : ℝ))

/-- The only solution, up to the merger. -/
theorem const_solution {mc e0 : ℝ} (hm : 0 < mc) (he : 0 ≤ e0) (he1 : e0 < 1) {a b : ℝ} {y : ℝ → ℝ × ℝ}
    (hy : Solves (constRhs mc e0) ConstDom a b y) {s t : ℝ} (hs : s ∈ Icc a b) (ht : t ∈ Icc a b) :
    let τ := mergerTime (y s).1 (mc * tsun) e0
    t - s < τ ∧ (y t).1 = chirpF (y s).1 τ (t - s) ∧ (y t).2 = chirpPhase (y s).1 (y s).2 τ (t - s) := by
  intro τ
  have hM : 0 < mc * tsun := mul_pos hm tsun_pos
  have hpos : ∀ t ∈ Icc a b, 0 < (y t).1 := fun t ht => (hy t ht).1
  have hτ : 0 < τ := merger_pos (hpos s hs) hM he he1
  have hF0 := hpos s hs
  have hG0 : 0 < (y s).1 ^ (-(8 / 3) : ℝ) := Real.rpow_pos_of_pos hF0 _
  have hder : ∀ t ∈ Icc a b, HasDerivWithinAt (fun t => (y t).1) (fdot (y t).1 (mc * tsun) e0) (Icc a b) t := fun t ht => fst_deriv (hy t ht).2
  -- the power that falls linearly
  have hlin : ∀ t ∈ Icc a b, (y t).1 ^ (-(8 / 3) : ℝ) = (y s).1 ^ (-(8 / 3) : ℝ) * (1 - (t - s) / τ) := by
    intro t ht
    have h := const_of_zero (Q := fun t => (y t).1 ^ (-(8 / 3) : ℝ) + (y s).1 ^ (-(8 / 3) : ℝ) * (t / τ)) (a := a) (b := b) ?_ ht hs
    · beta_reduce at h
      have : (y s).1 ^ (-(8 / 3) : ℝ) * (1 - (t - s) / τ) = (y s).1 ^ (-(8 / 3) : ℝ) + (y s).1 ^ (-(8 / 3) : ℝ) * (s / τ) - (y s).1 ^ (-(8 / 3) : ℝ) * (t / τ) := by
        ring
      rw [this, ← h]
      ring
    · intro u hu
      have d1 := (hder u hu).rpow_const (p := -(8 / 3)) (Or.inl (hpos u hu).ne')
      have d2 := (((hasDerivAt_id u).div_const τ).const_mul ((y s).1 ^ (-(8 / 3) : ℝ))).hasDerivWithinAt (s := Icc a b)
      refine (d1.fun_add d2).congr_deriv ?_
      rw [fdot_merger (hpos u hu) hM he he1]
      have := merger_scale (e := e0) (hpos u hu) hF0 hM
      have hu' : 0 < mergerTime (y u).1 (mc * tsun) e0 := merger_pos (hpos u hu) hM he he1
      rw [neg_add_eq_zero, div_eq_iff hu'.ne', mul_one_div, div_mul_eq_mul_div, eq_div_iff hτ.ne']
      exact this
  have hin : ∀ t ∈ Icc a b, 0 < 1 - (t - s) / τ := by
    intro t ht
    have h1 := Real.rpow_pos_of_pos (hpos t ht) (-(8 / 3))
    rw [hlin t ht] at h1
    exact pos_of_mul_pos_right h1 hG0.le
  have hF : ∀ t ∈ Icc a b, (y t).1 = chirpF (y s).1 τ (t - s) := by
    intro t ht
    have h1 := congrArg (fun x : ℝ => x ^ (-(3 / 8) : ℝ)) (hlin t ht)
    beta_reduce at h1
    rw [← Real.rpow_mul (hpos t ht).le, Real.mul_rpow hG0.le (hin t ht).le, ← Real.rpow_mul hF0.le] at h1
    norm_num at h1
    rw [h1, chirpF]
  refine ⟨?_, hF t ht, ?_⟩
  · have := hin t ht
    rw [sub_pos, div_lt_one hτ] at this
    exact this
  have h := const_of_zero (Q := fun t => (y t).2 - chirpPhase (y s).1 (y s).2 τ (t - s)) (a := a) (b := b) ?_ ht hs
  · simp only [sub_self] at h
    have h0 : chirpPhase (y s).1 (y s).2 τ 0 = (y s).2 := by simp [chirpPhase]
    rw [h0, sub_self, sub_eq_zero] at h
    exact h
  · intro u hu
    have d1 : HasDerivWithinAt (fun t => (y t).2) (2 * Real.pi * (y u).1) (Icc a b) u := snd_deriv (hy u hu).2
    have d2 : HasDerivAt (fun t => 1 - (t - s) / τ) (-(1 / τ)) u := (((hasDerivAt_id u).sub_const s).div_const τ).const_sub 1
    have d3 := d2.rpow_const (p := 5 / 8) (Or.inl (hin u hu).ne')
    have d4 := (((d3.const_sub 1).const_mul (16 * Real.pi / 5 * (y s).1 * τ)).const_add (y s).2).hasDerivWithinAt (s := Icc a b)
    refine (d1.fun_sub d4).congr_deriv ?_
    rw [hF u hu, chirpF, show (5 / 8 - 1 : ℝ) = -(3 / 8) by norm_num]
    field_simp
    ring

/-- Conversely the chirp solves the equations, as long as the merger is not reached. -/
theorem chirp_solves {mc e0 F0 phase0 : ℝ} (hm : 0 < mc) (hF0 : 0 < F0) (he : 0 ≤ e0) (he1 : e0 < 1) (t0 : ℝ) {a b : ℝ}
    (hb : b - t0 < mergerTime F0 (mc * tsun) e0) :
    Solves (constRhs mc e0) ConstDom a b fun t => (chirpF F0 (mergerTime F0 (mc * tsun) e0) (t - t0),
      chirpPhase F0 phase0 (mergerTime F0 (mc * tsun) e0) (t - t0)) := by
  have hM : 0 < mc * tsun := mul_pos hm tsun_pos
  have hτ : 0 < mergerTime F0 (mc * tsun) e0 := merger_pos hF0 hM he he1
  set τ := mergerTime F0 (mc * tsun) e0 with hdef
  intro u hu
  have hin : 0 < 1 - (u - t0) / τ := by
    rw [sub_pos, div_lt_one hτ]
    linarith [hu.2]
  have hpos : 0 < chirpF F0 τ (u - t0) := mul_pos hF0 (Real.rpow_pos_of_pos hin _)
  have d2 : HasDerivAt (fun t => 1 - (t - t0) / τ) (-(1 / τ)) u := (((hasDerivAt_id u).sub_const t0).div_const τ).const_sub 1
  refine ⟨hpos, HasDerivWithinAt.prodMk ?_ ?_⟩
  · have d3 := (d2.rpow_const (p := -(3 / 8)) (Or.inl hin.ne')).const_mul F0
    refine (d3.congr_deriv ?_).hasDerivWithinAt
    change _ = fdot (chirpF F0 τ (u - t0)) (mc * tsun) e0
    have h1 := fdot_merger hpos hM he he1
    have h2 := merger_scale (e := e0) hpos hF0 hM
    rw [← hdef] at h2
    have h3 : 0 < mergerTime (chirpF F0 τ (u - t0)) (mc * tsun) e0 := merger_pos hpos hM he he1
    have h4 : chirpF F0 τ (u - t0) ^ (-(8 / 3) : ℝ) = F0 ^ (-(8 / 3) : ℝ) * (1 - (u - t0) / τ) := by
      unfold chirpF
      rw [Real.mul_rpow hF0.le (by positivity), ← Real.rpow_mul hin.le]
      norm_num
    have h5 : 0 < F0 ^ (-(8 / 3) : ℝ) := by positivity
    rw [h4] at h2
    have h6 : mergerTime (chirpF F0 τ (u - t0)) (mc * tsun) e0 = (1 - (u - t0) / τ) * τ := by
      have : F0 ^ (-(8 / 3) : ℝ) * ((1 - (u - t0) / τ) * τ) = F0 ^ (-(8 / 3) : ℝ) * mergerTime (chirpF F0 τ (u - t0)) (mc * tsun) e0 := by
        rw [← h2]; ring
      exact (mul_left_cancel₀ h5.ne' this).symm
    rw [Real.rpow_sub_one hpos.ne', h6] at h1
    have h7 : 0 < chirpF F0 τ (u - t0) ^ (-(8 / 3) : ℝ) := by positivity
    have h8 : fdot (chirpF F0 τ (u - t0)) (mc * tsun) e0 = 3 / 8 * chirpF F0 τ (u - t0) / ((1 - (u - t0) / τ) * τ) := by
      generalize chirpF F0 τ (u - t0) ^ (-(8 / 3) : ℝ) = X at h1 h7
      generalize 1 - (u - t0) / τ = W at h1 hin ⊢
      field_simp at h1 ⊢
      linarith
    rw [h8, chirpF, Real.rpow_sub_one hin.ne']
    generalize (1 - (u - t0) / τ) ^ (-(3 / 8) : ℝ) = Z
    field_simp
  · have d3 := d2.rpow_const (p := 5 / 8) (Or.inl hin.ne')
    have d4 := (((d3.const_sub 1).const_mul (16 * Real.pi / 5 * F0 * τ)).const_add phase0).hasDerivWithinAt (s := Icc a b)
    refine d4.congr_deriv ?_
    change _ = 2 * Real.pi * chirpF F0 τ (u - t0)
    rw [chirpF, show (5 / 8 - 1 : ℝ) = -(3 / 8) by norm_num]
    field_simp
    ring

/-- C121: with an integrator without errors the result is the number zero, or the frequencies and phases of the Newtonian chirp at
all times, which lie before the merger. -/
theorem C121_chirp (odeint : Odeint (ℝ × ℝ)) (hex : Exact odeint ConstDom) {F0 e0 mc : ℝ} (phase0 : ℝ) (hF0 : 0 < F0) (hm : 0 < mc)
    (he : 0 ≤ e0) (he1 : e0 < 1) (t0 : ℝ) (ts : List ℝ) :
    let τ := mergerTime F0 (mc * tsun) e0
    solveConst odeint F0 e0 phase0 mc (t0 :: ts) = .zero ∨
      (∀ t ∈ t0 :: ts, t < t0 + τ) ∧ solveConst odeint F0 e0 phase0 mc (t0 :: ts) =
        .rows ((t0 :: ts).map fun t => (chirpF F0 τ (t - t0), chirpPhase F0 phase0 τ (t - t0))) := by
  intro τ
  unfold solveConst check
  by_cases hok : (odeint (constRhs mc e0) (F0, phase0) (t0 :: ts)).2 = true
  · right
    rw [if_pos hok]
    obtain ⟨y, hrows, h0, hsol⟩ := hex _ _ t0 ts hok
    have key : ∀ t ∈ t0 :: ts, t < t0 + τ ∧ y t = (chirpF F0 τ (t - t0), chirpPhase F0 phase0 τ (t - t0)) := by
      intro t ht
      have h := const_solution hm he he1 (hsol t ht) (s := t0) (t := t) ⟨min_le_left _ _, le_max_left _ _⟩ ⟨min_le_right _ _, le_max_right _ _⟩
      simp only [h0] at h
      exact ⟨by have := h.1; simp only [τ]; linarith, Prod.ext h.2.1 h.2.2⟩
    exact ⟨fun t ht => (key t ht).1, by rw [hrows]; exact congrArg Ret.rows (List.map_congr_left fun t ht => (key t ht).2)⟩
  · left
    rw [if_neg hok]

/-- C121: a time at or after the merger makes the result the number zero. -/
theorem C121_merger (odeint : Odeint (ℝ × ℝ)) (hex : Exact odeint ConstDom) {F0 e0 mc : ℝ} (phase0 : ℝ) (hF0 : 0 < F0) (hm : 0 < mc)
    (he : 0 ≤ e0) (he1 : e0 < 1) (t0 : ℝ) (ts : List ℝ) (t : ℝ) (ht : t ∈ ts) (hlate : t0 + mergerTime F0 (mc * tsun) e0 ≤ t) :
    solveConst odeint F0 e0 phase0 mc (t0 :: ts) = .zero := by
  rcases C121_chirp odeint hex phase0 hF0 hm he he1 t0 ts with h | h
  · exact h
  · exact absurd (h.1 t (List.mem_cons_of_mem _ ht)) (not_lt.2 hlate)

open scoped Classical in
/-- The integrator that succeeds whenever there is a solution. -/
noncomputable def best {E : Type} [NormedAddCommGroup E] [NormedSpace ℝ E] (dom : E → Prop) : Odeint E := fun rhs y0 t =>
  match t with
  | [] => ([], false)
  | t0 :: ts =>
    if h : ∃ y : ℝ → E, y t0 = y0 ∧ ∀ b ∈ t0 :: ts, Solves rhs dom (min t0 b) (max t0 b) y then ((t0 :: ts).map h.choose, true) else ([], false)

theorem best_exact {E : Type} [NormedAddCommGroup E] [NormedSpace ℝ E] (dom : E → Prop) : Exact (best dom) dom := by
  intro rhs y0 t0 ts hok
  by_cases h : ∃ y : ℝ → E, y t0 = y0 ∧ ∀ b ∈ t0 :: ts, Solves rhs dom (min t0 b) (max t0 b) y
  · refine ⟨h.choose, ?_, h.choose_spec.1, h.choose_spec.2⟩
    simp only [best]
    rw [dif_pos h]
  · simp only [best] at hok
    rw [dif_neg h] at hok
    exact absurd hok (by simp)

theorem best_success {E : Type} [NormedAddCommGroup E] [NormedSpace ℝ E] (dom : E → Prop) {rhs : E → E} {y0 : E} {t0 : ℝ} {ts : List ℝ}
    (h : ∃ y : ℝ → E, y t0 = y0 ∧ ∀ b ∈ t0 :: ts, Solves rhs dom (min t0 b) (max t0 b) y) : (best dom rhs y0 (t0 :: ts)).2 = true := by
  simp only [best]
  rw [dif_pos h]

/-- C121: the bound is sharp: an exact integrator that succeeds whenever there is a solution gives the rows of the chirp for all lists
of times before the merger. -/
theorem C121_sharp {F0 e0 mc : ℝ} (phase0 : ℝ) (hF0 : 0 < F0) (hm : 0 < mc) (he : 0 ≤ e0) (he1 : e0 < 1) (t0 : ℝ) (ts : List ℝ)
    (hts : ∀ t ∈ ts, t < t0 + mergerTime F0 (mc * tsun) e0) :
    Exact (best ConstDom) ConstDom ∧ solveConst (best ConstDom) F0 e0 phase0 mc (t0 :: ts) =
      .rows ((t0 :: ts).map fun t => (chirpF F0 (mergerTime F0 (mc * tsun) e0) (t - t0),
        chirpPhase F0 phase0 (mergerTime F0 (mc * tsun) e0) (t - t0))) := by
  refine ⟨best_exact _, ?_⟩
  rcases C121_chirp (best ConstDom) (best_exact _) phase0 hF0 hm he he1 t0 ts with h | h
  · exfalso
    have hτ : 0 < mergerTime F0 (mc * tsun) e0 := merger_pos hF0 (mul_pos hm tsun_pos) he he1
    have hs : ∃ y : ℝ → ℝ × ℝ, y t0 = (F0, phase0) ∧ ∀ b ∈ t0 :: ts, Solves (constRhs mc e0) ConstDom (min t0 b) (max t0 b) y := by
      refine ⟨fun t => (chirpF F0 (mergerTime F0 (mc * tsun) e0) (t - t0), chirpPhase F0 phase0 (mergerTime F0 (mc * tsun) e0) (t - t0)),
        by simp [chirpF, chirpPhase], fun b hb => chirp_solves hm hF0 he he1 t0 ?_⟩
      rcases max_choice t0 b with e | e
      · rw [e]; simpa using hτ
      · rw [e]
        rcases List.mem_cons.1 hb with rfl | hb
        · simpa using hτ
        · linarith [hts b hb]
    have hok := best_success ConstDom hs
    unfold solveConst check at h
    rw [if_pos hok] at h
    cases h
  · exact h.2

/-! ## Changing eccentricity -/

theorem mono_of_nonneg {Q Q' : ℝ → ℝ} {a b : ℝ} (hQ : ∀ t ∈ Icc a b, HasDerivWithinAt Q (Q' t) (Icc a b) t)
    (h0 : ∀ t ∈ Icc a b, 0 ≤ Q' t) : MonotoneOn Q (Icc a b) :=
  monotoneOn_of_hasDerivWithinAt_nonneg (convex_Icc a b) (fun t ht => (hQ t ht).continuousWithinAt)
    (fun x hx => (hQ x (interior_subset hx)).mono interior_subset) fun x hx => h0 x (interior_subset hx)

/-- More eccentric orbits merge sooner. -/
theorem merger_anti {F M e e' : ℝ} (hF : 0 < F) (hM : 0 < M) (he : 0 ≤ e) (hee : e ≤ e') (he1 : e' < 1) :
    mergerTime F M e' ≤ mergerTime F M e := by
  have hpi := Real.pi_pos
  have h2 : e ^ 2 ≤ e' ^ 2 := by nlinarith
  have h4 : e ^ 4 ≤ e' ^ 4 := by nlinarith [sq_nonneg e, sq_nonneg e']
  have h1 : 0 < 1 - e' ^ 2 := by nlinarith
  unfold mergerTime
  refine mul_le_mul_of_nonneg_left ?_ (by positivity)
  refine div_le_div₀ ?_ ?_ (by positivity) (by linarith)
  · have : 0 ≤ 1 - e ^ 2 := by linarith
    positivity
  · exact Real.rpow_le_rpow h1.le (by linarith) (by norm_num)

/-- What holds on every solution after its start. -/
theorem ecc_solution {mc q : ℝ} (hm : 0 < mc) {a b : ℝ} {y : ℝ → ℝ × ℝ × ℝ × ℝ} (hy : Solves (eccRhs mc q) EccDom a b y) {t : ℝ} (ht : t ∈ Icc a b) :
    let F0 := (y a).1
    let τ := mergerTime F0 (mc * tsun)
    (y t).2.1 ≤ (y a).2.1 ∧ t - a < τ 0 ∧ chirpF F0 (τ 0) (t - a) ≤ (y t).1 ∧
      (t - a < τ (y a).2.1 → (y t).1 ≤ chirpF F0 (τ (y a).2.1) (t - a)) := by
  intro F0 τ
  have hM : 0 < mc * tsun := mul_pos hm tsun_pos
  have hab : a ≤ b := ht.1.trans ht.2
  have ha : a ∈ Icc a b := ⟨le_rfl, hab⟩
  have hpos : ∀ t ∈ Icc a b, 0 < (y t).1 := fun t ht => (hy t ht).1.1
  have he0 : ∀ t ∈ Icc a b, 0 ≤ (y t).2.1 := fun t ht => (hy t ht).1.2.1
  have he1 : ∀ t ∈ Icc a b, (y t).2.1 < 1 := fun t ht => (hy t ht).1.2.2
  have dF : ∀ t ∈ Icc a b, HasDerivWithinAt (fun t => (y t).1) (fdot (y t).1 (mc * tsun) (y t).2.1) (Icc a b) t := fun t ht => fst_deriv (hy t ht).2
  have de : ∀ t ∈ Icc a b, HasDerivWithinAt (fun t => (y t).2.1) (edot (y t).1 (mc * tsun) (y t).2.1) (Icc a b) t :=
    fun t ht => fst_deriv (snd_deriv (hy t ht).2)
  have hanti : ∀ t ∈ Icc a b, (y t).2.1 ≤ (y a).2.1 := by
    intro t ht
    have h := mono_of_nonneg (fun t ht => (de t ht).neg)
      (fun t ht => neg_nonneg.2 (C99_signs (hpos t ht) hM one_pos (he0 t ht) (he1 t ht)).2.1) ha ht ht.1
    simpa using h
  have hτ : ∀ e, 0 ≤ e → e < 1 → 0 < τ e := fun e h h' => merger_pos (hpos a ha) hM h h'
  have hF0 : 0 < F0 := hpos a ha
  have hG0 : 0 < F0 ^ (-(8 / 3) : ℝ) := Real.rpow_pos_of_pos hF0 _
  -- the power of the frequency falls between two rates
  have dG : ∀ t ∈ Icc a b, HasDerivWithinAt (fun t => (y t).1 ^ (-(8 / 3) : ℝ)) (-(F0 ^ (-(8 / 3) : ℝ) / τ (y t).2.1)) (Icc a b) t := by
    intro t ht
    refine ((dF t ht).rpow_const (p := -(8 / 3)) (Or.inl (hpos t ht).ne')).congr_deriv ?_
    rw [fdot_merger (hpos t ht) hM (he0 t ht) (he1 t ht)]
    have h1 := merger_scale (e := (y t).2.1) (hpos t ht) hF0 hM
    have h2 : 0 < mergerTime (y t).1 (mc * tsun) (y t).2.1 := merger_pos (hpos t ht) hM (he0 t ht) (he1 t ht)
    have h3 := hτ _ (he0 t ht) (he1 t ht)
    rw [neg_inj, div_eq_div_iff h2.ne' h3.ne']
    exact h1
  have hlow : ∀ t ∈ Icc a b, F0 ^ (-(8 / 3) : ℝ) * (1 - (t - a) / τ (y a).2.1) ≤ (y t).1 ^ (-(8 / 3) : ℝ) := by
    intro t ht
    have d2 : ∀ u ∈ Icc a b, HasDerivWithinAt (fun t => F0 ^ (-(8 / 3) : ℝ) * ((t - a) / τ (y a).2.1)) (F0 ^ (-(8 / 3) : ℝ) * (1 / τ (y a).2.1)) (Icc a b) u :=
      fun u hu => ((((hasDerivAt_id u).sub_const a).div_const _).const_mul _).hasDerivWithinAt
    have h := mono_of_nonneg (fun u hu => (dG u hu).fun_add (d2 u hu)) (fun u hu => ?_) ha ht ht.1
    · simp only [sub_self, zero_div, mul_zero, add_zero] at h
      have : F0 ^ (-(8 / 3) : ℝ) * (1 - (t - a) / τ (y a).2.1) = F0 ^ (-(8 / 3) : ℝ) - F0 ^ (-(8 / 3) : ℝ) * ((t - a) / τ (y a).2.1) := by ring
      rw [this]
      change F0 ^ (-(8 / 3) : ℝ) ≤ _ at h
      linarith
    · have h1 := hτ _ (he0 a ha) (he1 a ha)
      have h2 : τ (y a).2.1 ≤ τ (y u).2.1 := merger_anti hF0 hM (he0 u hu) (hanti u hu) (he1 a ha)
      have h3 := div_le_div_of_nonneg_left hG0.le h1 h2
      rw [mul_one_div]
      linarith
  have hup : ∀ t ∈ Icc a b, (y t).1 ^ (-(8 / 3) : ℝ) ≤ F0 ^ (-(8 / 3) : ℝ) * (1 - (t - a) / τ 0) := by
    intro t ht
    have d2 : ∀ u ∈ Icc a b, HasDerivWithinAt (fun t => -(F0 ^ (-(8 / 3) : ℝ) * ((t - a) / τ 0))) (-(F0 ^ (-(8 / 3) : ℝ) * (1 / τ 0))) (Icc a b) u :=
      fun u hu => ((((hasDerivAt_id u).sub_const a).div_const _).const_mul _).neg.hasDerivWithinAt
    have h := mono_of_nonneg (fun u hu => (d2 u hu).fun_sub (dG u hu)) (fun u hu => ?_) ha ht ht.1
    · simp only [sub_self, zero_div, mul_zero, neg_zero, zero_sub] at h
      have : F0 ^ (-(8 / 3) : ℝ) * (1 - (t - a) / τ 0) = F0 ^ (-(8 / 3) : ℝ) - F0 ^ (-(8 / 3) : ℝ) * ((t - a) / τ 0) := by ring
      rw [this]
      change -F0 ^ (-(8 / 3) : ℝ) ≤ _ at h
      linarith
    · have h1 := hτ _ (he0 u hu) (he1 u hu)
      have h2 : τ (y u).2.1 ≤ τ 0 := merger_anti hF0 hM le_rfl (he0 u hu) (he1 u hu)
      have h3 := div_le_div_of_nonneg_left hG0.le h1 h2
      rw [mul_one_div]
      linarith
  have hback : ∀ x : ℝ, 0 < x → (x ^ (-(8 / 3) : ℝ)) ^ (-(3 / 8) : ℝ) = x := by
    intro x hx
    rw [← Real.rpow_mul hx.le]
    norm_num
  have hGt : 0 < (y t).1 ^ (-(8 / 3) : ℝ) := Real.rpow_pos_of_pos (hpos t ht) _
  have hin : 0 < 1 - (t - a) / τ 0 := by
    have := lt_of_lt_of_le hGt (hup t ht)
    exact pos_of_mul_pos_right this hG0.le
  refine ⟨hanti t ht, ?_, ?_, fun hlt => ?_⟩
  · rw [sub_pos, div_lt_one (hτ 0 le_rfl one_pos)] at hin
    exact hin
  · have h := Real.rpow_le_rpow_of_nonpos hGt (hup t ht) (by norm_num : (-(3 / 8) : ℝ) ≤ 0)
    rw [hback _ (hpos t ht), Real.mul_rpow hG0.le hin.le, hback _ hF0] at h
    exact h
  · have hin' : 0 < 1 - (t - a) / τ (y a).2.1 := by
      rw [sub_pos, div_lt_one (hτ _ (he0 a ha) (he1 a ha))]
      exact hlt
    have h := Real.rpow_le_rpow_of_nonpos (mul_pos hG0 hin') (hlow t ht) (by norm_num : (-(3 / 8) : ℝ) ≤ 0)
    rw [hback _ (hpos t ht), Real.mul_rpow hG0.le hin'.le, hback _ hF0] at h
    exact h

/-- The eccentricity never vanishes in finite time. -/
theorem ecc_pos {mc q : ℝ} (hm : 0 < mc) {a b : ℝ} {y : ℝ → ℝ × ℝ × ℝ × ℝ} (hy : Solves (eccRhs mc q) EccDom a b y) (h0 : 0 < (y a).2.1)
    {t : ℝ} (ht : t ∈ Icc a b) : 0 < (y t).2.1 := by
  have hM : 0 < mc * tsun := mul_pos hm tsun_pos
  have hpi := Real.pi_pos
  have hab : a ≤ b := ht.1.trans ht.2
  have ha : a ∈ Icc a b := ⟨le_rfl, hab⟩
  have hpos : ∀ t ∈ Icc a b, 0 < (y t).1 := fun t ht => (hy t ht).1.1
  have he0 : ∀ t ∈ Icc a b, 0 ≤ (y t).2.1 := fun t ht => (hy t ht).1.2.1
  have he1 : ∀ t ∈ Icc a b, (y t).2.1 < 1 := fun t ht => (hy t ht).1.2.2
  have h1e : ∀ t ∈ Icc a b, 0 < 1 - (y t).2.1 ^ 2 := fun t ht => by nlinarith [he0 t ht, he1 t ht]
  have dF : ∀ t ∈ Icc a b, HasDerivWithinAt (fun t => (y t).1) (fdot (y t).1 (mc * tsun) (y t).2.1) (Icc a b) t := fun t ht => fst_deriv (hy t ht).2
  have de : ∀ t ∈ Icc a b, HasDerivWithinAt (fun t => (y t).2.1) (edot (y t).1 (mc * tsun) (y t).2.1) (Icc a b) t :=
    fun t ht => fst_deriv (snd_deriv (hy t ht).2)
  have cF : ContinuousOn (fun t => (y t).1) (Icc a b) := fun t ht => (dF t ht).continuousWithinAt
  have ce : ContinuousOn (fun t => (y t).2.1) (Icc a b) := fun t ht => (de t ht).continuousWithinAt
  let c : ℝ → ℝ := fun t => 304 / 15 * (2 * Real.pi * (y t).1) ^ (8 / 3 : ℝ) * (mc * tsun) ^ (5 / 3 : ℝ) *
    ((1 + 121 / 304 * (y t).2.1 ^ 2) / (1 - (y t).2.1 ^ 2) ^ (5 / 2 : ℝ))
  have hc : ContinuousOn c (Icc a b) := by
    refine ((continuousOn_const.mul ((continuousOn_const.mul cF).rpow_const fun t ht => Or.inl ?_)).mul continuousOn_const).mul
      ((continuousOn_const.add (continuousOn_const.mul (ce.pow 2))).div ((continuousOn_const.sub (ce.pow 2)).rpow_const fun t ht => Or.inl ?_) fun t ht => ?_)
    · have := hpos t ht
      show 2 * Real.pi * (y t).1 ≠ 0
      positivity
    · exact (h1e t ht).ne'
    · exact (Real.rpow_pos_of_pos (h1e t ht) _).ne'
  obtain ⟨B, hB⟩ := isCompact_Icc.bddAbove_image hc
  have hB' : ∀ t ∈ Icc a b, c t ≤ B := fun t ht => hB ⟨t, ht, rfl⟩
  have hE : ∀ t ∈ Icc a b, edot (y t).1 (mc * tsun) (y t).2.1 = -c t * (y t).2.1 := fun t ht => by
    rw [edot_eq (hpos t ht) hM]
    simp only [c]
    ring
  have dexp : ∀ t ∈ Icc a b, HasDerivWithinAt (fun t => Real.exp (B * t)) (Real.exp (B * t) * (B * 1)) (Icc a b) t :=
    fun t _ => (((hasDerivAt_id t).const_mul B).exp).hasDerivWithinAt
  have h := mono_of_nonneg (fun t ht => (dexp t ht).fun_mul (de t ht)) (fun t ht => ?_) ha ht ht.1
  · have h2 : 0 < Real.exp (B * t) * (y t).2.1 := lt_of_lt_of_le (mul_pos (Real.exp_pos _) h0) h
    exact pos_of_mul_pos_right h2 (Real.exp_pos _).le
  · rw [hE t ht]
    have : 0 ≤ Real.exp (B * t) * ((B - c t) * (y t).2.1) := mul_nonneg (Real.exp_pos _).le (mul_nonneg (by linarith [hB' t ht]) (he0 t ht))
    linarith

/-- C121: for a changing eccentricity the rows of an exact integrator, at times not before the first, have an eccentricity that has
not grown, a frequency between the chirps of a circular orbit and of one that keeps its eccentricity, and the start's value of Peters'
constant; all times lie before the merger of the circular orbit. -/
theorem C121_eccentric (odeint : Odeint (ℝ × ℝ × ℝ × ℝ)) (hex : Exact odeint EccDom) {F0 e0 gamma0 phase0 mc q : ℝ} (hm : 0 < mc)
    (t0 : ℝ) (ts : List ℝ) (hts : ∀ t ∈ ts, t0 ≤ t) :
    let τ := mergerTime F0 (mc * tsun)
    let peters := fun (F e : ℝ) => F ^ (2 / 3 : ℝ) * e ^ (12 / 19 : ℝ) / (1 - e ^ 2) * (1 + 121 / 304 * e ^ 2) ^ (870 / 2299 : ℝ)
    solveEcc odeint F0 e0 gamma0 phase0 mc q (t0 :: ts) = .zero ∨
      ∃ y : ℝ → ℝ × ℝ × ℝ × ℝ, solveEcc odeint F0 e0 gamma0 phase0 mc q (t0 :: ts) = .rows ((t0 :: ts).map y) ∧
        y t0 = (F0, e0, gamma0, phase0) ∧ ∀ t ∈ ts, t < t0 + τ 0 ∧ (y t).2.1 ≤ e0 ∧ chirpF F0 (τ 0) (t - t0) ≤ (y t).1 ∧
          (t < t0 + τ e0 → (y t).1 ≤ chirpF F0 (τ e0) (t - t0)) ∧ (0 < e0 → 0 < (y t).2.1 ∧ peters (y t).1 (y t).2.1 = peters F0 e0) := by
  intro τ peters
  unfold solveEcc check
  by_cases hok : (odeint (eccRhs mc q) (F0, e0, gamma0, phase0) (t0 :: ts)).2 = true
  · right
    rw [if_pos hok]
    obtain ⟨y, hrows, h0, hsol⟩ := hex _ _ t0 ts hok
    refine ⟨y, by rw [hrows], h0, fun t ht => ?_⟩
    have hs := hsol t (List.mem_cons_of_mem _ ht)
    rw [min_eq_left (hts t ht), max_eq_right (hts t ht)] at hs
    have ht' : t ∈ Icc t0 t := ⟨hts t ht, le_rfl⟩
    have ht0 : t0 ∈ Icc t0 t := ⟨le_rfl, hts t ht⟩
    obtain ⟨h1, h2, h3, h4⟩ := ecc_solution hm hs ht'
    simp only [h0] at h1 h2 h3 h4
    refine ⟨by simp only [τ]; linarith, h1, h3, fun h => h4 (by simp only [τ] at h; linarith), fun he => ?_⟩
    have hp : ∀ u ∈ Icc t0 t, 0 < (y u).2.1 := fun u hu => ecc_pos hm hs (by rw [h0]; exact he) hu
    refine ⟨hp t ht', ?_⟩
    have h := C99_peters (fun _ => 0) mc q hm (fun t => (y t).1) (fun t => (y t).2.1) (a := t0) (b := t) (fun u hu => (hs u hu).1.1)
      (fun u hu => ⟨hp u hu, (hs u hu).1.2.2⟩) (fun u hu => fst_deriv (hs u hu).2) (fun u hu => fst_deriv (snd_deriv (hs u hu).2)) ht' ht0
    simp only [h0] at h
    exact h
  · left
    rw [if_neg hok]

/-! ## Solutions exist -/

theorem eccRhs_smooth {mc q F e γ φ : ℝ} (hm : 0 < mc) (hq : 0 < q) (hF : 0 < F) (he : 0 ≤ e) (he1 : e < 1) :
    ContDiffAt ℝ 1 (eccRhs mc q) (F, e, γ, φ) := by
  have hM : 0 < mc * tsun := mul_pos hm tsun_pos
  have hpi := Real.pi_pos
  have h1 : 0 < 1 - e ^ 2 := by nlinarith
  have c1 : ContDiffAt ℝ 1 (fun y : ℝ × ℝ × ℝ × ℝ => y.1) (F, e, γ, φ) := contDiffAt_fst
  have c2 : ContDiffAt ℝ 1 (fun y : ℝ × ℝ × ℝ × ℝ => y.2.1) (F, e, γ, φ) := contDiffAt_fst.comp _ contDiffAt_snd
  have k : ∀ x : ℝ, ContDiffAt ℝ 1 (fun _ : ℝ × ℝ × ℝ × ℝ => x) (F, e, γ, φ) := fun x => contDiffAt_const
  have s1 : ContDiffAt ℝ 1 (fun y : ℝ × ℝ × ℝ × ℝ => 1 - y.2.1 ^ 2) (F, e, γ, φ) := (k 1).sub (c2.pow 2)
  have p : ∀ r : ℝ, ContDiffAt ℝ 1 (fun y : ℝ × ℝ × ℝ × ℝ => (1 - y.2.1 ^ 2) ^ r) (F, e, γ, φ) := fun r => s1.rpow_const_of_ne h1.ne'
  have pne : ∀ r : ℝ, (1 - e ^ 2) ^ r ≠ 0 := fun r => (Real.rpow_pos_of_pos h1 r).ne'
  have x1 : ContDiffAt ℝ 1 (fun y : ℝ × ℝ × ℝ × ℝ => 2 * Real.pi * (mc * tsun) * y.1) (F, e, γ, φ) := (k _).mul c1
  refine ContDiffAt.prodMk ?_ (ContDiffAt.prodMk ?_ (ContDiffAt.prodMk ?_ ?_))
  · exact (((k _).mul (x1.rpow_const_of_ne (by positivity))).mul (((k _).add ((k _).mul (c2.pow 2))).add ((k _).mul (c2.pow 4)))).div (p _) (pne _)
  · exact ((((k _).mul (x1.rpow_const_of_ne (by positivity))).mul c2).mul ((k _).add ((k _).mul (c2.pow 2)))).div (p _) (pne _)
  · set m := (((1 + q) ^ 2) / q) ^ (3 / 5 : ℝ) * (mc * tsun) with hmdef
    have hmp : 0 < m := by positivity
    have x2 : ContDiffAt ℝ 1 (fun y : ℝ × ℝ × ℝ × ℝ => (2 * Real.pi * y.1 * m) ^ (2 / 3 : ℝ)) (F, e, γ, φ) :=
      (((k _).mul c1).mul (k m)).rpow_const_of_ne (by positivity)
    exact ((((k _).mul c1).mul x2).div s1 h1.ne').mul ((k _).add ((((k _).mul x2).div s1 h1.ne').mul ((k _).sub ((k _).mul (c2.pow 2)))))
  · exact (k _).mul c1

/-- C99, C121: every bound eccentric orbit has a solution around its start, so that the relation of Peters is about something. -/
theorem C99_exists {mc q F0 e0 γ0 φ0 : ℝ} (hm : 0 < mc) (hq : 0 < q) (hF : 0 < F0) (he : 0 < e0) (he1 : e0 < 1) (t0 : ℝ) :
    ∃ ε > 0, ∃ y : ℝ → ℝ × ℝ × ℝ × ℝ, y t0 = (F0, e0, γ0, φ0) ∧ Solves (eccRhs mc q) (fun y => 0 < y.1 ∧ 0 < y.2.1 ∧ y.2.1 < 1) (t0 - ε) (t0 + ε) y := by
  obtain ⟨y, h0, ε, hε, hy⟩ :=
    (eccRhs_smooth (γ := γ0) (φ := φ0) hm hq hF he.le he1).exists_forall_mem_closedBall_exists_eq_forall_mem_Ioo_hasDerivAt₀ t0
  have hc : ContinuousAt y t0 := (hy t0 ⟨by linarith, by linarith⟩).continuousAt
  have hopen : IsOpen {y : ℝ × ℝ × ℝ × ℝ | 0 < y.1 ∧ 0 < y.2.1 ∧ y.2.1 < 1} := by
    refine (isOpen_lt continuous_const continuous_fst).inter ((isOpen_lt continuous_const (continuous_fst.comp continuous_snd)).inter ?_)
    exact isOpen_lt (continuous_fst.comp continuous_snd) continuous_const
  have hev := hc.eventually (hopen.mem_nhds (show y t0 ∈ _ by rw [h0]; exact ⟨hF, he, he1⟩))
  obtain ⟨δ, hδ, hball⟩ := Metric.eventually_nhds_iff.1 hev
  refine ⟨min ε δ / 2, by positivity, y, h0, fun t ht => ⟨hball ?_, (hy t ?_).hasDerivWithinAt⟩⟩
  · rw [Real.dist_eq, abs_lt]
    have := min_le_right ε δ
    constructor <;> linarith [ht.1, ht.2]
  · have := min_le_left ε δ
    have : 0 < min ε δ := by positivity
    exact ⟨by linarith [ht.1], by linarith [ht.2]⟩

/-- A binary of 10^9 solar masses at 10 nHz: an exact integrator gives its chirp at all times before the merger, and fails at the
merger. -/
example (ts : List ℝ) (hts : ∀ t ∈ ts, t < 0 + mergerTime 1e-8 (1e9 * tsun) 0) :
    (∃ y, solveConst (best ConstDom) 1e-8 0 0 1e9 (0 :: ts) = .rows y) ∧
      solveConst (best ConstDom) 1e-8 0 0 1e9 [0, mergerTime 1e-8 (1e9 * tsun) 0] = .zero :=
  ⟨⟨_, (C121_sharp 0 (by norm_num) (by norm_num) le_rfl one_pos 0 ts hts).2⟩,
    C121_merger _ (best_exact _) 0 (by norm_num) (by norm_num) le_rfl one_pos 0 [mergerTime 1e-8 (1e9 * tsun) 0]
      (mergerTime 1e-8 (1e9 * tsun) 0) (by simp) (by simp)⟩

/-- An exact integrator that succeeds gives rows for an eccentric orbit, at some later time. -/
example : ∃ t > 0, ∃ y, solveEcc (best EccDom) 1e-8 0.5 0 0 1e9 1 [0, t] = .rows y := by
  obtain ⟨ε, hε, y, h0, hy⟩ := C99_exists (mc := 1e9) (q := 1) (F0 := 1e-8) (e0 := 0.5) (γ0 := 0) (φ0 := 0) (by norm_num) (by norm_num)
    (by norm_num) (by norm_num) (by norm_num) 0
  refine ⟨ε, hε, ?_⟩
  have hok := best_success EccDom (rhs := eccRhs 1e9 1) (y0 := (1e-8, 0.5, 0, 0)) (t0 := 0) (ts := [ε]) ⟨y, h0, fun b hb t ht => ?_⟩
  · refine ⟨(best EccDom (eccRhs 1e9 1) (1e-8, 0.5, 0, 0) [0, ε]).1, ?_⟩
    unfold solveEcc check
    rw [if_pos hok]
  · have hsub : Icc (min 0 b) (max 0 b) ⊆ Icc (0 - ε) (0 + ε) := by
      have : b = 0 ∨ b = ε := by simpa using hb
      rcases this with rfl | rfl
      · rw [min_self, max_self]; exact Icc_subset_Icc (by linarith) (by linarith)
      · rw [min_eq_left hε.le, max_eq_right hε.le]; exact Icc_subset_Icc (by linarith) (by linarith)
    obtain ⟨⟨h1, h2, h3⟩, h4⟩ := hy t (hsub ht)
    exact ⟨⟨h1, h2.le, h3⟩, h4.mono hsub⟩

end Verif.Inspiral
