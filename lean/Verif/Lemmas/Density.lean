import Mathlib.MeasureTheory.Measure.Lebesgue.Basic
import Verif.Spec.Prior

/-!
# Densities supported on an interval
-/

namespace Verif.Density

open Verif.Spec MeasureTheory Set

/-- A function that is `g` on `[a,b]` and zero outside. -/
noncomputable def on (a b : ℝ) (g : ℝ → ℝ) (x : ℝ) : ℝ := (Icc a b).indicator g x

theorem on_integrable {a b : ℝ} {g : ℝ → ℝ} (hg : Continuous g) : Integrable (on a b g) :=
  (integrable_indicator_iff measurableSet_Icc).2 (hg.continuousOn.integrableOn_Icc)

theorem on_integral {a b : ℝ} (hab : a ≤ b) {F g : ℝ → ℝ} (hg : Continuous g) (hF : ∀ x, HasDerivAt F (g x) x) :
    ∫ x, on a b g x = F b - F a := by
  have h1 : ∫ x, on a b g x = ∫ x in Icc a b, g x := integral_indicator measurableSet_Icc
  rw [h1, integral_Icc_eq_integral_Ioc, ← intervalIntegral.integral_of_le hab]
  exact intervalIntegral.integral_eq_sub_of_hasDerivAt (fun x _ => hF x) (hg.intervalIntegrable _ _)

theorem on_cdf {a b : ℝ} (hab : a ≤ b) {F g : ℝ → ℝ} (hg : Continuous g) (hF : ∀ x, HasDerivAt F (g x) x) (x : ℝ) :
    cdf (on a b g) x = F (max a (min x b)) - F a := by
  have h1 : cdf (on a b g) x = ∫ t in Iic x ∩ Icc a b, g t := setIntegral_indicator measurableSet_Icc
  rw [h1]
  rcases lt_or_ge x a with hx | hx
  · have : Iic x ∩ Icc a b = ∅ := by
      ext t; simp only [mem_inter_iff, mem_Iic, mem_Icc, mem_empty_iff_false, iff_false]
      rintro ⟨h, h', _⟩; linarith
    rw [this, max_eq_left (by exact (min_le_left _ _).trans hx.le)]; simp
  · have hc : a ≤ min x b := le_min hx hab
    have : Iic x ∩ Icc a b = Icc a (min x b) := by
      ext t; simp only [mem_inter_iff, mem_Iic, mem_Icc, le_min_iff]; tauto
    rw [this, max_eq_right hc, integral_Icc_eq_integral_Ioc, ← intervalIntegral.integral_of_le hc]
    exact intervalIntegral.integral_eq_sub_of_hasDerivAt (fun x _ => hF x) (hg.intervalIntegrable _ _)

/-- The measure of the draws below a level. -/
theorem volume_below (t : ℝ) :
    volume {u | u ∈ Ico (0 : ℝ) 1 ∧ u ≤ t} = ENNReal.ofReal (max 0 (min t 1)) := by
  rcases lt_or_ge t 1 with h | h
  · have : {u : ℝ | u ∈ Ico (0 : ℝ) 1 ∧ u ≤ t} = Icc 0 t := by
      ext u; simp only [mem_ofPred_eq, mem_Ico, mem_Icc]
      constructor
      · rintro ⟨⟨a, _⟩, b⟩; exact ⟨a, b⟩
      · rintro ⟨a, b⟩; exact ⟨⟨a, by linarith⟩, b⟩
    rw [this, Real.volume_Icc, min_eq_left h.le, sub_zero]
    rcases le_total 0 t with h' | h'
    · rw [max_eq_right h']
    · rw [max_eq_left h', ENNReal.ofReal_of_nonpos h', ENNReal.ofReal_zero]
  · have : {u : ℝ | u ∈ Ico (0 : ℝ) 1 ∧ u ≤ t} = Ico 0 1 := by
      ext u; simp only [mem_ofPred_eq, mem_Ico]
      constructor
      · rintro ⟨h, _⟩; exact h
      · rintro ⟨a, b⟩; exact ⟨⟨a, b⟩, by linarith⟩
    rw [this, Real.volume_Ico, min_eq_right h]; simp

/-- Inverse transform sampling for a density on an interval. -/
theorem on_samples {a b : ℝ} (hab : a < b) {F g s : ℝ → ℝ} (hg : Continuous g)
    (hF : ∀ x, HasDerivAt F (g x) x) (hFab : F b - F a = 1) (hmono : StrictMono F)
    (hs : ∀ u, 0 ≤ u → u < 1 → F (s u) = F a + u) : Samples s (on a b g) := by
  intro x
  rw [on_cdf hab.le hg hF x]
  have : {u | u ∈ Ico (0 : ℝ) 1 ∧ s u ≤ x} = {u | u ∈ Ico (0 : ℝ) 1 ∧ u ≤ F x - F a} := by
    ext u; simp only [mem_ofPred_eq, mem_Ico]
    refine and_congr_right fun hu => ?_
    rw [← hmono.le_iff_le, hs u hu.1 hu.2]
    constructor <;> intro h <;> linarith
  rw [this, volume_below]
  congr 1
  rw [hmono.monotone.map_max, hmono.monotone.map_min]
  have hb : F b = F a + 1 := by linarith
  rw [hb]
  rcases le_total (F x) (F a + 1) with h | h
  · rw [min_eq_left h, min_eq_left (by linarith)]
    rcases le_total (F a) (F x) with h' | h'
    · rw [max_eq_right h', max_eq_right (by linarith)]
    · rw [max_eq_left h', max_eq_left (by linarith)]; ring
  · rw [min_eq_right h, min_eq_right (by linarith), max_eq_right (zero_le_one (α := ℝ)), max_eq_right (by linarith)]; ring

end Verif.Density
