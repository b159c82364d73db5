import Mathlib.Analysis.SpecialFunctions.Gamma.Basic
import Mathlib.MeasureTheory.Integral.Gamma
import Mathlib.Tactic.Positivity
import Verif.Model.Spectra
import Verif.Props.Bases
import Verif.Spec.Prior

/-!
# Power spectra: C66, C90, C92
-/

namespace Verif.Spectra

open Verif Verif.Bases

/-! ## Lemmas about the bins -/

theorem every_skip {α : Type} (c k : Nat) (l m : List α) (h : l.length = k) : every c k (l ++ m) = every c 0 m := by
  induction l generalizing k with
  | nil => simp at h; subst h; rfl
  | cons x l ih =>
    cases k with
    | zero => simp at h
    | succ k => exact ih k (by simpa using h)

theorem every_rep {α : Type} (c : Nat) (hc : 0 < c) (g : List α) : every c 0 (rep c g) = g := by
  induction g with
  | nil => rfl
  | cons x g ih =>
    obtain ⟨d, rfl⟩ : ∃ d, c = d + 1 := ⟨c - 1, by omega⟩
    rw [rep_cons, List.replicate_succ, List.cons_append, every, Nat.add_sub_cancel, every_skip _ _ _ _ (by simp), ih]

theorem steps_length (p : ℝ) (l : List ℝ) : (steps p l).length = l.length := by
  induction l generalizing p with
  | nil => rfl
  | cons x l ih => simp [steps, ih]

theorem steps_append (p : ℝ) (l m : List ℝ) : steps p (l ++ m) = steps p l ++ steps (l.getLastD p) m := by
  induction l generalizing p with
  | nil => simp [steps]
  | cons x l ih =>
    simp only [List.cons_append, steps, ih]
    cases l <;> simp [List.getLastD]

/-- The width of the bin ending at the `j`-th frequency. -/
def bin (g : List ℝ) (j : Nat) : ℝ := g.getD j 0 - if j = 0 then 0 else g.getD (j - 1) 0

theorem steps_get (p : ℝ) (l : List ℝ) (j : Nat) (hj : j < l.length) :
    (steps p l)[j]? = some (l.getD j 0 - if j = 0 then p else l.getD (j - 1) 0) := by
  induction l generalizing p j with
  | nil => simp at hj
  | cons x l ih =>
    cases j with
    | zero => simp [steps]
    | succ j =>
      rw [steps, List.getElem?_cons_succ, ih x j (by simpa using hj)]
      cases j <;> simp

theorem bc_rep (h : ℝ → ℝ → ℝ) (c : Nat) (g w : List ℝ) (hl : g.length = w.length) :
    bc h (rep c g) (rep c w) = .ok (rep c (List.zipWith h g w)) := by
  unfold bc
  rw [if_pos (by rw [rep_length, rep_length, hl])]
  congr 1
  induction g generalizing w with
  | nil => simp [rep]
  | cons x g ih =>
    cases w with
    | nil => simp at hl
    | cons y w =>
      rw [rep_cons, rep_cons, List.zipWith_append (by simp), List.zipWith_cons_cons, rep_cons, ih w (by simpa using hl)]
      simp

/-- The common form of the spectra with one frequency for each `c` columns. -/
theorem values (h : ℝ → ℝ → ℝ) (c : Nat) (hc : 0 < c) (g : List ℝ) :
    (do let df ← widths c (rep c g); bc h (rep c g) df) = .ok (rep c (List.zipWith h g (steps 0 g))) := by
  unfold widths
  rw [if_neg hc.ne', every_rep c hc]
  exact bc_rep h c g _ (steps_length 0 g).symm

/-- Positive increasing frequencies. -/
def Ascending (g : List ℝ) : Prop := (0 :: g).Pairwise (· < ·)

theorem bin_pos {g : List ℝ} (hg : Ascending g) {j : Nat} (hj : j < g.length) : 0 < bin g j := by
  unfold bin
  rw [Ascending, List.pairwise_iff_getElem] at hg
  cases j with
  | zero =>
    have := hg 0 1 (by simp) (by simp; omega) (by norm_num)
    simp at this
    simp [hj, this]
  | succ j =>
    have := hg (j + 1) (j + 2) (by simp; omega) (by simp; omega) (by omega)
    simp at this
    simp [hj, show j < g.length by omega, this]

theorem ascending_pos {g : List ℝ} (hg : Ascending g) {x : ℝ} (hx : x ∈ g) : 0 < x :=
  List.rel_of_pairwise_cons hg hx

/-- What C66 says of a spectrum `S` of frequencies with `c` columns each, of density `h`: one value for each
column, equal for the columns of a frequency, density times bin width, and positive. -/
def Good (S : List ℝ → Except PyErr (List ℝ)) (c : Nat) (h : ℝ → ℝ) (g : List ℝ) : Prop :=
  ∃ w : List ℝ, S (rep c g) = .ok (rep c w) ∧ w.length = g.length ∧ (∀ x ∈ w, 0 < x) ∧
    ∀ (j : Nat) (x : ℝ), g[j]? = some x → w[j]? = some (h x * bin g j)

theorem good_of {S : List ℝ → Except PyErr (List ℝ)} {c : Nat} (hc : 0 < c) {h : ℝ → ℝ}
    (hS : ∀ f, S f = (do let df ← widths c f; bc (fun x w => h x * w) f df)) (hpos : ∀ x, 0 < x → 0 < h x)
    {g : List ℝ} (hg : Ascending g) : Good S c h g := by
  have key : ∀ (j : Nat) (x : ℝ), g[j]? = some x →
      (List.zipWith (fun x w => h x * w) g (steps 0 g))[j]? = some (h x * bin g j) := by
    intro j x hx
    have hj : j < g.length := by
      rcases List.getElem?_eq_some_iff.1 hx with ⟨h, _⟩; exact h
    rw [List.getElem?_zipWith, hx, steps_get 0 g j hj]
    rfl
  refine ⟨List.zipWith (fun x w => h x * w) g (steps 0 g), ?_, by simp [steps_length], ?_, key⟩
  · rw [hS, values _ c hc g]
  · intro y hy
    obtain ⟨j, hj, hyj⟩ := List.getElem_of_mem hy
    have hj' : j < g.length := by simp [steps_length] at hj; exact hj
    have := key j g[j] (by simp [hj'])
    rw [List.getElem?_eq_getElem hj, hyj] at this
    simp only [Option.some.injEq] at this
    rw [this]
    exact mul_pos (hpos _ (ascending_pos hg (List.getElem_mem _))) (bin_pos hg hj')

/-! ## C66 -/

/-- One over a year of 365.25 days, in seconds. -/
noncomputable def yearly : ℝ := 1 / (365.25 * 86400)

theorem fyr_eq : fyr = yearly := by unfold fyr yearly; norm_num

theorem fyr_pos : 0 < yearly := by unfold yearly; norm_num

theorem ten_pos (x : ℝ) : (0 : ℝ) < (10 : ℝ) ^ x := Real.rpow_pos_of_pos (by norm_num) _

/-- **C66**: the power law: amplitude, slope and normalisation for every frequency, times the width of the bin. -/
theorem C66_powerlaw (A γ : ℝ) (c : Nat) (hc : 0 < c) (g : List ℝ) (hg : Ascending g) :
    Good (fun f => powerlaw f A γ c) c
      (fun x => ((10 : ℝ) ^ A) ^ 2 / (12 * Real.pi ^ 2) * yearly ^ (γ - 3) * x ^ (-γ)) g := by
  apply good_of hc _ _ hg
  · intro f
    unfold powerlaw
    simp only [div_div, fyr_eq]
  · intro x hx
    have := ten_pos A
    have := Real.rpow_pos_of_pos fyr_pos (γ - 3)
    have := Real.rpow_pos_of_pos hx (-γ)
    have := Real.pi_pos
    positivity

/-- **C66**: the turnover spectrum. -/
theorem C66_turnover (A γ lf0 κ β : ℝ) (g : List ℝ) (hg : Ascending g) :
    Good (fun f => turnover f A γ lf0 κ β) 2
      (fun x => ((10 : ℝ) ^ A * (x / yearly) ^ ((3 - γ) / 2) / (1 + ((10 : ℝ) ^ lf0 / x) ^ κ) ^ β) ^ 2 /
        (12 * Real.pi ^ 2 * x ^ 3)) g := by
  apply good_of (by norm_num) _ _ hg
  · intro f
    unfold turnover
    simp only [div_div, fyr_eq]
  · intro x hx
    have := ten_pos A
    have := Real.rpow_pos_of_pos (div_pos hx fyr_pos) ((3 - γ) / 2)
    have h1 := Real.rpow_pos_of_pos (div_pos (ten_pos lf0) hx) κ
    have := Real.rpow_pos_of_pos (show 0 < 1 + ((10 : ℝ) ^ lf0 / x) ^ κ by linarith) β
    have := Real.pi_pos
    positivity

/-- **C66**: the turnover spectrum with a knee. -/
theorem C66_turnover_knee (A γ lfb lfk κ δ : ℝ) (g : List ℝ) (hg : Ascending g) :
    Good (fun f => turnoverKnee f A γ lfb lfk κ δ) 2
      (fun x => ((10 : ℝ) ^ A * (x / yearly) ^ ((3 - γ) / 2) * (1 + x / (10 : ℝ) ^ lfk) ^ δ /
        Real.sqrt (1 + ((10 : ℝ) ^ lfb / x) ^ κ)) ^ 2 / (12 * Real.pi ^ 2 * x ^ 3)) g := by
  apply good_of (by norm_num) _ _ hg
  · intro f
    unfold turnoverKnee
    simp only [div_div, fyr_eq]
  · intro x hx
    have := ten_pos A
    have := Real.rpow_pos_of_pos (div_pos hx fyr_pos) ((3 - γ) / 2)
    have h1 := Real.rpow_pos_of_pos (div_pos (ten_pos lfb) hx) κ
    have := Real.sqrt_pos.2 (show 0 < 1 + ((10 : ℝ) ^ lfb / x) ^ κ by linarith)
    have h2 := div_pos hx (ten_pos lfk)
    have := Real.rpow_pos_of_pos (show 0 < 1 + x / (10 : ℝ) ^ lfk by linarith) δ
    have := Real.pi_pos
    positivity

/-- **C66**: the broken power law. -/
theorem C66_broken (A γ δ lfb κ : ℝ) (g : List ℝ) (hg : Ascending g) :
    Good (fun f => brokenPowerlaw f A γ δ lfb κ) 2
      (fun x => ((10 : ℝ) ^ A * (x / yearly) ^ ((3 - γ) / 2) *
        (1 + (x / (10 : ℝ) ^ lfb) ^ (1 / κ)) ^ (κ * (γ - δ) / 2)) ^ 2 / (12 * Real.pi ^ 2 * x ^ 3)) g := by
  apply good_of (by norm_num) _ _ hg
  · intro f
    unfold brokenPowerlaw
    simp only [div_div, fyr_eq]
  · intro x hx
    have := ten_pos A
    have := Real.rpow_pos_of_pos (div_pos hx fyr_pos) ((3 - γ) / 2)
    have h1 := Real.rpow_pos_of_pos (div_pos hx (ten_pos lfb)) (1 / κ)
    have := Real.rpow_pos_of_pos (show 0 < 1 + (x / (10 : ℝ) ^ lfb) ^ (1 / κ) by linarith) (κ * (γ - δ) / 2)
    have := Real.pi_pos
    positivity

/-- **C66**: with weights, `powerlaw_genmodes` puts the squared weights in the place of the bin widths; without,
it is `powerlaw`. -/
theorem C66_genmodes (A γ : ℝ) (c : Nat) (g w : List ℝ) (hw : g.length = w.length) :
    powerlawGenmodes (rep c g) A γ c (some w) = .ok (rep c (List.zipWith (fun x y =>
      ((10 : ℝ) ^ A) ^ 2 / (12 * Real.pi ^ 2) * yearly ^ (γ - 3) * x ^ (-γ) * y ^ 2) g w)) ∧
    ∀ f, powerlawGenmodes f A γ c none = powerlaw f A γ c := by
  refine ⟨?_, fun f => rfl⟩
  unfold powerlawGenmodes
  simp only [bind, Except.bind]
  rw [bc_rep _ c g _ (by simp [hw])]
  congr 2
  rw [List.zipWith_map_right]
  simp only [div_div, fyr_eq]

/-- **C66**: `infinitepower` gives every frequency the variance `1e40`. -/
theorem C66_infinite (f : List ℝ) : (infinitepower f).length = f.length ∧ ∀ x ∈ infinitepower f, x = 1e40 := by
  refine ⟨by simp [infinitepower], fun x hx => ?_⟩
  simp only [infinitepower, List.mem_map] at hx
  obtain ⟨-, -, rfl⟩ := hx
  norm_num

theorem values_prefix (h : ℝ → ℝ → ℝ) (c : Nat) (g g' : List ℝ) :
    rep c (List.zipWith h g (steps 0 g)) <+: rep c (List.zipWith h (g ++ g') (steps 0 (g ++ g'))) := by
  rw [steps_append, List.zipWith_append (by rw [steps_length]), rep_append]
  exact List.prefix_append _ _

/-- **C66**: the values at given frequencies do not depend on higher frequencies: adding some extends the
vector. -/
theorem C66_prefix (A γ lf0 κ β lfk δ : ℝ) (c : Nat) (hc : 0 < c) (g g' : List ℝ) :
    (∃ v v', powerlaw (rep c g) A γ c = .ok v ∧ powerlaw (rep c (g ++ g')) A γ c = .ok v' ∧ v <+: v') ∧
    (∃ v v', turnover (rep 2 g) A γ lf0 κ β = .ok v ∧ turnover (rep 2 (g ++ g')) A γ lf0 κ β = .ok v' ∧ v <+: v') ∧
    (∃ v v', turnoverKnee (rep 2 g) A γ lf0 lfk κ δ = .ok v ∧
      turnoverKnee (rep 2 (g ++ g')) A γ lf0 lfk κ δ = .ok v' ∧ v <+: v') ∧
    (∃ v v', brokenPowerlaw (rep 2 g) A γ δ lf0 κ = .ok v ∧
      brokenPowerlaw (rep 2 (g ++ g')) A γ δ lf0 κ = .ok v' ∧ v <+: v') :=
  ⟨⟨_, _, values _ c hc g, values _ c hc (g ++ g'), values_prefix _ c g g'⟩,
    ⟨_, _, values _ 2 (by norm_num) g, values _ 2 (by norm_num) (g ++ g'), values_prefix _ 2 g g'⟩,
    ⟨_, _, values _ 2 (by norm_num) g, values _ 2 (by norm_num) (g ++ g'), values_prefix _ 2 g g'⟩,
    ⟨_, _, values _ 2 (by norm_num) g, values _ 2 (by norm_num) (g ++ g'), values_prefix _ 2 g g'⟩⟩

/-- **C66**: on the frequencies of the Fourier basis with span `T` every bin is `1/T` wide: the sine and cosine
of mode `k` have the variance `A² / (12π²) yearly^(γ-3) (k/T)^(-γ) / T`. -/
theorem C66_fourier (seeded : Int → Rng) (rng : Rng) (toas : List ℝ) (n : Nat) (T : ℝ) (hT : 0 < T) (A γ : ℝ) :
    ∃ F fr v, red seeded rng toas { nmodes := n, Tspan := some T } = .ok ((F, fr), rng) ∧
      powerlaw fr A γ 2 = .ok v ∧ v.length = 2 * n ∧ (∀ x ∈ v, 0 < x) ∧
      ∀ j < n, ∀ s < 2, v[2 * j + s]? = some (((10 : ℝ) ^ A) ^ 2 / (12 * Real.pi ^ 2) * yearly ^ (γ - 3) *
        (((j : ℝ) + 1) / T) ^ (-γ) * (1 / T)) := by
  have hf : freqs toas { nmodes := n, Tspan := some T } = .ok (harmonics n T, false) := by
    simp [freqs, tspan, bind, Except.bind]
  have hp : phases seeded rng toas { nmodes := n, Tspan := some T } (harmonics n T).length =
      .ok (List.replicate n 0, rng) := by simp [phases, harmonics]
  have hg : Ascending (harmonics n T) := by
    rw [Ascending, List.pairwise_cons]
    refine ⟨?_, ?_⟩
    · intro x hx
      simp only [harmonics, List.mem_map] at hx
      obtain ⟨k, _, rfl⟩ := hx
      positivity
    · rw [harmonics, List.pairwise_map]
      refine List.pairwise_lt_range.imp ?_
      intro a b hab
      apply div_lt_div_of_pos_right _ hT
      have : (a : ℝ) < b := by exact_mod_cast hab
      linarith
  obtain ⟨w, hw, hl, hpos, hval⟩ := C66_powerlaw A γ 2 (by norm_num) (harmonics n T) hg
  refine ⟨_, _, rep 2 w, red_of hf hp, hw, by rw [rep_length, hl]; simp [harmonics], ?_, ?_⟩
  · intro x hx
    simp only [rep, List.mem_flatMap, List.mem_replicate] at hx
    obtain ⟨y, hy, _, rfl⟩ := hx
    exact hpos _ hy
  · intro j hj s hs
    rw [rep_get 2 w j s hs]
    have hj' : (harmonics n T)[j]? = some (((j : ℝ) + 1) / T) := by simp [harmonics, hj]
    rw [hval j _ hj']
    congr 2
    unfold bin
    rw [List.getD, hj']
    cases j with
    | zero => simp
    | succ j =>
      have hj'' : (harmonics n T)[j]? = some (((j : ℝ) + 1) / T) := by simp [harmonics, show j < n by omega]
      simp only [Option.getD_some, Nat.add_sub_cancel, Nat.succ_ne_zero, if_false]
      rw [List.getD, hj'']
      simp only [Option.getD_some]
      push_cast
      field_simp
      ring

/-- C66 fails if fewer components are declared than the basis has columns for a frequency, as with the default
and the ephemeris basis: two of three pairs of columns get the variance zero. -/
theorem C66_components_false (A γ : ℝ) (g : List ℝ) :
    ∃ v, powerlaw (rep 6 g) A γ 2 = .ok v ∧ ∀ j < g.length, ∀ s, 2 ≤ s → s < 6 → v[6 * j + s]? = some 0 := by
  have e : rep 6 g = rep 2 (rep 3 g) := by
    induction g with
    | nil => rfl
    | cons x g ih => rw [rep_cons, ih, rep_cons, rep_append]; rfl
  refine ⟨_, by rw [e]; exact values _ 2 (by norm_num) (rep 3 g), ?_⟩
  intro j hj s h2 h6
  have hx : g[j]? = some g[j] := by simp [hj]
  obtain ⟨q, t, hq, ht, hs⟩ : ∃ q t, (q = 1 ∨ q = 2) ∧ t < 2 ∧ s = 2 * q + t :=
    ⟨s / 2, s % 2, by omega, by omega, by omega⟩
  rw [show 6 * j + s = 2 * (3 * j + q) + t by omega, rep_get 2 _ _ t ht, List.getElem?_zipWith,
    rep_get 3 g j q (by omega), hx, steps_get 0 _ _ (by rw [rep_length]; omega), if_neg (by omega)]
  have h1 : (rep 3 g).getD (3 * j + q) 0 = g[j] := by rw [List.getD, rep_get 3 g j q (by omega), hx]; rfl
  have h2 : (rep 3 g).getD (3 * j + q - 1) 0 = g[j] := by
    rw [show 3 * j + q - 1 = 3 * j + (q - 1) by omega, List.getD, rep_get 3 g j (q - 1) (by omega), hx]; rfl
  rw [h1, h2]
  simp

/-- **C66**: if the columns cannot be divided into groups of `c` the call raises, except for a single column. -/
theorem C66_shape (A γ : ℝ) (c : Nat) (f : List ℝ) (h : ¬ c ∣ f.length) (h1 : f.length ≠ 1) :
    powerlaw f A γ c = .error .valueError := by
  unfold powerlaw widths
  rcases Nat.eq_zero_or_pos c with rfl | hc
  · rfl
  · rw [if_neg hc.ne']
    simp only [bind, Except.bind]
    generalize hw : rep c (steps 0 (every c 0 f)) = w
    have hl : w.length = c * (every c 0 f).length := by rw [← hw, rep_length, steps_length]
    unfold bc
    rw [if_neg (by rw [hl]; intro h'; exact h ⟨_, h'⟩)]
    have hw1 : w.length ≠ 1 := by
      rw [hl]
      intro h'
      have : c = 1 := Nat.eq_one_of_mul_eq_one_right h'
      subst this
      exact h (one_dvd _)
    match f, w with
    | [], w => exact absurd (dvd_zero c) h
    | [x], _ => exact absurd rfl h1
    | _ :: _ :: _, [] => rfl
    | _ :: _ :: _, [y] => exact absurd rfl hw1
    | _ :: _ :: _, _ :: _ :: _ => rfl

/-- C66 fails for a basis of a single column: the prior has as many values as components are declared. -/
theorem C66_one_column_false (A γ x : ℝ) (c : Nat) (hc : 2 ≤ c) :
    ∃ v, powerlaw [x] A γ c = .ok v ∧ v.length = c := by
  unfold powerlaw widths
  rw [if_neg (by omega)]
  simp only [bind, Except.bind, every, steps, rep_cons]
  unfold bc
  rw [if_neg (by simp [rep]; omega)]
  refine ⟨_, rfl, by simp [rep]⟩

/-! ## Free spectra and t-processes -/

/-- **C90**: the free spectrum gives both columns of mode `j` the variance `10^(2 ρ_j)`. -/
theorem C90_free (ρ : List ℝ) : (freeSpectrum ρ).length = 2 * ρ.length ∧ (∀ x ∈ freeSpectrum ρ, 0 < x) ∧
    ∀ (j s : Nat) (r : ℝ), s < 2 → ρ[j]? = some r → (freeSpectrum ρ)[2 * j + s]? = some (((10 : ℝ) ^ r) ^ 2) := by
  refine ⟨by rw [freeSpectrum, rep_length]; simp, ?_, ?_⟩
  · intro x hx
    simp only [freeSpectrum, rep, List.mem_flatMap, List.mem_map, List.mem_replicate] at hx
    obtain ⟨_, ⟨r, _, rfl⟩, _, rfl⟩ := hx
    exact ten_pos _
  · intro j s r hs hr
    rw [freeSpectrum, rep_get 2 _ j s hs, List.getElem?_map, hr, Option.map_some, mul_comm, Real.rpow_mul (by norm_num),
      Real.rpow_two]

theorem zip_one (v : List ℝ) (l : List ℝ) (h : v.length = l.length) :
    List.zipWith (fun x y => x * y) v (l.map fun _ => 1) = v := by
  induction v generalizing l with
  | nil => simp
  | cons x v ih =>
    cases l with
    | nil => simp at h
    | cons y l => rw [List.map_cons, List.zipWith_cons_cons, mul_one, ih l (by simpa using h)]

/-- **C90**: without factors both t-processes are the power law; with one factor for each mode they multiply it. -/
theorem C90_t_process (A γ : ℝ) (g : List ℝ) :
    tProcess (rep 2 g) A γ none = powerlaw (rep 2 g) A γ 2 ∧
    tProcessAdapt (rep 2 g) A γ .none = powerlaw (rep 2 g) A γ 2 ∧
    ∃ w, powerlaw (rep 2 g) A γ 2 = .ok (rep 2 w) ∧ w.length = g.length ∧ ∀ al : List ℝ, al.length = g.length →
      tProcess (rep 2 g) A γ (some al) = .ok (rep 2 (List.zipWith (· * ·) w al)) ∧
      tProcessAdapt (rep 2 g) A γ (.vec al) = .ok (rep 2 (List.zipWith (· * ·) w al)) := by
  have hv : powerlaw (rep 2 g) A γ 2 = _ := values _ 2 (by norm_num) g
  set w := List.zipWith (fun x w => ((10 : ℝ) ^ A) ^ 2 / 12 / Real.pi ^ 2 * fyr ^ (γ - 3) * x ^ (-γ) * w) g (steps 0 g)
    with hw
  have hl : w.length = g.length := by simp [w, steps_length]
  refine ⟨?_, ?_, w, hv, hl, fun al hal => ⟨?_, ?_⟩⟩
  · unfold tProcess
    rw [hv]
    simp only [bind, Except.bind]
    unfold bc
    rw [if_pos (by simp [rep_length, hl]), zip_one _ _ (by simp [rep_length, hl])]
  · unfold tProcessAdapt
    rw [hv]
    simp only [bind, Except.bind]
    unfold bc
    rw [if_pos (by simp [rep_length, hl]), zip_one _ _ (by simp [rep_length, hl])]
  · unfold tProcess
    rw [hv]
    simp only [bind, Except.bind]
    rw [bc_rep _ 2 w al (by rw [hl, hal])]
  · unfold tProcessAdapt
    rw [hv]
    simp only [bind, Except.bind]
    rw [bc_rep _ 2 w al (by rw [hl, hal])]

theorem rint_nearest (x : ℝ) : |x - rint x| ≤ 1 / 2 := by
  have h0 := Int.floor_le x
  have h1 := Int.lt_floor_add_one x
  unfold rint
  rw [abs_le]
  split
  · constructor <;> linarith
  · split
    · push_cast; constructor <;> linarith
    · split
      · constructor <;> linarith
      · push_cast; constructor <;> linarith

theorem rint_int (n : Int) : rint n = n := by simp [rint]

theorem setItem_nat (l : List ℝ) (i : Nat) (v : ℝ) (h : i < l.length) : setItem l i v = .ok (l.set i v) := by
  unfold setItem
  rw [if_pos ⟨by omega, by exact_mod_cast h⟩]
  simp

/-- **C90**: with `nfreq` the factor multiplies both columns of the mode nearest to `nfreq` (counted from zero)
and no others; beyond the last mode it raises. -/
theorem C90_adapt (A γ a nf : ℝ) (g : List ℝ) (k : Nat) (hk : rint nf = k) :
    (g.length ≤ k → tProcessAdapt (rep 2 g) A γ (.one a nf) = .error .indexError) ∧
    (k < g.length → ∃ w w', powerlaw (rep 2 g) A γ 2 = .ok w ∧ tProcessAdapt (rep 2 g) A γ (.one a nf) = .ok w' ∧
      w'.length = w.length ∧ ∀ (i : Nat) (x : ℝ), w[i]? = some x → w'[i]? = some (if i / 2 = k then x * a else x)) := by
  have hlen : ((rep 2 g).map fun _ => (1 : ℝ)).length = 2 * g.length := by rw [List.length_map, rep_length]
  refine ⟨fun h => ?_, fun h => ?_⟩
  · unfold tProcessAdapt
    have : setItem ((rep 2 g).map fun _ => 1) (2 * rint nf) a = .error .indexError := by
      unfold setItem
      rw [hlen, hk, if_neg (by push_cast; omega), if_neg (by omega)]
    simp only [bind, Except.bind]
    rw [this]
  · have hv : powerlaw (rep 2 g) A γ 2 = _ := values _ 2 (by norm_num) g
    generalize hw : rep 2 (List.zipWith _ g (steps 0 g)) = w at hv
    have hl : w.length = 2 * g.length := by rw [← hw, rep_length]; simp [steps_length]
    have h1 := setItem_nat ((rep 2 g).map fun _ => 1) (2 * k) a (by rw [hlen]; omega)
    have h2 := setItem_nat (((rep 2 g).map fun _ => 1).set (2 * k) a) (2 * k + 1) a (by rw [List.length_set, hlen]; omega)
    refine ⟨w, List.zipWith (fun x y => x * y) w ((((rep 2 g).map fun _ => 1).set (2 * k) a).set (2 * k + 1) a), hv, ?_, ?_, ?_⟩
    · unfold tProcessAdapt
      simp only [bind, Except.bind, hk]
      push_cast at h1 h2
      rw [h1]
      simp only
      rw [h2, hv]
      simp only
      unfold bc
      rw [if_pos (by rw [List.length_set, List.length_set, hlen, hl])]
    · rw [List.length_zipWith, List.length_set, List.length_set, hlen, hl, min_self]
    · intro i x hx
      have hi : i < 2 * g.length := by
        rcases List.getElem?_eq_some_iff.1 hx with ⟨h, _⟩; omega
      rw [List.getElem?_zipWith, hx, List.getElem?_set, List.getElem?_set, List.length_set, hlen]
      by_cases e1 : 2 * k + 1 = i
      · rw [if_pos e1, if_pos (by omega), if_pos (by omega)]
      · rw [if_neg e1]
        by_cases e2 : 2 * k = i
        · rw [if_pos e2, if_pos (by omega), if_pos (by omega)]
        · rw [if_neg e2, if_neg (by omega), List.getElem?_map, List.getElem?_eq_getElem (by rw [rep_length]; exact hi)]
          simp

/-! ## The inverse gamma density -/

open MeasureTheory Set in
/-- **C92**: `InvGammaPrior` is a probability density for positive shape and scale, positive exactly on the
positive numbers. -/
theorem C92 (α γ : ℝ) (hα : 0 < α) (hγ : 0 < γ) :
    Spec.IsDensity (fun x => invGammaPrior x α γ) ∧ ∀ x, 0 < invGammaPrior x α γ ↔ 0 < x := by
  have hG := Real.Gamma_pos_of_pos hα
  have hpos : ∀ x, 0 < x → 0 < invGammaPrior x α γ := by
    intro x hx
    unfold invGammaPrior
    rw [if_pos hx]
    have := Real.rpow_pos_of_pos (div_pos hx hγ) (-α - 1)
    positivity
  have hneg : ∀ x, ¬ 0 < x → invGammaPrior x α γ = 0 := fun x hx => by unfold invGammaPrior; rw [if_neg hx]
  let g : ℝ → ℝ := fun y => Real.exp (-y) * y ^ (α - 1)
  let h : ℝ → ℝ := fun x => (|(-1 : ℝ)| * x ^ ((-1 : ℝ) - 1)) • g (x ^ (-1 : ℝ))
  have hint : IntegrableOn h (Ioi 0) :=
    (integrableOn_Ioi_comp_rpow_iff g (by norm_num)).2 (Real.GammaIntegral_convergent hα)
  have hval : ∫ x in Ioi 0, h x = Real.Gamma α := by
    rw [Real.Gamma_eq_integral hα]
    exact integral_comp_rpow_Ioi g (by norm_num)
  have hh : ∀ x ∈ Ioi (0 : ℝ), h x = x ^ (-α - 1) * Real.exp (-(1 / x)) := by
    intro x hx
    have hx' : (0 : ℝ) < x := hx
    simp only [h, g, abs_neg, abs_one, one_mul, smul_eq_mul]
    rw [← Real.rpow_mul hx'.le, Real.rpow_neg_one, one_div, mul_comm (Real.exp _), ← mul_assoc, ← Real.rpow_add hx']
    ring_nf
  have hd : (fun x => invGammaPrior x α γ) = (Ioi 0).indicator fun x => (1 / (Real.Gamma α * γ)) * h (γ⁻¹ * x) := by
    funext x
    by_cases hx : 0 < x
    · rw [indicator_of_mem (show x ∈ Ioi 0 from hx), hh _ (by simp only [mem_Ioi]; positivity)]
      unfold invGammaPrior
      rw [if_pos hx, show γ⁻¹ * x = x / γ by rw [div_eq_inv_mul]]
      field_simp
    · rw [indicator_of_notMem (show x ∉ Ioi 0 from hx), hneg x hx]
  have hint' : IntegrableOn (fun x => h (γ⁻¹ * x)) (Ioi 0) := by
    rw [integrableOn_Ioi_comp_mul_left_iff h 0 (inv_pos.2 hγ), mul_zero]
    exact hint
  refine ⟨⟨fun x => ?_, ?_, ?_⟩, fun x => ⟨fun hx => ?_, hpos x⟩⟩
  · by_cases hx : 0 < x
    · exact (hpos x hx).le
    · exact (hneg x hx).ge
  · rw [hd, integrable_indicator_iff measurableSet_Ioi]
    exact hint'.const_mul _
  · rw [hd, integral_indicator measurableSet_Ioi, integral_const_mul, integral_comp_mul_left_Ioi h 0 (inv_pos.2 hγ),
      mul_zero, hval, smul_eq_mul, inv_inv]
    field_simp
  · by_contra hx'
    rw [hneg x hx'] at hx
    exact lt_irrefl _ hx

/-! ## Cases meeting the hypotheses -/

example : Ascending [1, 2, 5] := by
  simp [Ascending]; norm_num

example : rint (5 / 2) = 2 ∧ rint (7 / 2) = 4 := by
  have h1 : ⌊(5 / 2 : ℝ)⌋ = 2 := by rw [Int.floor_eq_iff]; norm_num
  have h2 : ⌊(7 / 2 : ℝ)⌋ = 3 := by rw [Int.floor_eq_iff]; norm_num
  constructor
  · rw [rint, h1]; norm_num
  · rw [rint, h2]; norm_num

example : ¬ (4 : ℕ) ∣ [1, 2, 3].length := by decide

end Verif.Spectra
