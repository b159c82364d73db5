import Mathlib.Tactic.Linarith
import Mathlib.Tactic.IntervalCases
import Mathlib.Tactic.FinCases
import Mathlib.Tactic.FieldSimp
import Mathlib.Tactic.Ring
import Mathlib.Algebra.BigOperators.Fin
import Mathlib.Algebra.BigOperators.Field
import Verif.Model.Wideband
import Verif.Spec.Partition
import Verif.Props.WhiteNoise

/-!
# Wideband timing model: C68, C69, C70
-/

namespace Verif.Wideband

open Verif

variable {n : Nat}

/-! ## Bins -/

/-- TOA `i` is in bin `β i` and in no other, and no bin is empty. -/
structure Assigned (bins : List (Bin n)) (β : Fin n → Fin bins.length) : Prop where
  mem : ∀ i j, (bins.get j).which i = true ↔ j = β i
  full : Function.Surjective β

theorem fill_eq (bins : List (Bin n)) (g : Bin n → Fin n → ℝ) (i : Fin n) (c : ℝ)
    (h1 : ∀ b ∈ bins, b.which i = true → g b i = c) (h2 : ∃ b ∈ bins, b.which i = true) : fill bins g i = c := by
  have key : ∀ (l : List (Bin n)) (v : Fin n → ℝ), (∀ b ∈ l, b.which i = true → g b i = c) →
      (v i = c ∨ ∃ b ∈ l, b.which i = true) → (l.foldl (fun v b i => if b.which i then g b i else v i) v) i = c := by
    intro l
    induction l with
    | nil => intro v _ h; simpa using h
    | cons b l ih =>
      intro v h1 h2
      rw [List.foldl_cons]
      refine ih _ (fun b' hb' => h1 b' (List.mem_cons_of_mem _ hb')) ?_
      by_cases hb : b.which i = true
      · left
        simp only [hb, if_true]
        exact h1 b List.mem_cons_self hb
      · rcases h2 with h2 | ⟨b', hb', hw⟩
        · left
          simp only [hb, h2]
          rfl
        · rcases List.mem_cons.1 hb' with rfl | hb'
          · exact absurd hw hb
          · exact Or.inr ⟨b', hb', hw⟩
  exact key bins _ h1 (Or.inr h2)

variable {bins : List (Bin n)} {β : Fin n → Fin bins.length}

theorem Assigned.fill (h : Assigned bins β) (g : Bin n → Fin n → ℝ) (i : Fin n) : fill bins g i = g (bins.get (β i)) i := by
  refine fill_eq bins g i _ ?_ ⟨(bins.get (β i)), List.get_mem _ _, (h.mem i (β i)).2 rfl⟩
  intro b hb hw
  obtain ⟨j, rfl⟩ := List.get_of_mem hb
  rw [(h.mem i j).1 hw]

/-- A sum over all TOAs is the sum over the bins of the sums over their TOAs. -/
theorem Assigned.sum (h : Assigned bins β) (f : Fin n → ℝ) : ∑ j : Fin bins.length, over (bins.get j) f = ∑ i, f i := by
  unfold over
  rw [Finset.sum_comm]
  refine Finset.sum_congr rfl fun i _ => ?_
  rw [Finset.sum_eq_single (β i)]
  · rw [if_pos ((h.mem i _).2 rfl)]
  · intro j _ hj
    rw [if_neg]
    intro hw
    exact hj ((h.mem i j).1 hw)
  · intro hc; exact absurd (Finset.mem_univ _) hc

theorem Assigned.first (h : Assigned bins β) (j : Fin bins.length) (f : Fin n → ℝ) (c : ℝ)
    (hf : ∀ i, β i = j → f i = c) : first (bins.get j) f = .ok c := by
  unfold Wideband.first
  obtain ⟨i, hi⟩ := h.full j
  cases hc : (List.finRange n).find? (bins.get j).which with
  | some a =>
    have ha := List.find?_some hc
    have : j = β a := (h.mem a j).1 ha
    simp [hf a this.symm]
  | none =>
    have := List.find?_eq_none.1 hc i (List.mem_finRange i)
    exact absurd ((h.mem i j).2 hi.symm) this

/-- The inverse variance of a bin is positive. -/
theorem Assigned.over_pos (h : Assigned bins β) {dme : Fin n → ℝ} (hd : ∀ i, 0 < dme i) (j : Fin bins.length) :
    0 < over (bins.get j) fun i => 1 / dme i ^ 2 := by
  obtain ⟨i, hi⟩ := h.full j
  unfold over
  refine Finset.sum_pos' (fun a _ => ?_) ⟨i, Finset.mem_univ _, ?_⟩
  · split
    · exact div_nonneg zero_le_one (sq_nonneg _)
    · exact le_rfl
  · rw [if_pos ((h.mem i j).2 hi.symm)]
    exact div_pos one_pos (pow_pos (hd i) 2)

theorem over_add (b : Bin n) (f g : Fin n → ℝ) : over b (fun i => f i + g i) = over b f + over b g := by
  unfold over
  rw [← Finset.sum_add_distrib]
  exact Finset.sum_congr rfl fun i _ => by split <;> simp

theorem over_mul (b : Bin n) (c : ℝ) (f : Fin n → ℝ) : over b (fun i => c * f i) = c * over b f := by
  unfold over
  rw [Finset.mul_sum]
  exact Finset.sum_congr rfl fun i _ => by split <;> simp

/-- Completing the square in one bin. -/
theorem square (b : Bin n) (dm dme : Fin n → ℝ) (h : over b (fun i => 1 / dme i ^ 2) ≠ 0) (x : ℝ) :
    over b (fun i => (dm i - x) ^ 2 / dme i ^ 2) =
      (x - binMean dm dme b) ^ 2 * over b (fun i => 1 / dme i ^ 2) + over b (fun i => dm i ^ 2 / dme i ^ 2) -
        binMean dm dme b ^ 2 * over b (fun i => 1 / dme i ^ 2) := by
  have e : over b (fun i => (dm i - x) ^ 2 / dme i ^ 2) =
      over b (fun i => dm i ^ 2 / dme i ^ 2) + (-(2 * x)) * over b (fun i => dm i / dme i ^ 2) +
        x ^ 2 * over b (fun i => 1 / dme i ^ 2) := by
    rw [← over_mul, ← over_mul, ← over_add, ← over_add]
    congr 1; funext i; ring
  have hm : binMean dm dme b * over b (fun i => 1 / dme i ^ 2) = over b (fun i => dm i / dme i ^ 2) := by
    unfold binMean; field_simp
  rw [e, ← hm]; ring

theorem mapM_fin {α : Type} (l : List α) (f : α → Except PyErr ℝ) (g : Fin l.length → ℝ) (h : ∀ j, f (l.get j) = .ok (g j)) :
    l.mapM f = .ok (List.ofFn g) := by
  induction l with
  | nil => rfl
  | cons a l ih =>
    have h0 := h ⟨0, by simp⟩
    have h0' : f a = .ok (g ⟨0, by simp⟩) := h0
    have ih' := ih (fun j => g j.succ) fun j => h j.succ
    rw [List.mapM_cons, h0', ih', List.ofFn_succ]
    rfl

/-! ## C69 -/

/-- The prior variances: those of the DMX parameters are set from the DM errors, the others stay wide. -/
theorem phi_entries (bins : List (Bin n)) (f : Bin n → ℝ) (l : List ℝ) (hp : bins.Pairwise fun a b => a.index ≠ b.index)
    (hl : ∀ b ∈ bins, b.index < l.length) :
    (∀ b ∈ bins, (bins.foldl (fun phi b => phi.set b.index (f b)) l)[b.index]? = some (f b)) ∧
    (∀ a, (∀ b ∈ bins, b.index ≠ a) → (bins.foldl (fun phi b => phi.set b.index (f b)) l)[a]? = l[a]?) ∧
    (bins.foldl (fun phi b => phi.set b.index (f b)) l).length = l.length := by
  induction bins generalizing l with
  | nil => simp
  | cons c bins ih =>
    obtain ⟨hc, hp⟩ := List.pairwise_cons.1 hp
    have := ih (l.set c.index (f c)) hp fun b hb => by rw [List.length_set]; exact hl b (List.mem_cons_of_mem _ hb)
    obtain ⟨h1, h2, h3⟩ := this
    rw [List.foldl_cons]
    refine ⟨?_, ?_, by rw [h3, List.length_set]⟩
    · intro b hb
      rcases List.mem_cons.1 hb with rfl | hb
      · rw [h2 _ fun a ha => (hc a ha).symm, List.getElem?_set_self (hl _ List.mem_cons_self)]
      · exact h1 b hb
    · intro a ha
      rw [h2 a fun b hb => ha b (List.mem_cons_of_mem _ hb), List.getElem?_set_ne (ha c List.mem_cons_self)]

/-- **C69.**  Let every TOA be in exactly one DMX bin, no bin be empty, and the DM errors be positive.  Then for all true
DMs `x` of the bins, the log density of the DM measurements (without powers of 2π) is the log density of `x` under
independent Gaussians with the variances that `get_phi` gives the DMX parameters and the means of `get_mean_dm`, plus
the number returned by `get_logsignalprior`.  The other entries of `get_phi` are `1e40`. -/
theorem C69 (s : Signal n) (params : Dict String ℝ) {β : Fin n → Fin s.bins.length} (h : Assigned s.bins β)
    (hp : s.bins.Pairwise fun a b => a.index ≠ b.index) (hi : ∀ b ∈ s.bins, b.index < s.psr.fitpars.length)
    {dm dme : Fin n → ℝ} (hdm : getDm s params = .ok dm) (hdme : getDme s params = .ok dme) (hpos : ∀ i, 0 < dme i) :
    ∃ (L : ℝ) (phi : List ℝ) (mean φ : Fin s.bins.length → ℝ), logSignalPrior s params = .ok L ∧ getPhi s params = .ok phi ∧
      (∀ i, meanDm s.bins dm dme i = mean (β i)) ∧ (∀ j, 0 < φ j) ∧
      (∀ j : Fin s.bins.length, phi[(s.bins.get j).index]? = some (φ j)) ∧
      (∀ a, a < s.psr.fitpars.length → (∀ b ∈ s.bins, b.index ≠ a) → phi[a]? = some 1e40) ∧
      ∀ x : Fin s.bins.length → ℝ,
        ∑ i, (-(1 / 2) * ((dm i - x (β i)) ^ 2 / dme i ^ 2) - Real.log (dme i)) =
          ∑ j, (-(1 / 2) * ((x j - mean j) ^ 2 / φ j) - 1 / 2 * Real.log (φ j)) + L := by
  have hw := fun j => h.over_pos hpos j
  obtain ⟨p1, p2, -⟩ := phi_entries s.bins (fun b => 1 / over b fun i => 1 / dme i ^ 2)
    (List.replicate s.psr.fitpars.length 1e40) hp (by simpa using hi)
  have hmean : ∀ i, meanDm s.bins dm dme i = binMean dm dme (s.bins.get (β i)) := fun i => h.fill _ i
  have hmeane : ∀ i, meanDme s.bins dme i = Real.sqrt (1 / over (s.bins.get (β i)) fun i => 1 / dme i ^ 2) := fun i => h.fill _ i
  have f1 : ∀ j, first (s.bins.get j) (meanDm s.bins dm dme) = .ok (binMean dm dme (s.bins.get j)) := fun j =>
    h.first j _ _ fun i hi => by rw [hmean, hi]
  have f2 : ∀ j, first (s.bins.get j) (meanDme s.bins dme) = .ok (Real.sqrt (1 / over (s.bins.get j) fun i => 1 / dme i ^ 2)) :=
    fun j => h.first j _ _ fun i hi => by rw [hmeane, hi]
  have m1 := mapM_fin s.bins (fun b => do
      let m ← first b (meanDm s.bins dm dme)
      let e ← first b (meanDme s.bins dme)
      return m ^ 2 / e ^ 2)
    (fun j => binMean dm dme (s.bins.get j) ^ 2 / Real.sqrt (1 / over (s.bins.get j) fun i => 1 / dme i ^ 2) ^ 2)
    fun j => by rw [f1 j, f2 j]; rfl
  have m2 := mapM_fin s.bins (fun b => do
      let e ← first b (meanDme s.bins dme)
      return Real.log e)
    (fun j => Real.log (Real.sqrt (1 / over (s.bins.get j) fun i => 1 / dme i ^ 2)))
    fun j => by rw [f2 j]; rfl
  have hL : logSignalPrior s params = .ok (-(1 / 2) * (∑ i, dm i ^ 2 / dme i ^ 2) + 1 / 2 * (List.ofFn fun j => binMean dm dme
        (s.bins.get j) ^ 2 / Real.sqrt (1 / over (s.bins.get j) fun i => 1 / dme i ^ 2) ^ 2).sum + (-(∑ i, Real.log (dme i)) +
        (List.ofFn fun j => Real.log (Real.sqrt (1 / over (s.bins.get j) fun i => 1 / dme i ^ 2))).sum)) := by
    unfold logSignalPrior
    rw [hdm, hdme]
    simp only [bind, Except.bind] at m1 m2 ⊢
    rw [m1, m2]
  refine ⟨_, _, fun j => binMean dm dme (s.bins.get j), fun j => 1 / over (s.bins.get j) fun i => 1 / dme i ^ 2, hL,
    by simp only [getPhi, hdme, bind, Except.bind], hmean, fun j => div_pos one_pos (hw j),
    fun j => p1 _ (List.get_mem _ _), fun a ha hb => by rw [p2 a hb]; simp [ha], ?_⟩
  · intro x
    rw [List.sum_ofFn, List.sum_ofFn]
    have hsq : ∀ j : Fin s.bins.length, Real.sqrt (1 / over (s.bins.get j) fun i => 1 / dme i ^ 2) ^ 2 =
        1 / over (s.bins.get j) fun i => 1 / dme i ^ 2 := fun j => Real.sq_sqrt (div_pos one_pos (hw j)).le
    have hlg : ∀ j : Fin s.bins.length, Real.log (Real.sqrt (1 / over (s.bins.get j) fun i => 1 / dme i ^ 2)) =
        1 / 2 * Real.log (1 / over (s.bins.get j) fun i => 1 / dme i ^ 2) := fun j => by
      rw [Real.log_sqrt (div_pos one_pos (hw j)).le]; ring
    simp only [hsq, hlg]
    have e1 : ∑ i, (dm i - x (β i)) ^ 2 / dme i ^ 2 =
        ∑ j : Fin s.bins.length, over (s.bins.get j) fun i => (dm i - x j) ^ 2 / dme i ^ 2 := by
      rw [← h.sum]
      refine Finset.sum_congr rfl fun j _ => ?_
      unfold over
      refine Finset.sum_congr rfl fun i _ => ?_
      by_cases hc : (s.bins.get j).which i = true
      · rw [if_pos hc, if_pos hc, (h.mem i j).1 hc]
      · rw [if_neg hc, if_neg hc]
    have e2 : ∑ i, dm i ^ 2 / dme i ^ 2 = ∑ j : Fin s.bins.length, over (s.bins.get j) fun i => dm i ^ 2 / dme i ^ 2 :=
      (h.sum _).symm
    have e3 : ∀ j : Fin s.bins.length, (over (s.bins.get j) fun i => (dm i - x j) ^ 2 / dme i ^ 2) = _ := fun j =>
      square (s.bins.get j) dm dme (hw j).ne' (x j)
    rw [Finset.sum_sub_distrib, ← Finset.mul_sum, e1]
    simp only [e3]
    rw [Finset.sum_sub_distrib, Finset.sum_add_distrib, ← e2, Finset.sum_sub_distrib, ← Finset.mul_sum]
    have e4 : ∀ j : Fin s.bins.length, (x j - binMean dm dme (s.bins.get j)) ^ 2 / (1 / over (s.bins.get j) fun i => 1 / dme i ^ 2) =
        (x j - binMean dm dme (s.bins.get j)) ^ 2 * over (s.bins.get j) fun i => 1 / dme i ^ 2 := fun j => by
      rw [div_div_eq_mul_div, div_one]
    have e5 : ∀ j : Fin s.bins.length, binMean dm dme (s.bins.get j) ^ 2 / (1 / over (s.bins.get j) fun i => 1 / dme i ^ 2) =
        binMean dm dme (s.bins.get j) ^ 2 * over (s.bins.get j) fun i => 1 / dme i ^ 2 := fun j => by
      rw [div_div_eq_mul_div, div_one]
    simp only [e4, e5]
    rw [← Finset.mul_sum]
    ring

/-- **C69.**  The delay, together with the correction by the DMX columns `1 / (K ν²)` when the DMX parameter moves the DM
of its bin from the mean to `x`, is the dispersion delay of the DM `x` relative to the timing model. -/
theorem C69_delay (s : Signal n) (params : Dict String ℝ) {β : Fin n → Fin s.bins.length} (h : Assigned s.bins β)
    {dm dme : Fin n → ℝ} (hdm : getDm s params = .ok dm) (hdme : getDme s params = .ok dme) :
    ∃ d, getDelay s params = .ok d ∧ ∀ (x : Fin s.bins.length → ℝ) i,
      d i + (x (β i) - meanDm s.bins dm dme i) / (2.41e-4 * s.psr.freqs i ^ 2) =
        (x (β i) - (s.psr.dm + (s.bins.get (β i)).dmx)) / (2.41e-4 * s.psr.freqs i ^ 2) := by
  refine ⟨fun i => fill s.bins (fun b i => meanDm s.bins dm dme i - (s.psr.dm + b.dmx)) i / (2.41e-4 * s.psr.freqs i ^ 2),
    by simp only [getDelay, hdm, hdme, bind, Except.bind], fun x i => ?_⟩
  simp only
  rw [h.fill, ← add_div]
  congr 1
  ring

/-- A TOA in no bin, which the coverage check lets pass (`C68_false`), is given no delay: its DM measurement has no effect
on it. -/
theorem C69_uncovered (s : Signal n) (params : Dict String ℝ) {dm dme : Fin n → ℝ} (hdm : getDm s params = .ok dm)
    (hdme : getDme s params = .ok dme) (i : Fin n) (hi : ∀ b ∈ s.bins, b.which i = false) :
    ∃ d, getDelay s params = .ok d ∧ d i = 0 := by
  refine ⟨fun i => fill s.bins (fun b i => meanDm s.bins dm dme i - (s.psr.dm + b.dmx)) i / (2.41e-4 * s.psr.freqs i ^ 2),
    by simp only [getDelay, hdm, hdme, bind, Except.bind], ?_⟩
  have key : ∀ (l : List (Bin n)) (g : Bin n → Fin n → ℝ) (v : Fin n → ℝ), (∀ b ∈ l, b.which i = false) →
      (l.foldl (fun v b i => if b.which i then g b i else v i) v) i = v i := by
    intro l g
    induction l with
    | nil => intro v _; rfl
    | cons b l ih =>
      intro v h
      rw [List.foldl_cons, ih _ fun b' hb' => h b' (List.mem_cons_of_mem _ hb')]
      simp [h b List.mem_cons_self]
  simp only
  rw [fill, key _ _ _ hi, zero_div]

/-- The squares of the deviations of the DM measurements from the timing model's DMs are those of the weighted means,
plus the scatter of the measurements around their means. -/
theorem C69_chi2 (s : Signal n) (params : Dict String ℝ) {β : Fin n → Fin s.bins.length} (h : Assigned s.bins β)
    {dm dme : Fin n → ℝ} (hdm : getDm s params = .ok dm) (hdme : getDme s params = .ok dme) (hpos : ∀ i, 0 < dme i) :
    ∃ all mean, dmChi2 s params false = .ok all ∧ dmChi2 s params true = .ok mean ∧
      all = mean + ∑ i, (dm i - meanDm s.bins dm dme i) ^ 2 / dme i ^ 2 := by
  have hw := fun j => h.over_pos hpos j
  have hmean : ∀ i, meanDm s.bins dm dme i = binMean dm dme (s.bins.get (β i)) := fun i => h.fill _ i
  have hmeane : ∀ i, meanDme s.bins dme i = Real.sqrt (1 / over (s.bins.get (β i)) fun i => 1 / dme i ^ 2) :=
    fun i => h.fill _ i
  have f1 : ∀ j, first (s.bins.get j) (fill s.bins fun b i => meanDm s.bins dm dme i - (s.psr.dm + b.dmx)) =
      .ok (binMean dm dme (s.bins.get j) - (s.psr.dm + (s.bins.get j).dmx)) := fun j =>
    h.first j _ _ fun i hi => by rw [h.fill, hmean, hi]
  have f2 : ∀ j, first (s.bins.get j) (meanDme s.bins dme) =
      .ok (Real.sqrt (1 / over (s.bins.get j) fun i => 1 / dme i ^ 2)) :=
    fun j => h.first j _ _ fun i hi => by rw [hmeane, hi]
  have m1 := mapM_fin s.bins (fun b => do
      let d ← first b (fill s.bins fun b i => meanDm s.bins dm dme i - (s.psr.dm + b.dmx))
      let e ← first b (meanDme s.bins dme)
      return (d / e) ^ 2)
    (fun j => ((binMean dm dme (s.bins.get j) - (s.psr.dm + (s.bins.get j).dmx)) /
      Real.sqrt (1 / over (s.bins.get j) fun i => 1 / dme i ^ 2)) ^ 2)
    fun j => by rw [f1 j, f2 j]; rfl
  have c2 : dmChi2 s params true = .ok (List.ofFn fun j => ((binMean dm dme (s.bins.get j) - (s.psr.dm + (s.bins.get j).dmx)) /
      Real.sqrt (1 / over (s.bins.get j) fun i => 1 / dme i ^ 2)) ^ 2).sum := by
    simp only [dmChi2, deltaDm, hdm, hdme, bind, Except.bind, Except.map, if_true] at m1 ⊢
    rw [m1]
  refine ⟨∑ i, (fill s.bins (fun b i => dm i - (s.psr.dm + b.dmx)) i / dme i) ^ 2, _,
    by simp [dmChi2, deltaDm, hdm, hdme, bind, Except.bind], c2, ?_⟩
  · rw [List.sum_ofFn]
    have e1 : ∀ i, (fill s.bins (fun b i => dm i - (s.psr.dm + b.dmx)) i / dme i) ^ 2 =
        (dm i - (s.psr.dm + (s.bins.get (β i)).dmx)) ^ 2 / dme i ^ 2 := fun i => by rw [h.fill, div_pow]
    simp only [e1]
    rw [← h.sum, ← h.sum fun i => (dm i - meanDm s.bins dm dme i) ^ 2 / dme i ^ 2, ← Finset.sum_add_distrib]
    refine Finset.sum_congr rfl fun j _ => ?_
    have e2 : (over (s.bins.get j) fun i => (dm i - (s.psr.dm + (s.bins.get (β i)).dmx)) ^ 2 / dme i ^ 2) =
        over (s.bins.get j) fun i => (dm i - (s.psr.dm + (s.bins.get j).dmx)) ^ 2 / dme i ^ 2 := by
      unfold over
      refine Finset.sum_congr rfl fun i _ => ?_
      by_cases hc : (s.bins.get j).which i = true
      · rw [if_pos hc, if_pos hc, (h.mem i j).1 hc]
      · rw [if_neg hc, if_neg hc]
    have e3 : (over (s.bins.get j) fun i => (dm i - meanDm s.bins dm dme i) ^ 2 / dme i ^ 2) =
        over (s.bins.get j) fun i => (dm i - binMean dm dme (s.bins.get j)) ^ 2 / dme i ^ 2 := by
      unfold over
      refine Finset.sum_congr rfl fun i _ => ?_
      by_cases hc : (s.bins.get j).which i = true
      · rw [if_pos hc, if_pos hc]
        simp only
        rw [hmean, (h.mem i j).1 hc]
      · rw [if_neg hc, if_neg hc]
    rw [e2, e3, square _ _ _ (hw j).ne', square _ _ _ (hw j).ne', div_pow, Real.sq_sqrt (div_pos one_pos (hw j)).le,
      div_div_eq_mul_div, div_one]
    ring

/-- A DMX bin without TOAs passes the check in the constructor; `get_logsignalprior` then raises. -/
theorem C69_empty_bin (s : Signal n) (params : Dict String ℝ) {dm dme : Fin n → ℝ} (hdm : getDm s params = .ok dm)
    (hdme : getDme s params = .ok dme) (h : ∃ b ∈ s.bins, ∀ i, b.which i = false) :
    logSignalPrior s params = .error .indexError := by
  have hf : ∀ b f, first b f = .error .indexError ∨ ∃ v, first (n := n) b f = .ok v := by
    intro b f
    unfold first
    split
    · exact Or.inr ⟨_, rfl⟩
    · exact Or.inl rfl
  have he : ∀ l : List (Bin n), (∃ b ∈ l, ∀ i, b.which i = false) → l.mapM (fun b => do
      let m ← first b (meanDm s.bins dm dme)
      let e ← first b (meanDme s.bins dme)
      return m ^ 2 / e ^ 2) = .error .indexError := by
    intro l
    induction l with
    | nil => simp
    | cons b l ih =>
      intro hb
      rw [List.mapM_cons]
      rcases hf b (meanDm s.bins dm dme) with h1 | ⟨v, h1⟩
      · rw [h1]; rfl
      · rcases hf b (meanDme s.bins dme) with h2 | ⟨w, h2⟩
        · rw [h1, h2]; rfl
        · have : ∃ b' ∈ l, ∀ i, b'.which i = false := by
            obtain ⟨b', hb', hz⟩ := hb
            rcases List.mem_cons.1 hb' with rfl | hb'
            · exfalso
              unfold first at h1
              split at h1
              · next i hi => exact Bool.noConfusion ((hz i).symm.trans (List.find?_some hi))
              · cases h1
            · exact ⟨b', hb', hz⟩
          rw [h1, h2, ih this]; rfl
  unfold logSignalPrior
  rw [hdm, hdme]
  have := he s.bins h
  simp only [bind, Except.bind] at this ⊢
  rw [this]

/-! ## C68 -/

theorem makeBins_spec (fitpars : List String) (stoas : Fin n → ℝ) (l : List (String × Dmx)) (bs : List (Bin n))
    (h : makeBins fitpars stoas l = .ok bs) :
    List.Forall₂ (fun (kd : String × Dmx) (b : Bin n) => kd.2.fit = true ∧ fitpars.idxOf? kd.1 = some b.index ∧
      b.dmx = kd.2.DMX ∧ b.which = fun i => inBin kd.2 (stoas i)) l bs := by
  induction l generalizing bs with
  | nil =>
    obtain rfl := Except.ok.inj h
    exact .nil
  | cons kd l ih =>
    obtain ⟨k, d⟩ := kd
    rw [makeBins] at h
    split at h
    · cases h
    · next hf =>
      split at h
      · cases h
      · next i hi =>
        rcases hr : makeBins fitpars stoas l with e | bs'
        · rw [hr] at h; cases h
        · rw [hr] at h
          obtain rfl := Except.ok.inj h
          exact .cons ⟨by simpa using hf, hi, rfl, rfl⟩ (ih bs' hr)

/-- What a signal that has been built knows. -/
theorem make_ok {psr : Psr n} {dmefac : Proto} {dmequad dmjump : Option Proto} {sel jsel : Dict String Mask}
    {ref : Option String} {s : Signal n} (h : make psr dmefac dmequad dmjump sel jsel ref = .ok s) :
    ∃ dmx, psr.dmx = some dmx ∧ makeBins psr.fitpars psr.stoas (WhiteNoise.sortedItems dmx) = .ok s.bins ∧
      checkSum s.bins = n ∧ "DM" ∉ psr.fitpars ∧ s.psr = psr := by
  unfold make at h
  dsimp only at h
  split at h
  · cases h
  · split at h
    · cases h
    · next dmx hd =>
      rcases hb : makeBins psr.fitpars psr.stoas (WhiteNoise.sortedItems dmx) with e | bs
      · rw [hb] at h; cases h
      · rw [hb] at h
        simp only [bind, Except.bind] at h
        split at h
        · cases h
        · next hc =>
          split at h
          · cases h
          · next hm =>
            obtain rfl := Except.ok.inj h
            exact ⟨dmx, hd, hb, by simpa using hc, hm, rfl⟩

/-- The DMX intervals of the table, as the code reads them: closed on the left and open on the right, in days. -/
def Interval (d : Dmx) (stoa : ℝ) : Prop := d.R1 ≤ stoa / 86400 ∧ stoa / 86400 < d.R2

theorem inBin_iff (d : Dmx) (x : ℝ) : inBin d x = true ↔ Interval d x := by
  simp [inBin, Interval]

/-- The number of entries of the table whose interval has the TOA. -/
noncomputable def cover (dmx : Dict String Dmx) (x : ℝ) : Nat :=
  open Classical in dmx.countP fun kd => decide (Interval kd.2 x)

theorem checkSum_eq {fitpars : List String} {stoas : Fin n → ℝ} {l : List (String × Dmx)} {bs : List (Bin n)}
    (h : makeBins fitpars stoas l = .ok bs) : checkSum bs = ∑ i, cover l (stoas i) := by
  have := makeBins_spec _ _ _ _ h
  unfold checkSum cover
  clear h
  induction this with
  | nil => simp
  | @cons kd b l bs hb _ ih =>
    simp only [List.map_cons, List.sum_cons, ih, List.countP_cons, Finset.sum_add_distrib, hb.2.2.2]
    rw [add_comm]
    congr 1
    refine Finset.sum_congr rfl fun i _ => ?_
    by_cases hc : Interval kd.2 (stoas i)
    · rw [if_pos ((inBin_iff _ _).2 hc), if_pos (by simpa using hc)]
    · rw [if_neg fun hb => hc ((inBin_iff _ _).1 hb), if_neg (by simpa using hc)]

/-- What the check in the constructor establishes: the numbers of intervals around the TOAs add up to the number of
TOAs. -/
theorem C68_count {psr : Psr n} {dmefac : Proto} {dmequad dmjump : Option Proto} {sel jsel : Dict String Mask}
    {ref : Option String} {s : Signal n} (h : make psr dmefac dmequad dmjump sel jsel ref = .ok s) {dmx : Dict String Dmx}
    (hd : psr.dmx = some dmx) (hn : (dmx.map Prod.fst).Nodup) : ∑ i, cover dmx (psr.stoas i) = n := by
  obtain ⟨dmx', hd', hb, hc, -, -⟩ := make_ok h
  obtain rfl : dmx = dmx' := Option.some.inj (hd.symm.trans hd')
  refine Eq.trans ?_ ((checkSum_eq hb).symm.trans hc)
  exact Finset.sum_congr rfl fun i _ => ((WhiteNoise.sortedItems_perm hn).countP_eq _).symm

/-- **C68 (partial).**  If the model is built and the DMX intervals are pairwise disjoint, every TOA is in exactly one
of them.  Missing: without the hypothesis of disjoint intervals the claim is false (`C68_false`). -/
theorem C68_partial {psr : Psr n} {dmefac : Proto} {dmequad dmjump : Option Proto} {sel jsel : Dict String Mask}
    {ref : Option String} {s : Signal n} (h : make psr dmefac dmequad dmjump sel jsel ref = .ok s) {dmx : Dict String Dmx}
    (hd : psr.dmx = some dmx) (hn : (dmx.map Prod.fst).Nodup)
    (hdis : ∀ a ∈ dmx, ∀ b ∈ dmx, ∀ x, Interval a.2 x → Interval b.2 x → a = b) (i : Fin n) :
    ∃! kd : String × Dmx, kd ∈ dmx ∧ Interval kd.2 (psr.stoas i) := by
  classical
  have hsum := C68_count h hd hn
  have hle : ∀ i, cover dmx (psr.stoas i) ≤ 1 := by
    intro i
    unfold cover
    rw [List.countP_eq_length_filter]
    have hnd : (dmx.filter fun kd => decide (Interval kd.2 (psr.stoas i))).Nodup := (List.Nodup.of_map _ hn).filter _
    by_contra hc
    push Not at hc
    obtain ⟨a, b, l, hl⟩ : ∃ a b l, dmx.filter (fun kd => decide (Interval kd.2 (psr.stoas i))) = a :: b :: l := by
      match hf : dmx.filter (fun kd => decide (Interval kd.2 (psr.stoas i))) with
      | [] => rw [hf] at hc; simp at hc
      | [a] => rw [hf] at hc; simp at hc
      | a :: b :: l => exact ⟨a, b, l, hf⟩
    have ha : a ∈ dmx.filter fun kd => decide (Interval kd.2 (psr.stoas i)) := by rw [hl]; simp
    have hb : b ∈ dmx.filter fun kd => decide (Interval kd.2 (psr.stoas i)) := by rw [hl]; simp
    rw [List.mem_filter, decide_eq_true_eq] at ha hb
    rw [hl, hdis a ha.1 b hb.1 _ ha.2 hb.2] at hnd
    simp at hnd
  have h1 : cover dmx (psr.stoas i) ≠ 0 := by
    intro h0
    have : ∑ i, cover dmx (psr.stoas i) < ∑ _i : Fin n, 1 :=
      Finset.sum_lt_sum (fun i _ => hle i) ⟨i, Finset.mem_univ _, by rw [h0]; exact one_pos⟩
    rw [hsum] at this
    simp at this
  unfold cover at h1
  obtain ⟨kd, hk, hI⟩ := List.countP_pos_iff.1 (Nat.pos_of_ne_zero h1)
  have hI := of_decide_eq_true hI
  exact ⟨kd, ⟨hk, hI⟩, fun kd' hk' => hdis _ hk'.1 _ hk _ hk'.2 hI⟩

theorem makeBins_ok (fitpars : List String) (stoas : Fin n → ℝ) (l : List (String × Dmx))
    (h : ∀ kd ∈ l, kd.2.fit = true ∧ kd.1 ∈ fitpars) : ∃ bs, makeBins fitpars stoas l = .ok bs := by
  induction l with
  | nil => exact ⟨[], rfl⟩
  | cons kd l ih =>
    obtain ⟨k, d⟩ := kd
    obtain ⟨bs, hb⟩ := ih fun kd hk => h kd (List.mem_cons_of_mem _ hk)
    obtain ⟨hf, hm⟩ := h _ List.mem_cons_self
    rw [makeBins, if_neg (by simp [show d.fit = true from hf])]
    cases hi : fitpars.idxOf? k with
    | none => exact absurd hm (List.idxOf?_eq_none_iff.1 hi)
    | some i => exact ⟨_, by rw [hb]; rfl⟩

/-- The model is built when the numbers of intervals around the TOAs add up to the number of TOAs. -/
theorem make_of_count {psr : Psr n} {dmefac : Proto} {dmequad dmjump : Option Proto} {sel jsel : Dict String Mask}
    {ref : Option String} {dmx : Dict String Dmx} (hd : psr.dmx = some dmx) (hn : (dmx.map Prod.fst).Nodup)
    (hfit : ∀ kd ∈ dmx, kd.2.fit = true ∧ kd.1 ∈ psr.fitpars) (hdm : "DM" ∉ psr.fitpars)
    (hj : dmjump = none ∨ (WhiteNoise.sortedItems jsel).map Prod.fst ≠ [""])
    (hsum : ∑ i, cover dmx (psr.stoas i) = n) : ∃ s, make psr dmefac dmequad dmjump sel jsel ref = .ok s := by
  obtain ⟨bs, hb⟩ := makeBins_ok psr.fitpars psr.stoas (WhiteNoise.sortedItems dmx)
    fun kd hk => hfit kd ((WhiteNoise.mem_sortedItems hn kd).1 hk)
  have hc : checkSum bs = n := by
    rw [checkSum_eq hb]
    refine Eq.trans (Finset.sum_congr rfl fun i _ => ?_) hsum
    exact (WhiteNoise.sortedItems_perm hn).countP_eq _
  unfold make
  dsimp only
  rw [if_neg (by rintro ⟨h1, h2⟩; rcases hj with rfl | hj; exacts [by simp at h2, hj h1]), hd]
  simp only [hb, bind, Except.bind]
  rw [if_neg (by simpa using hc), if_neg hdm]
  exact ⟨_, rfl⟩

/-- **C68, the other direction.**  If every TOA is in exactly one interval, all DMX parameters are fitted, and DM is not,
the model is built. -/
theorem C68_complete {psr : Psr n} {dmefac : Proto} {dmequad dmjump : Option Proto} {sel jsel : Dict String Mask}
    {ref : Option String} {dmx : Dict String Dmx} (hd : psr.dmx = some dmx) (hn : (dmx.map Prod.fst).Nodup)
    (hfit : ∀ kd ∈ dmx, kd.2.fit = true ∧ kd.1 ∈ psr.fitpars) (hdm : "DM" ∉ psr.fitpars)
    (hj : dmjump = none ∨ (WhiteNoise.sortedItems jsel).map Prod.fst ≠ [""])
    (hone : ∀ i, ∃! kd : String × Dmx, kd ∈ dmx ∧ Interval kd.2 (psr.stoas i)) :
    ∃ s, make psr dmefac dmequad dmjump sel jsel ref = .ok s := by
  classical
  refine make_of_count hd hn hfit hdm hj ?_
  have : ∀ i, cover dmx (psr.stoas i) = 1 := by
    intro i
    obtain ⟨kd, ⟨hk, hI⟩, hu⟩ := hone i
    unfold cover
    rw [List.countP_eq_length_filter]
    have : dmx.filter (fun kd => decide (Interval kd.2 (psr.stoas i))) = dmx.filter fun kd' => kd' == kd := by
      refine List.filter_congr fun kd' hk' => ?_
      by_cases hkk : kd' = kd
      · subst hkk; simp [hI]
      · have : ¬ Interval kd'.2 (psr.stoas i) := fun hI' => hkk (hu kd' ⟨hk', hI'⟩)
        simp [this, hkk]
    rw [this, ← List.countP_eq_length_filter]
    exact List.count_eq_one_of_mem (List.Nodup.of_map _ hn) hk
  simp [this]

/-- Two TOAs, ten days apart, and two intervals around the first of them. -/
noncomputable def overlap : Psr 2 :=
  { name := "J0000+0000", stoas := ![86400, 950400], freqs := fun _ => 1400, ppDm := fun _ => 10, ppDme := fun _ => 1,
    dm := 10, dmx := some [("DMX_0001", ⟨0, 0, 2, true⟩), ("DMX_0002", ⟨0, 1, 3, true⟩)],
    fitpars := ["F0", "DMX_0001", "DMX_0002"] }

/-- **C68 is false** of overlapping intervals: the check counts the first TOA twice and the second not at all, and the
model is built. -/
theorem C68_false : ∃ (s : Signal 2) (dmx : Dict String Dmx), overlap.dmx = some dmx ∧
    make overlap .free none none [("", [true, true])] [("", [true, true])] none = .ok s ∧
    (∃ a ∈ dmx, ∃ b ∈ dmx, a ≠ b ∧ Interval a.2 (overlap.stoas 0) ∧ Interval b.2 (overlap.stoas 0)) ∧
    ∀ a ∈ dmx, ¬ Interval a.2 (overlap.stoas 1) := by
  have h0a : Interval ⟨0, 0, 2, true⟩ (overlap.stoas 0) := by
    simp only [Interval, overlap, Matrix.cons_val_zero]; norm_num
  have h0b : Interval ⟨0, 1, 3, true⟩ (overlap.stoas 0) := by
    simp only [Interval, overlap, Matrix.cons_val_zero]; norm_num
  have h1a : ¬ Interval ⟨0, 0, 2, true⟩ (overlap.stoas 1) := by
    simp only [Interval, overlap, Matrix.cons_val_one]; norm_num
  have h1b : ¬ Interval ⟨0, 1, 3, true⟩ (overlap.stoas 1) := by
    simp only [Interval, overlap, Matrix.cons_val_one]; norm_num
  obtain ⟨s, hs⟩ := make_of_count (psr := overlap) (dmefac := .free) (dmequad := none) (dmjump := none)
    (sel := [("", [true, true])]) (jsel := [("", [true, true])]) (ref := none) rfl (by simp)
    (by simp [overlap]) (by simp [overlap]) (Or.inl rfl) (by
      rw [Fin.sum_univ_two]
      simp [cover, h0a, h0b, h1a, h1b])
  refine ⟨s, _, rfl, hs, ⟨("DMX_0001", ⟨0, 0, 2, true⟩), by simp, ("DMX_0002", ⟨0, 1, 3, true⟩), by simp, by simp, h0a, h0b⟩, ?_⟩
  rintro a ha
  simp only [List.mem_cons, List.not_mem_nil, or_false] at ha
  rcases ha with rfl | rfl
  exacts [h1a, h1b]

/-- A model that has been built with disjoint, nonempty intervals meets what C69 asks of its bins. -/
theorem assigned_of_make {psr : Psr n} {dmefac : Proto} {dmequad dmjump : Option Proto} {sel jsel : Dict String Mask}
    {ref : Option String} {s : Signal n} (h : make psr dmefac dmequad dmjump sel jsel ref = .ok s) {dmx : Dict String Dmx}
    (hd : psr.dmx = some dmx) (hn : (dmx.map Prod.fst).Nodup)
    (hdis : ∀ a ∈ dmx, ∀ b ∈ dmx, ∀ x, Interval a.2 x → Interval b.2 x → a = b)
    (hfull : ∀ a ∈ dmx, ∃ i, Interval a.2 (psr.stoas i)) :
    (∃ β, Assigned s.bins β ∧ ∀ i, ∃ kd ∈ dmx, Interval kd.2 (psr.stoas i) ∧ (s.bins.get (β i)).dmx = kd.2.DMX ∧
        psr.fitpars[(s.bins.get (β i)).index]? = some kd.1) ∧
      s.bins.Pairwise (fun a b => a.index ≠ b.index) ∧ ∀ b ∈ s.bins, b.index < s.psr.fitpars.length := by
  have hone := C68_partial h hd hn hdis
  obtain ⟨dmx', hd', hb, -, -, hpsr⟩ := make_ok h
  obtain rfl : dmx = dmx' := Option.some.inj (hd.symm.trans hd')
  have hf := makeBins_spec _ _ _ _ hb
  have hmem := WhiteNoise.mem_sortedItems hn
  have hlen := hf.length_eq
  have hget : ∀ j : Fin s.bins.length, (fun (kd : String × Dmx) (b : Bin n) => kd.2.fit = true ∧
      psr.fitpars.idxOf? kd.1 = some b.index ∧ b.dmx = kd.2.DMX ∧ b.which = fun i => inBin kd.2 (psr.stoas i))
      ((WhiteNoise.sortedItems dmx).get (j.cast hlen.symm)) (s.bins.get j) := fun j =>
    List.Forall₂.get hf (by rw [hlen]; exact j.2) j.2
  have hidx : ∀ k a, psr.fitpars.idxOf? k = some a → psr.fitpars[a]? = some k := by
    intro k a hk
    rw [List.idxOf?_eq_some_iff] at hk
    obtain ⟨hlt, hv, -⟩ := hk
    rw [List.getElem?_eq_getElem hlt]
    simpa using hv
  have hnd := (WhiteNoise.sortedItems_pairwise hn).imp (fun h => ne_of_lt h)
  have hex : ∀ i, ∃ j : Fin s.bins.length, (s.bins.get j).which i = true := by
    intro i
    obtain ⟨kd, ⟨hk, hI⟩, -⟩ := hone i
    obtain ⟨j, hj⟩ := List.get_of_mem ((hmem kd).2 hk)
    refine ⟨j.cast hlen, ?_⟩
    have := (hget (j.cast hlen)).2.2.2
    rw [this, inBin_iff]
    have hjj : (WhiteNoise.sortedItems dmx).get ((j.cast hlen).cast hlen.symm) = kd := hj
    rw [hjj]
    exact hI
  choose β hβ using hex
  have hI : ∀ i j, (s.bins.get j).which i = true →
      Interval ((WhiteNoise.sortedItems dmx).get (j.cast hlen.symm)).2 (psr.stoas i) := by
    intro i j hw
    rw [(hget j).2.2.2, inBin_iff] at hw
    exact hw
  have hinj : Function.Injective ((WhiteNoise.sortedItems dmx).get) :=
    List.nodup_iff_injective_get.1 (List.Nodup.of_map _ hnd)
  have huniq : ∀ i j, (s.bins.get j).which i = true → j = β i := by
    intro i j hw
    have := hdis _ ((hmem _).1 (List.get_mem _ _)) _ ((hmem _).1 (List.get_mem _ _)) _ (hI i j hw) (hI i (β i) (hβ i))
    have := hinj this
    exact Fin.ext (by simpa [Fin.ext_iff] using this)
  refine ⟨⟨β, ⟨fun i j => ⟨huniq i j, fun hj => hj ▸ hβ i⟩, fun j => ?_⟩, fun i => ?_⟩, ?_, ?_⟩
  · obtain ⟨i, hi⟩ := hfull _ ((hmem _).1 (List.get_mem (WhiteNoise.sortedItems dmx) (j.cast hlen.symm)))
    refine ⟨i, (huniq i j ?_).symm⟩
    rw [(hget j).2.2.2, inBin_iff]
    exact hi
  · exact ⟨_, (hmem _).1 (List.get_mem _ _), hI i (β i) (hβ i), (hget (β i)).2.2.1, hidx _ _ (hget (β i)).2.1⟩
  · rw [List.pairwise_iff_get]
    intro a b hab heq
    have h1 := hidx _ _ (hget a).2.1
    have h2 := hidx _ _ (hget b).2.1
    rw [heq, h2] at h1
    have h3 := Option.some.inj h1
    rw [List.pairwise_map, List.pairwise_iff_get] at hnd
    exact hnd (a.cast hlen.symm) (b.cast hlen.symm) hab h3.symm
  · intro b hbm
    obtain ⟨j, rfl⟩ := List.get_of_mem hbm
    rw [hpsr]
    have h1 := hidx _ _ (hget j).2.1
    exact (List.getElem?_eq_some_iff.1 h1).1

/-- With its default arguments, one selection for the whole pulsar and DM jumps, the model is never built. -/
theorem C68_default (psr : Psr n) (dmefac j : Proto) (dmequad : Option Proto) (sel : Dict String Mask) (m : Mask)
    (ref : Option String) : make psr dmefac dmequad (some j) sel [("", m)] ref = .error .valueError := by
  unfold make
  dsimp only
  rw [if_pos]
  refine ⟨?_, rfl⟩
  rw [WhiteNoise.keys_sortedItems]
  rfl

/-! ## C70 -/

/-- The value that a parameter has for a call: the one given for its name, or else its own constant. -/
def Has (params : Dict String ℝ) (name : String) (p : Proto) (v : ℝ) : Prop :=
  Dict.get? params name = some v ∨ Dict.get? params name = none ∧ p = .const (some v)

theorem look_make (params : Dict String ℝ) (p : Proto) (name : String) (v : ℝ) :
    look params (p.make name) = .ok v ↔ Has params name p v := by
  unfold look Has
  have : (p.make name).name = name := by cases p <;> rfl
  rw [this]
  cases hg : Dict.get? params name with
  | some w => simp
  | none =>
    rcases p with _ | _ | w
    · simp [Proto.make]
    · simp [Proto.make]
    · simp [Proto.make]

theorem mapM_forall {α γ : Type} (f : α → Except PyErr γ) : ∀ (l : List α) (r : List γ), l.mapM f = .ok r →
    List.Forall₂ (fun a c => f a = .ok c) l r := by
  intro l
  induction l with
  | nil => intro r h; rw [List.mapM_nil] at h; obtain rfl := Except.ok.inj h; exact .nil
  | cons a l ih =>
    intro r h
    rw [List.mapM_cons] at h
    cases ha : f a with
    | error e => rw [ha] at h; cases h
    | ok c =>
      cases hl : l.mapM f with
      | error e => rw [ha, hl] at h; cases h
      | ok r' => rw [ha, hl] at h; obtain rfl := Except.ok.inj h; exact .cons ha (ih r' hl)

theorem maskSum_zero (l : List (String × Mask)) (vs : List ℝ) (i : Fin n) (h : ∀ km ∈ l, ¬ InMask km.2 i) :
    maskSum vs (l.map Prod.snd) i = 0 := by
  unfold maskSum
  induction l generalizing vs with
  | nil => simp
  | cons km l ih =>
    cases vs with
    | nil => simp
    | cons v vs =>
      have h0 : km.2.getD i false = false := by
        have := h km List.mem_cons_self
        unfold InMask at this
        rw [List.getD_eq_getElem?_getD]
        match hk : km.2[(i : Nat)]? with
        | none => rfl
        | some false => rfl
        | some true => exact absurd hk this
      simp only [List.map_cons, List.zipWith_cons_cons, List.sum_cons, h0, ih vs fun km hk => h km (List.mem_cons_of_mem _ hk)]
      simp

/-- The sum over the masks of a partition picks the value of the TOA's own mask. -/
theorem maskSum_own (l : List (String × Mask)) (vs : List ℝ) (P : String × Mask → ℝ → Prop) (hP : List.Forall₂ P l vs)
    (hnd : l.Nodup) (i : Fin n) {km : String × Mask} (hm : km ∈ l) (hi : InMask km.2 i)
    (hu : ∀ km' ∈ l, InMask km'.2 i → km' = km) : ∃ v, P km v ∧ maskSum vs (l.map Prod.snd) i = v := by
  induction hP with
  | nil => cases hm
  | @cons a v l vs ha hP ih =>
    obtain ⟨hal, hnd'⟩ := List.nodup_cons.1 hnd
    by_cases hc : InMask a.2 i
    · obtain rfl := hu a List.mem_cons_self hc
      refine ⟨v, ha, ?_⟩
      have hz := maskSum_zero l vs i fun km' hk hI => hal (hu km' (List.mem_cons_of_mem _ hk) hI ▸ hk)
      unfold maskSum at hz ⊢
      have h1 : a.2.getD i false = true := by
        unfold InMask at hi
        rw [List.getD_eq_getElem?_getD, hi]; rfl
      simp only [List.map_cons, List.zipWith_cons_cons, List.sum_cons, h1, if_true]
      rw [hz, add_zero]
    · have hml : km ∈ l := by
        rcases List.mem_cons.1 hm with rfl | h
        · exact absurd hi hc
        · exact h
      obtain ⟨w, hw, hs⟩ := ih hnd' hml fun km' hk => hu km' (List.mem_cons_of_mem _ hk)
      refine ⟨w, hw, ?_⟩
      unfold maskSum at hs ⊢
      have h0 : a.2.getD i false = false := by
        unfold InMask at hc
        rw [List.getD_eq_getElem?_getD]
        match hk : a.2[(i : Nat)]? with
        | none => rfl
        | some false => rfl
        | some true => exact absurd hk hc
      simp only [List.map_cons, List.zipWith_cons_cons, List.sum_cons, h0]
      rw [hs]
      simp

/-- The parts of a signal that hold the parameters. -/
theorem make_params {psr : Psr n} {dmefac : Proto} {dmequad dmjump : Option Proto} {sel jsel : Dict String Mask}
    {ref : Option String} {s : Signal n} (h : make psr dmefac dmequad dmjump sel jsel ref = .ok s) :
    s.psr = psr ∧ s.dmMasks = (WhiteNoise.sortedItems sel).map Prod.snd ∧
      s.jumpMasks = (WhiteNoise.sortedItems jsel).map Prod.snd ∧
      s.dmefacs = (WhiteNoise.sortedItems sel).map (fun km => dmefac.make (pname psr.name km.1 "dmefac")) ∧
      (dmequad = none → s.dmequads = []) ∧
      (∀ q, dmequad = some q →
        s.dmequads = (WhiteNoise.sortedItems sel).map fun km => q.make (pname psr.name km.1 "log10_dmequad")) ∧
      s.dmjumps = makeJumps psr.name dmjump ref ((WhiteNoise.sortedItems jsel).map Prod.fst) := by
  unfold make at h
  dsimp only at h
  split at h
  · cases h
  · split at h
    · cases h
    · next dmx hd =>
      rcases hb : makeBins psr.fitpars psr.stoas (WhiteNoise.sortedItems dmx) with e | bs
      · rw [hb] at h; cases h
      · rw [hb] at h
        simp only [bind, Except.bind] at h
        split at h
        · cases h
        · split at h
          · cases h
          · obtain rfl := Except.ok.inj h
            exact ⟨rfl, rfl, rfl, rfl, by rintro rfl; rfl, by rintro q rfl; rfl, rfl⟩

/-- A partition, sorted by its keys. -/
theorem partition_own {d : Dict String Mask} (hd : IsPartition n d) (i : Fin n) {km : String × Mask} (hm : km ∈ d)
    (hi : InMask km.2 i) : (WhiteNoise.sortedItems d).Nodup ∧ km ∈ WhiteNoise.sortedItems d ∧
      ∀ km' ∈ WhiteNoise.sortedItems d, InMask km'.2 i → km' = km := by
  refine ⟨(WhiteNoise.sortedItems_perm hd.keys_nodup).nodup_iff.2 (List.Nodup.of_map _ hd.keys_nodup),
    (WhiteNoise.mem_sortedItems hd.keys_nodup km).2 hm, fun km' hk hI => ?_⟩
  obtain ⟨u, -, hu⟩ := hd.exists_unique i i.2
  rw [hu km' ⟨(WhiteNoise.mem_sortedItems hd.keys_nodup km').1 hk, hI⟩, hu km ⟨hm, hi⟩]

theorem forall_map {α α' γ : Type} {R : α' → γ → Prop} (f : α → α') (l : List α) (r : List γ)
    (h : List.Forall₂ R (l.map f) r) : List.Forall₂ (fun a c => R (f a) c) l r := by
  simpa using h

/-- **C70, names.**  The name of a parameter is the pulsar, the selection and the kind, joined by underscores; a
selection without a name is left out. -/
theorem C70_names (psr key last : String) (hp : psr ≠ "") (hl : last ≠ "") :
    pname psr key last = if key = "" then psr ++ "_" ++ last else psr ++ "_" ++ key ++ "_" ++ last := by
  unfold pname
  by_cases hk : key = ""
  · simp only [hp, hl, hk, List.filter, ne_eq, not_true_eq_false, not_false_eq_true, decide_true, decide_false, if_true,
      if_false]
    rfl
  · simp only [hp, hl, hk, List.filter, ne_eq, not_true_eq_false, not_false_eq_true, decide_true, decide_false, if_true,
      if_false]
    rfl

example : pname "B1855+09" "L-wide" "dmefac" = "B1855+09_L-wide_dmefac" :=
  (C70_names _ _ _ (by decide) (by decide)).trans (by rw [if_neg (by decide)]; decide)

/-- **C70, jumps.**  To the DM of a TOA, `get_dm` adds the jump of the TOA's own selection; the jump of the reference
selection is the constant zero. -/
theorem C70_dm {psr : Psr n} {dmefac j : Proto} {dmequad : Option Proto} {sel jsel : Dict String Mask}
    {ref : Option String} {s : Signal n} (h : make psr dmefac dmequad (some j) sel jsel ref = .ok s)
    (hp : IsPartition n jsel) {params : Dict String ℝ} {dm : Fin n → ℝ} (hdm : getDm s params = .ok dm) (i : Fin n)
    {key : String} {m : Mask} (hm : (key, m) ∈ jsel) (hi : InMask m i) :
    ∃ v, Has params (pname psr.name key "dmjump") (if ref = some key then .const (some 0) else j) v ∧
      dm i = psr.ppDm i + v := by
  obtain ⟨e1, -, e3, -, -, -, e6⟩ := make_params h
  obtain ⟨q1, q2, q3⟩ := partition_own hp i hm hi
  unfold getDm at hdm
  cases hj : s.dmjumps.mapM (look params) with
  | error e => rw [hj] at hdm; cases hdm
  | ok js =>
    rw [hj] at hdm
    obtain rfl := Except.ok.inj hdm
    have hf := mapM_forall _ _ _ hj
    rw [e6, makeJumps, List.map_map] at hf
    obtain ⟨v, hv, hs⟩ := maskSum_own (WhiteNoise.sortedItems jsel) js _ (forall_map _ _ _ hf) q1 i q2 hi q3
    refine ⟨v, ?_, ?_⟩
    · simp only [Function.comp_apply] at hv
      split at hv
      · next hr => rw [if_pos hr]; exact (look_make _ _ _ _).1 hv
      · next hr => rw [if_neg hr]; exact (look_make _ _ _ _).1 hv
    · simp only
      rw [e3, e1, hs, add_comm]

/-- **C70, no jumps.** -/
theorem C70_dm_none {psr : Psr n} {dmefac : Proto} {dmequad : Option Proto} {sel jsel : Dict String Mask}
    {ref : Option String} {s : Signal n} (h : make psr dmefac dmequad none sel jsel ref = .ok s)
    (params : Dict String ℝ) : getDm s params = .ok psr.ppDm := by
  obtain ⟨e1, -, e3, -, -, -, e6⟩ := make_params h
  unfold getDm
  rw [e6, e1]
  simp [makeJumps, maskSum, bind, Except.bind, pure, Except.pure]

/-- **C70, errors.**  The square of the DM error of a TOA is `dmefac² (dmerr² + dmequad²)`, or `dmefac² dmerr²` without
DMEQUADs, with the parameters of the TOA's own selection. -/
theorem C70_dme {psr : Psr n} {dmefac : Proto} {dmequad dmjump : Option Proto} {sel jsel : Dict String Mask}
    {ref : Option String} {s : Signal n} (h : make psr dmefac dmequad dmjump sel jsel ref = .ok s)
    (hp : IsPartition n sel) {params : Dict String ℝ} {dme : Fin n → ℝ} (hdme : getDme s params = .ok dme) (i : Fin n)
    {key : String} {m : Mask} (hm : (key, m) ∈ sel) (hi : InMask m i) :
    0 ≤ dme i ∧ ∃ e, Has params (pname psr.name key "dmefac") dmefac e ∧
      (dmequad = none → dme i ^ 2 = e ^ 2 * psr.ppDme i ^ 2) ∧
      ∀ q, dmequad = some q → ∃ v, Has params (pname psr.name key "log10_dmequad") q v ∧
          dme i ^ 2 = e ^ 2 * (psr.ppDme i ^ 2 + ((10 : ℝ) ^ v) ^ 2) := by
  obtain ⟨e1, e2, -, e4, e5, e5', -⟩ := make_params h
  obtain ⟨q1, q2, q3⟩ := partition_own hp i hm hi
  unfold getDme at hdme
  cases he : s.dmefacs.mapM (look params) with
  | error e => rw [he] at hdme; cases hdme
  | ok es =>
    rw [he] at hdme
    have hf := mapM_forall _ _ _ he
    rw [e4] at hf
    obtain ⟨e, hv, hs⟩ := maskSum_own (WhiteNoise.sortedItems sel) es _ (forall_map _ _ _ hf) q1 i q2 hi q3
    have hv := (look_make _ _ _ _).1 hv
    cases dmequad with
    | none =>
      rw [e5 rfl] at hdme
      obtain rfl := Except.ok.inj hdme
      refine ⟨Real.sqrt_nonneg _, e, hv, fun _ => ?_, by simp⟩
      simp only
      rw [Real.sq_sqrt (mul_nonneg (sq_nonneg _) (sq_nonneg _)), e2, hs, e1]
    | some q =>
      rw [e5' q rfl] at hdme
      obtain ⟨a, l, hal⟩ : ∃ a l, WhiteNoise.sortedItems sel = a :: l := by
        cases hl : WhiteNoise.sortedItems sel with
        | nil => rw [hl] at q2; cases q2
        | cons a l => exact ⟨a, l, rfl⟩
      cases hq : ((WhiteNoise.sortedItems sel).map fun km => q.make (pname psr.name km.1 "log10_dmequad")).mapM (look params) with
      | error e => rw [hal] at hq hdme; simp only [List.map_cons, bind, Except.bind] at hdme hq; rw [hq] at hdme; cases hdme
      | ok qs =>
        have hfq := mapM_forall _ _ _ hq
        have hfq' : List.Forall₂ (fun (km : String × Mask) (c : ℝ) =>
            ∃ v, look params (q.make (pname psr.name km.1 "log10_dmequad")) = .ok v ∧ c = (10 : ℝ) ^ v)
            (WhiteNoise.sortedItems sel) (qs.map fun q => (10 : ℝ) ^ q) := by
          rw [List.forall₂_map_right_iff]
          exact (forall_map _ _ _ hfq).imp fun a c hac => ⟨c, hac, rfl⟩
        obtain ⟨c, ⟨v, hvq, rfl⟩, hsq⟩ := maskSum_own (WhiteNoise.sortedItems sel) _ _ hfq' q1 i q2 hi q3
        have hvq := (look_make _ _ _ _).1 hvq
        have : dme = fun i => Real.sqrt (maskSum es s.dmMasks i ^ 2 *
            (s.psr.ppDme i ^ 2 + maskSum (qs.map fun q => (10 : ℝ) ^ q) s.dmMasks i ^ 2)) := by
          rw [hal] at hq hdme
          simp only [List.map_cons, bind, Except.bind] at hdme hq
          rw [hq] at hdme
          exact (Except.ok.inj hdme).symm
        subst this
        refine ⟨Real.sqrt_nonneg _, e, hv, by simp, ?_⟩
        rintro _ ⟨⟩
        refine ⟨v, hvq, ?_⟩
        simp only
        rw [Real.sq_sqrt (mul_nonneg (sq_nonneg _) (add_nonneg (sq_nonneg _) (sq_nonneg _))), e2, hs, hsq, e1]

theorem mapM_total {α γ : Type} (f : α → Except PyErr γ) (l : List α) (h : ∀ a ∈ l, ∃ c, f a = .ok c) :
    ∃ r, l.mapM f = .ok r := by
  induction l with
  | nil => exact ⟨[], rfl⟩
  | cons a l ih =>
    obtain ⟨c, hc⟩ := h a List.mem_cons_self
    obtain ⟨r, hr⟩ := ih fun a ha => h a (List.mem_cons_of_mem _ ha)
    exact ⟨c :: r, by rw [List.mapM_cons, hc, hr]; rfl⟩

/-- `get_dm` and `get_dme` return when every parameter has a value. -/
theorem C70_defined {psr : Psr n} {dmefac : Proto} {dmequad dmjump : Option Proto} {sel jsel : Dict String Mask}
    {ref : Option String} {s : Signal n} (h : make psr dmefac dmequad dmjump sel jsel ref = .ok s)
    {params : Dict String ℝ} (hs : (sel.map Prod.fst).Nodup) (hjs : (jsel.map Prod.fst).Nodup)
    (he : ∀ km ∈ sel, ∃ v, Has params (pname psr.name km.1 "dmefac") dmefac v)
    (hq : ∀ q, dmequad = some q → ∀ km ∈ sel, ∃ v, Has params (pname psr.name km.1 "log10_dmequad") q v)
    (hj : ∀ j, dmjump = some j → ∀ km ∈ jsel, ∃ v,
      Has params (pname psr.name km.1 "dmjump") (if ref = some km.1 then .const (some 0) else j) v) :
    (∃ dm, getDm s params = .ok dm) ∧ ∃ dme, getDme s params = .ok dme := by
  obtain ⟨-, -, -, e4, e5, e5', e6⟩ := make_params h
  constructor
  · obtain ⟨js, hjs⟩ := mapM_total (look params) s.dmjumps (by
      rw [e6]
      unfold makeJumps
      cases dmjump with
      | none => simp
      | some j =>
        intro p hp
        rw [List.mem_map] at hp
        obtain ⟨k, hk, rfl⟩ := hp
        obtain ⟨km, hkm, rfl⟩ := List.mem_map.1 hk
        obtain ⟨v, hv⟩ := hj j rfl km ((WhiteNoise.mem_sortedItems hjs km).1 hkm)
        refine ⟨v, ?_⟩
        split
        · next hr => rw [if_pos hr] at hv; exact (look_make _ _ _ _).2 hv
        · next hr => rw [if_neg hr] at hv; exact (look_make _ _ _ _).2 hv)
    exact ⟨_, by unfold getDm; rw [hjs]; rfl⟩
  · obtain ⟨es, hes⟩ := mapM_total (look params) s.dmefacs (by
      rw [e4]
      intro p hp
      obtain ⟨km, hkm, rfl⟩ := List.mem_map.1 hp
      obtain ⟨v, hv⟩ := he km ((WhiteNoise.mem_sortedItems hs km).1 hkm)
      exact ⟨v, (look_make _ _ _ _).2 hv⟩)
    obtain ⟨qs, hqs⟩ := mapM_total (look params) s.dmequads (by
      cases hdq : dmequad with
      | none => rw [e5 hdq]; simp
      | some q =>
        rw [e5' q hdq]
        intro p hp
        obtain ⟨km, hkm, rfl⟩ := List.mem_map.1 hp
        obtain ⟨v, hv⟩ := hq q hdq km ((WhiteNoise.mem_sortedItems hs km).1 hkm)
        exact ⟨v, (look_make _ _ _ _).2 hv⟩)
    unfold getDme
    rw [hes]
    cases hl : s.dmequads with
    | nil => exact ⟨_, rfl⟩
    | cons a l =>
      rw [hl] at hqs
      simp only [bind, Except.bind, hqs]
      exact ⟨_, rfl⟩

/-! ## An array that meets the hypotheses -/

/-- Two TOAs ten days apart, from two receivers, each in its own DMX interval. -/
noncomputable def pair : Psr 2 :=
  { name := "J0000+0000", stoas := ![86400, 950400], freqs := fun _ => 1400, ppDm := ![10.1, 9.9], ppDme := ![0.1, 0.2],
    dm := 10, dmx := some [("DMX_0001", ⟨0.01, 0, 2, true⟩), ("DMX_0002", ⟨-0.02, 10, 12, true⟩)],
    fitpars := ["F0", "DMX_0001", "DMX_0002"] }

def receivers : Dict String Mask := [("L", [true, false]), ("S", [false, true])]

theorem receivers_partition : IsPartition 2 receivers where
  length_eq := by simp [receivers]
  keys_nodup := by simp [receivers]
  exists_unique := by
    intro i hi
    interval_cases i
    · refine ⟨("L", [true, false]), by simp [receivers, InMask], ?_⟩
      rintro ⟨k, m⟩ ⟨hk, hm⟩
      simp only [receivers, List.mem_cons, List.not_mem_nil, or_false] at hk
      rcases hk with hk | hk
      · exact hk
      · obtain ⟨rfl, rfl⟩ := Prod.mk.inj hk; simp [InMask] at hm
    · refine ⟨("S", [false, true]), by simp [receivers, InMask], ?_⟩
      rintro ⟨k, m⟩ ⟨hk, hm⟩
      simp only [receivers, List.mem_cons, List.not_mem_nil, or_false] at hk
      rcases hk with hk | hk
      · obtain ⟨rfl, rfl⟩ := Prod.mk.inj hk; simp [InMask] at hm
      · exact hk

theorem pair_in : Interval ⟨0.01, 0, 2, true⟩ (pair.stoas 0) ∧ Interval ⟨-0.02, 10, 12, true⟩ (pair.stoas 1) := by
  constructor
  · simp only [Interval, pair, Matrix.cons_val_zero]; norm_num
  · simp only [Interval, pair, Matrix.cons_val_one]; norm_num

theorem pair_dis : ∀ a ∈ ([("DMX_0001", ⟨0.01, 0, 2, true⟩), ("DMX_0002", ⟨-0.02, 10, 12, true⟩)] : Dict String Dmx),
    ∀ b ∈ ([("DMX_0001", ⟨0.01, 0, 2, true⟩), ("DMX_0002", ⟨-0.02, 10, 12, true⟩)] : Dict String Dmx), ∀ x,
      Interval a.2 x → Interval b.2 x → a = b := by
  intro a ha b hb x h1 h2
  simp only [List.mem_cons, List.not_mem_nil, or_false] at ha hb
  unfold Interval at h1 h2
  rcases ha with rfl | rfl <;> rcases hb with rfl | rfl
  · rfl
  · simp only at h1 h2; linarith
  · simp only at h1 h2; linarith
  · rfl

/-- The model of this pulsar is built; `get_dm` adds the jump 0.3 for receiver S and none for the reference L; the DM
errors are positive; all hypotheses of C68, C69 and C70 hold. -/
example : ∃ (s : Signal 2) (β : Fin 2 → Fin s.bins.length) (dm dme : Fin 2 → ℝ),
    make pair (.const (some 2)) (some (.const (some (-1)))) (some (.const (some 0.3))) receivers receivers (some "L") = .ok s ∧
    Assigned s.bins β ∧ s.bins.Pairwise (fun a b => a.index ≠ b.index) ∧ (∀ b ∈ s.bins, b.index < s.psr.fitpars.length) ∧
    getDm s [] = .ok dm ∧ getDme s [] = .ok dme ∧ dm 0 = 10.1 ∧ dm 1 = 10.2 ∧ ∀ i, 0 < dme i := by
  have hn : (([("DMX_0001", ⟨0.01, 0, 2, true⟩), ("DMX_0002", ⟨-0.02, 10, 12, true⟩)] : Dict String Dmx).map Prod.fst).Nodup := by
    simp
  obtain ⟨s, hs⟩ := C68_complete (psr := pair) (dmefac := .const (some 2)) (dmequad := some (.const (some (-1))))
    (dmjump := some (.const (some 0.3))) (sel := receivers) (jsel := receivers) (ref := some "L") rfl hn
    (by simp [pair]) (by simp [pair]) (Or.inr (by
      intro hc
      have := congrArg List.length hc
      rw [List.length_map, (WhiteNoise.sortedItems_perm receivers_partition.keys_nodup).length_eq] at this
      simp [receivers] at this)) (by
      intro i
      obtain ⟨kd, hk, hI⟩ : ∃ kd ∈ ([("DMX_0001", ⟨0.01, 0, 2, true⟩), ("DMX_0002", ⟨-0.02, 10, 12, true⟩)] : Dict String Dmx),
          Interval kd.2 (pair.stoas i) := by
        fin_cases i
        · exact ⟨("DMX_0001", ⟨0.01, 0, 2, true⟩), by simp, pair_in.1⟩
        · exact ⟨("DMX_0002", ⟨-0.02, 10, 12, true⟩), by simp, pair_in.2⟩
      exact ⟨kd, ⟨hk, hI⟩, fun kd' h' => pair_dis _ h'.1 _ hk _ h'.2 hI⟩)
  obtain ⟨⟨β, hβ, -⟩, h2, h3⟩ := assigned_of_make hs rfl hn pair_dis (by
    intro a ha
    simp only [List.mem_cons, List.not_mem_nil, or_false] at ha
    rcases ha with rfl | rfl
    exacts [⟨0, pair_in.1⟩, ⟨1, pair_in.2⟩])
  obtain ⟨⟨dm, hdm⟩, dme, hdme⟩ := C70_defined (params := []) hs receivers_partition.keys_nodup receivers_partition.keys_nodup
    (fun km _ => ⟨2, Or.inr ⟨rfl, rfl⟩⟩) (by rintro q ⟨⟩ km _; exact ⟨-1, Or.inr ⟨rfl, rfl⟩⟩)
    (by rintro q ⟨⟩ km _; split; exacts [⟨0, Or.inr ⟨rfl, rfl⟩⟩, ⟨0.3, Or.inr ⟨rfl, rfl⟩⟩])
  refine ⟨s, β, dm, dme, hs, hβ, h2, h3, hdm, hdme, ?_, ?_, ?_⟩
  · obtain ⟨v, hv, hd⟩ := C70_dm hs receivers_partition hdm 0 (key := "L") (m := [true, false]) (by simp [receivers]) (by simp [InMask])
    rcases hv with hv | ⟨-, hv⟩
    · cases hv
    · rw [if_pos rfl, Proto.const.injEq, Option.some.injEq] at hv
      rw [hd, ← hv]; simp [pair]
  · obtain ⟨v, hv, hd⟩ := C70_dm hs receivers_partition hdm 1 (key := "S") (m := [false, true]) (by simp [receivers]) (by simp [InMask])
    rcases hv with hv | ⟨-, hv⟩
    · cases hv
    · rw [if_neg (by simp), Proto.const.injEq, Option.some.injEq] at hv
      rw [hd, ← hv]; simp [pair]; norm_num
  · intro i
    obtain ⟨km, ⟨hk, hI⟩, -⟩ := receivers_partition.exists_unique i i.2
    obtain ⟨h0, e, he, -, hq⟩ := C70_dme hs receivers_partition hdme i hk hI
    obtain ⟨v, -, hv⟩ := hq _ rfl
    rcases he with he | ⟨-, he⟩
    · cases he
    · rw [Proto.const.injEq, Option.some.injEq] at he
      refine lt_of_le_of_ne h0 fun hz => ?_
      rw [← hz, ← he] at hv
      have : (0 : ℝ) < ((10 : ℝ) ^ v) ^ 2 := pow_pos (Real.rpow_pos_of_pos (by norm_num) v) 2
      nlinarith [sq_nonneg (pair.ppDme i)]

/-- An interval between the TOAs is accepted by the constructor, and `get_logsignalprior` then raises. -/
noncomputable def gap : Psr 1 :=
  { name := "J0000+0000", stoas := fun _ => 86400, freqs := fun _ => 1400, ppDm := fun _ => 10, ppDme := fun _ => 1,
    dm := 10, dmx := some [("DMX_0001", ⟨0, 0, 2, true⟩), ("DMX_0002", ⟨0, 5, 6, true⟩)],
    fitpars := ["F0", "DMX_0001", "DMX_0002"] }

example : ∃ s, make gap (.const (some 1)) none none [("", [true])] [("", [true])] none = .ok s ∧
    logSignalPrior s [] = .error .indexError := by
  have ha : ∀ i, Interval ⟨0, 0, 2, true⟩ (gap.stoas i) := fun i => by simp only [Interval, gap]; norm_num
  have hb : ∀ i, ¬ Interval ⟨0, 5, 6, true⟩ (gap.stoas i) := fun i => by simp only [Interval, gap]; norm_num
  obtain ⟨s, hs⟩ := make_of_count (psr := gap) (dmefac := .const (some 1)) (dmequad := none) (dmjump := none)
    (sel := [("", [true])]) (jsel := [("", [true])]) (ref := none) rfl (by simp)
    (by simp [gap]) (by simp [gap]) (Or.inl rfl) (by simp [cover, ha, hb])
  refine ⟨s, hs, ?_⟩
  obtain ⟨⟨dm, hdm⟩, dme, hdme⟩ := C70_defined (params := []) hs (by simp) (by simp)
    (fun km _ => ⟨1, Or.inr ⟨rfl, rfl⟩⟩) (by simp) (by simp)
  refine C69_empty_bin s [] hdm hdme ?_
  obtain ⟨dmx, hd, hbs, -, -, -⟩ := make_ok hs
  have hf := makeBins_spec _ _ _ _ hbs
  obtain rfl := Option.some.inj hd
  have hm : (("DMX_0002", ⟨0, 5, 6, true⟩) : String × Dmx) ∈ WhiteNoise.sortedItems
      ([("DMX_0001", ⟨0, 0, 2, true⟩), ("DMX_0002", ⟨0, 5, 6, true⟩)] : Dict String Dmx) :=
    (WhiteNoise.mem_sortedItems (by simp) _).2 (by simp)
  obtain ⟨j, hj⟩ := List.get_of_mem hm
  have hlt : (j : Nat) < s.bins.length := by rw [← hf.length_eq]; exact j.2
  have := List.Forall₂.get hf j.2 hlt
  refine ⟨_, List.get_mem _ ⟨j, hlt⟩, fun i => ?_⟩
  rw [this.2.2.2]
  rw [show ((WhiteNoise.sortedItems _).get ⟨j, j.2⟩) = _ from hj]
  by_contra hc
  exact hb i ((inBin_iff _ _).1 (by simpa using hc))

end Verif.Wideband
