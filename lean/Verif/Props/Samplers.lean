import Verif.Model.Samplers
import Verif.Spec.Gaussian
import Verif.Props.Priors
import Verif.Props.TruncSampler
import Verif.Props.Draws
import Mathlib.Probability.Distributions.Gaussian.Real
import Mathlib.Probability.ProductMeasure

/-!
# Samplers draw from the density of the parameter (C122)
-/

namespace Verif.Priors

open Verif Verif.Spec MeasureTheory ProbabilityTheory Set

/-- Independent draws of the standard generator on [0,1). -/
noncomputable def unitCube (n : Nat) : Measure (Fin n → ℝ) := volume.restrict (univ.pi fun _ => Ico (0 : ℝ) 1)

/-- Independent standard normals. -/
noncomputable def normals (n : Nat) : Measure (Fin n → ℝ) := Measure.pi fun _ => gaussianReal 0 1

/-- A stream of independent standard normals. -/
noncomputable def stream : Measure (Nat → ℝ) := Measure.infinitePi fun _ => gaussianReal 0 1

/-! ## Products -/

theorem finite_density {f : ℝ → ℝ} (hf : IsDensity f) : IsFiniteMeasure (volume.withDensity fun x => ENNReal.ofReal (f x)) :=
  isFiniteMeasure_withDensity_ofReal hf.2.1.2

theorem density_apply {f : ℝ → ℝ} (hf : IsDensity f) (A : Set ℝ) (hA : MeasurableSet A) :
    volume.withDensity (fun x => ENNReal.ofReal (f x)) A = ENNReal.ofReal (∫ x in A, f x) := by
  rw [withDensity_apply _ hA, ofReal_integral_eq_lintegral_ofReal hf.2.1.integrableOn (Filter.Eventually.of_forall hf.1)]

theorem pi_density {n : Nat} (p : Fin n → ℝ → ℝ) (hp : ∀ i, IsDensity (p i)) :
    Measure.pi (fun i => volume.withDensity fun x => ENNReal.ofReal (p i x)) =
      (volume : Measure (Fin n → ℝ)).withDensity fun x => ENNReal.ofReal (∏ i, p i (x i)) := by
  haveI := fun i => finite_density (hp i)
  symm
  refine (Measure.pi_eq fun s hs => ?_).symm
  rw [withDensity_apply _ (MeasurableSet.univ_pi hs)]
  have hint : Integrable fun x : Fin n → ℝ => ∏ i, p i (x i) := Integrable.fintype_prod fun i => (hp i).2.1
  rw [← ofReal_integral_eq_lintegral_ofReal hint.integrableOn
    (Filter.Eventually.of_forall fun x => Finset.prod_nonneg fun i _ => (hp i).1 (x i)), ← integral_indicator (MeasurableSet.univ_pi hs)]
  have e : (univ.pi s : Set (Fin n → ℝ)).indicator (fun x => ∏ i, p i (x i)) = fun x => ∏ i, (s i).indicator (p i) (x i) := by
    funext x
    by_cases h : x ∈ (univ.pi s : Set (Fin n → ℝ))
    · rw [indicator_of_mem h]
      exact Finset.prod_congr rfl fun i _ => (indicator_of_mem (h i (mem_univ i)) _).symm
    · rw [indicator_of_notMem h]
      have : ∃ i, x i ∉ s i := by
        by_contra hc; push Not at hc; exact h fun i _ => hc i
      obtain ⟨i, hi⟩ := this
      exact (Finset.prod_eq_zero (Finset.mem_univ i) (indicator_of_notMem hi _)).symm
  rw [e, integral_fintype_prod_volume_eq_prod, ENNReal.ofReal_prod_of_nonneg]
  · refine Finset.prod_congr rfl fun i _ => ?_
    rw [density_apply (hp i) _ (hs i), integral_indicator (hs i)]
  · intro i _
    exact integral_nonneg fun x => indicator_nonneg (fun y _ => (hp i).1 y) x

/-- Components drawn from their densities are drawn from the joint density. -/
theorem draws_pi {n : Nat} (μ : Fin n → Measure ℝ) (s : Fin n → ℝ → ℝ) (p : Fin n → ℝ → ℝ) (hp : ∀ i, IsDensity (p i))
    (h : ∀ i, DrawsFrom (μ i) (s i) (p i)) : DrawsFrom (Measure.pi μ) (fun u i => s i (u i)) fun x => ∏ i, p i (x i) := by
  haveI : ∀ i, SigmaFinite ((μ i).map (s i)) := fun i => by
    rw [(h i).2]
    haveI := finite_density (hp i)
    infer_instance
  haveI : ∀ i, SigmaFinite (μ i) := fun i => SigmaFinite.of_map (μ i) (h i).1 inferInstance
  refine ⟨aemeasurable_pi_lambda _ fun i => (h i).1.comp_quasiMeasurePreserving (Measure.quasiMeasurePreserving_eval _ i), ?_⟩
  rw [Measure.pi_map_pi fun i => (h i).1, ← pi_density p hp]
  congr 1
  funext i
  exact (h i).2

/-- A monotone sampler of a density draws from it. -/
theorem draws_of_samples (s f : ℝ → ℝ) (hs : Measurable s) (hf : IsDensity f) (h : Samples s f) :
    DrawsFrom (volume.restrict (Ico (0 : ℝ) 1)) s f := by
  refine ⟨hs.aemeasurable, ?_⟩
  haveI : IsFiniteMeasure (volume.restrict (Ico (0 : ℝ) 1)) := ⟨by simp⟩
  apply Measure.ext_of_Iic
  intro x
  rw [Measure.map_apply hs measurableSet_Iic, density_apply hf _ measurableSet_Iic, Measure.restrict_apply (hs measurableSet_Iic)]
  rw [show s ⁻¹' Iic x ∩ Ico 0 1 = {u | u ∈ Ico (0 : ℝ) 1 ∧ s u ≤ x} from by ext u; exact and_comm]
  exact h x

theorem unitCube_pi (n : Nat) : unitCube n = Measure.pi fun _ => volume.restrict (Ico (0 : ℝ) 1) :=
  Measure.restrict_pi_pi (fun _ => volume) fun _ => Ico (0 : ℝ) 1

/-! ## Uniform and LinearExp -/

theorem rngVec_ofFn {n : Nat} (u a b : Fin n → ℝ) : rngUniformVec (List.ofFn u) (.vec (List.ofFn a)) (.vec (List.ofFn b)) =
    .ok (.vec (List.ofFn fun i => rngUniform (u i) (a i) (b i))) := by
  unfold rngUniformVec
  rw [map2_ofFn]
  show (Arr.map2 _ (Arr.vec (List.ofFn fun i => rngUniform (u i) (a i))) (.vec (List.ofFn b)) >>= _) = _
  rw [map2_ofFn]
  show (if (List.ofFn fun i => rngUniform (u i) (a i) (b i)).length = (List.ofFn u).length then _ else _) = _
  rw [if_pos (by simp)]

theorem rngVec_num {n : Nat} (u : Fin n → ℝ) (a b : ℝ) : rngUniformVec (List.ofFn u) (.num a) (.num b) =
    .ok (.vec (List.ofFn fun i => rngUniform (u i) a b)) := by
  unfold rngUniformVec
  rw [map2_ofFn_num]
  show (Arr.map2 (fun (g : ℝ → ℝ) c => g c) (Arr.vec (List.ofFn fun i => rngUniform (u i) a)) (.num b) >>= fun (r : Arr ℝ) =>
    if r.entries.length = (List.ofFn u).length then Except.ok r else Except.error PyErr.valueError) = _
  rw [map2_ofFn_num]
  show (if (List.ofFn fun i => rngUniform (u i) a b).length = (List.ofFn u).length then _ else _) = _
  rw [if_pos (by simp)]

/-- C122: the sampler of a Uniform number draws from its density. -/
theorem C122_uniform_number (a b : ℝ) (hab : a < b) :
    ∃ f : ℝ → ℝ, (∀ x, uniformPrior (.num x) (.num a) (.num b) = .ok (.num (f x))) ∧
      DrawsFrom (volume.restrict (Ico (0 : ℝ) 1)) (uniformSampler · a b) f := by
  obtain ⟨f, h1, h2, -⟩ := C61_density a b hab
  refine ⟨f, h1, draws_of_samples _ f ?_ h2 (C61_sampler a b hab f h1).1⟩
  unfold uniformSampler rngUniform
  fun_prop

/-- C122: the sampler of a Uniform vector parameter, with bounds for each component, draws from the joint density `get_pdf`
returns. -/
theorem C122_uniform {n : Nat} (a b : Fin n → ℝ) (hab : ∀ i, a i < b i) :
    ∃ (s : (Fin n → ℝ) → Fin n → ℝ) (g : (Fin n → ℝ) → ℝ),
      (∀ u, uniformSamplerVec (List.ofFn u) (.vec (List.ofFn a)) (.vec (List.ofFn b)) = .ok (.vec (List.ofFn (s u)))) ∧
      (∀ x, getPdf (some n) (.prior (uniformPrior · (.vec (List.ofFn a)) (.vec (List.ofFn b)))) (.vec (List.ofFn x)) = .ok (.num (g x))) ∧
      DrawsFrom (unitCube n) s g := by
  obtain ⟨p, h1, h2, h3, -⟩ := C63_uniform a b hab
  refine ⟨fun u i => uniformSampler (u i) (a i) (b i), fun x => ∏ i, p i (x i), fun u => rngVec_ofFn u a b,
    fun x => (C63_components _ p h1 x).2.1, ?_⟩
  rw [unitCube_pi]
  refine draws_pi _ (fun i => (uniformSampler · (a i) (b i))) p h3 fun i => ?_
  obtain ⟨f, g1, g2⟩ := C122_uniform_number (a i) (b i) (hab i)
  have : f = p i := by
    funext x
    have := (g1 x).symm.trans (h2 i x)
    injection this with h; injection h
  rwa [this] at g2

/-- C122: the same for one pair of bounds. -/
theorem C122_uniform_shared (n : Nat) (a b : ℝ) (hab : a < b) :
    ∃ (s : (Fin n → ℝ) → Fin n → ℝ) (g : (Fin n → ℝ) → ℝ),
      (∀ u, uniformSamplerVec (List.ofFn u) (.num a) (.num b) = .ok (.vec (List.ofFn (s u)))) ∧
      (∀ x, getPdf (some n) (.prior (uniformPrior · (.num a) (.num b))) (.vec (List.ofFn x)) = .ok (.num (g x))) ∧
      DrawsFrom (unitCube n) s g := by
  obtain ⟨p, h1, h2, h3, h4⟩ := C63_uniform (fun _ : Fin n => a) (fun _ => b) fun _ => hab
  refine ⟨fun u i => uniformSampler (u i) a b, fun x => ∏ i, p i (x i), fun u => rngVec_num u a b,
    fun x => (C63_components _ p (h4 a b (fun _ => rfl) fun _ => rfl) x).2.1, ?_⟩
  rw [unitCube_pi]
  refine draws_pi _ (fun _ => (uniformSampler · a b)) p h3 fun i => ?_
  obtain ⟨f, g1, g2⟩ := C122_uniform_number a b hab
  have : f = p i := by
    funext x
    have := (g1 x).symm.trans (h2 i x)
    injection this with h; injection h
  rwa [this] at g2

theorem map2_len {α β γ : Type} (f : α → β → γ) (xs : List α) (ys : List β) :
    Arr.map2 f (.vec xs) (.vec ys) = .error .valueError ∨ ∃ l, Arr.map2 f (.vec xs) (.vec ys) = .ok (.vec l) ∧
      (l.length = xs.length ∧ (ys.length = xs.length ∨ ys.length = 1) ∨ l.length = ys.length ∧ xs.length = 1) := by
  simp only [Arr.map2]
  by_cases h : xs.length = ys.length
  · rw [if_pos h]
    exact .inr ⟨_, rfl, .inl ⟨by simp [h], .inl h.symm⟩⟩
  · rw [if_neg h]
    split
    · exact .inr ⟨_, rfl, .inr ⟨by simp, rfl⟩⟩
    · exact .inr ⟨_, rfl, .inl ⟨by simp, .inr rfl⟩⟩
    · exact .inl rfl

/-- C122: bounds that have neither the size of the parameter nor size one are refused. -/
theorem C122_uniform_size (us lo hi : List ℝ) (h : (lo.length ≠ 1 ∧ lo.length ≠ us.length) ∨ (hi.length ≠ 1 ∧ hi.length ≠ us.length)) :
    uniformSamplerVec us (.vec lo) (.vec hi) = .error .valueError := by
  unfold uniformSamplerVec rngUniformVec
  rcases map2_len (fun u a => rngUniform u a) us lo with e | ⟨l, e, hl⟩
  · rw [e]; rfl
  · rw [e]
    show (Arr.map2 (fun (g : ℝ → ℝ) c => g c) (.vec l) (.vec hi) >>= fun (r : Arr ℝ) =>
      if r.entries.length = us.length then Except.ok r else Except.error PyErr.valueError) = _
    rcases map2_len (fun (g : ℝ → ℝ) c => g c) l hi with e' | ⟨l', e', hl'⟩
    · rw [e']; rfl
    · rw [e']
      show (if l'.length = us.length then _ else _) = _
      rw [if_neg (by omega)]

/-- C122: the sampler of a LinearExp number draws from its density. -/
theorem C122_linear_exp_number (a b : ℝ) (hab : a < b) :
    ∃ s f : ℝ → ℝ, (∀ u, linearExpSampler u a b = .ok (s u)) ∧ (∀ x, linearExpPrior (.num x) (.num a) (.num b) = .ok (.num (f x))) ∧
      DrawsFrom (volume.restrict (Ico (0 : ℝ) 1)) s f := by
  obtain ⟨f, h1, h2, -⟩ := C62_density a b hab
  obtain ⟨s, g1, g2, -⟩ := C62_sampler a b hab f h1
  refine ⟨s, f, g1, h1, draws_of_samples s f ?_ h2 g2⟩
  have e : s = fun u => log10 (rngUniform u (pow10 a) (pow10 b)) := by
    funext u
    have hc : linearExpCheck (.num a) (.num b) = .ok () := by
      show (if (Arr.num (decide (b ≤ a))).any = true then Except.error PyErr.valueError else Except.ok ()) = _
      rw [if_neg]; simp [Arr.any, Arr.entries, hab]
    have := (g1 u).symm
    unfold linearExpSampler at this
    rw [hc] at this
    injection this
  rw [e]
  unfold log10 rngUniform Real.logb
  fun_prop

/-- C122: the sampler of a LinearExp vector parameter draws from the joint density. -/
theorem C122_linear_exp {n : Nat} (a b : Fin n → ℝ) (hab : ∀ i, a i < b i) :
    ∃ (s : (Fin n → ℝ) → Fin n → ℝ) (g : (Fin n → ℝ) → ℝ),
      (∀ u, linearExpSamplerVec (List.ofFn u) (.vec (List.ofFn a)) (.vec (List.ofFn b)) = .ok (.vec (List.ofFn (s u)))) ∧
      (∀ x, getPdf (some n) (.prior (linearExpPrior · (.vec (List.ofFn a)) (.vec (List.ofFn b)))) (.vec (List.ofFn x)) = .ok (.num (g x))) ∧
      DrawsFrom (unitCube n) s g := by
  obtain ⟨p, h1, h2, h3⟩ := C63_linear_exp a b hab
  choose s f g1 g2 g3 using fun i => C122_linear_exp_number (a i) (b i) (hab i)
  have hc : ∀ i, linearExpCheck (.num (a i)) (.num (b i)) = .ok () := by
    intro i
    show (if (Arr.num (decide (b i ≤ a i))).any = true then Except.error PyErr.valueError else Except.ok ()) = _
    rw [if_neg]; simp [Arr.any, Arr.entries, hab]
  have hs : ∀ i u, s i u = log10 (rngUniform u (pow10 (a i)) (pow10 (b i))) := by
    intro i u
    have := (g1 i u).symm
    unfold linearExpSampler at this
    rw [hc] at this
    injection this
  refine ⟨fun u i => s i (u i), fun x => ∏ i, p i (x i), fun u => ?_, fun x => (C63_components _ p h1 x).2.1, ?_⟩
  · have hcv : linearExpCheck (.vec (List.ofFn a)) (.vec (List.ofFn b)) = .ok () := by
      unfold linearExpCheck
      rw [map2_ofFn]
      show (if (Arr.vec (List.ofFn fun i => decide (b i ≤ a i))).any = true then Except.error PyErr.valueError
        else Except.ok ()) = _
      rw [if_neg]
      simp only [Arr.any, Arr.entries, List.any_eq_true, List.mem_ofFn]
      rintro ⟨c, ⟨i, hi⟩, hc⟩
      rw [← hi] at hc
      exact absurd (of_decide_eq_true hc) (not_le.2 (hab i))
    unfold linearExpSamplerVec
    rw [hcv]
    show (rngUniformVec (List.ofFn u) (.vec ((List.ofFn a).map pow10)) (.vec ((List.ofFn b).map pow10)) >>= _) = _
    rw [List.map_ofFn, List.map_ofFn, rngVec_ofFn]
    show Except.ok (Arr.vec ((List.ofFn _).map log10)) = _
    rw [List.map_ofFn]
    congr 3
    funext i
    exact (hs i (u i)).symm
  · rw [unitCube_pi]
    refine draws_pi _ s p h3 fun i => ?_
    have : f i = p i := by
      funext x
      have := (g2 i x).symm.trans (h2 i x)
      injection this with h; injection h
    rw [← this]
    exact g3 i

/-! ## Normal -/

theorem draws_normal (m s : ℝ) (hs : 0 < s) :
    DrawsFrom (gaussianReal 0 1) (fun z => m + s * z) (gaussianPDFReal m (s ^ 2).toNNReal) := by
  refine ⟨by fun_prop, ?_⟩
  have e : (fun z : ℝ => m + s * z) = (fun x => m + x) ∘ fun z => s * z := rfl
  have hv : (s ^ 2).toNNReal ≠ 0 := by
    rw [Ne, Real.toNNReal_eq_zero, not_le]; positivity
  rw [e, ← Measure.map_map (by fun_prop) (by fun_prop), gaussianReal_map_const_mul, gaussianReal_map_const_add,
    show s * 0 + m = m by ring, show NNReal.mk (s ^ 2) (sq_nonneg s) * 1 = (s ^ 2).toNNReal from by
      ext; simp [Real.coe_toNNReal _ (sq_nonneg s)], gaussianReal_of_var_ne_zero _ hv]
  rfl

/-- C122: the sampler of a Normal number draws from its density; a negative sigma is refused though the density accepts it. -/
theorem C122_normal_number (m s : ℝ) (hs : 0 < s) :
    ∃ f : ℝ → ℝ, (∀ x, normalPrior (.num x) (.num m) (.num s) = .ok (.num (f x))) ∧
      (∀ z : Nat → ℝ, normalSampler z (.num m) (.num s) none = .ok (.num (m + s * z 0))) ∧
      DrawsFrom (gaussianReal 0 1) (fun z => m + s * z) f := by
  refine ⟨_, fun x => normal_num x m s, fun z => ?_, draws_normal m s hs⟩
  show (drawOne z 0 m s >>= _) = _
  rw [drawOne, if_neg hs.le.not_gt]
  rfl

/-- C122: the sampler of a Normal vector parameter with standard deviations draws from the joint density, whatever follows the
first numbers of the stream. -/
theorem C122_normal {n : Nat} (m s : Fin n → ℝ) (hs : ∀ i, 0 < s i) :
    ∃ (d : (Fin n → ℝ) → Fin n → ℝ) (g : (Fin n → ℝ) → ℝ),
      (∀ (z : Nat → ℝ) (w : Fin n → ℝ), (∀ i : Fin n, z i = w i) →
        normalSampler z (.vec (List.ofFn m)) (.vec (List.ofFn s)) (some n) = .ok (.vec (List.ofFn (d w)))) ∧
      (∀ x, getPdf (some n) (.prior (normalPrior · (.vec (List.ofFn m)) (.vec (List.ofFn s)))) (.vec (List.ofFn x)) = .ok (.num (g x))) ∧
      DrawsFrom (normals n) d g := by
  obtain ⟨p, h1, h2, h3⟩ := C63_normal m s fun i => (hs i).ne'
  refine ⟨fun w i => m i + s i * w i, fun x => ∏ i, p i (x i), fun z w hz => ?_, fun x => (C63_components _ p h1 x).2.1, ?_⟩
  · show (drawVec z 0 (.vec (List.ofFn m)) (.vec (List.ofFn s)) n >>= _) = _
    unfold drawVec
    rw [if_neg (by simp [drawFits]), if_neg]
    · show Except.ok (Arr.vec _) = _
      congr 2
      apply List.ext_getElem
      · simp
      · intro i hi hi'
        have hin : i < n := by simpa using hi'
        have at_ : ∀ f : Fin n → ℝ, drawAt i (.vec (List.ofFn f)) = f ⟨i, hin⟩ := by
          intro f
          show (if (List.ofFn f).length = 1 then (List.ofFn f).getD 0 0 else (List.ofFn f).getD i 0) = _
          by_cases h1 : n = 1
          · subst h1
            have : i = 0 := by omega
            subst this
            simp
          · rw [if_neg (by simpa using h1)]
            simp [hin]
        simp only [List.getElem_map, List.getElem_range, List.getElem_ofFn, at_, Nat.zero_add]
        rw [← hz ⟨i, hin⟩]
    · simp only [Arr.entries, List.any_eq_true, List.mem_ofFn]
      rintro ⟨x, ⟨i, rfl⟩, hx⟩
      exact absurd (of_decide_eq_true hx) (hs i).le.not_gt
  · refine draws_pi _ (fun i z => m i + s i * z) p h3 fun i => ?_
    have : p i = gaussianPDFReal (m i) (s i ^ 2).toNNReal := by
      funext x
      have := (h2 i x).symm.trans (normal_num x (m i) (s i))
      injection this with h; injection h
    rw [this]
    exact draws_normal (m i) (s i) (hs i)

/-- C122: the same for one pair of bounds of a LinearExp vector. -/
theorem C122_linear_exp_shared (n : Nat) (a b : ℝ) (hab : a < b) :
    ∃ (s : (Fin n → ℝ) → Fin n → ℝ) (g : (Fin n → ℝ) → ℝ),
      (∀ u, linearExpSamplerVec (List.ofFn u) (.num a) (.num b) = .ok (.vec (List.ofFn (s u)))) ∧
      (∀ x, getPdf (some n) (.prior (linearExpPrior · (.num a) (.num b))) (.vec (List.ofFn x)) = .ok (.num (g x))) ∧
      DrawsFrom (unitCube n) s g := by
  obtain ⟨p, h1, h2, _⟩ := C62_density a b hab
  obtain ⟨s, f, g1, g2, g3⟩ := C122_linear_exp_number a b hab
  have hfp : f = p := by
    funext x
    have := (g2 x).symm.trans (h1 x)
    injection this with h; injection h
  have hc : linearExpCheck (.num a) (.num b) = .ok () := by
    show (if (Arr.num (decide (b ≤ a))).any = true then Except.error PyErr.valueError else Except.ok ()) = _
    rw [if_neg]; simp [Arr.any, Arr.entries, hab]
  have hs : ∀ u, s u = log10 (rngUniform u (pow10 a) (pow10 b)) := by
    intro u
    have := (g1 u).symm
    unfold linearExpSampler at this
    rw [hc] at this
    injection this
  have hp : ∀ x, p x = ofBool (decide (a ≤ x) && decide (x ≤ b)) * Real.log 10 * pow10 x / (pow10 b - pow10 a) := by
    intro x
    have h3 := (h1 x).symm
    unfold linearExpPrior at h3
    rw [hc] at h3
    injection h3 with h; injection h
  have hcw : Componentwise (linearExpPrior · (.num a) (.num b)) (fun _ : Fin n => p) := by
    intro x
    simp only [linearExpPrior, hc, map2_ofFn_num, hp]
    simp only [bind, Except.bind, map2_ofFn, map2_num, map2_ofFn_num, map2_num_ofFn]
  refine ⟨fun u i => s (u i), fun x => ∏ i, p (x i), fun u => ?_, fun x => (C63_components _ _ hcw x).2.1, ?_⟩
  · unfold linearExpSamplerVec
    rw [hc]
    show (rngUniformVec (List.ofFn u) (.num (pow10 a)) (.num (pow10 b)) >>= _) = _
    rw [rngVec_num]
    show Except.ok (Arr.vec ((List.ofFn _).map log10)) = _
    rw [List.map_ofFn]
    simp only [hs]
    rfl
  · rw [unitCube_pi]
    exact draws_pi _ (fun _ => s) (fun _ => p) (fun _ => h2) fun _ => hfp ▸ g3

/-- C122: the same for a Normal vector whose components share a mean and a standard deviation. -/
theorem C122_normal_shared (n : Nat) (m s : ℝ) (hs : 0 < s) :
    ∃ (d : (Fin n → ℝ) → Fin n → ℝ) (g : (Fin n → ℝ) → ℝ),
      (∀ (z : Nat → ℝ) (w : Fin n → ℝ), (∀ i : Fin n, z i = w i) →
        normalSampler z (.num m) (.num s) (some n) = .ok (.vec (List.ofFn (d w)))) ∧
      (∀ x, getPdf (some n) (.prior (normalPrior · (.num m) (.num s))) (.vec (List.ofFn x)) = .ok (.num (g x))) ∧
      DrawsFrom (normals n) d g := by
  obtain ⟨p, h1, h2, _⟩ := C86_normal m s hs.ne'
  have hp : ∀ x, p x = Real.exp (-(1 / 2) * (x - m) ^ 2 / s ^ 2) / Real.sqrt (2 * Real.pi * s ^ 2) := by
    intro x
    have := (h1 x).symm
    injection this with h; injection h
  have hcw : Componentwise (normalPrior · (.num m) (.num s)) (fun _ : Fin n => p) := by
    intro x
    simp only [normalPrior, map2_ofFn_num, hp]
    simp only [bind, Except.bind, map2_ofFn_num]
  refine ⟨fun w i => m + s * w i, fun x => ∏ i, p (x i), fun z w hz => ?_, fun x => (C63_components _ _ hcw x).2.1, ?_⟩
  · show (drawVec z 0 (.num m) (.num s) n >>= _) = _
    unfold drawVec
    rw [if_neg (by simp [drawFits]), if_neg]
    · show Except.ok (Arr.vec _) = _
      congr 2
      apply List.ext_getElem
      · simp
      · intro i hi hi'
        have hin : i < n := by simpa using hi'
        simp only [List.getElem_map, List.getElem_range, List.getElem_ofFn, drawAt, Nat.zero_add]
        rw [← hz ⟨i, hin⟩]
    · simpa [Arr.entries] using hs.le
  · refine draws_pi _ (fun _ z => m + s * z) (fun _ => p) (fun _ => h2) fun i => ?_
    have : p = gaussianPDFReal m (s ^ 2).toNNReal := by
      funext x
      have := (h1 x).symm.trans (normal_num x m s)
      injection this with h; injection h
    rw [this]
    exact draws_normal m s hs

/-- Three amplitudes with the usual bounds, and four standard normals. -/
example : (∃ (s : (Fin 3 → ℝ) → Fin 3 → ℝ) (g : (Fin 3 → ℝ) → ℝ),
      (∀ u, linearExpSamplerVec (List.ofFn u) (.num (-18)) (.num (-11)) = .ok (.vec (List.ofFn (s u)))) ∧
      (∀ x, getPdf (some 3) (.prior (linearExpPrior · (.num (-18)) (.num (-11)))) (.vec (List.ofFn x)) = .ok (.num (g x))) ∧
      DrawsFrom (unitCube 3) s g) ∧
    ∃ (d : (Fin 4 → ℝ) → Fin 4 → ℝ) (g : (Fin 4 → ℝ) → ℝ),
      (∀ (z : Nat → ℝ) (w : Fin 4 → ℝ), (∀ i : Fin 4, z i = w i) →
        normalSampler z (.num 0) (.num 1) (some 4) = .ok (.vec (List.ofFn (d w)))) ∧
      (∀ x, getPdf (some 4) (.prior (normalPrior · (.num 0) (.num 1))) (.vec (List.ofFn x)) = .ok (.num (g x))) ∧
      DrawsFrom (normals 4) d g :=
  ⟨C122_linear_exp_shared 3 (-18) (-11) (by norm_num), C122_normal_shared 4 0 1 one_pos⟩

/-! ## Normal with a covariance matrix -/

open Matrix in
theorem normals_density (n : Nat) : normals n = (volume : Measure (Fin n → ℝ)).withDensity fun z => ENNReal.ofReal (mvn 1 z) := by
  have h := (draws_pi (fun _ : Fin n => gaussianReal 0 1) (fun _ z => z) (fun _ => gaussianPDFReal 0 1)
    (fun _ => ⟨fun x => gaussianPDFReal_nonneg _ _ x, integrable_gaussianPDFReal _ _, integral_gaussianPDFReal_eq_one _ one_ne_zero⟩)
    fun _ => ⟨by fun_prop, by rw [Measure.map_id', gaussianReal_of_var_ne_zero _ one_ne_zero]; rfl⟩).2
  rw [Measure.map_id'] at h
  unfold normals
  rw [h]
  congr 1
  funext z
  congr 1
  simp only [gaussianPDFReal_def, mvn, inv_one, Matrix.one_mulVec, Finset.prod_mul_distrib, ← Real.exp_sum]
  simp only [NNReal.coe_one, mul_one, sub_zero, Finset.prod_const, Finset.card_univ, Fintype.card_fin]
  rw [Matrix.det_smul, Matrix.det_one, mul_one, Fintype.card_fin, div_eq_mul_inv, mul_comm, inv_pow,
    Real.sqrt_eq_rpow, Real.sqrt_eq_rpow, ← Real.rpow_natCast, ← Real.rpow_natCast, ← Real.rpow_mul (by positivity),
    ← Real.rpow_mul (by positivity), mul_comm (1 / 2 : ℝ)]
  congr 2
  rw [dotProduct, Finset.mul_sum]
  refine Finset.sum_congr rfl fun i _ => ?_
  ring

open Matrix in
/-- An affine image of standard normals. -/
theorem draws_affine {n : Nat} (W C : Matrix (Fin n) (Fin n) ℝ) (mu : Fin n → ℝ) (hW : W * Wᵀ = C) (hd : W.det ≠ 0) :
    DrawsFrom (normals n) (fun z => mu + W *ᵥ z) fun x => mvn C (x - mu) := by
  have hmeas : Measurable fun z : Fin n → ℝ => mu + W *ᵥ z := by
    refine Measurable.add measurable_const ?_
    exact (Matrix.toLin' W).continuous_of_finiteDimensional.measurable
  refine ⟨hmeas.aemeasurable, ?_⟩
  have hmap : (volume : Measure (Fin n → ℝ)).map (fun z => mu + W *ᵥ z) = ENNReal.ofReal |W.det⁻¹| • volume := by
    have h1 := Real.map_matrix_volume_pi_eq_smul_volume_pi hd
    have e : (fun z : Fin n → ℝ => mu + W *ᵥ z) = (fun x => mu + x) ∘ Matrix.toLin' W := rfl
    rw [e, ← Measure.map_map (by fun_prop) (Matrix.toLin' W).continuous_of_finiteDimensional.measurable, h1, Measure.map_smul,
      MeasureTheory.map_add_left_eq_self]
  have hvol : (volume : Measure (Fin n → ℝ)) = ENNReal.ofReal |W.det| • (volume : Measure (Fin n → ℝ)).map fun z => mu + W *ᵥ z := by
    rw [hmap, smul_smul, ← ENNReal.ofReal_mul (abs_nonneg _), ← abs_mul, mul_inv_cancel₀ hd, abs_one, ENNReal.ofReal_one, one_smul]
  have hmvn : ∀ D : Matrix (Fin n) (Fin n) ℝ, Measurable fun x : Fin n → ℝ => mvn D x := by
    intro D
    unfold mvn
    refine Measurable.div_const (Real.measurable_exp.comp (Measurable.const_mul ?_ _)) _
    unfold dotProduct
    refine Finset.measurable_sum _ fun i _ => (measurable_pi_apply i).mul ?_
    exact (measurable_pi_apply i).comp (Matrix.toLin' D⁻¹).continuous_of_finiteDimensional.measurable
  have hC : C.det = W.det ^ 2 := by rw [← hW, det_mul, det_transpose, sq]
  have hkey : ∀ z : Fin n → ℝ, |W.det| * mvn C (mu + W *ᵥ z - mu) = mvn 1 z := by
    intro z
    have hCi : Wᵀ * (C⁻¹ * W) = 1 := by
      have hu : IsUnit W.det := hd.isUnit
      have hut : IsUnit Wᵀ.det := by rwa [det_transpose]
      rw [← hW, Matrix.mul_inv_rev, Matrix.mul_assoc, nonsing_inv_mul _ hu, Matrix.mul_one, mul_nonsing_inv _ hut]
    have q : W *ᵥ z ⬝ᵥ (C⁻¹ *ᵥ (W *ᵥ z)) = z ⬝ᵥ z := by
      rw [mulVec_mulVec, show W *ᵥ z ⬝ᵥ ((C⁻¹ * W) *ᵥ z) = z ᵥ* Wᵀ ⬝ᵥ ((C⁻¹ * W) *ᵥ z) by rw [vecMul_transpose],
        ← dotProduct_mulVec, mulVec_mulVec, hCi, one_mulVec]
    unfold mvn
    rw [add_sub_cancel_left, inv_one, one_mulVec, q, det_smul, det_smul, det_one, mul_one, hC,
      Real.sqrt_mul (by positivity), Real.sqrt_sq_eq_abs]
    have h1 : |W.det| ≠ 0 := abs_ne_zero.2 hd
    field_simp
  ext A hA
  rw [Measure.map_apply hmeas hA, withDensity_apply _ hA, normals_density, withDensity_apply _ (hmeas hA)]
  rw [← lintegral_indicator hA]
  conv_rhs => rw [hvol]
  rw [lintegral_smul_measure, lintegral_map, ← lintegral_indicator (hmeas hA)]
  · rw [smul_eq_mul, ← lintegral_const_mul]
    · refine lintegral_congr fun z => ?_
      by_cases hz : mu + W *ᵥ z ∈ A
      · rw [indicator_of_mem (show z ∈ (fun z => mu + W *ᵥ z) ⁻¹' A from hz), indicator_of_mem hz, ← ENNReal.ofReal_mul (abs_nonneg _), hkey]
      · rw [indicator_of_notMem (show z ∉ (fun z => mu + W *ᵥ z) ⁻¹' A from hz), indicator_of_notMem hz, mul_zero]
    · exact (((hmvn C).comp (measurable_id.sub_const mu)).ennreal_ofReal.indicator hA).comp hmeas
  · exact ((hmvn C).comp (measurable_id.sub_const mu)).ennreal_ofReal.indicator hA
  · exact hmeas

open Matrix in
/-- C122: the sampler of a Normal vector parameter with a covariance matrix draws from its density, whichever singular value
decomposition numpy finds. -/
theorem C122_normal_matrix (svd : ∀ {n : Nat} (M : Matrix (Fin n) (Fin n) ℝ), Partition.Svd M) {n : Nat} (mu : Fin n → ℝ)
    (sigma : Matrix (Fin n) (Fin n) ℝ) (hS : sigma.PosDef) (size : Option Nat) :
    ∃ f : (Fin n → ℝ) → ℝ, (∀ x, normalPriorMat x mu sigma = .ok (f x)) ∧
      DrawsFrom (normals n) (fun z => normalSamplerMat svd z mu sigma size) f := by
  refine ⟨fun x => mvn sigma (x - mu), fun x => ?_, ?_⟩
  · unfold normalPriorMat
    rw [if_neg hS.det_pos.ne']
    rfl
  · let c := svd sigma
    have hsym : sigmaᵀ = sigma := by
      have := hS.isHermitian
      rwa [IsHermitian, conjTranspose_eq_transpose_of_trivial] at this
    have hvv : c.vᵀ * c.v = 1 := mul_eq_one_comm.1 c.hv
    let c' : Partition.Svd sigma := ⟨c.vᵀ, c.s, c.uᵀ, by rw [transpose_transpose]; exact c.hv,
      by rw [transpose_transpose]; exact c.hu, c.hs, by
        conv_lhs => rw [← hsym, c.prod]
        simp only [transpose_mul, diagonal_transpose, Matrix.mul_assoc]⟩
    have e1 : sigma = c.vᵀ * diagonal c.s * c.vᵀᵀ := Coefficients.svd_symm hS c'
    have hpos : ∀ i, 0 < c.s i := Coefficients.svd_pos hS c
    let W : Matrix (Fin n) (Fin n) ℝ := c.vᵀ * diagonal fun i => Real.sqrt (c.s i)
    have hW : W * Wᵀ = sigma := by
      show c.vᵀ * (diagonal fun i => Real.sqrt (c.s i)) * (c.vᵀ * diagonal fun i => Real.sqrt (c.s i))ᵀ = sigma
      rw [transpose_mul, diagonal_transpose, Matrix.mul_assoc, ← Matrix.mul_assoc (diagonal _) (diagonal _), diagonal_mul_diagonal,
        ← Matrix.mul_assoc]
      conv_rhs => rw [e1]
      congr 3
      funext i
      exact Real.mul_self_sqrt (c.hs i)
    have hd : W.det ≠ 0 := by
      intro h0
      have : sigma.det = 0 := by rw [← hW, det_mul, h0, zero_mul]
      exact hS.det_pos.ne' this
    have e2 : (fun z => normalSamplerMat svd z mu sigma size) = fun z => mu + W *ᵥ z := by
      funext z
      funext j
      show (∑ i, z i * (Real.sqrt (c.s i) * c.v i j)) + mu j = mu j + (W *ᵥ z) j
      rw [add_comm]
      congr 1
      show _ = ∑ i, W j i * z i
      refine Finset.sum_congr rfl fun i _ => ?_
      show _ = (c.vᵀ * diagonal fun i => Real.sqrt (c.s i)) j i * z i
      rw [mul_diagonal, transpose_apply]
      ring
    rw [e2]
    exact draws_affine W sigma mu hW hd

/-! ## TruncNormal -/

/-- Number `j` of the stream is the first in range. -/
def FirstIn (m s a b : ℝ) (z : Nat → ℝ) (j : Nat) : Prop :=
  (∀ i < j, ¬(a ≤ m + s * z i ∧ m + s * z i ≤ b)) ∧ a ≤ m + s * z j ∧ m + s * z j ≤ b

open Classical in
/-- The first number in range. -/
noncomputable def firstIn (m s a b : ℝ) (z : Nat → ℝ) : ℝ :=
  if h : ∃ j, FirstIn m s a b z j then m + s * z h.choose else 0

theorem firstIn_unique {m s a b : ℝ} {z : Nat → ℝ} {i j : Nat} (hi : FirstIn m s a b z i) (hj : FirstIn m s a b z j) : i = j := by
  rcases lt_trichotomy i j with h | h | h
  · exact absurd hi.2 (hj.1 i h)
  · exact h
  · exact absurd hj.2 (hi.1 j h)

theorem firstIn_eq {m s a b : ℝ} {z : Nat → ℝ} {j : Nat} (hj : FirstIn m s a b z j) : firstIn m s a b z = m + s * z j := by
  have h : ∃ j, FirstIn m s a b z j := ⟨j, hj⟩
  unfold firstIn
  rw [dif_pos h, firstIn_unique h.choose_spec hj]

theorem firstIn_exists {m s a b : ℝ} {z : Nat → ℝ} : (∃ j, FirstIn m s a b z j) ↔ ∃ j, a ≤ m + s * z j ∧ m + s * z j ≤ b := by
  classical
  refine ⟨fun ⟨j, h⟩ => ⟨j, h.2⟩, fun h => ⟨Nat.find h, fun i hi => Nat.find_min h hi, Nat.find_spec h⟩⟩

/-- The law of one draw. -/
noncomputable def law (m s : ℝ) : Measure ℝ := (gaussianReal 0 1).map fun z => m + s * z

instance (m s : ℝ) : IsProbabilityMeasure (law m s) := Measure.isProbabilityMeasure_map (by fun_prop)

theorem first_prob (m s a b : ℝ) (A : Set ℝ) (hA : MeasurableSet A) (j : Nat) :
    MeasurableSet {z : Nat → ℝ | FirstIn m s a b z j ∧ m + s * z j ∈ A} ∧
    stream {z : Nat → ℝ | FirstIn m s a b z j ∧ m + s * z j ∈ A} = law m s (Icc a b)ᶜ ^ j * law m s (Icc a b ∩ A) := by
  have hf : Measurable fun z : ℝ => m + s * z := by fun_prop
  let t : Nat → Set ℝ := fun i => if i < j then (fun z => m + s * z) ⁻¹' (Icc a b)ᶜ else (fun z => m + s * z) ⁻¹' (Icc a b ∩ A)
  have ht : ∀ i, MeasurableSet (t i) := by
    intro i
    show MeasurableSet (if i < j then _ else _)
    split
    · exact hf measurableSet_Icc.compl
    · exact hf (measurableSet_Icc.inter hA)
  have e : {z : Nat → ℝ | FirstIn m s a b z j ∧ m + s * z j ∈ A} = Set.pi (Finset.range (j + 1)) t := by
    ext z
    simp only [mem_ofPred_eq, Set.mem_pi, Finset.coe_range, mem_Iio]
    constructor
    · rintro ⟨⟨h1, h2⟩, h3⟩ i hi
      show z i ∈ if i < j then _ else _
      split
      · rename_i h
        exact h1 i h
      · rename_i h
        have : i = j := by omega
        subst this
        exact ⟨h2, h3⟩
    · intro h
      have hj := h j (by omega)
      have hj : z j ∈ if j < j then _ else _ := hj
      rw [if_neg (lt_irrefl j)] at hj
      refine ⟨⟨fun i hi => ?_, hj.1⟩, hj.2⟩
      have := h i (by omega)
      have : z i ∈ if i < j then _ else _ := this
      rw [if_pos hi] at this
      exact this
  rw [e]
  refine ⟨MeasurableSet.pi (Finset.range (j + 1)).countable_toSet fun i _ => ht i, ?_⟩
  unfold stream
  rw [Measure.infinitePi_pi _ fun i _ => ht i, Finset.prod_range_succ]
  unfold law
  rw [Measure.map_apply hf measurableSet_Icc.compl, Measure.map_apply hf (measurableSet_Icc.inter hA)]
  congr 1
  · rw [Finset.prod_congr rfl (g := fun _ => gaussianReal 0 1 ((fun z => m + s * z) ⁻¹' (Icc a b)ᶜ)), Finset.prod_const, Finset.card_range]
    intro i hi
    show gaussianReal 0 1 (if i < j then _ else _) = _
    rw [if_pos (Finset.mem_range.1 hi)]
  · show gaussianReal 0 1 (if j < j then _ else _) = _
    rw [if_neg (lt_irrefl j)]

theorem never_null (m s a b : ℝ) (hR : law m s (Icc a b) ≠ 0) :
    stream {z | ¬∃ j, FirstIn m s a b z j} = 0 := by
  have hf : Measurable fun z : ℝ => m + s * z := by fun_prop
  have hq : law m s (Icc a b)ᶜ < 1 := by
    rw [prob_compl_eq_one_sub measurableSet_Icc]
    exact ENNReal.sub_lt_self ENNReal.one_ne_top one_ne_zero hR
  have hle : ∀ n, stream {z | ¬∃ j, FirstIn m s a b z j} ≤ law m s (Icc a b)ᶜ ^ n := by
    intro n
    calc stream {z | ¬∃ j, FirstIn m s a b z j}
        ≤ stream (Set.pi (Finset.range n) fun _ => (fun z => m + s * z) ⁻¹' (Icc a b)ᶜ) := by
          apply measure_mono
          intro z hz i _ hc
          exact hz (firstIn_exists.2 ⟨i, hc⟩)
      _ = law m s (Icc a b)ᶜ ^ n := by
          unfold stream law
          rw [Measure.infinitePi_pi _ fun i _ => hf measurableSet_Icc.compl, Finset.prod_const, Finset.card_range,
            Measure.map_apply hf measurableSet_Icc.compl]
  have := ENNReal.tendsto_pow_atTop_nhds_zero_of_lt_one hq
  exact le_antisymm (ge_of_tendsto' this hle) zero_le

theorem firstIn_law (m s a b : ℝ) (hR : law m s (Icc a b) ≠ 0) (A : Set ℝ) (hA : MeasurableSet A) :
    MeasurableSet (firstIn m s a b ⁻¹' A) ∧ stream (firstIn m s a b ⁻¹' A) = law m s (Icc a b ∩ A) / law m s (Icc a b) := by
  have e : firstIn m s a b ⁻¹' A = (⋃ j, {z : Nat → ℝ | FirstIn m s a b z j ∧ m + s * z j ∈ A}) ∪
      ((⋃ j, {z : Nat → ℝ | FirstIn m s a b z j ∧ m + s * z j ∈ univ})ᶜ ∩ {_z | (0 : ℝ) ∈ A}) := by
    ext z
    by_cases h : ∃ j, FirstIn m s a b z j
    · obtain ⟨j, hj⟩ := h
      rw [mem_preimage, firstIn_eq hj]
      simp only [mem_union, mem_iUnion, mem_ofPred_eq, mem_inter_iff, mem_compl_iff, mem_univ, and_true]
      constructor
      · exact fun h => .inl ⟨j, hj, h⟩
      · rintro (⟨i, hi, h⟩ | ⟨h, -⟩)
        · rwa [firstIn_unique hi hj] at h
        · exact absurd ⟨j, hj⟩ h
    · rw [mem_preimage, firstIn, dif_neg h]
      simp only [mem_union, mem_iUnion, mem_ofPred_eq, mem_inter_iff, mem_compl_iff, mem_univ, and_true]
      constructor
      · exact fun h' => .inr ⟨h, h'⟩
      · rintro (⟨i, hi, -⟩ | ⟨-, h'⟩)
        · exact absurd ⟨i, hi⟩ h
        · exact h'
  have hm1 : MeasurableSet (⋃ j, {z : Nat → ℝ | FirstIn m s a b z j ∧ m + s * z j ∈ A}) :=
    MeasurableSet.iUnion fun j => (first_prob m s a b A hA j).1
  have hm2 : MeasurableSet ((⋃ j, {z : Nat → ℝ | FirstIn m s a b z j ∧ m + s * z j ∈ univ})ᶜ ∩ {_z | (0 : ℝ) ∈ A}) :=
    (MeasurableSet.iUnion fun j => (first_prob m s a b univ MeasurableSet.univ j).1).compl.inter (MeasurableSet.const _)
  rw [e]
  refine ⟨hm1.union hm2, ?_⟩
  have h0 : stream ((⋃ j, {z : Nat → ℝ | FirstIn m s a b z j ∧ m + s * z j ∈ univ})ᶜ ∩ {_z | (0 : ℝ) ∈ A}) = 0 := by
    refine le_antisymm ((measure_mono ?_).trans (never_null m s a b hR).le) zero_le
    rintro z ⟨hz, -⟩ ⟨j, hj⟩
    exact hz (mem_iUnion.2 ⟨j, hj, mem_univ _⟩)
  have hu : stream ((⋃ j, {z : Nat → ℝ | FirstIn m s a b z j ∧ m + s * z j ∈ A}) ∪
      ((⋃ j, {z : Nat → ℝ | FirstIn m s a b z j ∧ m + s * z j ∈ univ})ᶜ ∩ {_z | (0 : ℝ) ∈ A})) =
      stream (⋃ j, {z : Nat → ℝ | FirstIn m s a b z j ∧ m + s * z j ∈ A}) :=
    le_antisymm ((measure_union_le _ _).trans (by rw [h0, add_zero])) (measure_mono subset_union_left)
  rw [hu, measure_iUnion _ fun j => (first_prob m s a b A hA j).1]
  · rw [tsum_congr fun j => (first_prob m s a b A hA j).2, ENNReal.tsum_mul_right, ENNReal.tsum_geometric,
      prob_compl_eq_one_sub measurableSet_Icc, ENNReal.sub_sub_cancel ENNReal.one_ne_top prob_le_one, ENNReal.div_eq_inv_mul]
  · intro i j hij
    refine Set.disjoint_left.2 fun z hi hj => hij ?_
    exact firstIn_unique hi.1 hj.1

theorem law_eq (m s : ℝ) (hs : 0 < s) : law m s = gaussianReal m (s ^ 2).toNNReal := by
  have hv : (s ^ 2).toNNReal ≠ 0 := by
    rw [Ne, Real.toNNReal_eq_zero, not_le]; positivity
  rw [gaussianReal_of_var_ne_zero _ hv]
  exact (draws_normal m s hs).2

/-- What the density of a truncated normal parameter gives to a set. -/
theorem trunc_density (m s a b : ℝ) (hs : 0 < s) (hab : a < b) (isPar : Fin 4 → Bool) : law m s (Icc a b) ≠ 0 ∧
    ∀ A, MeasurableSet A → volume.withDensity (fun x => ENNReal.ofReal (truncNormalPdf x m s a b isPar)) A =
      law m s (Icc a b ∩ A) / law m s (Icc a b) := by
  have hden := (C86_trunc_normal m s a b hs hab isPar).1
  have hv : (s ^ 2).toNNReal ≠ 0 := by
    rw [Ne, Real.toNNReal_eq_zero, not_le]; positivity
  obtain ⟨c, hc⟩ : ∃ c, ∀ x, truncNormalPdf x m s a b isPar = (Ioo a b).indicator (fun x => c * gaussianPDFReal m (s ^ 2).toNNReal x) x := by
    unfold truncNormalPdf truncNormalPrior
    refine ⟨(truncClassNorm (if isPar 0 then none else some m) (if isPar 1 then none else some s) (if isPar 2 then none else some a)
      (if isPar 3 then none else some b)).getD (truncNorm m s a b) * Real.sqrt (2 * Real.pi * s ^ 2), fun x => ?_⟩
    have e : Real.exp (-(1 / 2) * ((x - m) / s) ^ 2) = Real.sqrt (2 * Real.pi * s ^ 2) * gaussianPDFReal m (s ^ 2).toNNReal x := by
      rw [gaussianPDFReal_def]
      simp only [Real.coe_toNNReal _ (sq_nonneg s)]
      rw [← mul_assoc, mul_inv_cancel₀ (by positivity), one_mul]
      congr 1
      field_simp
    simp only
    rw [e]
    by_cases h1 : a < x <;> by_cases h2 : x < b <;> simp [ofBool, indicator, h1, h2, mul_assoc]
  have hfin : ∀ A, MeasurableSet A → ∫ x in A, truncNormalPdf x m s a b isPar = c * (law m s (Icc a b ∩ A)).toReal := by
    intro A hA
    have e1 : law m s (Icc a b ∩ A) = law m s (Ioo a b ∩ A) := by
      rw [law_eq m s hs, gaussianReal_of_var_ne_zero _ hv]
      refine measure_congr (withDensity_absolutelyContinuous _ _ |>.ae_le ?_)
      exact (Ioo_ae_eq_Icc.symm).inter (Filter.EventuallyEq.refl _ _)
    rw [e1, law_eq m s hs, gaussianReal_apply_eq_integral _ hv, ENNReal.toReal_ofReal
      (integral_nonneg fun x => gaussianPDFReal_nonneg _ _ x), ← integral_const_mul]
    simp only [hc]
    rw [integral_indicator measurableSet_Ioo, Measure.restrict_restrict measurableSet_Ioo]
  have h1 : c * (law m s (Icc a b)).toReal = 1 := by
    have := hfin univ MeasurableSet.univ
    rw [Measure.restrict_univ, hden.2.2, inter_univ] at this
    exact this.symm
  have hR : law m s (Icc a b) ≠ 0 := by
    intro h0
    rw [h0] at h1
    simp at h1
  refine ⟨hR, fun A hA => ?_⟩
  rw [density_apply hden A hA, hfin A hA]
  have hc' : c = (law m s (Icc a b)).toReal⁻¹ := eq_inv_of_mul_eq_one_left h1
  rw [hc', ← ENNReal.toReal_inv, ← ENNReal.toReal_mul, ENNReal.ofReal_toReal, ENNReal.div_eq_inv_mul]
  exact ENNReal.mul_ne_top (ENNReal.inv_ne_top.2 hR) (measure_ne_top _ _)

/-- C122: the sampler of a TruncNormal number ends with probability one, and then returns a draw from the density of the
parameter. -/
theorem C122_trunc_normal (m s a b : ℝ) (hs : 0 < s) (hab : a < b) (isPar : Fin 4 → Bool) :
    (∀ᵐ z ∂stream, ∃ k, ∀ fuel, k ≤ fuel →
      truncNormalSampler z (.num m) (.num s) (.num a) (.num b) none fuel = .ok (some (.num (firstIn m s a b z)))) ∧
    DrawsFrom stream (firstIn m s a b) (truncNormalPdf · m s a b isPar) := by
  obtain ⟨hR, hdens⟩ := trunc_density m s a b hs hab isPar
  have hmeas : Measurable (firstIn m s a b) := fun A hA => (firstIn_law m s a b hR A hA).1
  refine ⟨?_, hmeas.aemeasurable, ?_⟩
  · have hn := never_null m s a b hR
    filter_upwards [compl_mem_ae_iff.2 hn] with z hz
    have hz : ∃ j, FirstIn m s a b z j := not_not.1 hz
    obtain ⟨j, hj⟩ := hz
    refine ⟨j, fun fuel hf => ?_⟩
    rw [firstIn_eq hj]
    refine (C64_scalar z m s a b hs.le _ _ (.inl rfl) (.inl rfl) fuel _).2 ⟨j, _, hf, rfl, rfl, hj.2.1, hj.2.2, fun i hi => ?_⟩
    have := hj.1 i hi
    by_contra hcon
    push Not at hcon
    exact this hcon
  · ext A hA
    rw [Measure.map_apply hmeas hA, (firstIn_law m s a b hR A hA).2, hdens A hA]

/-! ## Cases -/

/-- Two components with bounds of their own: the joint density is not a product of equal factors. -/
example : ∃ (s : (Fin 2 → ℝ) → Fin 2 → ℝ) (g : (Fin 2 → ℝ) → ℝ),
    (∀ u, uniformSamplerVec (List.ofFn u) (.vec (List.ofFn ![0, -1])) (.vec (List.ofFn ![1, 3])) = .ok (.vec (List.ofFn (s u)))) ∧
    (∀ x, getPdf (some 2) (.prior (uniformPrior · (.vec (List.ofFn ![0, -1])) (.vec (List.ofFn ![1, 3])))) (.vec (List.ofFn x)) =
      .ok (.num (g x))) ∧ DrawsFrom (unitCube 2) s g :=
  C122_uniform ![0, -1] ![1, 3] (by intro i; match i with | 0 => norm_num | 1 => norm_num)

example : ∃ f : ℝ → ℝ, (∀ x, uniformPrior (.num x) (.num (-18)) (.num (-11)) = .ok (.num (f x))) ∧
    DrawsFrom (volume.restrict (Ico (0 : ℝ) 1)) (uniformSampler · (-18) (-11)) f := C122_uniform_number (-18) (-11) (by norm_num)

example : ∃ (s : (Fin 3 → ℝ) → Fin 3 → ℝ) (g : (Fin 3 → ℝ) → ℝ),
    (∀ u, uniformSamplerVec (List.ofFn u) (.num 0) (.num 7) = .ok (.vec (List.ofFn (s u)))) ∧
    (∀ x, getPdf (some 3) (.prior (uniformPrior · (.num 0) (.num 7))) (.vec (List.ofFn x)) = .ok (.num (g x))) ∧
    DrawsFrom (unitCube 3) s g := C122_uniform_shared 3 0 7 (by norm_num)

/-- Two bounds for three components. -/
example : uniformSamplerVec ([1 / 2, 1 / 3, 1 / 4] : List ℝ) (.vec [0, 0]) (.vec [1, 1]) = .error .valueError :=
  C122_uniform_size _ _ _ (.inl ⟨by simp, by simp⟩)

example : ∃ s f : ℝ → ℝ, (∀ u, linearExpSampler u (-18) (-11) = .ok (s u)) ∧
    (∀ x, linearExpPrior (.num x) (.num (-18)) (.num (-11)) = .ok (.num (f x))) ∧
    DrawsFrom (volume.restrict (Ico (0 : ℝ) 1)) s f := C122_linear_exp_number (-18) (-11) (by norm_num)

example : ∃ (s : (Fin 2 → ℝ) → Fin 2 → ℝ) (g : (Fin 2 → ℝ) → ℝ),
    (∀ u, linearExpSamplerVec (List.ofFn u) (.vec (List.ofFn ![-18, -2])) (.vec (List.ofFn ![-11, 3])) = .ok (.vec (List.ofFn (s u)))) ∧
    (∀ x, getPdf (some 2) (.prior (linearExpPrior · (.vec (List.ofFn ![-18, -2])) (.vec (List.ofFn ![-11, 3])))) (.vec (List.ofFn x)) =
      .ok (.num (g x))) ∧ DrawsFrom (unitCube 2) s g :=
  C122_linear_exp ![-18, -2] ![-11, 3] (by intro i; match i with | 0 => norm_num | 1 => norm_num)

example : ∃ f : ℝ → ℝ, (∀ x, normalPrior (.num x) (.num 1) (.num (1 / 2)) = .ok (.num (f x))) ∧
    (∀ z : Nat → ℝ, normalSampler z (.num 1) (.num (1 / 2)) none = .ok (.num (1 + 1 / 2 * z 0))) ∧
    DrawsFrom (gaussianReal 0 1) (fun z => 1 + 1 / 2 * z) f := C122_normal_number 1 (1 / 2) (by norm_num)

/-- A negative sigma is refused by the sampler though the density accepts it. -/
example (z : Nat → ℝ) : normalSampler z (.num 1) (.num (-2)) none = .error .valueError := by
  show (drawOne z 0 1 (-2) >>= _) = _
  rw [drawOne, if_pos (by norm_num)]
  rfl

example : ∃ (d : (Fin 2 → ℝ) → Fin 2 → ℝ) (g : (Fin 2 → ℝ) → ℝ),
    (∀ (z : Nat → ℝ) (w : Fin 2 → ℝ), (∀ i : Fin 2, z i = w i) →
      normalSampler z (.vec (List.ofFn ![0, 5])) (.vec (List.ofFn ![1, 2])) (some 2) = .ok (.vec (List.ofFn (d w)))) ∧
    (∀ x, getPdf (some 2) (.prior (normalPrior · (.vec (List.ofFn ![0, 5])) (.vec (List.ofFn ![1, 2])))) (.vec (List.ofFn x)) =
      .ok (.num (g x))) ∧ DrawsFrom (normals 2) d g :=
  C122_normal ![0, 5] ![1, 2] (by intro i; match i with | 0 => norm_num | 1 => norm_num)

open Matrix in
/-- Correlated components: covariance ((2, 1), (1, 2)). -/
example (svd : ∀ {n : Nat} (M : Matrix (Fin n) (Fin n) ℝ), Partition.Svd M) (mu : Fin 2 → ℝ) :
    ∃ f : (Fin 2 → ℝ) → ℝ, (∀ x, normalPriorMat x mu !![2, 1; 1, 2] = .ok (f x)) ∧
      DrawsFrom (normals 2) (fun z => normalSamplerMat svd z mu !![2, 1; 1, 2] (some 2)) f := by
  refine C122_normal_matrix svd mu _ ?_ (some 2)
  refine PosDef.of_dotProduct_mulVec_pos ?_ fun x hx => ?_
  · ext i j
    match i, j with
    | 0, 0 => rfl
    | 0, 1 => rfl
    | 1, 0 => rfl
    | 1, 1 => rfl
  · have e : star x ⬝ᵥ (!![2, 1; 1, 2] *ᵥ x) = (x 0) ^ 2 + (x 1) ^ 2 + (x 0 + x 1) ^ 2 := by
      simp [dotProduct, mulVec, Fin.sum_univ_two]
      ring
    rw [e]
    have : x 0 ≠ 0 ∨ x 1 ≠ 0 := by
      by_contra h
      push Not at h
      exact hx (by funext i; match i with | 0 => exact h.1 | 1 => exact h.2)
    rcases this with h | h <;> positivity

/-- A narrow range far from the mean. -/
example : (∀ᵐ z ∂stream, ∃ k, ∀ fuel, k ≤ fuel →
      truncNormalSampler z (.num 0) (.num 1) (.num 5) (.num 6) none fuel = .ok (some (.num (firstIn 0 1 5 6 z)))) ∧
    DrawsFrom stream (firstIn 0 1 5 6) (truncNormalPdf · 0 1 5 6 fun _ => false) :=
  C122_trunc_normal 0 1 5 6 (by norm_num) (by norm_num) _

end Verif.Priors
